import Verif.Proofs.ConcurrentRun
import Verif.Props.ConcurrentParse
/-
C107: `Run` called by several goroutines, with one lexer and one grammar.
-/
namespace Verif.Props.ConcurrentRun
open Verif Verif.Spec Verif.SetSymbol Verif.Grammar Verif.Props.Grammar Verif.Props.Concurrent Verif.Props.ConcurrentParse
open Verif.SimpleLexer (Bytes Lx)

/-- The grammar was made by calls of its methods, or from a text. -/
def Made (g : Gram Str) : Prop := (∃ h, grun empty h = .ok g) ∨ ∃ text, Grammar.new text = some g

theorem made_rep {g : Gram Str} (hg : Made g) : ∃ adds, Rep g adds := by
  rcases hg with ⟨h, e⟩ | ⟨text, hg⟩
  · obtain ⟨g', e', hr⟩ := grun_rep h (rep_empty (α := Str))
    rw [e] at e'; cases e'
    exact ⟨_, hr⟩
  · rcases new_spec text with ⟨-, h⟩ | ⟨g', r, h, -, hr⟩
    · rw [h] at hg; cases hg
    · rw [h] at hg; cases hg; exact ⟨r, hr⟩

/-- A call of `Run`: the kind of the parser, the reducers, and the input. -/
structure Call where
  par : Par
  reducers : List (Option (PN Str Str → Option (PN Str Str)))
  input : Bytes

/-- The call in a goroutine, for what a lexer does with inputs. -/
def Call.prog (lexer : Bytes → SetProg (Out (List Lx))) (g : Gram Str) (fuel : Nat) (c : Call) :
    RunProg (Out (Helpers.RunErr Lx ⊕ PN Str Str)) :=
  runP (lexer c.input) (fun ls => Par.parseP [] g fuel (c.par, ls)) c.reducers

/-- The call alone, for what `Lex` returns alone and the set of the lexer then: `Run` (`result`, `Helpers.run`) with these lexemes, and the
tree that the parser returns for them and the grammar as clients see it. -/
def Call.alone (lexed : Bytes → Out (List Lx × SymSet Bytes)) (g : Gram Str) (fuel : Nat) (c : Call) :
    Out (Helpers.RunErr Lx ⊕ PN Str Str) :=
  (lexed c.input).bind fun r =>
    if r.1.any (·.err) then .ok (result c.reducers r.1 none)
    else (Par.parse [] (view g) fuel (c.par, r.1.map (lexemeOf r.2))).bind fun tree => .ok (result c.reducers r.1 tree)

theorem gives_made {g : Gram Str} (hg : Made g) (fuel : Nat) (c : Call) (ls : List (Lexeme Str Str)) :
    Gives (Par.parseP [] g fuel (c.par, ls)) g.set (Par.parse [] (view g) fuel (c.par, ls)) := by
  obtain ⟨adds, hr⟩ := made_rep hg
  rw [view_rep hr]
  exact gives_par hr [] fuel (c.par, ls)

/-- For both kinds of lexers: when goroutines race. -/
theorem run_race {s : SymSet Bytes} {lexer : Bytes → SetProg (Out (List Lx))} {e : Bytes} (ho : ∀ b, OnlyStr e (lexer b))
    {g : Gram Str} (hg : Made g) (fuel : Nat) (cs : List Call)
    (hl : ∀ c ∈ cs, (∀ o, lexer c.input ≠ .ret o) ∨ ∃ o, lexer c.input = .ret o ∧ ∀ lxs, o = .ok lxs → ∀ x ∈ lxs, ∃ k, x.kind = .plain k) :
    CanRace (s, g.set) (cs.map (Call.prog lexer g fuel)) ↔ ∃ (i j : Nat) (b c : Call), i ≠ j ∧ cs[i]? = some b ∧ cs[j]? = some c ∧
      (lexer b.input).Writes s ∧ ∀ o, lexer c.input ≠ .ret o := by
  have hno : ∀ c ∈ cs, ∀ o, lexer c.input = .ret o → Prog.NoLeft (c.prog lexer g fuel) := by
    intro c hc o h
    rcases hl c hc with h1 | ⟨o', h1, h2⟩
    · exact absurd h (h1 o)
    · rw [Call.prog, runP_eq, h1]
      cases o' with
      | panic => trivial
      | fuel => trivial
      | ok lxs => exact noLeft_after _ lxs (h2 lxs rfl)
  rw [race_left]
  · constructor
    · rintro ⟨i, j, p, q, hij, hi, hj, hw, x, hx⟩
      rw [List.getElem?_map, Option.map_eq_some_iff] at hi hj
      obtain ⟨b, hi, rfl⟩ := hi
      obtain ⟨c, hj, rfl⟩ := hj
      refine ⟨i, j, b, c, hij, hi, hj, (run_writes _ (gives_made hg fuel b) b.reducers s).1 hw, fun o h => ?_⟩
      have h1 := hno c (List.mem_of_getElem? hj) o h
      generalize c.prog lexer g fuel = q at h1 hx
      cases q with
      | ret => exact hx.elim
      | read z k => cases hx; exact h1
      | write z f k => cases hx; exact h1
    · rintro ⟨i, j, b, c, hij, hi, hj, hw, hc⟩
      exact ⟨i, j, b.prog lexer g fuel, c.prog lexer g fuel, hij, by rw [List.getElem?_map, hi]; rfl, by rw [List.getElem?_map, hj]; rfl,
        (run_writes _ (gives_made hg fuel b) b.reducers s).2 hw, run_at _ _ hc⟩
  · intro p hp hw x
    obtain ⟨c, -, rfl⟩ := List.mem_map.1 hp
    exact (run_meets _ (gives_made hg fuel c) _ s _).2 ⟨x, rfl, (ho c.input).meets
      ((run_writes _ (gives_made hg fuel c) c.reducers s).1 hw) x⟩
  · intro p hp
    obtain ⟨c, -, rfl⟩ := List.mem_map.1 hp
    exact noRight_run _ (fun ls => (gives_made hg fuel c ls).quiet) _
  · intro p hp
    obtain ⟨c, hc, rfl⟩ := List.mem_map.1 hp
    rcases hl c hc with h1 | ⟨o, h1, -⟩
    · exact .inr (run_at _ _ h1)
    · exact .inl (hno c hc o h1)

/-- For both kinds of lexers: if there is no race, all return what they return alone. -/
theorem run_free {s : SymSet Bytes} {lexer : Bytes → SetProg (Out (List Lx))} {e : Bytes} (ho : ∀ b, OnlyStr e (lexer b))
    {lexed : Bytes → Out (List Lx × SymSet Bytes)} {g : Gram Str} (hg : Made g) (fuel : Nat) (cs : List Call)
    (hl : ∀ c ∈ cs, (∀ o, lexer c.input ≠ .ret o) ∨ ∃ o, lexer c.input = .ret o ∧ ∀ lxs, o = .ok lxs → ∀ x ∈ lxs, ∃ k, x.kind = .plain k)
    (hv : ∀ c ∈ cs, ((lexer c.input).run s).1 = (lexed c.input).map Prod.fst)
    (hs : ∀ c ∈ cs, ∀ r, lexed c.input = .ok r → r.2 = ((lexer c.input).run s).2)
    (hn : ¬ CanRace (s, g.set) (cs.map (Call.prog lexer g fuel))) {s' ps'}
    (h : Relation.ReflTransGen Sched ((s, g.set), cs.map (Call.prog lexer g fuel)) (s', ps')) {i : Nat} {c : Call}
    {o : Out (Helpers.RunErr Lx ⊕ PN Str Str)} (hi : cs[i]? = some c) (hret : ps'[i]? = some (.ret o)) : o = c.alone lexed g fuel := by
  have hc := List.mem_of_getElem? hi
  have hval : ((c.prog lexer g fuel).run (s, g.set)).1 = c.alone lexed g fuel := by
    rw [Call.prog, run_val (lexer c.input) (gives_made hg fuel c) c.reducers s, hv c hc, Call.alone]
    cases e : lexed c.input with
    | ok r => rw [← hs c hc r e]; rfl
    | panic => rfl
    | fuel => rfl
  rw [← hval]
  have hmap : (cs.map (Call.prog lexer g fuel))[i]? = some (c.prog lexer g fuel) := by rw [List.getElem?_map, hi]; rfl
  by_cases hw : ∀ p ∈ cs.map (Call.prog lexer g fuel), ¬ p.Writes (s, g.set)
  · rw [← ((sched_quiet hw h).2.2 i _ (.ret o) hmap hret).1]
    rfl
  · obtain ⟨p, hp, hpw⟩ : ∃ p ∈ cs.map (Call.prog lexer g fuel), p.Writes (s, g.set) := by
      by_contra hn
      exact hw fun p hp hpw => hn ⟨p, hp, hpw⟩
    obtain ⟨k, hk⟩ := List.mem_iff_getElem?.1 hp
    have hk' := hk
    rw [List.getElem?_map, Option.map_eq_some_iff] at hk
    obtain ⟨b, hk, rfl⟩ := hk
    have hidle : ∀ j q, j ≠ k → (cs.map (Call.prog lexer g fuel))[j]? = some q → ∃ a, Prog.Still g.set a q := by
      intro j q hj hq
      rw [List.getElem?_map, Option.map_eq_some_iff] at hq
      obtain ⟨d, hd, rfl⟩ := hq
      rcases hl d (List.mem_of_getElem? hd) with h1 | ⟨o', h1, h2⟩
      · refine absurd ((run_race ho hg fuel cs hl).2 ⟨k, j, b, d, Ne.symm hj, hk, hd, ?_, h1⟩) hn
        exact (run_writes _ (gives_made hg fuel b) b.reducers s).1 hpw
      · rw [Call.prog, runP_eq, h1]
        cases o' with
        | panic => exact ⟨_, rfl⟩
        | fuel => exact ⟨_, rfl⟩
        | ok lxs => exact still_after (fun ls => (gives_made hg fuel d ls).quiet) _ lxs (h2 lxs rfl)
    obtain ⟨-, ⟨p', h1, -, h2⟩, h3⟩ := sched_solo hk' (noRight_run _ (fun ls => (gives_made hg fuel b ls).quiet) _) hidle h
    by_cases e : i = k
    · subst e
      have e2 := Option.some.inj (hk'.symm.trans hmap)
      rw [hret] at h1
      cases h1
      rw [← e2, ← h2]
      rfl
    · obtain ⟨a, ha⟩ := hidle i _ e hmap
      have h4 := h3 i _ _ a e hmap ha hret
      rw [Prog.still_run _ ha s]
      exact h4

/-! ### Simple lexers -/

section simple
open Verif.SimpleLexer

theorem busy_iff {l : Lexer} (hT : Tab l) (hF : Full l) {b : Bytes} {n : Nat} (hn : b.length + 1 ≤ n) :
    (b ≠ [] → ∀ o, lexP n l b ≠ .ret o) ∧
    (b = [] → ∃ o, lexP n l b = .ret o ∧ ∀ lxs, o = .ok lxs → ∀ x ∈ lxs, ∃ k, x.kind = .plain k) := by
  refine ⟨fun hb o ho => ?_, fun hb => ?_⟩
  · obtain ⟨segs, h⟩ := lex_full hT hF b
    have h3 := (lexP_run n l b).1
    rw [ho, (h l rfl rfl rfl n hn).1] at h3
    simp only [Prog.run, Out.map_ok] at h3
    subst h3
    exact lexP_busy hb _ ho
  · subst hb
    obtain ⟨k, rfl⟩ : ∃ k, n = k + 1 := ⟨n - 1, by simp at hn; omega⟩
    exact lexP_idle_plain hT hF k

theorem simple_busy {l : Lexer} (hT : Tab l) (hF : Full l) {cs : List Call} {n : Nat} (hn : ∀ c ∈ cs, c.input.length + 1 ≤ n) :
    ∀ c ∈ cs, (∀ o, lexP n l c.input ≠ .ret o) ∨
      ∃ o, lexP n l c.input = .ret o ∧ ∀ lxs, o = .ok lxs → ∀ x ∈ lxs, ∃ k, x.kind = .plain k := by
  intro c hc
  by_cases e : c.input = []
  · exact .inr ((busy_iff hT hF (hn c hc)).2 e)
  · exact .inl ((busy_iff hT hF (hn c hc)).1 e)

/-- When calls of `Run` with one simple lexer and one grammar can race, for every rule table without gaps, both modes, both parsers and
whatever reducers: exactly if the name for errors is not in the set of the lexer yet, one of the inputs has an error, and another is not
empty. -/
theorem C107_simple_exact (l : Lexer) (hT : Tab l) (hF : Full l) (g : Gram Str) (hg : Made g) (cs : List Call) (n fuel : Nat)
    (hn : ∀ c ∈ cs, c.input.length + 1 ≤ n) :
    CanRace (l.set, g.set) (cs.map (Call.prog (lexP n l) g fuel)) ↔ l.error ∉ l.set.symb2str ∧
      ∃ (i j : Nat) (b c : Call), i ≠ j ∧ cs[i]? = some b ∧ cs[j]? = some c ∧ Fails l b.input ∧ c.input ≠ [] := by
  rw [run_race (onlyStr_lex n l) hg]
  · constructor
    · rintro ⟨i, j, b, c, hij, hi, hj, hw, hc⟩
      obtain ⟨h1, h2⟩ := (writes_iff hT hF (hn b (List.mem_of_getElem? hi))).1 hw
      refine ⟨h1, i, j, b, c, hij, hi, hj, h2, fun e => ?_⟩
      obtain ⟨o, ho, -⟩ := (busy_iff hT hF (hn c (List.mem_of_getElem? hj))).2 e
      exact hc o ho
    · rintro ⟨h1, i, j, b, c, hij, hi, hj, h2, hc⟩
      exact ⟨i, j, b, c, hij, hi, hj, (writes_iff hT hF (hn b (List.mem_of_getElem? hi))).2 ⟨h1, h2⟩,
        (busy_iff hT hF (hn c (List.mem_of_getElem? hj))).1 hc⟩
  · exact simple_busy hT hF hn

/-- If there is no race, every call that returns returns what it returns alone, in whatever way they are interleaved. -/
theorem C107_simple_safe (l : Lexer) (hT : Tab l) (hF : Full l) (g : Gram Str) (hg : Made g) (cs : List Call) (n fuel : Nat)
    (hn : ∀ c ∈ cs, c.input.length + 1 ≤ n) (hr : ¬ CanRace (l.set, g.set) (cs.map (Call.prog (lexP n l) g fuel)))
    (s' : SymSet Bytes × SymSet Str) (ps' : List (RunProg (Out (Helpers.RunErr Lx ⊕ PN Str Str))))
    (h : Relation.ReflTransGen Sched ((l.set, g.set), cs.map (Call.prog (lexP n l) g fuel)) (s', ps'))
    (i : Nat) (c : Call) (o : Out (Helpers.RunErr Lx ⊕ PN Str Str)) (hi : cs[i]? = some c) (ho : ps'[i]? = some (.ret o)) :
    o = c.alone (fun b => (lex n l b).map fun r => (r.1, r.2.set)) g fuel := by
  refine run_free (onlyStr_lex n l) hg fuel cs (simple_busy hT hF hn) (fun c _ => ?_) (fun c hc r hr => ?_) hr h hi ho
  · rw [(lexP_run n l c.input).1]
    cases lex n l c.input <;> rfl
  · cases e : lex n l c.input with
    | ok q =>
      rw [e] at hr
      cases hr
      exact ((lexP_run n l c.input).2 q.1 q.2 e).symm
    | panic => rw [e] at hr; cases hr
    | fuel => rw [e] at hr; cases hr

end simple

/-! ### Stack lexers -/

section stack
open Verif.StackLexer

/-- When calls of `Run` with one stack lexer and one grammar can race: if there are two of them and the name for errors is not in the set
of the lexer yet. -/
theorem C107_stack_exact (l : Lexer) (hi : Inv l.set) (s : Sub) (hs : l.start = some s) (g : Gram Str) (hg : Made g) (cs : List Call)
    (n fuel : Nat) :
    CanRace (l.set, g.set) (cs.map (Call.prog (lexP n l) g fuel)) ↔ l.error ∉ l.set.symb2str ∧ 2 ≤ cs.length := by
  rw [run_race (onlyStr_lex n l) hg, ← hi.none]
  · constructor
    · rintro ⟨i, j, b, c, hij, hi, hj, hw, hc⟩
      have h1 := (List.getElem?_eq_some_iff.1 hi).1
      have h2 := (List.getElem?_eq_some_iff.1 hj).1
      exact ⟨(lexP_writes hs).1 hw, by omega⟩
    · rintro ⟨h1, h2⟩
      exact ⟨0, 1, cs[0], cs[1], by decide, List.getElem?_eq_getElem _, List.getElem?_eq_getElem _, (lexP_writes hs).2 h1, lexP_busy hs⟩
  · exact fun c _ => .inl (lexP_busy hs)

/-- If there is no race, every call that returns returns what it returns alone, in whatever way they are interleaved. -/
theorem C107_stack_safe (l : Lexer) (s : Sub) (hs : l.start = some s) (g : Gram Str) (hg : Made g) (cs : List Call) (n fuel : Nat)
    (hr : ¬ CanRace (l.set, g.set) (cs.map (Call.prog (lexP n l) g fuel)))
    (s' : SymSet Bytes × SymSet Str) (ps' : List (RunProg (Out (Helpers.RunErr Lx ⊕ PN Str Str))))
    (h : Relation.ReflTransGen Sched ((l.set, g.set), cs.map (Call.prog (lexP n l) g fuel)) (s', ps'))
    (i : Nat) (c : Call) (o : Out (Helpers.RunErr Lx ⊕ PN Str Str)) (hi : cs[i]? = some c) (ho : ps'[i]? = some (.ret o)) :
    o = c.alone (fun b => (lex n l b).map fun r => (r.1, r.2.set)) g fuel := by
  refine run_free (onlyStr_lex n l) hg fuel cs (fun c _ => .inl (lexP_busy hs)) (fun c _ => ?_) (fun c hc r hr => ?_) hr h hi ho
  · rw [(lexP_run n l c.input).1]
    cases lex n l c.input <;> rfl
  · cases e : lex n l c.input with
    | ok q =>
      rw [e] at hr
      cases hr
      exact ((lexP_run n l c.input).2 q.1 q.2 e).symm
    | panic => rw [e] at hr; cases hr
    | fuel => rw [e] at hr; cases hr

end stack

/-! ### Concrete cases -/

section cases
open Verif.SimpleLexer
open Verif.Props.SimpleLexer (testLexer testCalls is_all)

/-- Words, whose kind is `w` for `testLexer`. -/
def wText : Str := "S -> w S\n  -> w".toList

def words : Gram Str := (Grammar.new wText).getD empty

theorem made_words : Made words := by
  refine .inr ⟨wText, ?_⟩
  have h : (Grammar.new wText).isSome = true := by decide +kernel
  unfold words
  cases e : Grammar.new wText with
  | none => rw [e] at h; cases h
  | some g => rfl

/-- A reducer that puts the first child in the place of a tree, and returns nil for one without children. -/
def first (t : PN Str Str) : Option (PN Str Str) := t.kids.head?

/-- `a b` and `c`, with different parsers, and `first` for the second. -/
def good : List Call := [⟨.packrat, [], [97, 32, 98]⟩, ⟨.topdown, [some first, none], [99]⟩]

/-- `a b` and `-`. -/
def bad : List Call := [⟨.packrat, [], [97, 32, 98]⟩, ⟨.topdown, [], [45]⟩]

/-- The empty input and `-`. -/
def one : List Call := [⟨.topdown, [], []⟩, ⟨.topdown, [], [45]⟩]

/-- What goroutines have returned: the kind of the root and the number of its children, or the value of the first error. -/
def outcome : RunProg (Out (Helpers.RunErr Lx ⊕ PN Str Str)) → Option (Str × Nat)
  | .ret (.ok (.inr t)) => some (t.lx.kind, t.kids.length)
  | .ret (.ok (.inl (.lexErr e))) => some (chars e.val, 0)
  | .ret (.ok (.inl .couldNotParse)) => some ("parse".toList, 0)
  | _ => none

/-- Two calls after some steps in turns. -/
def turns (k : Nat) (cs : List Call) : (SymSet Bytes × SymSet Str) × List (RunProg (Out (Helpers.RunErr Lx ⊕ PN Str Str))) :=
  exec ((List.range k).map (· % 2)) ((testLexer.set, words.set), cs.map (Call.prog (lexP 20 testLexer) words 100))

theorem turns_reach (k : Nat) (cs : List Call) : Relation.ReflTransGen Sched
    ((testLexer.set, words.set), cs.map (Call.prog (lexP 20 testLexer) words 100)) ((turns k cs).1, (turns k cs).2) :=
  exec_reach _ _

/-- Both return, in turns. -/
example : ¬ CanRace (testLexer.set, words.set) (good.map (Call.prog (lexP 20 testLexer) words 100)) ∧
    ∃ s' ps', Relation.ReflTransGen Sched ((testLexer.set, words.set), good.map (Call.prog (lexP 20 testLexer) words 100)) (s', ps') ∧
      ps'.map outcome = [some (['S'], 2), some (['w'], 0)] := by
  have hT := (is_all testCalls).tab
  have hF := full_all testCalls
  refine ⟨?_, (turns 300 good).1, (turns 300 good).2, turns_reach _ _, by decide +kernel⟩
  rw [C107_simple_exact testLexer hT hF words made_words good 20 100 (by decide)]
  rintro ⟨-, i, j, b, c, hij, hi, hj, hb, hc⟩
  have h1 : ¬ Fails testLexer [97, 32, 98] := not_fails_of hT hF (n := 20) (by decide) (by decide +kernel)
  have h2 : ¬ Fails testLexer [99] := not_fails_of hT hF (n := 20) (by decide) (by decide +kernel)
  match i, hi with
  | 0, hi => cases hi; exact h1 hb
  | 1, hi => cases hi; exact h2 hb

/-- The claim fails: if one of the inputs has an error, `Run` can race with itself. -/
theorem C107_refuted : CanRace (testLexer.set, words.set) (bad.map (Call.prog (lexP 20 testLexer) words 100)) := by
  have hT := (is_all testCalls).tab
  have hF := full_all testCalls
  refine (C107_simple_exact testLexer hT hF words made_words bad 20 100 (by decide)).2 ⟨by decide +kernel, 1, 0, _, _, by decide, rfl, rfl,
    fails_of hT hF (n := 20) (by decide) (by decide +kernel), by decide⟩

/-- With the empty input there is no race, though the set changes; both return what they return alone. -/
example : ¬ CanRace (testLexer.set, words.set) (one.map (Call.prog (lexP 20 testLexer) words 100)) ∧
    ∃ s' ps', Relation.ReflTransGen Sched ((testLexer.set, words.set), one.map (Call.prog (lexP 20 testLexer) words 100)) (s', ps') ∧
      ps'.map outcome = [some ("parse".toList, 0), some (['-'], 0)] ∧ s'.1.symb2str = testLexer.set.symb2str ++ [testLexer.error] := by
  have hT := (is_all testCalls).tab
  have hF := full_all testCalls
  refine ⟨?_, (turns 40 one).1, (turns 40 one).2, turns_reach _ _, by decide +kernel, by decide +kernel⟩
  rw [C107_simple_exact testLexer hT hF words made_words one 20 100 (by decide)]
  rintro ⟨-, i, j, b, c, hij, hi, hj, hb, hc⟩
  have h1 : ¬ Fails testLexer [] := not_fails_of hT hF (n := 20) (by decide) (by decide +kernel)
  match i, hi with
  | 0, hi => cases hi; exact h1 hb
  | 1, hi =>
    match j, hj with
    | 0, hj => cases hj; exact hc rfl
    | 1, _ => exact hij rfl

/-- A stack lexer: two calls race, one does not. -/
example : CanRace (Props.StackLexer.parens.set, words.set) ([⟨.packrat, [], [97]⟩, ⟨.topdown, [], [97]⟩].map
      (Call.prog (StackLexer.lexP 20 Props.StackLexer.parens) words 100)) ∧
    ¬ CanRace (Props.StackLexer.parens.set, words.set) ([⟨.packrat, [], [97]⟩].map
      (Call.prog (StackLexer.lexP 20 Props.StackLexer.parens) words 100)) := by
  have hi : Inv Props.StackLexer.parens.set := inv_str (inv_str (inv_str (inv_str (inv_str inv_new _) _) _) _) _
  rw [C107_stack_exact _ hi _ rfl words made_words, C107_stack_exact _ hi _ rfl words made_words]
  exact ⟨⟨by decide +kernel, by decide⟩, by decide⟩

end cases

end Verif.Props.ConcurrentRun
