import Verif.Proofs.Concurrent
import Verif.Proofs.JsonLex
import Verif.Proofs.MathLex
import Verif.Proofs.ScalcLex
import Verif.Proofs.ReducerLex
import Verif.Proofs.RegexGramLex
import Verif.Props.SimpleLexer
import Verif.Props.StackLexer
/-
C105: `Lex` of one lexer called by several goroutines.
-/
namespace Verif.Props.Concurrent
open Verif Verif.Spec Verif.SetSymbol
open Verif.SimpleLexer (Bytes Lx)

/-! ### Simple lexers -/

section simple
open Verif.SimpleLexer

theorem render_err (b : Bytes) (ek : Nat) : ∀ (segs : List (Seg Rule)) (p ln : Nat),
    (∃ x ∈ render b ek p ln segs, x.err = true) ↔ segs.any Seg.isErr = true
  | [], p, ln => by simp [render]
  | .tok r v :: segs, p, ln => by
    have ih := render_err b ek segs (p + v.length) (ln + countNl v)
    simp only [render, List.mem_append, List.any_cons, Seg.isErr, Bool.false_or]
    rw [← ih]
    constructor
    · rintro ⟨x, h | h, hx⟩
      · split at h
        · cases h
        · rw [List.mem_singleton] at h; subst h; cases hx
      · exact ⟨x, h, hx⟩
    · rintro ⟨x, h, hx⟩
      exact ⟨x, .inr h, hx⟩
  | .err v :: segs, p, ln => by simp [render, Seg.isErr]

/-- `Lex` on an input, alone, returns a lexeme for an error. -/
def Fails (l : Lexer) (b : Bytes) : Prop :=
  ∃ lxs l', Out.Returns (fun n => lex n l b) (lxs, l') ∧ ∃ x ∈ lxs, x.err = true

theorem writes_iff {l : Lexer} (hT : Tab l) (hF : Full l) {b : Bytes} {n : Nat} (hn : b.length + 1 ≤ n) :
    (lexP n l b).Writes l.set ↔ l.error ∉ l.set.symb2str ∧ Fails l b := by
  obtain ⟨segs, h⟩ := lex_full hT hF b
  have hr : Out.Returns (fun n => lex n l b) _ := ⟨_, fun n hn => (h l rfl rfl rfl n hn).1⟩
  have hf : Fails l b ↔ segs.any Seg.isErr = true := by
    rw [← render_err b (str l.set l.error).2 segs 0 0]
    constructor
    · rintro ⟨lxs, l', h1, x, hx, hxe⟩
      cases h1.unique hr
      rw [List.mem_append, List.mem_append] at hx
      rcases hx with (hx | hx) | hx
      · unfold pre at hx
        split at hx
        · rw [List.mem_singleton] at hx; subst hx; cases hxe
        · cases hx
      · exact ⟨x, hx, hxe⟩
      · unfold post at hx
        split at hx
        · rw [List.mem_singleton] at hx; subst hx; cases hxe
        · cases hx
    · rintro ⟨x, hx, hxe⟩
      exact ⟨_, _, hr, x, by rw [List.mem_append, List.mem_append]; exact .inl (.inr hx), hxe⟩
  rw [hf, (onlyStr_lex n l b).writes, (lexP_run n l b).2 _ _ (h l rfl rfl rfl n hn).1, ← hT.inv.none]
  dsimp only
  by_cases hs : segs.any Seg.isErr = true
  · rw [if_pos hs]
    refine ⟨fun hne => ⟨?_, hs⟩, fun ⟨h1, _⟩ e => ?_⟩
    · cases he : l.set.str2sym l.error with
      | none => rfl
      | some v => exact absurd (by unfold str; rw [he]) hne
    · have := str_known (s := l.set) l.error
      rw [e] at this
      exact this h1
  · rw [if_neg hs]
    exact ⟨fun h => absurd rfl h, fun h => absurd h.2 hs⟩

theorem full_all (h : List (Bytes × Re × Bool)) : Full (Verif.Props.SimpleLexer.addAll h) := by
  rw [Full, (Props.SimpleLexer.is_all h).rules]
  intro hm
  obtain ⟨i, hi, h⟩ := List.mem_mapIdx.1 hm
  cases h

/-- Whether a lexeme is for an error. -/
def errIn : Out (List Lx × Lexer) → Bool
  | .ok (lxs, _) => lxs.any (·.err)
  | _ => false

theorem fails_iff {l : Lexer} (hT : Tab l) (hF : Full l) {b : Bytes} {n : Nat} (hn : b.length + 1 ≤ n) :
    Fails l b ↔ errIn (lex n l b) = true := by
  obtain ⟨segs, h⟩ := lex_full hT hF b
  have hr : Out.Returns (fun n => lex n l b) _ := ⟨_, fun n hn => (h l rfl rfl rfl n hn).1⟩
  rw [(h l rfl rfl rfl n hn).1, errIn, List.any_eq_true]
  exact ⟨fun ⟨lxs, l', h1, h2⟩ => by cases h1.unique hr; exact h2, fun h2 => ⟨_, _, hr, h2⟩⟩

theorem fails_of {l : Lexer} (hT : Tab l) (hF : Full l) {b : Bytes} {n : Nat} (hn : b.length + 1 ≤ n) (h : errIn (lex n l b) = true) :
    Fails l b := (fails_iff hT hF hn).2 h

theorem not_fails_of {l : Lexer} (hT : Tab l) (hF : Full l) {b : Bytes} {n : Nat} (hn : b.length + 1 ≤ n)
    (h : errIn (lex n l b) = false) : ¬ Fails l b := fun h1 => by
  rw [fails_iff hT hF hn, h] at h1; cases h1

/-- When calls of `Lex` on one simple lexer can race, for every rule table without gaps and in both modes: exactly if the name for
errors is not in the set of the lexer yet, one of the inputs has an error, and another is not empty. -/
theorem C105_simple_exact (l : Lexer) (hT : Tab l) (hF : Full l) (bs : List Bytes) (n : Nat) (hn : ∀ b ∈ bs, b.length + 1 ≤ n) :
    CanRace l.set (bs.map (lexP n l)) ↔ l.error ∉ l.set.symb2str ∧
      ∃ (i j : Nat) (b c : Bytes), i ≠ j ∧ bs[i]? = some b ∧ bs[j]? = some c ∧ Fails l b ∧ c ≠ [] := by
  rw [race_iff]
  · constructor
    · rintro ⟨i, j, p, q, hij, hi, hj, hw, hq⟩
      rw [List.getElem?_map, Option.map_eq_some_iff] at hi hj
      obtain ⟨b, hi, rfl⟩ := hi
      obtain ⟨c, hj, rfl⟩ := hj
      obtain ⟨h1, h2⟩ := (writes_iff hT hF (hn b (List.mem_of_getElem? hi))).1 hw
      refine ⟨h1, i, j, b, c, hij, hi, hj, h2, fun e => ?_⟩
      subst e
      have := hn [] (List.mem_of_getElem? hj)
      obtain ⟨k, rfl⟩ : ∃ k, n = k + 1 := ⟨n - 1, by simp at this; omega⟩
      obtain ⟨o, ho⟩ := lexP_idle hT hF k
      exact hq o ho
    · rintro ⟨h1, i, j, b, c, hij, hi, hj, h2, hc⟩
      refine ⟨i, j, lexP n l b, lexP n l c, hij, by rw [List.getElem?_map, hi]; rfl, by rw [List.getElem?_map, hj]; rfl,
        (writes_iff hT hF (hn b (List.mem_of_getElem? hi))).2 ⟨h1, h2⟩, fun o ho => ?_⟩
      obtain ⟨segs, h⟩ := lex_full hT hF c
      have h3 := (lexP_run n l c).1
      rw [ho, (h l rfl rfl rfl n (hn c (List.mem_of_getElem? hj))).1] at h3
      simp only [Prog.run, Out.map_ok] at h3
      subst h3
      exact lexP_busy hc _ ho
  · intro p hp hw x
    obtain ⟨b, -, rfl⟩ := List.mem_map.1 hp
    exact (onlyStr_lex n l b).meets hw x

/-- If there is no race, every goroutine that returns returns what it returns alone, in whatever way they are interleaved. -/
theorem C105_simple_safe (l : Lexer) (bs : List Bytes) (n : Nat) (hr : ¬ CanRace l.set (bs.map (lexP n l)))
    (s' : SymSet Bytes) (ps' : List (SetProg (Out (List Lx)))) (h : Relation.ReflTransGen Sched (l.set, bs.map (lexP n l)) (s', ps'))
    (i : Nat) (b : Bytes) (o : Out (List Lx)) (hi : bs[i]? = some b) (ho : ps'[i]? = some (.ret o)) : o = (lex n l b).map Prod.fst := by
  rw [← (lexP_run n l b).1]
  refine free_alone (fun p hp hw x => ?_) hr h (by rw [List.getElem?_map, hi]; rfl) ho
  obtain ⟨b, -, rfl⟩ := List.mem_map.1 hp
  exact (onlyStr_lex n l b).meets hw x

/-- If the inputs have no errors, or the set has the name for errors already, there is no race, and the set stays as it is. -/
theorem C105_simple_quiet (l : Lexer) (hT : Tab l) (hF : Full l) (bs : List Bytes) (n : Nat) (hn : ∀ b ∈ bs, b.length + 1 ≤ n)
    (hs : l.error ∈ l.set.symb2str ∨ ∀ b ∈ bs, ¬ Fails l b) :
    ¬ CanRace l.set (bs.map (lexP n l)) ∧
    ∀ s' ps', Relation.ReflTransGen Sched (l.set, bs.map (lexP n l)) (s', ps') → s' = l.set := by
  have hw : ∀ p ∈ bs.map (lexP n l), ¬ p.Writes l.set := by
    intro p hp hw
    obtain ⟨b, hb, rfl⟩ := List.mem_map.1 hp
    obtain ⟨h1, h2⟩ := (writes_iff hT hF (hn b hb)).1 hw
    exact hs.elim h1 fun h => h b hb h2
  exact ⟨no_race hw, fun s' ps' h => (sched_quiet hw h).1⟩

end simple

/-! ### Stack lexers -/

section stack
open Verif.StackLexer

/-- When calls of `Lex` on one stack lexer can race: if there are two of them and the name for errors is not in the set of the lexer yet,
whether or not the inputs have errors. -/
theorem C105_stack_exact (l : Lexer) (hi : Inv l.set) (s : Sub) (hs : l.start = some s) (bs : List Bytes) (n : Nat) :
    CanRace l.set (bs.map (lexP n l)) ↔ l.error ∉ l.set.symb2str ∧ 2 ≤ bs.length := by
  rw [race_iff, ← hi.none]
  · constructor
    · rintro ⟨i, j, p, q, hij, hi, hj, hw, hq⟩
      have h1 := (List.getElem?_eq_some_iff.1 hi).1
      have h2 := (List.getElem?_eq_some_iff.1 hj).1
      rw [List.length_map] at h1 h2
      rw [List.getElem?_map, Option.map_eq_some_iff] at hi
      obtain ⟨b, -, rfl⟩ := hi
      exact ⟨(lexP_writes hs).1 hw, by omega⟩
    · rintro ⟨h1, h2⟩
      refine ⟨0, 1, lexP n l bs[0], lexP n l bs[1], by decide, ?_, ?_, (lexP_writes hs).2 h1, lexP_busy hs⟩
      · rw [List.getElem?_map, List.getElem?_eq_getElem (by omega)]; rfl
      · rw [List.getElem?_map, List.getElem?_eq_getElem (by omega)]; rfl
  · intro p hp hw x
    obtain ⟨b, -, rfl⟩ := List.mem_map.1 hp
    exact (onlyStr_lex n l b).meets hw x

/-- If there is no race, every goroutine that returns returns what it returns alone, in whatever way they are interleaved. -/
theorem C105_stack_safe (l : Lexer) (bs : List Bytes) (n : Nat) (hr : ¬ CanRace l.set (bs.map (lexP n l)))
    (s' : SymSet Bytes) (ps' : List (SetProg (Out (List Lx)))) (h : Relation.ReflTransGen Sched (l.set, bs.map (lexP n l)) (s', ps'))
    (i : Nat) (b : Bytes) (o : Out (List Lx)) (hi : bs[i]? = some b) (ho : ps'[i]? = some (.ret o)) : o = (lex n l b).map Prod.fst := by
  rw [← (lexP_run n l b).1]
  refine free_alone (fun p hp hw x => ?_) hr h (by rw [List.getElem?_map, hi]; rfl) ho
  obtain ⟨b, -, rfl⟩ := List.mem_map.1 hp
  exact (onlyStr_lex n l b).meets hw x

/-- After `Lex` has returned once, for whatever input, there is no race, and the set stays as it is. -/
theorem C105_stack_quiet (l l1 : Lexer) (m : Nat) (b1 : Bytes) (lxs1 : List Lx) (h1 : lex m l b1 = .ok (lxs1, l1)) (bs : List Bytes)
    (n : Nat) : ¬ CanRace l1.set (bs.map (lexP n l1)) ∧
    ∀ s' ps', Relation.ReflTransGen Sched (l1.set, bs.map (lexP n l1)) (s', ps') → s' = l1.set := by
  obtain ⟨e1, e2⟩ : l1.set.str2sym l1.error ≠ none ∧ ∃ s, l1.start = some s := by
    unfold lex at h1
    cases hs : l.start with
    | none => rw [hs] at h1; cases h1
    | some s =>
      rw [hs] at h1
      obtain ⟨op, -, h3⟩ := Out.bind_eq_ok.1 h1
      cases h3
      exact ⟨str_known l.error, s, rfl⟩
  obtain ⟨s, hs⟩ := e2
  have hw : ∀ p ∈ bs.map (lexP n l1), ¬ p.Writes l1.set := by
    intro p hp hw
    obtain ⟨b, hb, rfl⟩ := List.mem_map.1 hp
    exact e1 ((lexP_writes hs).1 hw)
  exact ⟨no_race hw, fun s' ps' h => (sched_quiet hw h).1⟩

end stack

/-! ### Concrete cases -/

section cases
open Verif.SimpleLexer
open Verif.Props.SimpleLexer (testLexer testCalls is_all)

/-- Goroutines run in the order of a list of their numbers. -/
def exec {X S α : Type} : List Nat → S × List (Prog X S α) → S × List (Prog X S α)
  | [], c => c
  | i :: is, (s, ps) =>
    match ps[i]? with
    | some (.read _ k) => exec is (s, ps.set i (k s))
    | some (.write _ f k) => exec is (f s, ps.set i k)
    | _ => exec is (s, ps)

theorem exec_reach {X S α : Type} : ∀ (is : List Nat) (c : S × List (Prog X S α)), Relation.ReflTransGen Sched c (exec is c)
  | [], _ => .refl
  | i :: is, (s, ps) => by
    unfold exec
    split
    · next x k h => exact .head (.mk h .read) (exec_reach is _)
    · next x f k h => exact .head (.mk h .write) (exec_reach is _)
    · exact exec_reach is _

/-- `testLexer` has rules for words and spaces; both goroutines lex `-`. -/
def twice : SymSet Bytes × List (SetProg (Out (List Lx))) := (testLexer.set, [lexP 5 testLexer [45], lexP 5 testLexer [45]])

/-- The kinds of the lexemes that a goroutine has returned. -/
def kinds : SetProg (Out (List Lx)) → Option (List Kind)
  | .ret (.ok lxs) => some (lxs.map (·.kind))
  | _ => none

/-- The claim fails: if both goroutines look for the name for errors before one of them enters it, the set has it twice, and the errors
that they return have different kinds, though each of them alone returns the same. -/
theorem C105_refuted : CanRace testLexer.set [lexP 5 testLexer [45], lexP 5 testLexer [45]] ∧
    ∃ s' ps', Relation.ReflTransGen Sched twice (s', ps') ∧
      s'.symb2str = testLexer.set.symb2str ++ [testLexer.error, testLexer.error] ∧
      ps'.map kinds = [some [.idx 3], some [.idx 4]] ∧
      ((lex 5 testLexer [45]).map fun r => r.1.map (·.kind)) = .ok [.idx 3] := by
  refine ⟨?_, _, _, exec_reach [0, 1, 0, 0, 0, 0, 1, 1, 1, 1] twice, by decide +kernel, by decide +kernel, by decide +kernel⟩
  refine (C105_simple_exact testLexer (is_all testCalls).tab (full_all testCalls) [[45], [45]] 5 (by simp)).2 ⟨by decide +kernel,
    0, 1, [45], [45], by decide, rfl, rfl, fails_of (is_all testCalls).tab (full_all testCalls) (n := 5) (by decide) ?_, by decide⟩
  decide +kernel

/-- `testLexer` on `tests test`, which has no error, and on `-`: there is a race with the second, whatever the first is unless it is
empty; none if both are `tests test`. -/
example : CanRace testLexer.set ([[116, 101, 115, 116, 115, 32, 116], [45]].map (lexP 20 testLexer)) ∧
    ¬ CanRace testLexer.set ([[], [45]].map (lexP 20 testLexer)) ∧
    ¬ CanRace testLexer.set ([[116, 101, 115, 116, 115, 32, 116], [116, 101, 115, 116, 115, 32, 116]].map (lexP 20 testLexer)) := by
  have hT := (is_all testCalls).tab
  have hF := full_all testCalls
  have h1 : Fails testLexer [45] := fails_of hT hF (n := 5) (by decide) (by decide +kernel)
  have h0 : ¬ Fails testLexer [] := not_fails_of hT hF (n := 5) (by decide) (by decide +kernel)
  have h2 : ¬ Fails testLexer [116, 101, 115, 116, 115, 32, 116] := not_fails_of hT hF (n := 20) (by decide) (by decide +kernel)
  refine ⟨?_, ?_, ?_⟩
  · exact (C105_simple_exact testLexer hT hF _ 20 (by simp)).2 ⟨by decide +kernel, 1, 0, _, _, by decide, rfl, rfl, h1, by decide⟩
  · rw [C105_simple_exact testLexer hT hF _ 20 (by simp)]
    rintro ⟨-, i, j, b, c, hij, hi, hj, hb, hc⟩
    match i, hi with
    | 0, hi => cases hi; exact h0 hb
    | 1, hi =>
      match j, hj with
      | 0, hj => cases hj; exact hc rfl
      | 1, _ => exact hij rfl
  · refine (C105_simple_quiet testLexer hT hF _ 20 (by simp) (.inr ?_)).1
    simpa using h2

/-- `parens` on `a` twice, in which there is no error: there is a race in the first two calls, and none after a first. -/
example : CanRace Props.StackLexer.parens.set ([[97], [97]].map (StackLexer.lexP 20 Props.StackLexer.parens)) ∧
    ∃ lxs l1, StackLexer.lex 20 Props.StackLexer.parens [97] = .ok (lxs, l1) ∧
      ¬ CanRace l1.set ([[97], [97]].map (StackLexer.lexP 20 l1)) := by
  refine ⟨(C105_stack_exact _ ?_ _ rfl _ _).2 ⟨by decide +kernel, by decide⟩, ?_⟩
  · exact inv_str (inv_str (inv_str (inv_str (inv_str inv_new _) _) _) _) _
  · have h : (Props.StackLexer.lxsOf (StackLexer.lex 20 Props.StackLexer.parens [97])).isSome = true := by decide +kernel
    cases e : StackLexer.lex 20 Props.StackLexer.parens [97] with
    | ok r => exact ⟨r.1, r.2, rfl, (C105_stack_quiet _ _ 20 [97] _ e _ _).1⟩
    | panic => rw [e] at h; cases h
    | fuel => rw [e] at h; cases h

end cases

/-! ### The lexers of the packages -/

section json
open Verif.SimpleLexer

/-- The lexers that are variables of packages: those of the JSON, math and stack calculator examples, of the package reducer and of the
package regexgram, which every call of `Format`, `Eval`, `New` and so on uses. -/
def OfPackage (l : Lexer) : Prop :=
  Json.lxr = .ok l ∨ PMath.lxr = .ok l ∨ Scalc.lxr = .ok l ∨ ReducerDSL.lxr = .ok l ∨ RegexGram.lxr = .ok l

/-- Calls of `Lex` of these lexers can race exactly if one of the texts has an error and another is not empty. -/
theorem C105_packages_exact (l : Lexer) (hl : OfPackage l) (bs : List Bytes) (n : Nat) (hn : ∀ b ∈ bs, b.length + 1 ≤ n) :
    CanRace l.set (bs.map (lexP n l)) ↔
      ∃ (i j : Nat) (b c : Bytes), i ≠ j ∧ bs[i]? = some b ∧ bs[j]? = some c ∧ Fails l b ∧ c ≠ [] := by
  obtain ⟨hT, hF, he⟩ : Tab l ∧ Full l ∧ l.error ∉ l.set.symb2str := by
    rcases hl with h | h | h | h | h
    · rw [Json.lxr_eq] at h; cases h
      exact ⟨(Props.SimpleLexer.is_all _).tab, full_all _, by decide +kernel⟩
    · rw [PMath.lxr_eq] at h; cases h
      exact ⟨(Props.SimpleLexer.is_all _).tab, full_all _, by decide +kernel⟩
    · rw [Scalc.lxr_eq] at h; cases h
      exact ⟨(Props.SimpleLexer.is_all _).tab, full_all _, by decide +kernel⟩
    · rw [ReducerDSL.lxr_eq] at h; cases h
      exact ⟨(Props.SimpleLexer.is_all _).tab, full_all _, by decide +kernel⟩
    · rw [RegexGram.lxr_eq] at h; cases h
      have hT := (Props.SimpleLexer.is_all RegexGram.rgRules.adds).tab
      exact ⟨⟨hT.inv, hT.kind, hT.le, hT.cmp⟩, full_all RegexGram.rgRules.adds, by decide +kernel⟩
  rw [C105_simple_exact _ hT hF bs n hn]
  exact and_iff_right he

/-- `&` and `1`. -/
example : ∃ l, Json.lxr = .ok l ∧ CanRace l.set ([[38], [49]].map (lexP 20 l)) := by
  refine ⟨_, Json.lxr_eq, (C105_packages_exact _ (.inl Json.lxr_eq) _ 20 (by simp)).2 ⟨0, 1, [38], [49], by decide, rfl, rfl, ?_, by decide⟩⟩
  exact fails_of (Props.SimpleLexer.is_all _).tab (full_all _) (n := 20) (by decide) (by decide +kernel)

end json

end Verif.Props.Concurrent
