import Verif.Props.StackLexerSearch
import Verif.Props.SimpleLexerLeast
/-
The searches of the stack lexer from below (C97): every token was found by a search, and costs one.
-/
namespace Verif.Props.StackLexerLeast
open Verif Verif.SetSymbol Verif.StackLexer Verif.Spec Verif.Props.StackLexerSearch
open Verif.SimpleLexer (Bytes Lx Search slice countNl insertLx)
open Verif.Props.SimpleLexerLeast (isTok toks)

abbrev Ent := Option Rule × Option Loc

/-- The entries that hold a match. -/
def somes (es : List Ent) : Nat := (es.filter fun e => e.2.isSome).length

/-- The bounds of a match in the input. -/
def at_ (loc : Loc) : Nat × Nat := (loc.off + loc.a, loc.off + loc.e)

/-- The matches at hand are not the wrong way round, and were found. -/
def Known (Q : Nat × Nat → Prop) (es : List Ent) : Prop := ∀ e ∈ es, ∀ loc, e.2 = some loc → loc.a ≤ loc.e ∧ Q (at_ loc)

/-- Found before, or by one of some searches. -/
def Or (Q : Nat × Nat → Prop) (ss : List Search) (p : Nat × Nat) : Prop := Q p ∨ ∃ s ∈ ss, s.found = some p

theorem find_order {b : Bytes} {cur : Nat} {r : Rule} {loc : Loc} (h : findFrom b cur r = some loc) : loc.a ≤ loc.e := by
  unfold findFrom at h
  obtain ⟨⟨i, j, g⟩, h1, h2⟩ := Option.map_eq_some_iff.1 h
  cases h2
  exact (r.re.bound _ _ _ _ h1).1

theorem search_found {b : Bytes} {cur : Nat} {r : Rule} {loc : Loc} (h : findFrom b cur r = some loc) :
    (searchOf cur (findFrom b cur r)).found = some (at_ loc) := by
  rw [h]; rfl

theorem populate_somes (b : Bytes) (op : Op) : somes (populateNextS b op).1.next ≤ (populateNextS b op).2.length := by
  unfold populateNextS populateNext somes
  simp only
  induction op.sub.rules with
  | nil => simp
  | cons r rs ih =>
    rw [List.map_cons, List.flatMap_cons, List.length_append, List.filter_cons]
    cases r with
    | none => simpa using ih
    | some r =>
      simp only [List.length_singleton]
      split
      · rw [List.length_cons]; omega
      · omega

theorem populate_known (Q : Nat × Nat → Prop) (b : Bytes) (op : Op) :
    Known (Or Q (populateNextS b op).2) (populateNextS b op).1.next := by
  intro e he loc hloc
  simp only [populateNextS, populateNext, List.mem_map] at he
  obtain ⟨r, hr, rfl⟩ := he
  cases r with
  | none => cases hloc
  | some r =>
    simp only at hloc
    refine ⟨find_order hloc, .inr ⟨_, ?_, search_found hloc⟩⟩
    simp only [populateNextS, List.mem_flatMap]
    exact ⟨some r, hr, by simp⟩

theorem refind_some (b : Bytes) (cur : Nat) (e : Ent) (h : (refind b cur e).2.isSome = true) : e.2.isSome = true := by
  obtain ⟨r, o⟩ := e
  cases o with
  | none => cases r <;> exact h
  | some loc => rfl

theorem update_somes (b : Bytes) (op : Op) : somes (updateNextS b op).1.next ≤ somes op.next := by
  unfold updateNextS updateNext somes
  simp only
  induction op.next with
  | nil => simp
  | cons e es ih =>
    rw [List.map_cons, List.filter_cons, List.filter_cons]
    have := refind_some b op.cur e
    split
    · rename_i h
      rw [if_pos (this h), List.length_cons, List.length_cons]
      omega
    · split
      · rw [List.length_cons]; omega
      · exact ih

theorem update_known {Q : Nat × Nat → Prop} {b : Bytes} {op : Op} (hK : Known Q op.next) :
    Known (Or Q (updateNextS b op).2) (updateNextS b op).1.next := by
  intro e he loc hloc
  simp only [updateNextS, updateNext, List.mem_map] at he
  obtain ⟨x, hx, rfl⟩ := he
  have old : ∀ l', x.2 = some l' → l'.a ≤ l'.e ∧ Or Q (updateNextS b op).2 (at_ l') := fun l' hl =>
    ⟨(hK x hx l' hl).1, .inl (hK x hx l' hl).2⟩
  obtain ⟨r, o⟩ := x
  cases r with
  | none => exact old loc hloc
  | some r =>
    cases o with
    | none => exact old loc hloc
    | some l1 =>
      simp only [refind] at hloc
      split at hloc
      · rename_i hle
        refine ⟨find_order hloc, .inr ⟨_, ?_, search_found hloc⟩⟩
        simp only [updateNextS, List.mem_flatMap]
        exact ⟨_, hx, by simp [refindS, hle]⟩
      · exact old loc hloc

theorem update_pays {b : Bytes} {op : Op} {r : Rule} {loc : Loc} (h : (some r, some loc) ∈ op.next) (hc : loc.a + loc.off ≤ op.cur) :
    1 ≤ (updateNextS b op).2.length := by
  refine List.length_pos_of_mem (a := searchOf op.cur (findFrom b op.cur r)) ?_
  simp only [updateNextS, List.mem_flatMap]
  exact ⟨_, h, by simp [refindS, hc]⟩

theorem known_or {Q : Nat × Nat → Prop} {es : List Ent} (ss : List Search) (h : Known Q es) : Known (Or Q ss) es :=
  fun e he loc hl => ⟨(h e he loc hl).1, .inl (h e he loc hl).2⟩

theorem check_toks (ek : Nat) (b : Bytes) (op : Op) : toks (checkError ek b op).lxs = toks op.lxs := by
  unfold checkError
  split
  · rfl
  · simp [toks, isTok]

theorem setError_parts (op : Op) : (setError op).lxs = op.lxs ∧ (setError op).next = op.next := by
  unfold setError
  split <;> exact ⟨rfl, rfl⟩

/-- What a round leaves: nothing is found for nothing. `m` is what there was: tokens and matches at hand. -/
def Left (Q : Nat × Nat → Prop) (m : Nat) (x : Next × List Search) : Prop :=
  match x.1 with
  | .done op => (toks op.lxs).length ≤ m + x.2.length
  | .more op => (toks op.lxs).length + somes op.next ≤ m + x.2.length ∧ Known (Or Q x.2) op.next

def lxsOf : Next → List Lx
  | .done op => op.lxs
  | .more op => op.lxs

theorem popS_left {Q : Nat × Nat → Prop} {b : Bytes} {i : Nat} {op : Op} {x : Op × List Search} (h : popS b i op = .ok x) {m : Nat}
    (hm : (toks op.lxs).length ≤ m) : Left Q m (.more x.1, x.2) ∧ x.1.lxs = op.lxs := by
  unfold popS at h
  simp only at h
  split at h
  · cases h
  · rename_i s hs
    cases h
    have h1 := populate_somes b { op with sub := s, stack := op.stack.take (op.stack.length - i) }
    refine ⟨⟨?_, populate_known _ _ _⟩, rfl⟩
    have h2 : (populateNextS b { op with sub := s, stack := op.stack.take (op.stack.length - i) }).1.lxs = op.lxs := rfl
    rw [h2]
    dsimp only
    omega

theorem stopS_left {Q : Nat × Nat → Prop} {b : Bytes} {op : Op} (hK : Known Q op.next) {x : Next × List Search}
    (h : stopStepS b op = .ok x) : Left Q ((toks op.lxs).length + somes op.next) x ∧ lxsOf x.1 = op.lxs := by
  unfold stopStepS at h
  obtain ⟨e1, e2⟩ := setError_parts op
  split at h
  · split at h
    · cases h
      refine ⟨?_, e1⟩
      simp only [Left, e1]
      omega
    · cases h
      refine ⟨?_, e1⟩
      simp only [Left, e1, e2]
      exact ⟨by omega, known_or _ hK⟩
  · obtain ⟨r, h1, h2⟩ := Out.bind_eq_ok.1 h
    cases h2
    exact popS_left h1 (by omega)

theorem moveS_left {Q : Nat × Nat → Prop} {lexers : Bytes → Option Sub} {b : Bytes} {r : Rule} {op : Op} (hK : Known Q op.next)
    {loc : Loc} (hmem : (some r, some loc) ∈ op.next) (hc : loc.a + loc.off ≤ op.cur) {x : Next × List Search} {m : Nat}
    (hm : (toks op.lxs).length ≤ m + 1) (h : moveStepS lexers b r op = .ok x) :
    Left Q (m + somes op.next) x ∧ lxsOf x.1 = op.lxs := by
  have hpos : 1 ≤ somes op.next := List.length_pos_of_mem (List.mem_filter.2 ⟨hmem, rfl⟩)
  unfold moveStepS at h
  split at h
  · cases h
    refine ⟨?_, rfl⟩
    simp only [Left]
    omega
  · split at h
    · obtain ⟨r, h1, h2⟩ := Out.bind_eq_ok.1 h
      cases h2
      exact popS_left h1 (by omega)
    · split at h
      · cases hs : lexers r.push with
        | none => rw [hs] at h; cases h
        | some s =>
          rw [hs] at h
          cases h
          have h1 := populate_somes b { op with stack := op.stack ++ [op.sub], sub := s }
          refine ⟨⟨?_, populate_known _ _ _⟩, rfl⟩
          have h2 : (populateNextS b { op with stack := op.stack ++ [op.sub], sub := s }).1.lxs = op.lxs := rfl
          rw [h2]
          dsimp only
          omega
      · cases h
        have h1 := update_somes b op
        have h2 := update_pays (b := b) hmem hc
        refine ⟨⟨?_, update_known hK⟩, rfl⟩
        have h3 : (updateNextS b op).1.lxs = op.lxs := rfl
        rw [h3]
        dsimp only
        omega

/-- A round makes at most one token, whose column is that of the beginning of a match at hand. -/
theorem bodyS_left {Q : Nat × Nat → Prop} {cmp : Int → Int → Int → Int → Bool} {lexers : Bytes → Option Sub} {ek : Nat} {b : Bytes} {op : Op}
    (hK : Known Q op.next) {x : Next × List Search} (h : bodyS cmp lexers ek b op = .ok x) :
    Left Q ((toks op.lxs).length + somes op.next) x ∧
      ∀ y ∈ toks (lxsOf x.1), y ∈ toks op.lxs ∨ ∃ p, Q p ∧ p.1 < p.2 ∧ y.col = colAt b p.1 := by
  unfold bodyS at h
  cases hch : choose cmp op.cur none op.next with
  | none =>
    rw [hch] at h
    obtain ⟨h1, h2⟩ := stopS_left hK h
    exact ⟨h1, fun y hy => .inl (by rw [h2] at hy; exact hy)⟩
  | some c =>
    obtain ⟨r, loc⟩ := c
    rw [hch] at h
    simp only at h
    obtain ⟨val, -, h⟩ := Out.bind_eq_ok.1 h
    split at h
    · obtain ⟨h1, h2⟩ := stopS_left (op := { op with lines := op.lines + countNl (slice b (loc.off + loc.a) (loc.off + loc.e)) }) hK h
      exact ⟨h1, fun y hy => .inl (by rw [h2] at hy; exact hy)⟩
    · rename_i hne
      have hm : (some r, some loc) ∈ op.next ∧ loc.a + loc.off = op.cur := by
        rcases choose_mem cmp op.cur op.next none r loc hch with h | h
        · cases h
        · exact h
      obtain ⟨hb, hq⟩ := hK _ hm.1 loc rfl
      obtain ⟨e1, -, -⟩ := checkError_parts ek b { op with lines := op.lines + countNl (slice b (loc.off + loc.a) (loc.off + loc.e)) }
      have ht := check_toks ek b { op with lines := op.lines + countNl (slice b (loc.off + loc.a) (loc.off + loc.e)) }
      generalize checkError ek b { op with lines := op.lines + countNl (slice b (loc.off + loc.a) (loc.off + loc.e)) } = op1 at h e1 ht
      simp only at e1 ht hne
      obtain ⟨h1, h2⟩ := moveS_left (Q := Q) (r := r) (loc := loc) (m := (toks op.lxs).length) (by simp only [e1]; exact hK)
        (by simp only [e1]; exact hm.1) (by simp only; omega) (by
          simp only
          split
          · rw [ht]; omega
          · rw [toks, List.filter_append, List.length_append, ← toks, ht]
            exact Nat.add_le_add_left (List.length_filter_le _ _) _) h
      rw [e1] at h1
      refine ⟨h1, ?_⟩
      intro y hy
      rw [h2] at hy
      simp only at hy
      split at hy
      · rw [ht] at hy; exact .inl hy
      · rw [toks, List.filter_append, ← toks, ht, List.mem_append] at hy
        rcases hy with hy | hy
        · exact .inl hy
        · refine .inr ⟨at_ loc, hq, ?_, ?_⟩
          · simp only [at_]; omega
          · have := List.mem_singleton.1 (List.mem_filter.1 hy).1
            subst this
            simp only [at_]
            rw [← hm.2, Nat.add_comm]

theorem loopS_least {cmp : Int → Int → Int → Int → Bool} {lexers : Bytes → Option Sub} {ek : Nat} {b : Bytes} :
    ∀ n (Q : Nat × Nat → Prop) (op op' : Op) ss, Known Q op.next → loopS cmp lexers ek b n op = .ok (op', ss) →
    (toks op'.lxs).length ≤ (toks op.lxs).length + somes op.next + ss.length ∧
      ∀ y ∈ toks op'.lxs, y ∈ toks op.lxs ∨ ∃ p, Or Q ss p ∧ p.1 < p.2 ∧ y.col = colAt b p.1
  | 0, _, _, _, _, _, h => by cases h
  | n + 1, Q, op, op', ss, hK, h => by
    rw [loopS] at h
    obtain ⟨⟨x, us⟩, h1, h2⟩ := Out.bind_eq_ok.1 h
    obtain ⟨f1, f2⟩ := bodyS_left hK h1
    cases x with
    | done op1 =>
      cases h2
      refine ⟨f1, fun y hy => ?_⟩
      rcases f2 y hy with g | ⟨p, g1, g2⟩
      · exact .inl g
      · exact .inr ⟨p, .inl g1, g2⟩
    | more op1 =>
      simp only at h2
      obtain ⟨r, h3, h4⟩ := Out.bind_eq_ok.1 h2
      cases h4
      obtain ⟨f3, f4⟩ := f1
      obtain ⟨i1, i2⟩ := loopS_least n (Or Q us) op1 r.1 r.2 f4 h3
      refine ⟨?_, fun y hy => ?_⟩
      · rw [List.length_append]
        simp only at f3
        omega
      · rcases i2 y hy with g | ⟨p, g1, g2⟩
        · rcases f2 y g with g | ⟨p, g1, g2⟩
          · exact .inl g
          · exact .inr ⟨p, .inl g1, g2⟩
        · refine .inr ⟨p, ?_, g2⟩
          rcases g1 with (g1 | ⟨s, g1, g3⟩) | ⟨s, g1, g3⟩
          · exact .inl g1
          · exact .inr ⟨s, List.mem_append.2 (.inl g1), g3⟩
          · exact .inr ⟨s, List.mem_append.2 (.inr g1), g3⟩

/-- C97 from below: there are no fewer searches than tokens, and every token stands at the column of the beginning of a match
with something in it, which one of the searches found. -/
theorem C97_least (l : Lexer) (b : Bytes) (n : Nat) (x : List Lx × Lexer) (h : lex n l b = .ok x) :
    ∃ ss, lexS n l b = .ok (x, ss) ∧ (toks x.1).length ≤ ss.length ∧
      ∀ y ∈ toks x.1, ∃ s ∈ ss, ∃ i j, s.found = some (i, j) ∧ i < j ∧ y.col = colAt b i := by
  rw [← lexS_fst] at h
  obtain ⟨⟨y, ss⟩, h1, h2⟩ := Out.bind_eq_ok.1 h
  cases h2
  refine ⟨ss, h1, ?_⟩
  unfold lexS at h1
  cases hst : l.start with
  | none => rw [hst] at h1; cases h1
  | some s =>
    rw [hst] at h1
    simp only at h1
    obtain ⟨q, h3, h4⟩ := Out.bind_eq_ok.1 h1
    cases h4
    have k1 := populate_somes b ⟨s, [], [],
      if l.startKind ≠ [] then [insertLx l.startKind l.startVal] else [], false, 0, 0, 1⟩
    have k2 := populate_known (fun _ => False) b ⟨s, [], [],
      if l.startKind ≠ [] then [insertLx l.startKind l.startVal] else [], false, 0, 0, 1⟩
    have k3 : toks (populateNextS b ⟨s, [], [],
      if l.startKind ≠ [] then [insertLx l.startKind l.startVal] else [], false, 0, 0, 1⟩).1.lxs = [] := by
      simp only [populateNextS, populateNext]
      split <;> rfl
    obtain ⟨l1, l2⟩ := loopS_least n _ _ _ _ k2 h3
    rw [k3] at l1 l2
    have e : toks ((checkError (str l.set l.error).2 b (consumeRemainingAsError b q.1)).lxs ++
        (if l.endKind ≠ [] then [insertLx l.endKind l.endVal] else [])) = toks q.1.lxs := by
      rw [toks, List.filter_append, ← toks, check_toks]
      have e1 : (consumeRemainingAsError b q.1).lxs = q.1.lxs := by
        unfold consumeRemainingAsError
        split
        · rfl
        · exact (setError_parts q.1).1
      rw [e1]
      split <;> simp [isTok, insertLx]
    simp only [e]
    refine ⟨?_, fun y hy => ?_⟩
    · rw [List.length_append]
      simp only [List.length_nil] at l1
      omega
    · rcases l2 y hy with g | ⟨p, g1, g2, g3⟩
      · cases g
      · rcases g1 with (g1 | ⟨s, g1, g4⟩) | ⟨s, g1, g4⟩
        · cases g1
        · exact ⟨s, List.mem_append.2 (.inl g1), p.1, p.2, g4, g2, g3⟩
        · exact ⟨s, List.mem_append.2 (.inr g1), p.1, p.2, g4, g2, g3⟩

/-- Six tokens and nine searches for three pairs. -/
example : (match lexS 8 pairsLexer (pairs 3) with
    | .ok r => some ((toks r.1.1).length, r.2.length)
    | _ => none) = some (6, 9) := by decide +kernel

end Verif.Props.StackLexerLeast
