import Verif.Props.StackLexerSearch
import Verif.Props.SimpleLexerLeast
/-
The searches of the stack lexer when it stays in its first sub-lexer (C97): linear, as for the simple lexer.
-/
namespace Verif.Props.StackLexerFlat
open Verif Verif.SetSymbol Verif.StackLexer Verif.Spec Verif.Props.StackLexerSearch
open Verif.SimpleLexer (Bytes Lx Search slice countNl insertLx)

/-- How far into an input of `m` bytes the search for a rule has got. -/
def pos (m : Nat) (e : Option Rule × Option Loc) : Nat :=
  match e.2 with
  | none => m
  | some loc => loc.off + loc.a

/-- How far the searches for all rules have got. -/
def total (m : Nat) (es : List (Option Rule × Option Loc)) : Nat := (es.map (pos m)).sum

/-- A rule that stays in its sub-lexer. -/
def Stays (r : Rule) : Prop := r.pop = 0 ∧ r.push = []

/-- In the first sub-lexer, with rules that stay there. -/
structure Flat (b : Bytes) (op : Op) : Prop where
  stack : op.stack = []
  stays : ∀ e ∈ op.next, ∀ r, e.1 = some r → Stays r
  inside : ∀ e ∈ op.next, ∀ loc, e.2 = some loc → loc.a ≤ loc.e ∧ loc.off + loc.e ≤ b.length

theorem total_le {b : Bytes} {es : List (Option Rule × Option Loc)}
    (h : ∀ e ∈ es, ∀ loc, e.2 = some loc → loc.a ≤ loc.e ∧ loc.off + loc.e ≤ b.length) : total b.length es ≤ es.length * b.length := by
  refine sum_le _ _ _ ?_
  intro e he
  unfold pos
  split
  · exact Nat.le_refl _
  · rename_i loc hl
    have := h e he loc hl
    omega

/-- A search passes over what is between where it starts and how far it gets. -/
theorem passed_search {b : Bytes} {cur : Nat} (hc : cur ≤ b.length) (r : Rule) :
    passed b.length (searchOf cur (findFrom b cur r)).start (searchOf cur (findFrom b cur r)).found + cur =
      pos b.length (some r, findFrom b cur r) := by
  cases hf : findFrom b cur r with
  | none => simp only [searchOf, Option.map_none, passed, pos]; omega
  | some loc =>
    have := findFrom_in hc hf
    simp only [searchOf, Option.map_some, passed, pos]
    omega

theorem update_passed {b : Bytes} {cur : Nat} (hc : cur ≤ b.length) : ∀ es : List (Option Rule × Option Loc),
    passedOver b (es.flatMap (refindS b cur)) + total b.length es ≤ total b.length (es.map (refind b cur))
  | [] => by simp [passedOver, total]
  | e :: es => by
    have ih := update_passed hc es
    have he : passedOver b (refindS b cur e) + pos b.length e ≤ pos b.length (refind b cur e) := by
      obtain ⟨r, o⟩ := e
      cases r with
      | none => simp [refindS, refind, passedOver]
      | some r =>
        cases o with
        | none => simp [refindS, refind, passedOver]
        | some loc =>
          unfold refindS refind
          simp only
          split
          · rename_i hle
            have h1 := passed_search hc r
            simp only [passedOver, List.map_cons, List.map_nil, List.sum_cons, List.sum_nil]
            have h2 : pos b.length (some r, some loc) = loc.off + loc.a := rfl
            rw [h2]
            omega
          · simp [passedOver]
    unfold passedOver total at *
    rw [List.flatMap_cons, List.map_append, List.sum_append, List.map_cons, List.map_cons, List.map_cons, List.sum_cons, List.sum_cons]
    omega

theorem update_flat {b : Bytes} {op : Op} (hc : op.cur ≤ b.length) (w : Flat b op) : Flat b (updateNext b op) := by
  refine ⟨w.stack, ?_, ?_⟩
  all_goals
    intro e he
    simp only [updateNext, List.mem_map] at he
    obtain ⟨⟨r, o⟩, hx, rfl⟩ := he
    have w1 := w.stays _ hx
    have w2 := w.inside _ hx
    unfold refind
    split
    · split
      · rename_i heq _
        cases heq
        first
          | exact w1
          | exact fun loc hl => (findFrom_in hc hl).2
      · first
          | exact w1
          | exact w2
    · first
        | exact w1
        | exact w2

/-- What a round leaves. -/
def Left (b : Bytes) (op : Op) (x : Next × List Search) : Prop :=
  match x.1 with
  | .done _ => x.2 = []
  | .more op' => Flat b op' ∧ op'.next.length = op.next.length ∧ passedOver b x.2 + total b.length op.next ≤ total b.length op'.next

theorem stopS_flat {b : Bytes} {op : Op} (w : Flat b op) {x : Next × List Search} (h : stopStepS b op = .ok x) : Left b op x := by
  unfold stopStepS at h
  have e1 : (setError op).next = op.next := by unfold setError; split <;> rfl
  have e2 : (setError op).stack = op.stack := by unfold setError; split <;> rfl
  rw [if_pos (by rw [w.stack]; rfl)] at h
  split at h
  · cases h; rfl
  · cases h
    refine ⟨⟨?_, ?_, ?_⟩, ?_, ?_⟩
    · simp only [e2]; exact w.stack
    · simp only [e1]; exact w.stays
    · simp only [e1]; exact w.inside
    · simp only [e1]
    · simp [e1, passedOver]

theorem moveS_flat {lexers : Bytes → Option Sub} {b : Bytes} {r : Rule} (hr : Stays r) {op : Op} (w : Flat b op) {x : Next × List Search}
    (h : moveStepS lexers b r op = .ok x) : Left b op x := by
  unfold moveStepS at h
  split at h
  · cases h; rfl
  · rename_i hlt
    rw [if_neg (by rw [hr.1]; omega), if_neg (by rw [hr.2]; simp)] at h
    cases h
    have hc : op.cur ≤ b.length := by omega
    refine ⟨update_flat hc w, ?_, update_passed hc op.next⟩
    simp [updateNextS, updateNext]

theorem bodyS_flat {cmp : Int → Int → Int → Int → Bool} {lexers : Bytes → Option Sub} {ek : Nat} {b : Bytes} {op : Op} (w : Flat b op)
    {x : Next × List Search} (h : bodyS cmp lexers ek b op = .ok x) : Left b op x := by
  unfold bodyS at h
  cases hch : choose cmp op.cur none op.next with
  | none =>
    rw [hch] at h
    exact stopS_flat w h
  | some c =>
    obtain ⟨r, loc⟩ := c
    rw [hch] at h
    simp only at h
    obtain ⟨val, -, h⟩ := Out.bind_eq_ok.1 h
    split at h
    · exact stopS_flat (op := { op with lines := op.lines + countNl (slice b (loc.off + loc.a) (loc.off + loc.e)) })
        ⟨w.stack, w.stays, w.inside⟩ h
    · have hm : (some r, some loc) ∈ op.next := by
        rcases choose_mem cmp op.cur op.next none r loc hch with h | h
        · cases h
        · exact h.1
      obtain ⟨e1, e2, -⟩ := checkError_parts ek b { op with lines := op.lines + countNl (slice b (loc.off + loc.a) (loc.off + loc.e)) }
      have := moveS_flat (w.stays _ hm r rfl) ⟨by simp only [e2]; exact w.stack, by simp only [e1]; exact w.stays,
        by simp only [e1]; exact w.inside⟩ h
      unfold Left at this ⊢
      simp only [e1] at this
      exact this

theorem loopS_flat {cmp : Int → Int → Int → Int → Bool} {lexers : Bytes → Option Sub} {ek : Nat} {b : Bytes} :
    ∀ n (op op' : Op) ss, Flat b op → loopS cmp lexers ek b n op = .ok (op', ss) →
    passedOver b ss + total b.length op.next ≤ op.next.length * b.length
  | 0, _, _, _, _, h => by cases h
  | n + 1, op, op', ss, w, h => by
    rw [loopS] at h
    obtain ⟨⟨x, us⟩, h1, h2⟩ := Out.bind_eq_ok.1 h
    have f := bodyS_flat w h1
    cases x with
    | done op1 =>
      cases h2
      simp only [Left] at f
      subst f
      have := total_le w.inside
      simpa [passedOver] using this
    | more op1 =>
      simp only at h2
      obtain ⟨r, h3, h4⟩ := Out.bind_eq_ok.1 h2
      cases h4
      obtain ⟨f1, f2, f3⟩ := f
      have i := loopS_flat n op1 r.1 r.2 f1 h3
      rw [f2] at i
      unfold passedOver at *
      rw [List.map_append, List.sum_append]
      simp only at f3
      omega

theorem populate_passed {b : Bytes} {op : Op} (h0 : op.cur = 0) :
    passedOver b (populateNextS b op).2 ≤ total b.length (populateNextS b op).1.next := by
  unfold populateNextS populateNext passedOver total
  simp only
  induction op.sub.rules with
  | nil => simp
  | cons r rs ih =>
    rw [List.flatMap_cons, List.map_append, List.sum_append, List.map_cons, List.map_cons, List.sum_cons]
    cases r with
    | none =>
      simp only [List.map_nil, List.sum_nil]
      omega
    | some r =>
      have := passed_search (b := b) (cur := op.cur) (by omega) r
      simp only [List.map_cons, List.map_nil, List.sum_cons, List.sum_nil]
      omega

/-- C97 without sub-lexers: if no rule of the first sub-lexer pushes or pops, the searches pass over no more than the input once
for each rule before the matches that they find, as for the simple lexer (C96). -/
theorem C97_flat (l : Lexer) (s : Sub) (hs : l.start = some s) (hr : ∀ r, some r ∈ s.rules → r.pop = 0 ∧ r.push = []) (b : Bytes) (n : Nat)
    (x : List Lx × Lexer) (h : lex n l b = .ok x) :
    ∃ ss, lexS n l b = .ok (x, ss) ∧ passedOver b ss ≤ s.rules.length * b.length := by
  rw [← lexS_fst] at h
  obtain ⟨⟨y, ss⟩, h1, h2⟩ := Out.bind_eq_ok.1 h
  cases h2
  refine ⟨ss, h1, ?_⟩
  unfold lexS at h1
  rw [hs] at h1
  simp only at h1
  obtain ⟨q, h3, h4⟩ := Out.bind_eq_ok.1 h1
  cases h4
  have k1 := populate_passed (b := b) (op := ⟨s, [], [],
    if l.startKind ≠ [] then [insertLx l.startKind l.startVal] else [], false, 0, 0, 1⟩) rfl
  have i := loopS_flat n _ _ _ ⟨rfl, ?_, ?_⟩ h3
  · have e : (populateNextS b ⟨s, [], [],
      if l.startKind ≠ [] then [insertLx l.startKind l.startVal] else [], false, 0, 0, 1⟩).1.next.length = s.rules.length := by
      simp [populateNextS, populateNext]
    rw [e] at i
    unfold passedOver at *
    rw [List.map_append, List.sum_append]
    omega
  · intro e he r hr'
    simp only [populateNextS, populateNext, List.mem_map] at he
    obtain ⟨r', hm, rfl⟩ := he
    cases r' with
    | none => cases hr'
    | some r' => cases hr'; exact hr _ hm
  · intro e he loc hloc
    simp only [populateNextS, populateNext, List.mem_map] at he
    obtain ⟨r', hm, rfl⟩ := he
    cases r' with
    | none => cases hloc
    | some r' => exact (findFrom_in (Nat.zero_le _) hloc).2

/-! ### A lexer that stays -/

/-- A rule for `(` and one for `z`. -/
def flatLexer : Lexer := { pairsLexer with start := some ⟨[some ⟨0, Props.StackLexer.reOpen, false, 0, [], 0, none⟩, some rZ]⟩ }

/-- `z` is looked for once before it is reached, and once there. -/
example : (match lexS 8 flatLexer [40, 40, 40, 122] with
    | .ok r => some (r.1.1.map (·.val), r.2.map (·.start), passedOver [40, 40, 40, 122] r.2)
    | _ => none) = some ([[40], [40], [40], [122]], [0, 0, 1, 2, 3, 3], 4) := by decide +kernel

end Verif.Props.StackLexerFlat
