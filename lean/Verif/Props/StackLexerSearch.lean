import Verif.Proofs.StackLexerSearch
import Verif.Props.StackLexer
/-
C97: the work of the searches of the stack lexer.
-/
namespace Verif.Props.StackLexerSearch
open Verif Verif.SetSymbol Verif.StackLexer Verif.Spec
open Verif.SimpleLexer (Bytes Lx Search)
open Verif.Props.StackLexer (ofMatch)

/-- The bytes passed over by all of the searches before the matches that they find. -/
def passedOver (b : Bytes) (ss : List Search) : Nat := (ss.map fun s => passed b.length s.start s.found).sum

/-- The bytes that all of the searches look at at least. -/
def looked (b : Bytes) (ss : List Search) : Nat := (ss.map fun s => lookedAt b.length s.start s.found).sum

theorem sum_le {α : Type} (f : α → Nat) (k : Nat) : ∀ l : List α, (∀ x ∈ l, f x ≤ k) → (l.map f).sum ≤ l.length * k
  | [], _ => by simp
  | x :: l, h => by
    have h1 := sum_le f k l fun y hy => h y (List.mem_cons_of_mem _ hy)
    have h2 := h x List.mem_cons_self
    simp only [List.map_cons, List.sum_cons, List.length_cons, Nat.add_mul, Nat.one_mul]
    omega

/-- C97, first part. Recording the searches changes nothing else. If no sub-lexer has more than `R` rules, there are at most
`R * (2 * m + 1)` searches for an input of `m` bytes, each of which looks at no more than the input. Missing: a linear bound on what the
searches pass over before the matches that they find, as for the simple lexer (C96), which fails (`C97_refuted`). -/
theorem C97_partial (R : Nat) (l : Lexer) (hs : ∀ s, l.start = some s → s.rules.length ≤ R)
    (hl : ∀ x s, l.lexers x = some s → s.rules.length ≤ R) (b : Bytes) (n : Nat) (x : List Lx × Lexer) (h : lex n l b = .ok x) :
    ∃ ss, lexS n l b = .ok (x, ss) ∧ ss.length ≤ R * (2 * b.length + 1) ∧
      passedOver b ss ≤ looked b ss ∧ looked b ss ≤ R * (2 * b.length + 1) * b.length := by
  rw [← lexS_fst] at h
  obtain ⟨⟨y, ss⟩, h1, h2⟩ := Out.bind_eq_ok.1 h
  cases h2
  obtain ⟨g1, g2⟩ := lexS_sums hs hl h1
  refine ⟨ss, h1, g1, ?_, ?_⟩
  · have : ∀ s ∈ ss, passed b.length s.start s.found ≤ lookedAt b.length s.start s.found := by
      intro s hs
      obtain ⟨-, k⟩ := g2 s hs
      unfold passed lookedAt
      cases hf : s.found with
      | none => exact Nat.le_refl _
      | some ij =>
        have := k ij.1 ij.2 hf
        simp only
        omega
    clear h h1 g1 g2
    unfold passedOver looked
    induction ss with
    | nil => simp
    | cons s ss ih =>
      have i1 := ih fun t ht => this t (List.mem_cons_of_mem _ ht)
      have i2 := this s List.mem_cons_self
      simp only [List.map_cons, List.sum_cons]
      omega
  · refine Nat.le_trans (sum_le _ b.length ss ?_) (Nat.mul_le_mul_right _ g1)
    intro s hs
    obtain ⟨-, k⟩ := g2 s hs
    unfold lookedAt
    cases hf : s.found with
    | none => simp
    | some ij =>
      have := k ij.1 ij.2 hf
      simp only
      omega

/-! ### Searches that pass over the square of the input -/

/-- Rules for `(`, which pushes `b`, and for `z`. -/
def rOpen : Rule := ⟨0, Props.StackLexer.reOpen, false, 0, [98], 0, none⟩
def rZ : Rule := ⟨1, ofMatch (litM [122]) (litM_bound _), false, 1, [], 0, none⟩

/-- The rule for `)` of the sub-lexer `b`, which pops. -/
def rClose : Rule := ⟨2, Props.StackLexer.reClose, false, 0, [], 1, none⟩

def sA : Sub := ⟨[some rOpen, some rZ]⟩
def sB : Sub := ⟨[some rClose]⟩

def pairsLexer : Lexer where
  lexers := fun x => if x = [97] then some sA else if x = [98] then some sB else none
  start := some sA
  «set» := (str (str (str (new : SymSet Bytes) [49]).1 [50]).1 [51]).1
  error := [69]
  compare := lengthThenPriority
  startKind := []
  startVal := []
  endKind := []
  endVal := []

/-- `()` repeated. -/
def pairs : Nat → Bytes
  | 0 => []
  | k + 1 => 40 :: 41 :: pairs k

theorem pairs_length : ∀ k, (pairs k).length = 2 * k
  | 0 => rfl
  | k + 1 => by
    rw [pairs, List.length_cons, List.length_cons, pairs_length k]
    omega

theorem pairs_drop : ∀ i k, (pairs (i + k)).drop (2 * i) = pairs k
  | 0, k => by simp
  | i + 1, k => by
    rw [show i + 1 + k = (i + k) + 1 by omega, show 2 * (i + 1) = 2 * i + 1 + 1 by omega, pairs]
    simp only [List.drop_succ_cons]
    exact pairs_drop i k

theorem pairs_drop' (i k : Nat) : (pairs (i + (k + 1))).drop (2 * i + 1) = 41 :: pairs k := by
  rw [← List.drop_drop, pairs_drop]
  rfl

theorem rune40 (x : Bytes) : runeLen (40 :: 41 :: x) = 1 := by
  rcases x with _ | ⟨a, _ | ⟨b, x⟩⟩ <;> rfl

theorem rune41 (k : Nat) : runeLen (41 :: pairs k) = 1 := by
  cases k with
  | zero => rfl
  | succ k => 
    rw [pairs]
    rcases pairs k with _ | ⟨a, x⟩ <;> rfl

theorem search_z : ∀ n k, search (litM [122]) n (pairs k) = none ∧ search (litM [122]) n (41 :: pairs k) = none
  | 0, k => by cases k <;> simp [search, pairs, litM]
  | n + 1, k => by
    have h41 : search (litM [122]) (n + 1) (41 :: pairs k) = none := by
      rw [search]
      simp only [litM, rune41]
      simp [(search_z n k).1]
    refine ⟨?_, h41⟩
    cases k with
    | zero => simp [search, pairs, litM]
    | succ k =>
      rw [pairs, search]
      simp only [rune40]
      simp [litM, (search_z n k).2]

theorem find_z (k i : Nat) : findFrom (pairs (i + k)) (2 * i) rZ = none := by
  unfold findFrom
  rw [pairs_drop]
  simp [rZ, ofMatch, (search_z _ _).1]

theorem find_open (i k : Nat) : findFrom (pairs (i + (k + 1))) (2 * i) rOpen = some ⟨0, 1, [], 2 * i⟩ := by
  unfold findFrom
  rw [pairs_drop]
  simp [rOpen, Props.StackLexer.reOpen, ofMatch, pairs, search, litM]

theorem find_close (i k : Nat) : findFrom (pairs (i + (k + 1))) (2 * i + 1) rClose = some ⟨0, 1, [], 2 * i + 1⟩ := by
  unfold findFrom
  rw [pairs_drop']
  simp [rClose, Props.StackLexer.reClose, ofMatch, search, litM]

/-- Outside of parentheses, before the pair `i`. -/
def Outside (i : Nat) (op : Op) : Prop :=
  op.sub = sA ∧ op.stack = [] ∧ op.next = [(some rOpen, some ⟨0, 1, [], 2 * i⟩), (some rZ, none)] ∧ op.cur = 2 * i

/-- Inside of the pair `i`. -/
def Within (i : Nat) (op : Op) : Prop :=
  op.sub = sB ∧ op.stack = [sA] ∧ op.next = [(some rClose, some ⟨0, 1, [], 2 * i + 1⟩)] ∧ op.cur = 2 * i + 1

theorem fill_within (i k : Nat) (op : Op) (h1 : op.sub = sB) (h2 : op.stack = [sA]) (h3 : op.cur = 2 * i + 1) :
    (populateNextS (pairs (i + (k + 1))) op).2 = [⟨2 * i + 1, some (2 * i + 1, 2 * i + 2)⟩] ∧
    Within i (populateNextS (pairs (i + (k + 1))) op).1 := by
  have hf := find_close i k
  refine ⟨?_, h1, h2, ?_, h3⟩
  · simp [populateNextS, h1, h3, sB, hf, searchOf]
  · simp [populateNextS, populateNext, h1, h3, sB, hf]

theorem fill_outside (i k : Nat) (op : Op) (h1 : op.sub = sA) (h2 : op.stack = []) (h3 : op.cur = 2 * i) :
    (populateNextS (pairs (i + (k + 1))) op).2 = [⟨2 * i, some (2 * i, 2 * i + 1)⟩, ⟨2 * i, none⟩] ∧
    Outside i (populateNextS (pairs (i + (k + 1))) op).1 := by
  have hf := find_open i k
  have hz := find_z (k + 1) i
  refine ⟨?_, h1, h2, ?_, h3⟩
  · simp [populateNextS, h1, h3, sA, hf, hz, searchOf]
  · simp [populateNextS, populateNext, h1, h3, sA, hf, hz]

theorem via {b : Bytes} {o : Op} {ss : List Search} {P : Op → Prop} (h : (populateNextS b o).2 = ss ∧ P (populateNextS b o).1) :
    ∃ op', Out.ok (Next.more (populateNextS b o).1, (populateNextS b o).2) = Out.ok (Next.more op', ss) ∧ P op' :=
  ⟨_, by rw [h.1], h.2⟩

theorem step_open (i k : Nat) (op : Op) (h : Outside i op) : ∃ op',
    bodyS lengthThenPriority pairsLexer.lexers 3 (pairs (i + (k + 1))) op = .ok (.more op', [⟨2 * i + 1, some (2 * i + 1, 2 * i + 2)⟩]) ∧
    Within i op' := by
  obtain ⟨h1, h2, h3, h4⟩ := h
  have hch : choose lengthThenPriority op.cur none op.next = some (rOpen, ⟨0, 1, [], 2 * i⟩) := by
    rw [h3, h4]
    simp [choose]
  unfold bodyS
  rw [hch]
  simp only
  rw [show value (pairs (i + (k + 1))) rOpen ⟨0, 1, [], 2 * i⟩ = .ok (SimpleLexer.slice (pairs (i + (k + 1))) (2 * i) (2 * i + 1)) from rfl]
  simp only [Out.bind_ok]
  rw [if_neg (by omega)]
  unfold moveStepS
  obtain ⟨e1, e2, e3⟩ := checkError_parts 3 (pairs (i + (k + 1))) { op with lines := op.lines + SimpleLexer.countNl (SimpleLexer.slice (pairs (i + (k + 1))) (2 * i + 0) (2 * i + 1)) }
  simp only [e1, e2, e3]
  have hlt : ¬ 2 * i + 1 ≥ (pairs (i + (k + 1))).length := by rw [pairs_length]; omega
  rw [if_neg hlt, if_neg (by decide), if_pos (by decide)]
  rw [show pairsLexer.lexers rOpen.push = some sB from rfl]
  simp only
  exact via (fill_within i k _ rfl (by simp [h1, h2]) rfl)

theorem step_close (i k : Nat) (op : Op) (h : Within i op) : ∃ op',
    bodyS lengthThenPriority pairsLexer.lexers 3 (pairs (i + (k + 2))) op =
      .ok (.more op', [⟨2 * (i + 1), some (2 * (i + 1), 2 * (i + 1) + 1)⟩, ⟨2 * (i + 1), none⟩]) ∧ Outside (i + 1) op' := by
  obtain ⟨h1, h2, h3, h4⟩ := h
  have hch : choose lengthThenPriority op.cur none op.next = some (rClose, ⟨0, 1, [], 2 * i + 1⟩) := by
    rw [h3, h4]
    simp [choose]
  unfold bodyS
  rw [hch]
  simp only
  rw [show value (pairs (i + (k + 2))) rClose ⟨0, 1, [], 2 * i + 1⟩ =
    .ok (SimpleLexer.slice (pairs (i + (k + 2))) (2 * i + 1) (2 * i + 1 + 1)) from rfl]
  simp only [Out.bind_ok]
  rw [if_neg (by omega)]
  unfold moveStepS
  obtain ⟨e1, e2, e3⟩ := checkError_parts 3 (pairs (i + (k + 2)))
    { op with lines := op.lines + SimpleLexer.countNl (SimpleLexer.slice (pairs (i + (k + 2))) (2 * i + 1 + 0) (2 * i + 1 + 1)) }
  simp only [e1, e2, e3]
  have hlt : ¬ 2 * i + 1 + 1 ≥ (pairs (i + (k + 2))).length := by rw [pairs_length]; omega
  rw [if_neg hlt, if_pos (by decide)]
  unfold popS
  simp only [h2, show rClose.pop = 1 from rfl, List.length_singleton, Nat.sub_self, List.getElem?_cons_zero, List.take_zero, Out.bind_ok]
  have := fill_outside (i + 1) k
  rw [show i + 1 + (k + 1) = i + (k + 2) by omega] at this
  exact via (this _ rfl rfl rfl)

theorem last_close (i : Nat) (op : Op) (h : Within i op) : ∃ op',
    bodyS lengthThenPriority pairsLexer.lexers 3 (pairs (i + 1)) op = .ok (.done op', []) := by
  obtain ⟨h1, h2, h3, h4⟩ := h
  have hch : choose lengthThenPriority op.cur none op.next = some (rClose, ⟨0, 1, [], 2 * i + 1⟩) := by
    rw [h3, h4]
    simp [choose]
  unfold bodyS
  rw [hch]
  simp only
  rw [show value (pairs (i + 1)) rClose ⟨0, 1, [], 2 * i + 1⟩ =
    .ok (SimpleLexer.slice (pairs (i + 1)) (2 * i + 1) (2 * i + 1 + 1)) from rfl]
  simp only [Out.bind_ok]
  rw [if_neg (by omega)]
  unfold moveStepS
  rw [if_pos (by simp only [pairs_length]; omega)]
  exact ⟨_, rfl⟩

theorem run : ∀ k i (op : Op), Outside i op →
    ∃ r, loopS lengthThenPriority pairsLexer.lexers 3 (pairs (i + (k + 1))) (2 * (k + 1)) op = .ok r ∧
      k * (k + 1) ≤ passedOver (pairs (i + (k + 1))) r.2
  | 0, i, op, h => by
    obtain ⟨op1, h1, h2⟩ := step_open i 0 op h
    obtain ⟨op2, h3⟩ := last_close i op1 h2
    refine ⟨(op2, [⟨2 * i + 1, some (2 * i + 1, 2 * i + 2)⟩] ++ []), ?_, by simp⟩
    rw [show 2 * (0 + 1) = 0 + 1 + 1 from rfl, loopS, h1]
    simp only [Out.bind_ok]
    rw [loopS, h3]
    rfl
  | k + 1, i, op, h => by
    obtain ⟨op1, h1, h2⟩ := step_open i (k + 1) op h
    obtain ⟨op2, h3, h4⟩ := step_close i k op1 h2
    obtain ⟨r, g1, g2⟩ := run k (i + 1) op2 h4
    rw [show i + 1 + (k + 1) = i + (k + 2) by omega] at g1 g2
    refine ⟨(r.1, [⟨2 * i + 1, some (2 * i + 1, 2 * i + 2)⟩] ++
      ([⟨2 * (i + 1), some (2 * (i + 1), 2 * (i + 1) + 1)⟩, ⟨2 * (i + 1), none⟩] ++ r.2)), ?_, ?_⟩
    · rw [show 2 * (k + 1 + 1) = 2 * (k + 1) + 1 + 1 by omega, loopS, h1]
      simp only [Out.bind_ok]
      rw [loopS]
      rw [show k + 1 + 1 = k + 2 from rfl, h3]
      simp only [Out.bind_ok]
      rw [g1]
      rfl
    · have hl : (pairs (i + (k + 2))).length = 2 * (i + (k + 2)) := pairs_length _
      unfold passedOver at g2 ⊢
      simp only [List.cons_append, List.nil_append, List.map_cons, List.sum_cons, show k + 1 + 1 = k + 2 from rfl]
      have l1 : passed (pairs (i + (k + 2))).length (2 * (i + 1)) none = 2 * (i + (k + 2)) - 2 * (i + 1) := by rw [hl]; rfl
      rw [l1]
      have : (k + 1) * (k + 2) = k * (k + 1) + 2 * (k + 1) := by
        rw [Nat.mul_comm, Nat.add_mul]
      omega

theorem quadratic (k : Nat) : ∃ r, lexS (2 * (k + 1)) pairsLexer (pairs (k + 1)) = .ok r ∧ k * (k + 1) ≤ passedOver (pairs (k + 1)) r.2 := by
  have hf := fill_outside 0 k
  obtain ⟨p1, p2⟩ := hf ⟨sA, [], [], [], false, 0, 0, 1⟩ rfl rfl rfl
  obtain ⟨r, h1, h2⟩ := run k 0 _ p2
  rw [Nat.zero_add] at h1 h2 p1
  unfold lexS
  rw [show pairsLexer.start = some sA from rfl]
  simp only
  rw [show pairsLexer.compare = lengthThenPriority from rfl, show pairsLexer.startKind = [] from rfl,
    show (str pairsLexer.set pairsLexer.error).2 = 3 by decide +kernel, if_neg (by simp), h1]
  refine ⟨_, rfl, ?_⟩
  unfold passedOver at h2 ⊢
  simp only [List.map_append, List.sum_append]
  omega

/-- C97 is refuted: with `(` leading to a sub-lexer that `)` leaves, and a rule for `z` outside of it, the searches pass over a number of
bytes that grows with the square of the input `()()…()`. Each time the sub-lexer is left the `z` that is not there is looked for
again, up to the end of the input. -/
theorem C97_refuted : ¬ ∃ K, ∀ R l b n r, (∀ s, l.start = some s → s.rules.length ≤ R) → (∀ x s, l.lexers x = some s → s.rules.length ≤ R) →
    lexS n l b = .ok r → passedOver b r.2 ≤ K * (R * (b.length + 1)) := by
  rintro ⟨K, h⟩
  obtain ⟨m, hm⟩ : ∃ m, m = 8 * K := ⟨_, rfl⟩
  obtain ⟨r, h1, h2⟩ := quadratic (m + 1)
  have h3 := h 2 _ _ _ _ (by
    intro s hs
    cases hs
    decide) (by
    intro x s hs
    unfold pairsLexer at hs
    simp only at hs
    split at hs
    · cases hs; decide
    · split at hs
      · cases hs; decide
      · cases hs) h1
  rw [pairs_length] at h3
  have h4 := Nat.le_trans h2 h3
  have h5 : (m + 2) * (m + 1) ≤ (m + 2) * m := by
    calc (m + 2) * (m + 1) = (m + 1) * (m + 1 + 1) := Nat.mul_comm _ _
      _ ≤ K * (2 * (2 * (m + 1 + 1) + 1)) := h4
      _ ≤ K * ((m + 2) * 8) := Nat.mul_le_mul_left _ (by omega)
      _ = (m + 2) * m := by rw [Nat.mul_left_comm, hm, Nat.mul_comm 8]
  rw [Nat.mul_add] at h5
  omega

/-- Six rounds for three pairs. `C97_partial` applies with `R = 2`. -/
example : (match lexS 8 pairsLexer (pairs 3) with
    | .ok r => some (r.1.1.map (·.val), r.2.map (·.start), looked (pairs 3) r.2, passedOver (pairs 3) r.2)
    | _ => none) = some ([[40], [41], [40], [41], [40], [41]], [0, 0, 1, 2, 2, 3, 4, 4, 5], 18, 12) := by decide +kernel

end Verif.Props.StackLexerSearch
