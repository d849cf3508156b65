import Verif.Proofs.SimpleLexerSearch
import Verif.Props.SimpleLexer
/-
C96: the work of the searches of the simple lexer.
-/
namespace Verif.Props.SimpleLexerSearch
open Verif Verif.SetSymbol Verif.SimpleLexer Verif.Spec
open Verif.Props.SimpleLexer (ofMatch)

/-- The bytes passed over by all of the searches before the matches that they find. -/
def passedOver (b : Bytes) (ss : List Search) : Nat := (ss.map fun s => passed b.length s.start s.found).sum

/-- The bytes that all of the searches look at at least. -/
def looked (b : Bytes) (ss : List Search) : Nat := (ss.map fun s => lookedAt b.length s.start s.found).sum

/-- C96, first part. Recording the searches changes nothing else. With `k` rules and `m` bytes there are at most `k * max 1 m` searches;
what they pass over before the matches that they find adds up to at most `k * m` bytes, and all that they look at to at most
`k * (1 + … + m)`. Missing: a linear bound on the last one, which fails (`C96_refuted`). -/
theorem C96_partial (l : Lexer) (b : Bytes) (n : Nat) (x : List Lx × Lexer) (h : lex n l b = .ok x) :
    ∃ ss, lexS n l b = .ok (x, ss) ∧ ss.length ≤ l.rules.length * max 1 b.length ∧
      passedOver b ss ≤ l.rules.length * b.length ∧
      2 * looked b ss ≤ l.rules.length * (b.length * (b.length + 1)) := by
  rw [← lexS_fst] at h
  obtain ⟨⟨y, ss⟩, h1, h2⟩ := Out.bind_eq_ok.1 h
  cases h2
  obtain ⟨g1, g2, g3⟩ := lexS_sums h1
  refine ⟨ss, h1, g1, g2, ?_⟩
  rw [← tri_eq, Nat.mul_left_comm]
  exact Nat.mul_le_mul_left 2 g3

/-! ### Searches that add up to the square of the input -/

/-- The matcher of `xa`. -/
def xaM : Bytes → Option Nat := litM [120, 97]

/-- The matcher of `(?s)a.*`: an `a` and all that follows it. -/
def restM : Bytes → Option Nat
  | 97 :: s => some (s.length + 1)
  | _ => none

theorem restM_bound : ∀ s n, restM s = some n → n ≤ s.length := by
  intro s n h
  unfold restM at h
  split at h
  · cases h; simp
  · cases h

/-- `xa` and `(?s)a.*`. -/
def two : Lexer := (add (add SimpleLexer.empty [49] (ofMatch xaM (litM_bound _)) false).1 [50] (ofMatch restM restM_bound) false).1

/-- `xa` repeated. -/
def xas : Nat → Bytes
  | 0 => []
  | k + 1 => 120 :: 97 :: xas k

def r0 : Rule := ⟨0, ofMatch xaM (litM_bound _), false, 0⟩
def r1 : Rule := ⟨1, ofMatch restM restM_bound, false, 1⟩

theorem xas_length : ∀ k, (xas k).length = 2 * k
  | 0 => rfl
  | k + 1 => by
    rw [xas, List.length_cons, List.length_cons, xas_length k]
    omega

theorem xas_drop : ∀ i k, (xas (i + k)).drop (2 * i) = xas k
  | 0, k => by simp
  | i + 1, k => by
    rw [show i + 1 + k = (i + k) + 1 by omega, show 2 * (i + 1) = 2 * i + 1 + 1 by omega, xas]
    simp only [List.drop_succ_cons]
    exact xas_drop i k

theorem find0 (k : Nat) : r0.re.find (xas (k + 1)) = some (0, 2) := by
  simp [r0, ofMatch, xas, search, xaM, litM]

theorem find1 (k : Nat) : r1.re.find (xas (k + 1)) = some (1, 2 * (k + 1)) := by
  have hl := xas_length k
  have hr : runeLen (120 :: 97 :: xas k) = 1 := by cases k <;> rfl
  show search restM _ (120 :: 97 :: xas k) = _
  rw [xas, List.length_cons, search]
  simp only [restM, hr, List.drop_succ_cons, List.drop_zero, List.length_cons]
  rw [if_neg (by simp), search]
  simp only [restM, Option.map_some, hl]
  congr 2

/-- The entries after the update at `2 * i`. -/
def entries (i k : Nat) : List (Rule × Option (Nat × Nat)) := [(r0, some (2 * i, 2 * i + 2)), (r1, some (2 * i + 1, 2 * (i + k)))]

theorem step (error : Bytes) (i k : Nat) (op : Op) (hn : op.next = entries i (k + 1)) (hc : op.cur = 2 * i) :
    ∃ op', body lengthThenPriority error (xas (i + (k + 1))) op = .ok op' ∧ op'.next = op.next ∧ op'.cur = 2 * (i + 1) := by
  have hch : choose lengthThenPriority (xas (i + (k + 1))) op.cur ⟨none, [], op.cur, -1⟩ op.next =
      ⟨some r0, slice (xas (i + (k + 1))) (2 * i) (2 * i + 2), 2 * i + 2, 0⟩ := by
    rw [hn, hc]
    simp only [entries, choose]
    have : lengthThenPriority ↑(2 * i + 2) r0.priority ↑(2 * i) (-1) = true := by
      rw [ltp_iff]
      left
      omega
    rw [if_pos ⟨trivial, this⟩, if_neg (by simp)]
    rfl
  have hck : ∀ o : Op, (checkError error (xas (i + (k + 1))) o).next = o.next := by
    intro o
    unfold checkError
    split <;> rfl
  unfold body findNextMatch
  rw [hch]
  simp only
  rw [if_neg (by omega)]
  exact ⟨_, rfl, by simp only [hck], by simp only; omega⟩

theorem refresh (i k : Nat) (op : Op) (hn : op.next = entries i (k + 2)) (hc : op.cur = 2 * (i + 1)) :
    (updateNextS (xas (i + (k + 2))) op).1.next = entries (i + 1) (k + 1) ∧
    (updateNextS (xas (i + (k + 2))) op).2 = [⟨2 * (i + 1), some (2 * (i + 1), 2 * (i + 1) + 2)⟩,
      ⟨2 * (i + 1), some (2 * (i + 1) + 1, 2 * (i + (k + 2)))⟩] := by
  have hd : (xas (i + (k + 2))).drop (2 * (i + 1)) = xas (k + 1) := by
    rw [show i + (k + 2) = (i + 1) + (k + 1) by omega]
    exact xas_drop _ _
  have h0 := find0 k
  have h1 := find1 k
  have c0 : 2 * i ≤ 2 * (i + 1) := by omega
  have c1 : 2 * i + 1 ≤ 2 * (i + 1) := by omega
  unfold updateNextS
  simp only [hn, hc, entries, List.map_cons, List.map_nil, refindS, hd, h0, h1, if_pos c0, if_pos c1, Option.map_some, List.flatMap_cons,
    List.flatMap_nil, List.append_nil]
  have e1 : 0 + 2 * (i + 1) = 2 * (i + 1) := by omega
  have e2 : 2 + 2 * (i + 1) = 2 * (i + 1) + 2 := by omega
  have e3 : 1 + 2 * (i + 1) = 2 * (i + 1) + 1 := by omega
  have e4 : 2 * (k + 1) + 2 * (i + 1) = 2 * (i + (k + 2)) := by omega
  have e5 : i + 1 + (k + 1) = i + (k + 2) := by omega
  rw [e1, e2, e3, e4, e5]
  exact ⟨rfl, rfl⟩

theorem run (error : Bytes) : ∀ k i (op : Op), op.next = entries i (k + 1) → op.cur = 2 * i →
    ∃ r, loopS lengthThenPriority error (xas (i + (k + 1))) (k + 1) op = .ok r ∧ k * (k + 1) ≤ looked (xas (i + (k + 1))) r.2
  | 0, i, op, hn, hc => by
    obtain ⟨op1, h1, -, h3⟩ := step error i 0 op hn hc
    refine ⟨(op1, []), ?_, by simp⟩
    rw [loopS, h1]
    simp only [Out.bind_ok]
    rw [if_pos (by rw [xas_length, h3])]
  | k + 1, i, op, hn, hc => by
    obtain ⟨op1, h1, h2, h3⟩ := step error i (k + 1) op hn hc
    obtain ⟨u1, u2⟩ := refresh i k op1 (h2.trans hn) h3
    obtain ⟨r, g1, g2⟩ := run error k (i + 1) _ u1 h3
    rw [show i + 1 + (k + 1) = i + (k + 2) by omega] at g1 g2
    refine ⟨(r.1, (updateNextS (xas (i + (k + 2))) op1).2 ++ r.2), ?_, ?_⟩
    · rw [loopS]
      rw [show k + 1 + 1 = k + 2 from rfl] at h1 ⊢
      rw [h1]
      simp only [Out.bind_ok]
      rw [if_neg (by rw [xas_length, h3]; omega), g1]
      rfl
    · have hl : (xas (i + (k + 2))).length = 2 * (i + (k + 2)) := xas_length _
      unfold looked at g2 ⊢
      rw [u2]
      simp only [List.cons_append, List.nil_append, List.map_cons, List.sum_cons, show k + 1 + 1 = k + 2 from rfl]
      have l1 : lookedAt (xas (i + (k + 2))).length (2 * (i + 1)) (some (2 * (i + 1) + 1, 2 * (i + (k + 2)))) =
        2 * (i + (k + 2)) - 2 * (i + 1) := rfl
      rw [l1]
      have : (k + 1) * (k + 2) = k * (k + 1) + 2 * (k + 1) := by
        rw [Nat.mul_comm, Nat.add_mul]
      omega

theorem quadratic (k : Nat) : ∃ r, lexS (k + 1) two (xas (k + 1)) = .ok r ∧ k * (k + 1) ≤ looked (xas (k + 1)) r.2 := by
  have hp : populateNextS (xas (k + 1)) two.rules = .ok (entries 0 (k + 1), [⟨0, some (0, 2)⟩, ⟨0, some (1, 2 * (k + 1))⟩]) := by
    have : two.rules = [some r0, some r1] := rfl
    rw [this]
    simp only [populateNextS, find0, find1, Out.bind_ok, entries]
    simp
  obtain ⟨r, h1, h2⟩ := run two.error k 0 ⟨entries 0 (k + 1), [], false, 0, 0, 0, two.set⟩ rfl rfl
  rw [Nat.zero_add] at h1 h2
  unfold lexS
  rw [hp]
  simp only [Out.bind_ok]
  have hc : two.compare = lengthThenPriority := rfl
  have hs : two.startKind = [] := rfl
  rw [hc, hs, if_neg (by simp), h1]
  refine ⟨_, rfl, ?_⟩
  unfold looked at h2 ⊢
  simp only [List.cons_append, List.nil_append, List.map_cons, List.sum_cons]
  omega

/-- C96 is refuted: with the two rules `xa` and `(?s)a.*` the searches look at a number of bytes that grows with the square of the
input `xaxa…xa`. The match of the second rule begins inside of each lexeme and reaches to the end of the input, so that it is made
again, and never taken, after each lexeme. -/
theorem C96_refuted : ¬ ∃ K, ∀ l b n r, lexS n l b = .ok r → looked b r.2 ≤ K * (l.rules.length * (b.length + 1)) := by
  rintro ⟨K, h⟩
  obtain ⟨m, hm⟩ : ∃ m, m = 8 * K := ⟨_, rfl⟩
  obtain ⟨r, h1, h2⟩ := quadratic (m + 1)
  have h3 := h _ _ _ _ h1
  have e1 : two.rules.length = 2 := rfl
  rw [e1, xas_length] at h3
  have h4 := Nat.le_trans h2 h3
  have h5 : (m + 2) * (m + 1) ≤ (m + 2) * m := by
    calc (m + 2) * (m + 1) = (m + 1) * (m + 1 + 1) := Nat.mul_comm _ _
      _ ≤ K * (2 * (2 * (m + 1 + 1) + 1)) := h4
      _ ≤ K * ((m + 2) * 8) := Nat.mul_le_mul_left _ (by omega)
      _ = (m + 2) * m := by rw [Nat.mul_left_comm, hm, Nat.mul_comm 8]
  rw [Nat.mul_add] at h5
  omega

/-- Three rounds, six searches; each of the lexemes is `xa`. -/
example : (match lexS 5 two (xas 3) with
    | .ok r => some (r.1.1.map (·.val), r.2.map (·.start), looked (xas 3) r.2, passedOver (xas 3) r.2)
    | _ => none) = some ([[120, 97], [120, 97], [120, 97]], [0, 0, 2, 2, 4, 4], 18, 3) := by decide +kernel

end Verif.Props.SimpleLexerSearch
