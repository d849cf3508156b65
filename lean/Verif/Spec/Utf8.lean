import Verif.Spec.Lexer
/-
Width of the first rune of a byte string, as Go's `utf8.DecodeRune` (standard library) has it: the
encodings of Table 3-7 of the Unicode standard, anything else is one byte wide.
-/
namespace Verif.Spec

/-- Byte in an inclusive range. -/
def inRange (lo hi : Nat) (x : UInt8) : Bool := lo ≤ x.toNat && x.toNat ≤ hi

/-- A continuation byte. -/
def isCont (x : UInt8) : Bool := inRange 0x80 0xBF x

/-- Width of the first rune. -/
def runeLen : List UInt8 → Nat
  | a :: b :: c :: d :: _ =>
    if inRange 0xC2 0xDF a && isCont b then 2
    else if ((inRange 0xE0 0xE0 a && inRange 0xA0 0xBF b) || (inRange 0xE1 0xEC a && isCont b) ||
        (inRange 0xED 0xED a && inRange 0x80 0x9F b) || (inRange 0xEE 0xEF a && isCont b)) && isCont c then 3
    else if ((inRange 0xF0 0xF0 a && inRange 0x90 0xBF b) || (inRange 0xF1 0xF3 a && isCont b) ||
        (inRange 0xF4 0xF4 a && inRange 0x80 0x8F b)) && isCont c && isCont d then 4
    else 1
  | [a, b, c] =>
    if inRange 0xC2 0xDF a && isCont b then 2
    else if ((inRange 0xE0 0xE0 a && inRange 0xA0 0xBF b) || (inRange 0xE1 0xEC a && isCont b) ||
        (inRange 0xED 0xED a && inRange 0x80 0x9F b) || (inRange 0xEE 0xEF a && isCont b)) && isCont c then 3
    else 1
  | [a, b] => if inRange 0xC2 0xDF a && isCont b then 2 else 1
  | _ => 1

/-- A continuation byte is not the beginning of an encoding. -/
theorem runeLen_cont {x : UInt8} {s : List UInt8} (h : isCont x = true) : runeLen (x :: s) = 1 := by
  have hx : 0x80 ≤ x.toNat ∧ x.toNat ≤ 0xBF := by simpa [isCont, inRange] using h
  have F : ∀ lo hi, 0xBF < lo → inRange lo hi x = false := by
    intro lo hi hl
    simp only [inRange, Bool.and_eq_false_imp, decide_eq_true_eq, decide_eq_false_iff_not]
    omega
  rcases s with _ | ⟨b, _ | ⟨c, _ | ⟨d, s⟩⟩⟩ <;>
    simp [runeLen, F]

/-- The bytes of the first rune after its first are continuation bytes. -/
theorem runeLen_tail {s : List UInt8} {j : Nat} (h0 : 0 < j) (hj : j < runeLen s) :
    ∃ x t, s.drop j = x :: t ∧ isCont x = true := by
  have R : ∀ lo hi x, 0x80 ≤ lo → hi ≤ 0xBF → inRange lo hi x = true → isCont x = true := by
    intro lo hi x h1 h2 h
    simp only [isCont, inRange, Bool.and_eq_true, decide_eq_true_eq] at h ⊢
    omega
  have R1 := R 0xA0 0xBF
  have R2 := R 0x80 0x9F
  have R3 := R 0x90 0xBF
  have R4 := R 0x80 0x8F
  rcases s with _ | ⟨a, _ | ⟨b, _ | ⟨c, _ | ⟨d, s⟩⟩⟩⟩
  · simp [runeLen] at hj; omega
  · simp [runeLen] at hj; omega
  · simp only [runeLen] at hj
    split at hj
    · next h =>
      simp only [Bool.and_eq_true] at h
      have : j = 1 := by omega
      subst this; exact ⟨b, [], rfl, h.2⟩
    · omega
  · simp only [runeLen] at hj
    split at hj
    · next h =>
      simp only [Bool.and_eq_true] at h
      have : j = 1 := by omega
      subst this; exact ⟨b, [c], rfl, h.2⟩
    · split at hj
      · next h =>
        simp only [Bool.and_eq_true, Bool.or_eq_true] at h
        have : j = 1 ∨ j = 2 := by omega
        rcases this with rfl | rfl
        · refine ⟨b, [c], rfl, ?_⟩
          rcases h.1 with ((h | h) | h) | h
          · exact R1 b (by omega) (by omega) h.2
          · exact h.2
          · exact R2 b (by omega) (by omega) h.2
          · exact h.2
        · exact ⟨c, [], rfl, h.2⟩
      · omega
  · simp only [runeLen] at hj
    split at hj
    · next h =>
      simp only [Bool.and_eq_true] at h
      have : j = 1 := by omega
      subst this; exact ⟨b, _, rfl, h.2⟩
    · split at hj
      · next h =>
        simp only [Bool.and_eq_true, Bool.or_eq_true] at h
        have : j = 1 ∨ j = 2 := by omega
        rcases this with rfl | rfl
        · refine ⟨b, _, rfl, ?_⟩
          rcases h.1 with ((h | h) | h) | h
          · exact R1 b (by omega) (by omega) h.2
          · exact h.2
          · exact R2 b (by omega) (by omega) h.2
          · exact h.2
        · exact ⟨c, _, rfl, h.2⟩
      · split at hj
        · next h =>
          simp only [Bool.and_eq_true, Bool.or_eq_true] at h
          have : j = 1 ∨ j = 2 ∨ j = 3 := by omega
          rcases this with rfl | rfl | rfl
          · refine ⟨b, _, rfl, ?_⟩
            rcases h.1.1 with (h | h) | h
            · exact R3 b (by omega) (by omega) h.2
            · exact h.2
            · exact R4 b (by omega) (by omega) h.2
          · exact ⟨c, _, rfl, h.1.2⟩
          · exact ⟨d, _, rfl, h.2⟩
        · omega

theorem runeLen_pos (s : List UInt8) : 0 < runeLen s := by
  unfold runeLen
  split
  · split
    · omega
    · split
      · omega
      · split <;> omega
  · split
    · omega
    · split <;> omega
  · split <;> omega
  · omega

/-- Stepping byte by byte through the rest of a cut rune arrives at its end. -/
private theorem bd_cont (s : List UInt8) (p : Nat) (k : Nat) (c : Nat) (hc : 0 < c)
    (hk : c + k = runeLen s) (h : Bd runeLen (s.drop (runeLen s)) p) :
    Bd runeLen (s.drop c) (k + p) := by
  induction k generalizing c with
  | zero =>
    have : c = runeLen s := by omega
    rw [this]; simpa using h
  | succ k ih =>
    obtain ⟨x, t, e, hx⟩ := runeLen_tail hc (show c < runeLen s by omega)
    have h1 : runeLen (s.drop c) = 1 := by rw [e]; exact runeLen_cont hx
    have := Bd.next (step := runeLen) (s := s.drop c) (i := k + p) (by rw [e]; simp) (by
      rw [h1, List.drop_drop]; exact ih (c + 1) (by omega) (by omega))
    rw [h1] at this
    rwa [show k + 1 + p = 1 + (k + p) by omega]

/-- UTF-8 is self-synchronising, also for input that is not valid UTF-8. -/
theorem sync_runeLen : Sync runeLen := by
  intro s c p h hcp
  induction h generalizing c with
  | zero =>
    have : c = 0 := by omega
    subst this; exact .zero
  | @next s i hs r ih =>
    by_cases hc : c < runeLen s
    · by_cases h0 : c = 0
      · subst h0; exact .next hs r
      · have := bd_cont s i (runeLen s - c) c (by omega) (by omega) r
        rwa [show runeLen s + i - c = runeLen s - c + i by omega]
    · have := ih (c - runeLen s) (by omega)
      rw [List.drop_drop, show runeLen s + (c - runeLen s) = c by omega] at this
      rwa [show runeLen s + i - c = i - (c - runeLen s) by omega]

/-- With one-byte runes every position up to the end is a rune start. -/
theorem bd_one {s : List UInt8} {i : Nat} (h : i ≤ s.length) : Bd (fun _ => 1) s i := by
  induction i generalizing s with
  | zero => exact .zero
  | succ i ih =>
    have := Bd.next (step := fun _ => 1) (s := s) (i := i) (by rintro rfl; simp at h)
      (ih (by simp; omega))
    rwa [show i + 1 = 1 + i by omega]

/-- In ASCII text every position is a rune start. -/
theorem bd_ascii {s : List UInt8} (ha : ∀ x ∈ s, x.toNat < 0x80) {i : Nat} (h : i ≤ s.length) :
    Bd runeLen s i := by
  induction i generalizing s with
  | zero => exact .zero
  | succ i ih =>
    cases s with
    | nil => simp at h
    | cons x s =>
      have hx := ha x (List.mem_cons_self ..)
      have F : ∀ lo hi, 0x80 ≤ lo → inRange lo hi x = false := by
        intro lo hi hl
        simp only [inRange, Bool.and_eq_false_imp, decide_eq_true_eq, decide_eq_false_iff_not]
        omega
      have h1 : runeLen (x :: s) = 1 := by
        rcases s with _ | ⟨b, _ | ⟨c, _ | ⟨d, s⟩⟩⟩ <;> simp [runeLen, F]
      have := Bd.next (step := runeLen) (s := x :: s) (i := i) (by simp) (by
        rw [h1]
        exact ih (fun y hy => ha y (List.mem_cons_of_mem _ hy)) (by simpa using h))
      rw [h1] at this
      rwa [show i + 1 = 1 + i by omega]

theorem bd_le {step : List UInt8 → Nat} (hs : ∀ s, s ≠ [] → step s ≤ s.length) {s : List UInt8}
    {i : Nat} (h : Bd step s i) : i ≤ s.length := by
  induction h with
  | zero => omega
  | @next s i h r ih =>
    have := hs s h
    simp at ih; omega

theorem sync_one : Sync (fun _ => 1) := by
  intro s c p h hcp
  have := bd_le (step := fun _ => 1) (by
    intro s h; cases s with
    | nil => exact absurd rfl h
    | cons a l => simp) h
  exact bd_one (by simp; omega)

end Verif.Spec
