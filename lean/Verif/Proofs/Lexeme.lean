import Verif.Model.Lexeme
import Verif.Spec.Numeral
/-
Printed numbers and quoted values can be read back.
-/
namespace Verif.Lexeme
open Verif.Spec Verif.TreeText

/-! ### Cutting a text where a class ends -/

theorem cut {P : Char → Prop} : ∀ {a b s s' : Str}, (∀ c ∈ a, P c) → (∀ c ∈ b, P c) → (∀ c ∈ s.head?, ¬ P c) → (∀ c ∈ s'.head?, ¬ P c) →
    a ++ s = b ++ s' → a = b ∧ s = s'
  | [], [], _, _, _, _, _, _, e => ⟨rfl, e⟩
  | [], y :: b, s, s', _, hb, hs, _, e => by
    have e : s = y :: (b ++ s') := e
    subst e
    exact absurd (hb y (by simp)) (hs y (by simp))
  | x :: a, [], s, s', ha, _, _, hs', e => by
    have e : x :: (a ++ s) = s' := e
    subst e
    exact absurd (ha x (by simp)) (hs' x (by simp))
  | x :: a, y :: b, s, s', ha, hb, hs, hs', e => by
    simp only [List.cons_append, List.cons.injEq] at e
    obtain ⟨h1, h2⟩ := cut (fun c hc => ha c (by simp [hc])) (fun c hc => hb c (by simp [hc])) hs hs' e.2
    exact ⟨by rw [e.1, h1], h2⟩

/-! ### Numbers -/

/-- The value of a hexadecimal digit. -/
def unhex (c : Char) : Nat := ['0', '1', '2', '3', '4', '5', '6', '7', '8', '9', 'a', 'b', 'c', 'd', 'e', 'f'].idxOf c

theorem unhex_hex (n : Nat) : unhex (hex n) = n % 16 := by
  have : ∀ m < 16, unhex (hex m) = m := by decide
  have h := this (n % 16) (Nat.mod_lt _ (by decide))
  rwa [show hex (n % 16) = hex n by simp [hex]] at h

theorem hex_digit : ∀ {n : Nat}, n < 10 → charNumerals.digit (hex n) = some n := by decide

theorem decF_digits : ∀ f n, n < f → Digits charNumerals (decF f n) n
  | 0, _, h => absurd h (by omega)
  | f + 1, n, h => by
    rw [decF]
    split
    · rename_i hn
      rw [Nat.mod_eq_of_lt hn, List.nil_append]
      exact .one (hex_digit hn)
    · have h1 := decF_digits f (n / 10) (by omega)
      have := Digits.more h1 (hex_digit (n := n % 10) (by omega))
      rwa [Nat.div_add_mod] at this

/-- The numerals printed are decimal numerals of the numbers. -/
theorem dec_numeral : ∀ i : Int, Numeral charNumerals (dec i) i
  | .ofNat n => .plain (decF_digits _ _ (by omega))
  | .negSucc n => .minus (decF_digits (n + 2) (n + 1) (by omega))

theorem digits_cons {s : Str} {n : Nat} (h : Digits charNumerals s n) : ∀ {s' n'}, Digits charNumerals s' n' → s = s' → n = n' := by
  induction h with
  | one h1 =>
    intro s' n' h' e
    cases h' with
    | one h2 => cases e; rw [h1] at h2; exact Option.some.inj h2
    | @more s' n' c d h2 h3 =>
      have : s' = [] := by
        have := congrArg List.length e
        simp at this
        exact this
      subst this
      generalize hz : ([] : List Char) = z at h2
      cases h2 with
      | one => cases hz
      | more => simp at hz
  | @more s n c d h1 h2 ih =>
    intro s' n' h' e
    cases h' with
    | @one c' d' h3 =>
      have : s = [] := by
        have := congrArg List.length e
        simp at this
        exact this
      subst this
      generalize hz : ([] : List Char) = z at h1
      cases h1 with
      | one => cases hz
      | more => simp at hz
    | more h3 h4 =>
      obtain ⟨e1, e2⟩ := List.append_inj' e rfl
      cases e2
      rw [ih h3 e1]
      rw [h2] at h4
      cases h4
      rfl

/-- Characters of numbers. -/
def NumChar (c : Char) : Prop := c = '-' ∨ ∃ d, charNumerals.digit c = some d

theorem digits_chars {s : Str} {n : Nat} (h : Digits charNumerals s n) : ∀ c ∈ s, ∃ d, charNumerals.digit c = some d := by
  induction h with
  | one h => intro c hc; cases List.mem_singleton.1 hc; exact ⟨_, h⟩
  | more _ h ih =>
    intro c hc
    rcases List.mem_append.1 hc with hc | hc
    · exact ih c hc
    · cases List.mem_singleton.1 hc; exact ⟨_, h⟩

theorem dec_chars (i : Int) : ∀ c ∈ dec i, NumChar c := by
  cases i with
  | ofNat n => exact fun c hc => .inr (digits_chars (decF_digits (n + 1) n (by omega)) c hc)
  | negSucc n =>
    intro c hc
    rcases List.mem_cons.1 hc with rfl | hc
    · exact .inl rfl
    · exact .inr (digits_chars (decF_digits (n + 2) (n + 1) (by omega)) c hc)

theorem minus_no_digit (s : Str) {n} : ¬ Digits charNumerals ('-' :: s) n := fun h => by
  obtain ⟨d, hd⟩ := digits_chars h '-' (by simp)
  revert hd
  have : charNumerals.digit '-' = none := by decide
  simp [this]

theorem dec_inj {i j : Int} (h : dec i = dec j) : i = j := by
  cases i with
  | ofNat n =>
    cases j with
    | ofNat m => rw [digits_cons (decF_digits (n + 1) n (by omega)) (decF_digits (m + 1) m (by omega)) h]
    | negSucc m =>
      have := decF_digits (n + 1) n (by omega)
      rw [show decF (n + 1) n = '-' :: decF (m + 2) (m + 1) from h] at this
      exact absurd this (minus_no_digit _)
  | negSucc n =>
    cases j with
    | ofNat m =>
      have := decF_digits (m + 1) m (by omega)
      rw [show decF (m + 1) m = '-' :: decF (n + 2) (n + 1) from h.symm] at this
      exact absurd this (minus_no_digit _)
    | negSucc m =>
      have := digits_cons (decF_digits (n + 2) (n + 1) (by omega)) (decF_digits (m + 2) (m + 1) (by omega)) (List.cons.inj h).2
      rw [show n = m by omega]

theorem dec_cut {i j : Int} {x y : Char} {r r' : Str} (hx : ¬ NumChar x) (hy : ¬ NumChar y) (h : dec i ++ x :: r = dec j ++ y :: r') :
    i = j ∧ x = y ∧ r = r' := by
  obtain ⟨h1, h2⟩ := cut (P := NumChar) (dec_chars i) (dec_chars j) (by simpa using hx) (by simpa using hy) h
  cases h2
  exact ⟨dec_inj h1, rfl, rfl⟩

/-! ### Quoted values -/

/-- Reads an escape after its backslash. -/
def unqE : Str → Option (Char × Str)
  | [] => none
  | 'a' :: r => some (Char.ofNat 7, r)
  | 'b' :: r => some (Char.ofNat 8, r)
  | 'f' :: r => some (Char.ofNat 12, r)
  | 'n' :: r => some ('\n', r)
  | 'r' :: r => some ('\r', r)
  | 't' :: r => some ('\t', r)
  | 'v' :: r => some (Char.ofNat 11, r)
  | 'x' :: a :: b :: r => some (Char.ofNat (unhex a * 16 + unhex b), r)
  | 'u' :: a :: b :: c :: d :: r => some (Char.ofNat (((unhex a * 16 + unhex b) * 16 + unhex c) * 16 + unhex d), r)
  | 'U' :: a :: b :: c :: d :: e :: f :: g :: h :: r =>
    some (Char.ofNat (((((((unhex a * 16 + unhex b) * 16 + unhex c) * 16 + unhex d) * 16 + unhex e) * 16 + unhex f) * 16 + unhex g) * 16 + unhex h), r)
  | c :: r => some (c, r)

/-- Reads one character of a quoted value. -/
def unq : Str → Option (Char × Str)
  | [] => none
  | c :: r => if c = '\\' then unqE r else some (c, r)

theorem unq_plain {c : Char} (h : c ≠ '\\') (r : Str) : unq (c :: r) = some (c, r) := by simp [unq, unqE, h]

theorem ofNat_of {c : Char} {n : Nat} (h : c.toNat = n) : Char.ofNat n = c := by rw [← h, Char.ofNat_toNat]

theorem unq_quoteChar (isPrint : Char → Bool) (c : Char) (r : Str) : unq (quoteChar isPrint c ++ r) = some (c, r) := by
  have hlt : c.toNat < 0x110000 := by
    have := c.valid
    simp only [UInt32.isValidChar, Nat.isValidChar] at this
    have : c.toNat = c.val.toNat := rfl
    omega
  unfold quoteChar
  by_cases h1 : c = '"' ∨ c = '\\'
  · rw [if_pos h1]
    rcases h1 with rfl | rfl <;> rfl
  rw [if_neg h1]
  by_cases h2 : isPrint c = true
  · rw [if_pos h2]
    exact unq_plain (fun e => h1 (.inr e)) r
  rw [if_neg h2]
  by_cases h3 : c.toNat = 7
  · rw [if_pos h3]
    exact congrArg (fun x => some (x, r)) (ofNat_of h3)
  rw [if_neg h3]
  by_cases h4 : c.toNat = 8
  · rw [if_pos h4]
    exact congrArg (fun x => some (x, r)) (ofNat_of h4)
  rw [if_neg h4]
  by_cases h5 : c.toNat = 12
  · rw [if_pos h5]
    exact congrArg (fun x => some (x, r)) (ofNat_of h5)
  rw [if_neg h5]
  by_cases h6 : c = '\n'
  · rw [if_pos h6]
    rw [h6]; rfl
  rw [if_neg h6]
  by_cases h7 : c = '\r'
  · rw [if_pos h7]
    rw [h7]; rfl
  rw [if_neg h7]
  by_cases h8 : c = '\t'
  · rw [if_pos h8]
    rw [h8]; rfl
  rw [if_neg h8]
  by_cases h9 : c.toNat = 11
  · rw [if_pos h9]
    exact congrArg (fun x => some (x, r)) (ofNat_of h9)
  rw [if_neg h9]
  by_cases h10 : c.toNat < 32 ∨ c.toNat = 127
  · rw [if_pos h10]
    refine (congrArg (fun x => some (x, r)) (ofNat_of (c := c) ?_))
    simp only [unhex_hex]
    omega
  rw [if_neg h10]
  by_cases h11 : c.toNat < 0x10000
  · rw [if_pos h11]
    refine (congrArg (fun x => some (x, r)) (ofNat_of (c := c) ?_))
    simp only [unhex_hex]
    omega
  rw [if_neg h11]
  refine (congrArg (fun x => some (x, r)) (ofNat_of (c := c) ?_))
  simp only [unhex_hex]
  omega

theorem quoteChar_head (isPrint : Char → Bool) (c : Char) : ∃ x xs, quoteChar isPrint c = x :: xs ∧ x ≠ '"' := by
  by_cases h : c = '"' ∨ c = '\\'
  · exact ⟨'\\', [c], by simp [quoteChar, h], by decide⟩
  · by_cases hp : isPrint c = true
    · exact ⟨c, [], by simp [quoteChar, h, hp], fun e => h (.inl e)⟩
    · unfold quoteChar
      rw [if_neg h, if_neg hp]
      repeat' split
      all_goals exact ⟨_, _, rfl, by decide⟩

theorem quote_cut (isPrint : Char → Bool) : ∀ {v v' r r' : Str}, v.flatMap (quoteChar isPrint) ++ '"' :: r = v'.flatMap (quoteChar isPrint) ++ '"' :: r' → v = v' ∧ r = r'
  | [], [], _, _, e => by simpa using e
  | [], c :: v', r, r', e => by
    obtain ⟨x, xs, e1, e2⟩ := quoteChar_head isPrint c
    simp only [List.flatMap_cons, e1, List.flatMap_nil, List.nil_append, List.cons_append, List.cons.injEq] at e
    exact absurd e.1.symm e2
  | c :: v, [], r, r', e => by
    obtain ⟨x, xs, e1, e2⟩ := quoteChar_head isPrint c
    simp only [List.flatMap_cons, e1, List.flatMap_nil, List.nil_append, List.cons_append, List.cons.injEq] at e
    exact absurd e.1 e2
  | c :: v, c' :: v', r, r', e => by
    simp only [List.flatMap_cons, List.append_assoc] at e
    have := congrArg unq e
    rw [unq_quoteChar, unq_quoteChar] at this
    simp only [Option.some.injEq, Prod.mk.injEq] at this
    obtain ⟨rfl, this⟩ := this
    obtain ⟨rfl, h2⟩ := quote_cut isPrint this
    exact ⟨rfl, h2⟩

theorem quote_inj (isPrint : Char → Bool) {v v' r r' : Str} (h : quote isPrint v ++ r = quote isPrint v' ++ r') : v = v' ∧ r = r' := by
  simp only [quote, List.cons_append, List.append_assoc, List.cons.injEq, true_and, List.nil_append] at h
  exact quote_cut isPrint h

/-- No new line in a quoted value. -/
theorem quote_line {isPrint : Char → Bool} (hp : isPrint '\n' = false) (v : Str) : '\n' ∉ quote isPrint v := by
  have hex_nl : ∀ n, hex n ≠ '\n' := by
    intro n
    have : ∀ m < 16, hex m ≠ '\n' := by decide
    have h := this (n % 16) (Nat.mod_lt _ (by decide))
    rwa [show hex (n % 16) = hex n by simp [hex]] at h
  have hc : ∀ c, '\n' ∉ quoteChar isPrint c := by
    intro c
    by_cases h : c = '"' ∨ c = '\\'
    · rcases h with rfl | rfl <;> simp [quoteChar]
    by_cases h1 : isPrint c = true
    · intro e
      simp only [quoteChar, h, h1, if_true, if_false, List.mem_singleton] at e
      rw [← e, hp] at h1
      cases h1
    unfold quoteChar
    rw [if_neg h, if_neg h1]
    repeat' split
    all_goals simp only [List.mem_cons, List.not_mem_nil, or_false, not_or]
    all_goals try (simp [(hex_nl _).symm]; done)
    all_goals decide
  simp only [quote, List.mem_cons, List.mem_append, List.mem_flatMap, not_or, not_exists, not_and]
  simp
  exact fun c _ => hc c

end Verif.Lexeme
