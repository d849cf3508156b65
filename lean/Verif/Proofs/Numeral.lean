import Verif.Spec.Numeral
import Verif.Model.ReducerDSL
import Verif.Model.StackLexerNew
/-
The two models of `strconv.Atoi` are right.
-/
namespace Verif.Spec

theorem charDigit {c : Char} {d : Nat} : charNumerals.digit c = some d ↔ ('0' ≤ c ∧ c ≤ '9') ∧ c.toNat - 48 = d := by
  have key : ∀ n : Nat, n < 128 → ∀ d : Nat, d < 10 →
      (charNumerals.digit (Char.ofNat n) = some d ↔ ('0' ≤ Char.ofNat n ∧ Char.ofNat n ≤ '9') ∧ (Char.ofNat n).toNat - 48 = d) := by
    decide +kernel
  constructor
  · intro h
    have hd : d < 10 := by
      simp only [charNumerals, List.idxOf?] at h
      have := List.findIdx?_eq_some_iff_getElem.1 h
      simpa using this.1
    have hc : c ∈ ['0', '1', '2', '3', '4', '5', '6', '7', '8', '9'] := by
      simp only [charNumerals, List.idxOf?] at h
      obtain ⟨h1, h2, _⟩ := List.findIdx?_eq_some_iff_getElem.1 h
      rw [← (beq_iff_eq.1 h2)]
      exact List.getElem_mem _
    have : c.toNat < 128 := by
      simp only [List.mem_cons, List.not_mem_nil, or_false] at hc
      rcases hc with rfl | rfl | rfl | rfl | rfl | rfl | rfl | rfl | rfl | rfl <;> decide
    have h3 := key c.toNat this d hd
    rw [Char.ofNat_toNat] at h3
    exact h3.1 h
  · rintro ⟨⟨h1, h2⟩, h3⟩
    have h4 : c.toNat ≤ 57 := h2
    have h5 := key c.toNat (by omega) d (by omega)
    rw [Char.ofNat_toNat] at h5
    exact h5.2 ⟨⟨h1, h2⟩, h3⟩

theorem byteDigit {c : UInt8} {d : Nat} : byteNumerals.digit c = some d ↔ StackLexer.isDigit c = true ∧ c.toNat - 48 = d := by
  have key : ∀ n : Nat, n < 256 → 
      (byteNumerals.digit (UInt8.ofNat n) = if StackLexer.isDigit (UInt8.ofNat n) = true then some ((UInt8.ofNat n).toNat - 48) else none) := by
    decide +kernel
  have h := key c.toNat c.toNat_lt
  rw [UInt8.ofNat_toNat] at h
  rw [h]
  split <;> simp_all

theorem Digits.ne_nil {β : Type} {N : Numerals β} {s : List β} {n : Nat} (h : Digits N s n) : s ≠ [] := by
  cases h <;> simp

theorem Digits.head {β : Type} {N : Numerals β} {s : List β} {n : Nat} (h : Digits N s n) :
    ∃ c cs, s = c :: cs ∧ (N.digit c).isSome := by
  induction h with
  | one h => exact ⟨_, _, rfl, by simp [h]⟩
  | more _ _ ih => obtain ⟨c, cs, rfl, h⟩ := ih; exact ⟨c, _, rfl, h⟩

theorem digits_append (t u : Str) : ∀ n, ReducerDSL.digits n (t ++ u) = (ReducerDSL.digits n t).bind fun m => ReducerDSL.digits m u := by
  induction t with
  | nil => intro n; rfl
  | cons c t ih =>
    intro n
    rw [List.cons_append, ReducerDSL.digits, ReducerDSL.digits]
    split
    · exact ih _
    · rfl

theorem digits_of {s : Str} {n : Nat} (h : Digits charNumerals s n) : ReducerDSL.digits 0 s = some n := by
  induction h with
  | one h => obtain ⟨h1, h2⟩ := charDigit.1 h; simp [ReducerDSL.digits, h1, h2]
  | more _ h ih =>
    obtain ⟨h1, h2⟩ := charDigit.1 h
    rw [digits_append, ih]
    simp [ReducerDSL.digits, h1, h2]

/-- The value of a numeral. -/
theorem readInt_numeral {s : Str} {i : Int} (h : Numeral charNumerals s i) : ReducerDSL.readInt s = i := by
  cases h with
  | plain h =>
    have h1 := digits_of h
    obtain ⟨c, cs, rfl, h2⟩ := h.head
    have hm : c ≠ '-' := by rintro rfl; revert h2; decide
    have hp : c ≠ '+' := by rintro rfl; revert h2; decide
    simp [ReducerDSL.readInt, hm, hp, h1]
  | plus h =>
    have h1 := digits_of h
    show ReducerDSL.readInt ('+' :: _) = _
    simp [ReducerDSL.readInt, h.ne_nil, h1]
  | minus h =>
    have h1 := digits_of h
    show ReducerDSL.readInt ('-' :: _) = _
    simp [ReducerDSL.readInt, h.ne_nil, h1]

theorem of_digits : ∀ (k : Nat) (s : Str), s.length = k → s ≠ [] → ∀ m, (ReducerDSL.digits m s).isSome → ∃ n, Digits charNumerals s n := by
  intro k
  induction k with
  | zero => intro s h h'; exact absurd (List.length_eq_zero_iff.1 h) h'
  | succ k ih =>
    intro s hs hn m ha
    obtain ⟨t, c, rfl⟩ : ∃ t c, s = t ++ [c] := ⟨s.dropLast, s.getLast hn, (List.dropLast_concat_getLast hn).symm⟩
    rw [digits_append] at ha
    cases e : ReducerDSL.digits m t with
    | none => rw [e] at ha; cases ha
    | some q =>
      rw [e, Option.bind_some, ReducerDSL.digits] at ha
      split at ha
      · rename_i hc
        have hc := charDigit.2 ⟨hc, rfl⟩
        by_cases ht : t = []
        · subst ht; exact ⟨_, .one hc⟩
        · obtain ⟨n, h⟩ := ih t (by simpa using hs) ht m (by rw [e]; rfl)
          exact ⟨_, .more h hc⟩
      · cases ha

theorem clamp_nearest {j i : Int} : Nearest64 j i ↔ clampInt j = i := by
  have hc : clampInt j = if j < -9223372036854775808 then -9223372036854775808 else
      if 9223372036854775807 < j then 9223372036854775807 else j := by
    unfold clampInt
    split
    · omega
    · split <;> omega
  unfold Nearest64 Fits64
  constructor
  · rintro ⟨h1, h2⟩
    have h3 := h2 (clampInt j) (by rw [hc]; split <;> (try split) <;> omega)
    rw [hc] at h3 ⊢
    revert h3
    split
    · intro h3; omega
    · split <;> (intro h3; omega)
  · rintro rfl
    rw [hc]
    split
    · exact ⟨by omega, fun k hk => by omega⟩
    · split
      · exact ⟨by omega, fun k hk => by omega⟩
      · exact ⟨by omega, fun k hk => by omega⟩

/-- What a text counts for. -/
theorem atoi_int {s : Str} {i : Int} (h : IntOf charNumerals s i) : ReducerDSL.atoi s = i := by
  rcases h with ⟨j, h, hj⟩ | ⟨h, rfl⟩
  · rw [ReducerDSL.atoi, readInt_numeral h]; exact clamp_nearest.1 hj
  · suffices h0 : ReducerDSL.readInt s = 0 by rw [ReducerDSL.atoi, h0]; rfl
    have no : ∀ t : Str, t ≠ [] → (∀ n, ¬ Digits charNumerals t n) → ReducerDSL.digits 0 t = none := by
      intro t ht hn
      cases e : ReducerDSL.digits 0 t with
      | none => rfl
      | some n =>
        obtain ⟨n, hd⟩ := of_digits _ t rfl ht 0 (by rw [e]; rfl)
        exact absurd hd (hn n)
    cases s with
    | nil => rfl
    | cons c cs =>
      rw [ReducerDSL.readInt]
      by_cases hm : c = '-'
      · subst hm
        rw [if_pos rfl]
        split
        · rfl
        · rename_i hc; rw [no cs hc fun n hd => h _ (.minus hd)]
      · rw [if_neg hm]
        by_cases hp : c = '+'
        · subst hp
          rw [if_pos rfl]
          split
          · rfl
          · rename_i hc; rw [no cs hc fun n hd => h _ (.plus hd)]
        · rw [if_neg hp, no (c :: cs) (by simp) fun n hd => h _ (.plain hd)]

theorem bdigits_of {s : SimpleLexer.Bytes} {n : Nat} (h : Digits byteNumerals s n) :
    s.all StackLexer.isDigit = true ∧ StackLexer.digits s = n := by
  induction h with
  | one h => obtain ⟨h1, h2⟩ := byteDigit.1 h; simp [StackLexer.digits, h1, h2]
  | more _ h ih =>
    obtain ⟨h1, h2⟩ := byteDigit.1 h
    refine ⟨by simp [ih.1, h1], ?_⟩
    unfold StackLexer.digits at ih ⊢
    rw [List.foldl_append, ih.2]
    simp [h2]; omega

theorem of_bdigits (s : SimpleLexer.Bytes) : s ≠ [] → s.all StackLexer.isDigit = true → ∃ n, Digits byteNumerals s n := by
  have : ∀ k (s : SimpleLexer.Bytes), s.length = k → s ≠ [] → s.all StackLexer.isDigit = true → ∃ n, Digits byteNumerals s n := by
    intro k
    induction k with
    | zero => intro s h h'; exact absurd (List.length_eq_zero_iff.1 h) h'
    | succ k ih =>
      intro s hs hn ha
      obtain ⟨t, c, rfl⟩ : ∃ t c, s = t ++ [c] := ⟨s.dropLast, s.getLast hn, (List.dropLast_concat_getLast hn).symm⟩
      rw [List.all_append, Bool.and_eq_true] at ha
      have hc : byteNumerals.digit c = some (c.toNat - 48) := byteDigit.2 ⟨by simpa using ha.2, rfl⟩
      by_cases ht : t = []
      · subst ht; exact ⟨_, .one hc⟩
      · obtain ⟨n, h⟩ := ih t (by simpa using hs) ht ha.1
        exact ⟨_, .more h hc⟩
  exact this _ s rfl

/-- The value of a numeral, and 0 for everything else. -/
theorem breadInt_numeral {s : SimpleLexer.Bytes} :
    (∀ i, Numeral byteNumerals s i → StackLexer.readInt s = i) ∧ ((∀ i, ¬ Numeral byteNumerals s i) → StackLexer.readInt s = 0) := by
  constructor
  · intro i h
    cases h with
    | plain h =>
      obtain ⟨h1, h2⟩ := bdigits_of h
      obtain ⟨c, cs, rfl, h3⟩ := h.head
      have hm : c ≠ 45 := by rintro rfl; revert h3; decide
      have hp : c ≠ 43 := by rintro rfl; revert h3; decide
      simp only [StackLexer.readInt, hm, hp, or_self, if_false, h1, List.head?_cons, Option.some.injEq]
      simp [h2]
    | plus h =>
      obtain ⟨h1, h2⟩ := bdigits_of h
      simp [StackLexer.readInt, byteNumerals, h1, h2, h.ne_nil]
    | minus h =>
      obtain ⟨h1, h2⟩ := bdigits_of h
      simp [StackLexer.readInt, byteNumerals, h1, h2, h.ne_nil]
  · intro h
    cases s with
    | nil => simp [StackLexer.readInt]
    | cons c cs =>
      by_cases hc : c = 43 ∨ c = 45
      · simp only [StackLexer.readInt, hc, if_true]
        rw [if_neg]
        rintro ⟨h1, h2⟩
        obtain ⟨n, hn⟩ := of_bdigits _ h1 h2
        rcases hc with rfl | rfl
        · exact h _ (.plus hn)
        · exact h _ (.minus hn)
      · simp only [StackLexer.readInt, hc, if_false]
        rw [if_neg]
        rintro ⟨h1, h2⟩
        obtain ⟨n, hn⟩ := of_bdigits _ h1 h2
        exact h _ (.plain hn)

/-- What a text of bytes counts for. -/
theorem batoi_int {s : SimpleLexer.Bytes} {i : Int} (h : IntOf byteNumerals s i) : StackLexer.atoi s = i := by
  rcases h with ⟨j, h, hj⟩ | ⟨h, rfl⟩
  · rw [StackLexer.atoi, breadInt_numeral.1 _ h]; exact clamp_nearest.1 hj
  · rw [StackLexer.atoi, breadInt_numeral.2 h]; rfl

theorem intOf_ex {β : Type} (N : Numerals β) (s : List β) : ∃ i, IntOf N s i := by
  by_cases h : ∃ j, Numeral N s j
  · obtain ⟨j, h⟩ := h
    exact ⟨_, .inl ⟨j, h, clamp_nearest.2 rfl⟩⟩
  · exact ⟨0, .inr ⟨fun j hj => h ⟨j, hj⟩, rfl⟩⟩

theorem intOf_small {β : Type} {N : Numerals β} {s : List β} {i : Int} (h : Numeral N s i) (hi : Fits64 i) : IntOf N s i :=
  .inl ⟨i, h, hi, by simp⟩

end Verif.Spec
