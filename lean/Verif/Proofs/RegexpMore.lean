import Verif.Proofs.Regexp
import Verif.Proofs.LexText
import Verif.Proofs.RegexGramLex
import Verif.Spec.TextTokens
/-
What the expressions for numbers and strings match.
-/
namespace Verif.Spec
open Verif.SimpleLexer Verif.RegexGram

theorem seq_ends (a b : Rex) (s : List UInt8) : (Rex.seq a b).ends decode s = (a.ends decode s).flatMap (b.ends decode) := rfl
theorem alt_ends (a b : Rex) (s : List UInt8) : (Rex.alt a b).ends decode s = a.ends decode s ++ b.ends decode s := rfl
theorem cap_ends (i : Nat) (a : Rex) (s : List UInt8) : (Rex.cap i a).ends decode s = a.ends decode s := rfl
theorem eps_ends (s : List UInt8) : Rex.eps.ends decode s = [s] := rfl

def cD : Cls := ⟨false, [(48, 57)]⟩
/-- `\d*\.?\d+` -/
def rNum : Rex := .seq (.star (.cls cD)) (.seq (.alt (.cls ⟨false, [(46, 46)]⟩) .eps) (.seq (.cls cD) (.star (.cls cD))))
/-- `-?\d*\.?\d+` -/
def rInt : Rex := .seq (.alt (.cls ⟨false, [(45, 45)]⟩) .eps) rNum

theorem byte_cD (x : UInt8) : cD.byte x = RxByte.digit x := by
  have := all_bytes (p := fun x => cD.byte x == RxByte.digit x) (by decide +kernel) x
  simpa using this

/-- What is left after some of the digits, first after all of them. -/
def lefts : List UInt8 → List UInt8 → List (List UInt8)
  | [], u => [u]
  | x :: d, u => lefts d u ++ [x :: (d ++ u)]

theorem star_list {d u : List UInt8} (hd : ∀ x ∈ d, RxByte.digit x = true) (hu : NoHead RxByte.digit u) :
    (Rex.star (.cls cD)).ends decode (d ++ u) = lefts d u := by
  have : ∀ (n : Nat) (d : List UInt8), (∀ x ∈ d, RxByte.digit x = true) → d.length ≤ n →
      again1 ((Rex.cls cD).ends decode) n (d ++ u) = lefts d u := by
    intro n
    induction n with
    | zero =>
      intro d _ hl
      have : d = [] := List.length_eq_zero_iff.1 (Nat.le_zero.1 hl)
      subst this
      rfl
    | succ n ih =>
      intro d hd hl
      rw [again1]
      cases d with
      | nil =>
        rw [List.nil_append, lefts]
        cases u with
        | nil => rfl
        | cons y t =>
          rw [ends_pos (by decide) rfl, byte_cD, hu y t rfl]
          rfl
      | cons x d =>
        rw [List.cons_append, ends_pos (by decide) rfl, byte_cD, hd x (by simp), lefts]
        simp only [if_true, List.filter_cons, List.length_cons, Nat.lt_succ_self, decide_true, List.filter_nil, List.flatMap_cons,
          List.flatMap_nil, List.append_nil]
        rw [ih d (fun y hy => hd y (by simp [hy])) (by simpa using hl)]
  exact this _ d hd (by simp)

theorem lefts_first : ∀ (d u : List UInt8), ∃ r, lefts d u = u :: r
  | [], u => ⟨[], rfl⟩
  | x :: d, u => by
    obtain ⟨r, e⟩ := lefts_first d u
    exact ⟨r ++ [x :: (d ++ u)], by rw [lefts, e]; rfl⟩

theorem lefts_snoc : ∀ (d : List UInt8) (x : UInt8) (u : List UInt8), ∃ r, lefts (d ++ [x]) u = u :: (x :: u) :: r
  | [], x, u => ⟨[], rfl⟩
  | y :: d, x, u => by
    obtain ⟨r, e⟩ := lefts_snoc d x u
    exact ⟨r ++ [y :: (d ++ [x] ++ u)], by rw [List.cons_append, lefts, e]; rfl⟩

/-- `\.?\d+` -/
def rFrac : Rex := .seq (.alt (.cls ⟨false, [(46, 46)]⟩) .eps) (.seq (.cls cD) (.star (.cls cD)))

theorem plus_none {u : List UInt8} (hu : NoHead RxByte.digit u) : (Rex.seq (.cls cD) (.star (.cls cD))).ends decode u = [] := by
  cases u with
  | nil => rfl
  | cons y t =>
    rw [← rest_none, plus_rest (by decide) rfl, byte_cD, hu y t rfl]
    rfl

theorem frac_ends (u : List UInt8) : rFrac.ends decode u =
    (match u with
      | [] => []
      | x :: t => if x.toNat = 46 then (Rex.seq (.cls cD) (.star (.cls cD))).ends decode t else []) ++
    (Rex.seq (.cls cD) (.star (.cls cD))).ends decode u := by
  rw [rFrac, seq_ends (.alt _ _), alt_ends, List.flatMap_append, one_rest (by omega), eps_ends]
  congr 1
  · cases u with
    | nil => rfl
    | cons x t => simp only; split <;> simp
  · simp only [List.flatMap_cons, List.flatMap_nil, List.append_nil]

theorem digit_no_dot {x : UInt8} (h : RxByte.digit x = true) : ¬ x.toNat = 46 := by
  intro e
  simp [RxByte.digit, e] at h

theorem digit_no_dash {x : UInt8} (h : RxByte.digit x = true) : ¬ x.toNat = 45 := by
  intro e
  simp [RxByte.digit, e] at h

theorem plus_all {x : UInt8} {f s : List UInt8} (hx : RxByte.digit x = true) (hf : ∀ y ∈ f, RxByte.digit y = true)
    (hs : NoHead RxByte.digit s) : (Rex.seq (.cls cD) (.star (.cls cD))).rest decode (x :: (f ++ s)) = some s := by
  rw [plus_rest (by decide) rfl, byte_cD, if_pos hx]
  congr 1
  exact dropWhile_stop (fun y hy => by rw [byte_cD]; exact hf y hy) (fun y t e => by rw [byte_cD]; exact hs y t e)

theorem head_append_some {α : Type} {l m : List α} {a : α} (h : l.head? = some a) : (l ++ m).head? = some a := by
  cases l with
  | nil => cases h
  | cons => exact h

/-- A number with a fraction. -/
theorem num_frac {d f s : List UInt8} (hd : ∀ x ∈ d, RxByte.digit x = true) (ne : f ≠ []) (hf : ∀ x ∈ f, RxByte.digit x = true)
    (hs : NoHead RxByte.digit s) : rNum.rest decode (d ++ 46 :: (f ++ s)) = some s := by
  rw [Rex.rest, show rNum = .seq (.star (.cls cD)) rFrac from rfl, Rex.ends, star_list hd (by intro y t e; cases e; decide)]
  obtain ⟨r, e⟩ := lefts_first d (46 :: (f ++ s))
  rw [e, List.flatMap_cons]
  refine head_append_some ?_
  rw [frac_ends]
  refine head_append_some ?_
  cases f with
  | nil => exact absurd rfl ne
  | cons x f =>
    simp only [List.cons_append]
    exact plus_all (hf x (by simp)) (fun y hy => hf y (by simp [hy])) hs

theorem frac_none {u : List UInt8} (hu : NoHead RxByte.digit u) (nf : NoFrac u) : rFrac.ends decode u = [] := by
  rw [frac_ends, plus_none hu, List.append_nil]
  cases u with
  | nil => rfl
  | cons x t =>
    simp only
    split
    · rename_i hx
      have : x = 46 := UInt8.toNat_inj.1 hx
      subst this
      exact plus_none fun y v e => nf y v (by rw [e])
    · rfl

/-- A number without a fraction. -/
theorem num_int {d s : List UInt8} (ne : d ≠ []) (hd : ∀ x ∈ d, RxByte.digit x = true) (hs : NoHead RxByte.digit s) (nf : NoFrac s) :
    rNum.rest decode (d ++ s) = some s := by
  rw [Rex.rest, show rNum = .seq (.star (.cls cD)) rFrac from rfl, Rex.ends, star_list hd hs]
  obtain ⟨d, x, rfl⟩ : ∃ d' x, d = d' ++ [x] := ⟨d.dropLast, d.getLast ne, (List.dropLast_concat_getLast ne).symm⟩
  obtain ⟨r, e⟩ := lefts_snoc d x s
  rw [e, List.flatMap_cons, frac_none hs nf, List.nil_append, List.flatMap_cons]
  refine head_append_some ?_
  have hx := hd x (by simp)
  rw [frac_ends]
  simp only [if_neg (digit_no_dot hx), List.nil_append]
  exact plus_all (f := []) hx (by simp) hs

/-- No number. -/
theorem num_none {s : List UInt8} (hs : NoHead RxByte.digit s) (nf : NoFrac s) : rNum.ends decode s = [] := by
  rw [show rNum = .seq (.star (.cls cD)) rFrac from rfl, Rex.ends, show s = [] ++ s from rfl, star_list (by simp) hs, lefts]
  simp [frac_none hs nf]

theorem int_ends (s : List UInt8) : rInt.ends decode s =
    (match s with
      | [] => []
      | x :: t => if x.toNat = 45 then rNum.ends decode t else []) ++ rNum.ends decode s := by
  rw [rInt, seq_ends (.alt _ _), alt_ends, List.flatMap_append, one_rest (by omega), eps_ends]
  congr 1
  · cases s with
    | nil => rfl
    | cons x t => simp only; split <;> simp
  · simp only [List.flatMap_cons, List.flatMap_nil, List.append_nil]

/-- Without a sign. -/
theorem int_plain {x : UInt8} {s : List UInt8} (h : ¬ x.toNat = 45) : rInt.rest decode (x :: s) = rNum.rest decode (x :: s) := by
  rw [Rex.rest, int_ends]
  simp only [if_neg h, List.nil_append]
  rfl

/-- With a sign. -/
theorem int_dash (s : List UInt8) : rInt.rest decode (45 :: s) = rNum.rest decode s := by
  rw [Rex.rest, int_ends]
  have : rNum.ends decode (45 :: s) = [] := num_none (by intro x t e; cases e; decide) (by intro x t e; cases e)
  rw [this]
  simp only [List.append_nil]
  rfl

/-! ### Strings -/

def cQ : Cls := ⟨true, [(34, 34), (92, 92)]⟩
def cL : Cls := ⟨true, [(10, 10)]⟩
/-- `[^\"\\]|(\\.)` -/
def rPart (i j : Nat) : Rex := .cap i (.alt (.cls cQ) (.cap j (.seq (.cls ⟨false, [(92, 92)]⟩) (.cls cL))))
/-- `\"([^\"\\]|(\\.))*\"` -/
def rStr (i j : Nat) : Rex := .seq (.cls ⟨false, [(34, 34)]⟩) (.seq (.star (rPart i j)) (.cls ⟨false, [(34, 34)]⟩))

theorem byte_cQ (x : UInt8) : cQ.byte x = (x != 34 && x != 92) := by
  have := all_bytes (p := fun x => cQ.byte x == (x != 34 && x != 92)) (by decide +kernel) x
  simpa using this
theorem byte_cL (x : UInt8) : cL.byte x = (x != 10) := by
  have := all_bytes (p := fun x => cL.byte x == (x != 10)) (by decide +kernel) x
  simpa using this

/-- A class takes one character. -/
theorem ends_char {c : Cls} (hc : c.low = true) (x : UInt8) (s : List UInt8) :
    (c.byte x = false ∧ (Rex.cls c).ends decode (x :: s) = []) ∨
    (c.byte x = true ∧ ∃ v t, s = v ++ t ∧ (Rex.cls c).ends decode (x :: s) = [t] ∧ ∀ y ∈ v, 0x80 ≤ y.toNat) := by
  by_cases h : x.toNat < 0x80
  · rw [ends_ascii h]
    cases hb : c.byte x with
    | false => exact .inl ⟨rfl, rfl⟩
    | true => exact .inr ⟨rfl, [], s, rfl, rfl, by simp⟩
  · rw [ends_high hc h]
    cases hb : c.byte x with
    | false => exact .inl ⟨rfl, rfl⟩
    | true =>
      have hp := runeLen_pos (x :: s)
      obtain ⟨k, hk⟩ : ∃ k, runeLen (x :: s) = k + 1 := ⟨runeLen (x :: s) - 1, by omega⟩
      refine .inr ⟨rfl, s.take k, s.drop k, (List.take_append_drop k s).symm, by rw [hk]; simp, ?_⟩
      intro y hy
      obtain ⟨i, hi⟩ := List.mem_iff_getElem?.1 hy
      have hin : i < k := by
        have := (List.getElem?_eq_some_iff.1 hi).1
        simp only [List.length_take] at this
        omega
      rw [List.getElem?_take_of_lt hin] at hi
      obtain ⟨z, t, e, hz⟩ := runeLen_tail (s := x :: s) (j := i + 1) (by omega) (by omega)
      have : (x :: s)[i + 1]? = some z := by
        have := congrArg (·[0]?) e
        simpa using this
      rw [List.getElem?_cons_succ, hi] at this
      cases this
      simp only [isCont, inRange, Bool.and_eq_true, decide_eq_true_eq] at hz
      omega

theorem strBody_high {b : List UInt8} (h : StrBody b) : ∀ v : List UInt8, (∀ y ∈ v, 0x80 ≤ y.toNat) → StrBody (v ++ b)
  | [], _ => h
  | y :: v, hv => .plain (by rintro rfl; exact absurd (hv _ (.head _)) (by decide)) (by rintro rfl; exact absurd (hv _ (.head _)) (by decide))
      (strBody_high h v fun z hz => hv z (by simp [hz]))

/-- The decomposition of a text by a string at its beginning is unique. -/
theorem strBody_unique {b : List UInt8} (h : StrBody b) : ∀ {b' s s' : List UInt8}, StrBody b' → b ++ 34 :: s = b' ++ 34 :: s' → b = b' ∧ s = s' := by
  induction h with
  | nil =>
    intro b' s s' h' e
    cases h' with
    | nil => exact ⟨rfl, (List.cons.inj e).2⟩
    | plain hq => exact absurd (List.cons.inj e).1.symm hq
    | esc => exact absurd (List.cons.inj e).1 (by decide)
  | plain hq hb _ ih =>
    intro b' s s' h' e
    cases h' with
    | nil => exact absurd (List.cons.inj e).1 hq
    | plain hq' hb' h' =>
      obtain ⟨hx, e⟩ := List.cons.inj e
      obtain ⟨rfl, rfl⟩ := ih h' e
      subst hx
      exact ⟨rfl, rfl⟩
    | esc => exact absurd (List.cons.inj e).1 hb
  | esc hy _ ih =>
    intro b' s s' h' e
    cases h' with
    | nil => exact absurd (List.cons.inj e).1 (by decide)
    | plain hq' hb' h' => exact absurd (List.cons.inj e).1.symm hb'
    | esc hy' h' =>
      obtain ⟨hx, e⟩ := List.cons.inj (List.cons.inj e).2
      obtain ⟨rfl, rfl⟩ := ih h' e
      subst hx
      exact ⟨rfl, rfl⟩

/-- One step of a string. -/
theorem part_ends (i j : Nat) (s : List UInt8) :
    (rPart i j).ends decode s = (Rex.cls cQ).ends decode s ++
      match s with
      | [] => []
      | x :: t => if x.toNat = 92 then (Rex.cls cL).ends decode t else [] := by
  rw [rPart, cap_ends, alt_ends]
  congr 1
  rw [cap_ends, seq_ends, one_rest (by omega)]
  cases s with
  | nil => rfl
  | cons x t => simp only; split <;> simp

theorem part_body (i j : Nat) {s t b : List UInt8} (h : t ∈ (rPart i j).ends decode s) (ht : ∃ v, StrBody b ∧ t = b ++ v) :
    ∃ b', StrBody b' ∧ ∀ v, t = b ++ v → s = b' ++ v := by
  obtain ⟨w, hb, rfl⟩ := ht
  rw [part_ends] at h
  cases s with
  | nil => simp [ends_nil] at h
  | cons x s =>
    rw [List.mem_append] at h
    rcases h with h | h
    · rcases ends_char (c := cQ) (by decide) x s with ⟨-, e⟩ | ⟨hx, v, t, rfl, e, hv⟩
      · rw [e] at h; cases h
      · rw [e, List.mem_singleton] at h
        subst h
        rw [byte_cQ] at hx
        simp only [Bool.and_eq_true, bne_iff_ne] at hx
        refine ⟨x :: (v ++ b), .plain hx.1 hx.2 (strBody_high hb v hv), fun z e => ?_⟩
        rw [e]; simp
    · replace h : b ++ w ∈ (if x.toNat = 92 then (Rex.cls cL).ends decode s else []) := h
      by_cases hx : x.toNat = 92
      · rw [if_pos hx] at h
        have : x = 92 := UInt8.toNat_inj.1 hx
        subst this
        cases s with
        | nil => simp [ends_nil] at h
        | cons y s =>
          rcases ends_char (c := cL) (by decide) y s with ⟨-, e⟩ | ⟨hy, v, t, rfl, e, hv⟩
          · rw [e] at h; cases h
          · rw [e, List.mem_singleton] at h
            subst h
            rw [byte_cL] at hy
            simp only [bne_iff_ne] at hy
            refine ⟨92 :: y :: (v ++ b), .esc hy (strBody_high hb v hv), fun z e => ?_⟩
            rw [e]; simp
      · rw [if_neg hx] at h
        cases h

/-- What is left of strings. -/
theorem star_body (i j : Nat) : ∀ (n : Nat) (s u : List UInt8), u ∈ again1 ((rPart i j).ends decode) n s → ∃ b, StrBody b ∧ s = b ++ u := by
  intro n
  induction n with
  | zero => intro s u h; simp only [again1, List.mem_singleton] at h; subst h; exact ⟨[], .nil, rfl⟩
  | succ n ih =>
    intro s u h
    rw [again1, List.mem_append, List.mem_flatMap] at h
    rcases h with ⟨t, h1, h2⟩ | h
    · obtain ⟨b, hb, e⟩ := ih t u h2
      obtain ⟨b', hb', e'⟩ := part_body i j (List.mem_filter.1 h1).1 ⟨u, hb, e⟩
      exact ⟨b', hb', e' u e⟩
    · rw [List.mem_singleton] at h; subst h; exact ⟨[], .nil, rfl⟩

theorem strBody_drop : ∀ {v b s t : List UInt8}, StrBody b → (∀ y ∈ v, 0x80 ≤ y.toNat) → b ++ 34 :: s = v ++ t →
    ∃ b', StrBody b' ∧ t = b' ++ 34 :: s
  | [], b, s, t, hb, _, e => ⟨b, hb, e.symm⟩
  | y :: v, b, s, t, hb, hv, e => by
    have hy := hv y (.head _)
    cases hb with
    | nil => obtain ⟨rfl, -⟩ := List.cons.inj e; exact absurd hy (by decide)
    | plain hq hbs h' =>
      obtain ⟨-, e⟩ := List.cons.inj e
      exact strBody_drop h' (fun z hz => hv z (.tail _ hz)) e
    | esc => obtain ⟨rfl, -⟩ := List.cons.inj e; exact absurd hy (by decide)

/-- It is left what is after the string. -/
theorem star_has (i j : Nat) : ∀ (n : Nat) (b s : List UInt8), StrBody b → b.length ≤ n →
    (34 :: s) ∈ again1 ((rPart i j).ends decode) n (b ++ 34 :: s) := by
  intro n
  induction n with
  | zero =>
    intro b s _ hl
    have : b = [] := List.length_eq_zero_iff.1 (Nat.le_zero.1 hl)
    subst this
    simp [again1]
  | succ n ih =>
    intro b s hb hl
    rw [again1, List.mem_append, List.mem_flatMap]
    cases hb with
    | nil => exact .inr (by simp)
    | @plain x b hq hbs hb =>
      left
      rcases ends_char (c := cQ) (by decide) x (b ++ 34 :: s) with ⟨hx, -⟩ | ⟨-, v, t, e, e2, hv⟩
      · rw [byte_cQ] at hx
        simp [hq, hbs] at hx
      · obtain ⟨b', hb', rfl⟩ := strBody_drop hb hv e
        have hlen := congrArg List.length e
        simp only [List.length_append, List.length_cons] at hlen hl
        refine ⟨b' ++ 34 :: s, List.mem_filter.2 ⟨?_, ?_⟩, ih b' s hb' (by omega)⟩
        · rw [List.cons_append, part_ends, e2]
          simp
        · simp only [decide_eq_true_eq, List.length_append, List.length_cons]
          omega
    | @esc y b hy hb =>
      left
      rcases ends_char (c := cL) (by decide) y (b ++ 34 :: s) with ⟨hx, -⟩ | ⟨-, v, t, e, e2, hv⟩
      · rw [byte_cL] at hx
        simp [hy] at hx
      · obtain ⟨b', hb', rfl⟩ := strBody_drop hb hv e
        have hlen := congrArg List.length e
        simp only [List.length_append, List.length_cons] at hlen hl
        refine ⟨b' ++ 34 :: s, List.mem_filter.2 ⟨?_, ?_⟩, ih b' s hb' (by omega)⟩
        · rw [List.cons_append, List.cons_append, part_ends]
          simp [e2]
        · simp only [decide_eq_true_eq, List.length_append, List.length_cons]
          omega

theorem str_ends (i j : Nat) {s u : List UInt8} : u ∈ (Rex.seq (.star (rPart i j)) (.cls ⟨false, [(34, 34)]⟩)).ends decode s ↔
    ∃ b, StrBody b ∧ s = b ++ 34 :: u := by
  rw [seq_ends, List.mem_flatMap]
  constructor
  · rintro ⟨t, h1, h2⟩
    rw [one_rest (by omega)] at h2
    obtain ⟨b, hb, rfl⟩ := star_body i j _ s t h1
    cases t with
    | nil => cases h2
    | cons x t =>
      simp only at h2
      split at h2
      · rename_i hx
        have : x = 34 := UInt8.toNat_inj.1 hx
        subst this
        rw [List.mem_singleton] at h2
        subst h2
        exact ⟨b, hb, rfl⟩
      · cases h2
  · rintro ⟨b, hb, rfl⟩
    refine ⟨34 :: u, star_has i j _ b u hb (by simp), ?_⟩
    rw [one_rest (by omega)]
    simp

/-- A string is taken. -/
theorem str_some (i j : Nat) {b s : List UInt8} (hb : StrBody b) : (rStr i j).rest decode (34 :: (b ++ 34 :: s)) = some s := by
  rw [rStr]
  refine seq_rest (t := b ++ 34 :: s) (by rw [Rex.rest, one_rest (by omega)]; rfl) ?_
  rw [Rex.rest]
  have h1 := (str_ends i j (s := b ++ 34 :: s) (u := s)).2 ⟨b, hb, rfl⟩
  cases e : (Rex.seq (.star (rPart i j)) (.cls ⟨false, [(34, 34)]⟩)).ends decode (b ++ 34 :: s) with
  | nil => rw [e] at h1; cases h1
  | cons x l =>
    obtain ⟨b', hb', e'⟩ := (str_ends i j (s := b ++ 34 :: s) (u := x)).1 (by rw [e]; simp)
    obtain ⟨-, rfl⟩ := strBody_unique hb hb' e'
    rfl

/-- No string. -/
theorem str_none (i j : Nat) {s : List UInt8} (h : ∀ b u, StrBody b → s ≠ b ++ 34 :: u) : (rStr i j).ends decode (34 :: s) = [] := by
  rw [rStr, seq_ends, one_rest (by omega)]
  simp only [show (34 : UInt8).toNat = 34 from rfl, if_true, List.flatMap_cons, List.flatMap_nil, List.append_nil]
  rw [List.eq_nil_iff_forall_not_mem]
  intro u hu
  obtain ⟨b, hb, e⟩ := (str_ends i j).1 hu
  exact h b u hb e

end Verif.Spec
