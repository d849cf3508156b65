import Verif.Proofs.LexErr
import Verif.Proofs.Lit
import Verif.Proofs.RegexpMore
import Verif.Proofs.ReducerLex
import Verif.Proofs.ScalcLang
/-
The lexer of examples/scalc cuts texts as Spec/Scalc.lean says.
-/
namespace Verif.Scalc
open Verif Verif.Spec Verif.Spec.Scalc Verif.SimpleLexer Verif.Props.SimpleLexer
open Verif.RegexGram (cS byte_cS len_of_rest dropWhile_stop noHead_drop take_drop)

/-! ### Alternatives of words -/

/-- The expression matches one of the words, the first that fits. -/
def Lits (r : Rex) (ws : List Bytes) : Prop :=
  ∀ s, r.rest decode s = (ws.find? fun w => w.isPrefixOf s).map fun w => s.drop w.length

/-- Words as alternatives with captures. -/
def oneOf : Nat → List Bytes → Rex
  | _, [] => .eps
  | k, [w] => .cap k (.word (w.map (·.toNat)))
  | k, w :: ws => .alt (.cap k (.word (w.map (·.toNat)))) (oneOf (k + 1) ws)

theorem prefix_nat : ∀ (w s : Bytes), (w.map (·.toNat)).isPrefixOf (s.map (·.toNat)) = w.isPrefixOf s
  | [], _ => by simp
  | _ :: _, [] => rfl
  | a :: w, b :: s => by
    simp only [List.map_cons, List.isPrefixOf, prefix_nat w s]
    congr 1
    by_cases h : a = b
    · subst h; simp
    · have : ¬ a.toNat = b.toNat := fun e => h (UInt8.toNat_inj.1 e)
      simp [h, this]

theorem lits_word {w : Bytes} (h : ∀ x ∈ w, x.toNat < 0x80) : Lits (.word (w.map (·.toNat))) [w] := by
  intro s
  rw [word_rest (by simpa using h), prefix_nat, List.find?_singleton]
  split <;> simp

theorem lits_alt {a b : Rex} {u v : List Bytes} (h : Lits a u) (h' : Lits b v) : Lits (.alt a b) (u ++ v) := by
  intro s
  rw [alt_rest, h s, h' s, List.find?_append]
  cases u.find? fun w => w.isPrefixOf s <;> simp

theorem lits_cap {a : Rex} {u : List Bytes} (k : Nat) (h : Lits a u) : Lits (.cap k a) u := by
  intro s
  rw [cap_rest, h s]

theorem lits_oneOf : ∀ (ws : List Bytes) (k : Nat), ws ≠ [] → (∀ w ∈ ws, ∀ x ∈ w, x.toNat < 0x80) → Lits (oneOf k ws) ws
  | [], _, h, _ => absurd rfl h
  | [w], k, _, h => lits_cap k (lits_word (h w (by simp)))
  | w :: v :: ws, k, _, h => lits_alt (lits_cap k (lits_word (h w (by simp)))) (lits_oneOf (v :: ws) (k + 1) (by simp) fun w hw => h w (by simp [List.mem_cons.1 hw]))

/-- Classes as alternatives of words of one character. -/
theorem lits_cls {c : Cls} (hc : c.low = true) (hn : c.neg = false) {us : List UInt8}
    (h : (List.range 256).all (fun k => c.byte (UInt8.ofNat k) == us.contains (UInt8.ofNat k)) = true) : Lits (.cls c) (us.map fun u => [u]) := by
  intro s
  cases s with
  | nil =>
    rw [List.find?_eq_none.2]; · rfl
    intro w hw
    obtain ⟨u, -, rfl⟩ := List.mem_map.1 hw
    simp
  | cons x s =>
    have hx : c.byte x = us.contains x := by
      have := all_bytes (p := fun x => c.byte x == us.contains x) h x
      simpa using this
    rw [Rex.rest, ends_pos hc hn, hx]
    by_cases hm : x ∈ us
    · have : ((us.map fun u => [u]).find? fun w => w.isPrefixOf (x :: s)) = some [x] := by
        have h1 : ((us.map fun u => [u]).find? fun w => w.isPrefixOf (x :: s)).isSome := by
          rw [List.find?_isSome]
          exact ⟨[x], List.mem_map.2 ⟨x, hm, rfl⟩, by simp⟩
        obtain ⟨w, hw⟩ := Option.isSome_iff_exists.1 h1
        have h2 := List.find?_some hw
        obtain ⟨u, -, rfl⟩ := List.mem_map.1 (List.mem_of_find?_eq_some hw)
        rw [hw]
        simp at h2
        rw [h2]
      rw [this]
      simp [hm]
    · have : ((us.map fun u => [u]).find? fun w => w.isPrefixOf (x :: s)) = none := by
        rw [List.find?_eq_none]
        intro w hw
        obtain ⟨u, hu, rfl⟩ := List.mem_map.1 hw
        simp
        rintro rfl
        exact hm hu
      rw [this]
      simp [hm]

/-- No word begins another. -/
def Free (ws : List Bytes) : Prop := ∀ u ∈ ws, ∀ v ∈ ws, u.isPrefixOf v = true → u = v

theorem lits_len {r : Rex} {ws : List Bytes} (h : Lits r ws) (hf : Free ws) {t : Bytes} {n : Nat} :
    r.len t = some n ↔ ∃ w ∈ ws, w <+: t ∧ w.length = n := by
  rw [len_rest, h t, Option.map_map]
  constructor
  · intro e
    obtain ⟨w, hw, rfl⟩ := Option.map_eq_some_iff.1 e
    have h2 := List.isPrefixOf_iff_prefix.1 (List.find?_some (p := fun w : Bytes => w.isPrefixOf t) hw)
    refine ⟨w, List.mem_of_find?_eq_some hw, h2, ?_⟩
    have := h2.length_le
    simp only [Function.comp, List.length_drop]
    omega
  · rintro ⟨w, hw, hp, rfl⟩
    have h1 : (ws.find? fun w => w.isPrefixOf t).isSome := by
      rw [List.find?_isSome]
      exact ⟨w, hw, List.isPrefixOf_iff_prefix.2 hp⟩
    obtain ⟨w', hw'⟩ := Option.isSome_iff_exists.1 h1
    have h2 := List.isPrefixOf_iff_prefix.1 (List.find?_some (p := fun w : Bytes => w.isPrefixOf t) hw')
    have hm := List.mem_of_find?_eq_some hw'
    have e : w' = w := by
      rcases List.prefix_or_prefix_of_prefix h2 hp with h | h
      · exact hf _ hm _ hw (List.isPrefixOf_iff_prefix.2 h)
      · exact (hf _ hw _ hm (List.isPrefixOf_iff_prefix.2 h)).symm
    rw [hw', e]
    have := hp.length_le
    simp only [Function.comp, Option.map_some, List.length_drop]
    congr 1
    omega

/-! ### The rules -/

/-- The words of a kind. -/
def wordsOf (k : Spec.Scalc.Kind) : List Bytes := (words.filter fun x => x.1 == k).map (·.2)

def rSp : Rex := .seq (.cls cS) (.star (.cls cS))
def rPlus : Rex := .seq (.cls cD) (.star (.cls cD))
def rSgn : Rex := .seq (.alt (.cap 1 (.alt (.cls ⟨false, [(43, 43)]⟩) (.cls ⟨false, [(45, 45)]⟩))) .eps) rPlus
def rDec : Rex := .seq (.cls ⟨false, [(46, 46)]⟩) rPlus
def cBop : Cls := ⟨false, [(42, 42), (47, 47), (43, 43), (45, 45), (94, 94), (37, 37), (62, 62), (60, 60), (61, 61)]⟩
def rBop : Rex := .alt (.cap 1 (.word [99, 109, 112, 114])) (.cls cBop)

/-- The rules of the lexer. -/
def sRules : Rules :=
  [(bytes "space".toList, rSp, true),
   (bytes "int".toList, rSgn, false),
   (bytes "dec".toList, rDec, false),
   (bytes "uop".toList, oneOf 1 (wordsOf .uop), false),
   (bytes "bop".toList, rBop, false),
   (bytes "sop".toList, oneOf 1 (wordsOf .sop), false),
   (bytes "smp".toList, oneOf 1 (wordsOf .smp), false),
   (bytes "?".toList, .word [63], false),
   (bytes "(".toList, .word [40], false),
   (bytes ")".toList, .word [41], false)]

set_option maxRecDepth 10000 in
theorem sRules_said : (Regexp.compile lexStr).map (fun re => saidBy re (lines (bytes lexerText))) =
    some (sRules.map (fun x => (x.1, some x.2.1, x.2.2))) := by
  unfold lexStr lexerText sRules
  simp only [litToList]
  decide +kernel

theorem sRules_nodup : (sRules.map (·.1)).Nodup := by decide +kernel

theorem sRules_fine : sRules.fine = true := by decide +kernel

theorem lxr_eq : lxr = .ok (addAll sRules.adds) := by
  rw [lxr, new_rules sRules_nodup sRules_said]
  rfl

/-! ### What the rules match -/

/-- The kinds of the rules for words, in order. -/
def wordKinds : List Spec.Scalc.Kind := [.uop, .bop, .sop, .smp, .choice, .opening, .closing]

/-- The rule matches `v`, and `s` follows. -/
def Fits : Nat → Bytes → Bytes → Prop
  | 0, v, s => v ≠ [] ∧ (∀ x ∈ v, RxByte.space x = true) ∧ NoHead RxByte.space s
  | 1, v, s => ∃ g d, v = g ++ d ∧ (g = [] ∨ g = [43] ∨ g = [45]) ∧ d ≠ [] ∧ (∀ x ∈ d, RxByte.digit x = true) ∧ NoHead RxByte.digit s
  | 2, v, s => ∃ d, v = 46 :: d ∧ d ≠ [] ∧ (∀ x ∈ d, RxByte.digit x = true) ∧ NoHead RxByte.digit s
  | i + 3, v, _ => ∃ k, wordKinds[i]? = some k ∧ (k, v) ∈ words

/-- A class once or more. -/
theorem plus_len {c : Cls} {p : UInt8 → Bool} (hp : ∀ x, c.byte x = p x) (hc : c.low = true) (hn : c.neg = false) {t u : Bytes} :
    (Rex.seq (.cls c) (.star (.cls c))).rest decode t = some u ↔
      ∃ v, t = v ++ u ∧ v ≠ [] ∧ (∀ x ∈ v, p x = true) ∧ NoHead p u := by
  have e : c.byte = p := funext hp
  cases t with
  | nil =>
    constructor
    · intro h; cases h
    · rintro ⟨v, h, ne, -⟩
      exact absurd (List.append_eq_nil_iff.1 h.symm).1 ne
  | cons x t =>
    rw [plus_rest hc hn, e]
    by_cases hx : p x = true
    · rw [if_pos hx]
      constructor
      · intro h
        obtain rfl := Option.some.inj h
        refine ⟨x :: t.takeWhile p, by simp, by simp, ?_, noHead_drop p t⟩
        intro y hy
        rcases List.mem_cons.1 hy with rfl | hy
        · exact hx
        · exact List.all_eq_true.1 (List.all_takeWhile (p := p) (l := t)) y hy
      · rintro ⟨v, h, ne, hv, hs⟩
        cases v with
        | nil => exact absurd rfl ne
        | cons y v =>
          rw [List.cons_append] at h
          injection h with _ h
          rw [h, dropWhile_stop (fun z hz => hv z (by simp [hz])) hs]
    · rw [if_neg hx]
      constructor
      · intro h; cases h
      · rintro ⟨v, h, ne, hv, -⟩
        cases v with
        | nil => exact absurd rfl ne
        | cons y v =>
          rw [List.cons_append] at h
          injection h with h _
          exact absurd (hv x (by simp [h])) hx

theorem rest_len {r : Rex} {F : Bytes → Bytes → Prop} (h : ∀ t u, r.rest decode t = some u ↔ ∃ v, t = v ++ u ∧ F v u) {t : Bytes} {n : Nat} :
    r.len t = some n ↔ ∃ v u, t = v ++ u ∧ v.length = n ∧ F v u := by
  rw [len_rest, Option.map_eq_some_iff]
  constructor
  · rintro ⟨u, h1, rfl⟩
    obtain ⟨v, rfl, h2⟩ := (h t u).1 h1
    exact ⟨v, u, rfl, by simp, h2⟩
  · rintro ⟨v, u, rfl, rfl, h1⟩
    exact ⟨u, (h _ _).2 ⟨v, rfl, h1⟩, by simp⟩

theorem plus_fit {t u : Bytes} : rPlus.rest decode t = some u ↔ ∃ d, t = d ++ u ∧ d ≠ [] ∧ (∀ x ∈ d, RxByte.digit x = true) ∧ NoHead RxByte.digit u :=
  plus_len byte_cD (by decide) rfl

theorem sgn_rest (x : UInt8) (t : Bytes) : rSgn.rest decode (x :: t) = if x = 43 ∨ x = 45 then rPlus.rest decode t else rPlus.rest decode (x :: t) := by
  have e : ∀ c : UInt8, (x.toNat = c.toNat) ↔ x = c := fun c => UInt8.toNat_inj
  have h43 : x.toNat = 43 ↔ x = 43 := e 43
  have h45 : x.toNat = 45 ↔ x = 45 := e 45
  have hends : rSgn.ends decode (x :: t) = (if x = 43 ∨ x = 45 then rPlus.ends decode t else []) ++ rPlus.ends decode (x :: t) := by
    rw [rSgn, seq_ends (.alt _ _), alt_ends, List.flatMap_append, cap_ends, alt_ends, one_rest (by omega), one_rest (by omega), eps_ends]
    congr 1
    · simp only
      by_cases h1 : x = 43
      · subst h1; simp
      · by_cases h2 : x = 45
        · subst h2; simp
        · rw [if_neg (fun h => h1 (h43.1 h)), if_neg (fun h => h2 (h45.1 h)), if_neg (by simp [h1, h2])]
          simp
    · simp only [List.flatMap_cons, List.flatMap_nil, List.append_nil]
  rw [Rex.rest, hends]
  by_cases h : x = 43 ∨ x = 45
  · rw [if_pos h, if_pos h]
    have : rPlus.ends decode (x :: t) = [] := plus_none (by
      intro y s e
      injection e with e _
      subst e
      rcases h with rfl | rfl <;> decide)
    rw [this, List.append_nil]
    rfl
  · rw [if_neg h, if_neg h]
    rfl

theorem digit_sign {x : UInt8} (h : RxByte.digit x = true) : ¬ (x = 43 ∨ x = 45) := by
  rintro (rfl | rfl) <;> exact absurd h (by decide)

theorem sgn_fit (t u : Bytes) : rSgn.rest decode t = some u ↔ ∃ v, t = v ++ u ∧ Fits 1 v u := by
  cases t with
  | nil =>
    constructor
    · intro h; cases h
    · rintro ⟨v, h, g, d, rfl, -, ne, -⟩
      have := (List.append_eq_nil_iff.1 h.symm).1
      exact absurd (List.append_eq_nil_iff.1 this).2 ne
  | cons x t =>
    rw [sgn_rest]
    by_cases hx : x = 43 ∨ x = 45
    · rw [if_pos hx, plus_fit]
      constructor
      · rintro ⟨d, rfl, ne, hd, hs⟩
        exact ⟨[x] ++ d, rfl, [x], d, rfl, by rcases hx with rfl | rfl <;> simp, ne, hd, hs⟩
      · rintro ⟨v, h, g, d, rfl, hg, ne, hd, hs⟩
        have : g ≠ [] := by
          rintro rfl
          cases d with
          | nil => exact ne rfl
          | cons y d =>
            simp only [List.nil_append, List.cons_append, List.cons.injEq] at h
            exact digit_sign (hd x (by simp [h.1])) hx
        obtain ⟨c, rfl⟩ : ∃ c, g = [c] := by
          rcases hg with rfl | rfl | rfl
          · exact absurd rfl this
          · exact ⟨_, rfl⟩
          · exact ⟨_, rfl⟩
        simp only [List.cons_append, List.nil_append, List.cons.injEq] at h
        exact ⟨d, h.2, ne, hd, hs⟩
    · rw [if_neg hx, plus_fit]
      constructor
      · rintro ⟨d, h, ne, hd, hs⟩
        exact ⟨d, h, [], d, rfl, .inl rfl, ne, hd, hs⟩
      · rintro ⟨v, h, g, d, rfl, hg, ne, hd, hs⟩
        obtain rfl : g = [] := by
          rcases hg with rfl | rfl | rfl
          · rfl
          · simp only [List.cons_append, List.cons.injEq] at h; exact absurd (.inl h.1) hx
          · simp only [List.cons_append, List.cons.injEq] at h; exact absurd (.inr h.1) hx
        exact ⟨d, h, ne, hd, hs⟩

theorem dec_fit (t u : Bytes) : rDec.rest decode t = some u ↔ ∃ v, t = v ++ u ∧ Fits 2 v u := by
  cases t with
  | nil =>
    constructor
    · intro h; cases h
    · rintro ⟨v, h, d, rfl, -⟩
      simp at h
  | cons x t =>
    have hends : rDec.ends decode (x :: t) = if x.toNat = 46 then rPlus.ends decode t else [] := by
      rw [rDec, seq_ends, one_rest (by omega)]
      simp only
      split <;> simp
    have e : rDec.rest decode (x :: t) = if x = 46 then rPlus.rest decode t else none := by
      rw [Rex.rest, hends]
      have h46 : x.toNat = 46 ↔ x = 46 := UInt8.toNat_inj (a := x) (b := 46)
      by_cases h : x = 46
      · rw [if_pos (h46.2 h), if_pos h]; rfl
      · rw [if_neg (fun e => h (h46.1 e)), if_neg h]; rfl
    rw [e]
    by_cases hx : x = 46
    · subst hx
      rw [if_pos rfl, plus_fit]
      constructor
      · rintro ⟨d, rfl, h⟩
        exact ⟨46 :: d, rfl, d, rfl, h⟩
      · rintro ⟨v, h, d, rfl, h'⟩
        simp only [List.cons_append, List.cons.injEq, true_and] at h
        exact ⟨d, h, h'⟩
    · rw [if_neg hx]
      constructor
      · intro h; cases h
      · rintro ⟨v, h, d, rfl, h'⟩
        simp only [List.cons_append, List.cons.injEq] at h
        exact absurd h.1 hx

theorem space_fit (t u : Bytes) : rSp.rest decode t = some u ↔ ∃ v, t = v ++ u ∧ Fits 0 v u := plus_len byte_cS (by decide) rfl

theorem words_free (k : Spec.Scalc.Kind) : Free (wordsOf k) := by cases k <;> unfold Free <;> decide +kernel

theorem words_low (k : Spec.Scalc.Kind) : ∀ w ∈ wordsOf k, ∀ x ∈ w, x.toNat < 0x80 := by cases k <;> decide +kernel

theorem mem_wordsOf {k : Spec.Scalc.Kind} {w : Bytes} : w ∈ wordsOf k ↔ (k, w) ∈ words := by
  simp only [wordsOf, List.mem_map, List.mem_filter, beq_iff_eq]
  constructor
  · rintro ⟨⟨k', w'⟩, ⟨h, rfl⟩, rfl⟩; exact h
  · exact fun h => ⟨(k, w), ⟨h, rfl⟩, rfl⟩

theorem lits_bop : Lits rBop (wordsOf .bop) := by
  have := lits_alt (lits_cap 1 (lits_word (w := [99, 109, 112, 114]) (by decide)))
    (lits_cls (c := cBop) (by decide) rfl (us := [42, 47, 43, 45, 94, 37, 62, 60, 61]) (by decide +kernel))
  have e : wordsOf .bop = [[99, 109, 112, 114]] ++ ([42, 47, 43, 45, 94, 37, 62, 60, 61] : Bytes).map fun u => [u] := by decide +kernel
  rw [e]
  exact this

/-- The rules for words. -/
theorem lits_rule {i : Nat} {r : Bytes × Rex × Bool} (h : sRules[i + 3]? = some r) : ∃ k, wordKinds[i]? = some k ∧ Lits r.2.1 (wordsOf k) := by
  have big : ∀ j, sRules[j + 7 + 3]? = none := fun j => List.getElem?_eq_none (by show 10 ≤ _; omega)
  match i with
  | 0 => cases h; exact ⟨.uop, rfl, lits_oneOf _ _ (by decide) (words_low _)⟩
  | 1 => cases h; exact ⟨.bop, rfl, lits_bop⟩
  | 2 => cases h; exact ⟨.sop, rfl, lits_oneOf _ _ (by decide) (words_low _)⟩
  | 3 => cases h; exact ⟨.smp, rfl, lits_oneOf _ _ (by decide) (words_low _)⟩
  | 4 => cases h; exact ⟨.choice, rfl, lits_word (w := [63]) (by decide)⟩
  | 5 => cases h; exact ⟨.opening, rfl, lits_word (w := [40]) (by decide)⟩
  | 6 => cases h; exact ⟨.closing, rfl, lits_word (w := [41]) (by decide)⟩
  | j + 7 => rw [big j] at h; cases h

/-- **What the rules match.** -/
theorem fits_len {i : Nat} {r : Bytes × Rex × Bool} (h : sRules[i]? = some r) {t : Bytes} {n : Nat} :
    r.2.1.len t = some n ↔ ∃ v u, t = v ++ u ∧ v.length = n ∧ Fits i v u := by
  match i with
  | 0 => cases h; exact rest_len space_fit
  | 1 => cases h; exact rest_len sgn_fit
  | 2 => cases h; exact rest_len dec_fit
  | i + 3 =>
    obtain ⟨k, hk, hl⟩ := lits_rule h
    rw [lits_len hl (words_free k)]
    constructor
    · rintro ⟨w, hw, ⟨u, rfl⟩, rfl⟩
      exact ⟨w, u, rfl, rfl, k, hk, mem_wordsOf.1 hw⟩
    · rintro ⟨v, u, rfl, rfl, k', hk', hv⟩
      rw [hk] at hk'
      obtain rfl := Option.some.inj hk'
      exact ⟨v, mem_wordsOf.2 hv, ⟨u, rfl⟩, rfl⟩

/-! ### Which matches compete -/

theorem word_first : ∀ x ∈ words, ∃ c w, x.2 = c :: w ∧ RxByte.digit c = false ∧ RxByte.space c = false ∧ c ≠ 46 ∧
    (c = 43 ∨ c = 45 → w = [] ∨ w = [45]) := by
  have : words.all (fun x => match x.2 with
    | [] => false
    | c :: w => !RxByte.digit c && !RxByte.space c && decide (c ≠ 46) && decide (c = 43 ∨ c = 45 → w = [] ∨ w = [45])) = true := by decide +kernel
  intro x hx
  have := List.all_eq_true.1 this x hx
  cases e : x.2 with
  | nil => rw [e] at this; cases this
  | cons c w =>
    rw [e] at this
    simp only [Bool.and_eq_true, Bool.not_eq_true', decide_eq_true_eq] at this
    exact ⟨c, w, rfl, this.1.1.1, this.1.1.2, this.1.2, this.2⟩

theorem word_pairs : ∀ x ∈ words, ∀ y ∈ words, x.2.isPrefixOf y.2 = true → x = y ∨ (x = (.bop, [45]) ∧ y = (.uop, [45, 45])) := by decide +kernel

theorem wordKinds_inj {i j : Nat} {k : Spec.Scalc.Kind} (h : wordKinds[i]? = some k) (h' : wordKinds[j]? = some k) : i = j := by
  have : wordKinds.Nodup := by decide
  obtain ⟨hi, e⟩ := List.getElem?_eq_some_iff.1 h
  obtain ⟨hj, e'⟩ := List.getElem?_eq_some_iff.1 h'
  exact (List.Nodup.getElem_inj_iff this).1 (e.trans e'.symm)

/-- The first byte of what a rule matches. -/
theorem fits_first {i : Nat} {v s : Bytes} (h : Fits i v s) : ∃ c w, v = c :: w ∧
    ((i = 0 ∧ RxByte.space c = true) ∨ (i = 1 ∧ (RxByte.digit c = true ∨ ((c = 43 ∨ c = 45) ∧ ∃ x u, w = x :: u ∧ RxByte.digit x = true))) ∨
     (i = 2 ∧ c = 46) ∨ (∃ j k, i = j + 3 ∧ wordKinds[j]? = some k ∧ (k, v) ∈ words)) := by
  match i, h with
  | 0, h =>
    obtain ⟨ne, hv, -⟩ := h
    cases v with
    | nil => exact absurd rfl ne
    | cons c w => exact ⟨c, w, rfl, .inl ⟨rfl, hv c (by simp)⟩⟩
  | 1, h =>
    obtain ⟨g, d, rfl, hg, ne, hd, -⟩ := h
    cases d with
    | nil => exact absurd rfl ne
    | cons x u =>
      have hx := hd x (by simp)
      rcases hg with rfl | rfl | rfl
      · exact ⟨x, u, rfl, .inr (.inl ⟨rfl, .inl hx⟩)⟩
      · exact ⟨43, x :: u, rfl, .inr (.inl ⟨rfl, .inr ⟨.inl rfl, x, u, rfl, hx⟩⟩)⟩
      · exact ⟨45, x :: u, rfl, .inr (.inl ⟨rfl, .inr ⟨.inr rfl, x, u, rfl, hx⟩⟩)⟩
  | 2, h =>
    obtain ⟨d, rfl, -⟩ := h
    exact ⟨46, d, rfl, .inr (.inr (.inl ⟨rfl, rfl⟩))⟩
  | j + 3, h =>
    obtain ⟨k, hk, hm⟩ := h
    obtain ⟨c, w, e, -⟩ := word_first _ hm
    exact ⟨c, w, e, .inr (.inr (.inr ⟨j, k, rfl, hk, hm⟩))⟩

/-- **Competing matches**: a sign and a number, or a dash and two dashes. -/
theorem fits_compete {i j : Nat} {v s v' s' : Bytes} (h : Fits i v s) (h' : Fits j v' s') (e : v ++ s = v' ++ s') :
    i = j ∨ (j = 1 ∧ (v = [43] ∨ v = [45]) ∧ ∃ x u, s = x :: u ∧ RxByte.digit x = true) ∨
    (i = 1 ∧ v'.length < v.length) ∨ (v = [45] ∧ v' = [45, 45]) ∨ (v = [45, 45] ∧ v' = [45]) := by
  obtain ⟨c, w, rfl, hc⟩ := fits_first h
  obtain ⟨c', w', rfl, hc'⟩ := fits_first h'
  have e0 := e
  simp only [List.cons_append, List.cons.injEq] at e
  obtain ⟨rfl, e⟩ := e
  have sd : RxByte.space c = true → RxByte.digit c = true → False := by
    have := all_bytes (p := fun c => !(RxByte.space c && RxByte.digit c)) (by decide +kernel) c
    intro h1 h2
    simp [h1, h2] at this
  have ss : RxByte.space c = true → (c = 43 ∨ c = 45) → False := by
    rintro h1 (rfl | rfl) <;> exact absurd h1 (by decide)
  rcases hc with ⟨rfl, hs⟩ | ⟨rfl, hi⟩ | ⟨rfl, hd⟩ | ⟨n, k, rfl, hk, hm⟩ <;>
    rcases hc' with ⟨rfl, hs'⟩ | ⟨rfl, hi'⟩ | ⟨rfl, hd'⟩ | ⟨n', k', rfl, hk', hm'⟩
  · exact .inl rfl
  · rcases hi' with hi' | ⟨hi', -⟩
    · exact absurd (sd hs hi') id
    · exact absurd (ss hs hi') id
  · rw [hd'] at hs; exact absurd hs (by decide)
  · obtain ⟨_, _, e', -, h2, -⟩ := word_first _ hm'
    injection e' with e' _
    rw [← e', hs] at h2
    cases h2
  · rcases hi with hi | ⟨hi, -⟩
    · exact absurd (sd hs' hi) id
    · exact absurd (ss hs' hi) id
  · exact .inl rfl
  · rcases hi with hi | ⟨hi, -⟩
    · rw [hd'] at hi; exact absurd hi (by decide)
    · rw [hd'] at hi; exact absurd hi (by decide)
  · obtain ⟨_, _, e', h1, -, -, h4⟩ := word_first _ hm'
    injection e' with e1 e2
    subst e1 e2
    rcases hi with hi | ⟨hi, x, u, rfl, hx⟩
    · rw [hi] at h1; cases h1
    · rcases h4 hi with rfl | rfl
      · exact .inr (.inr (.inl ⟨rfl, by simp⟩))
      · simp only [List.cons_append, List.cons.injEq] at e
        rw [e.1] at hx
        exact absurd hx (by decide)
  · rw [hd] at hs'; exact absurd hs' (by decide)
  · rcases hi' with hi | ⟨hi, -⟩
    · rw [hd] at hi; exact absurd hi (by decide)
    · rw [hd] at hi; exact absurd hi (by decide)
  · exact .inl rfl
  · obtain ⟨_, _, e', -, -, h3, -⟩ := word_first _ hm'
    injection e' with e' _
    exact absurd (e' ▸ hd) h3
  · obtain ⟨_, _, e', -, h2, -⟩ := word_first _ hm
    injection e' with e' _
    rw [← e', hs'] at h2
    cases h2
  · obtain ⟨_, _, e', h1, -, -, h4⟩ := word_first _ hm
    injection e' with e1 e2
    subst e1 e2
    rcases hi' with hi | ⟨hi, x, u, rfl, hx⟩
    · rw [hi] at h1; cases h1
    · rcases h4 hi with rfl | rfl
      · exact .inr (.inl ⟨rfl, by rcases hi with rfl | rfl <;> simp, x, _, e, hx⟩)
      · simp only [List.cons_append, List.cons.injEq] at e
        rw [← e.1] at hx
        exact absurd hx (by decide)
  · obtain ⟨_, _, e', -, -, h3, -⟩ := word_first _ hm
    injection e' with e' _
    exact absurd (e' ▸ hd') h3
  · have hp := List.prefix_or_prefix_of_prefix ⟨s, e0⟩ (List.prefix_append (c :: w') s')
    rcases hp with hp | hp
    · rcases word_pairs _ hm _ hm' (List.isPrefixOf_iff_prefix.2 hp) with h | ⟨h1, h2⟩
      · obtain rfl : k = k' := congrArg Prod.fst h
        rw [wordKinds_inj hk hk']
        exact .inl rfl
      · exact .inr (.inr (.inr (.inl ⟨congrArg Prod.snd h1, congrArg Prod.snd h2⟩)))
    · rcases word_pairs _ hm' _ hm (List.isPrefixOf_iff_prefix.2 hp) with h | ⟨h1, h2⟩
      · obtain rfl : k' = k := congrArg Prod.fst h
        rw [wordKinds_inj hk hk']
        exact .inl rfl
      · exact .inr (.inr (.inr (.inr ⟨congrArg Prod.snd h2, congrArg Prod.snd h1⟩)))

/-! ### The text as a whole -/

theorem ms_get {i : Nat} {f : Bytes → Option Nat} : sRules.ms[i]? = some f ↔ ∃ r, sRules[i]? = some r ∧ r.2.1.len = f := by
  rw [Rules.ms, List.getElem?_map, Option.map_eq_some_iff]

theorem fits_pos {i : Nat} {v s : Bytes} (h : Fits i v s) : 0 < v.length := by
  obtain ⟨c, w, rfl, -⟩ := fits_first h
  simp

theorem fits_lt {i : Nat} {v s : Bytes} (h : Fits i v s) : i < sRules.length := by
  have h10 : sRules.length = 10 := rfl
  obtain ⟨c, w, rfl, h⟩ := fits_first h
  rcases h with ⟨rfl, -⟩ | ⟨rfl, -⟩ | ⟨rfl, -⟩ | ⟨j, k, rfl, hk, -⟩
  · omega
  · omega
  · omega
  · have := (List.getElem?_eq_some_iff.1 hk).1
    have h7 : wordKinds.length = 7 := rfl
    omega

/-- A match that wins. -/
theorem takes_fits {i : Nat} {v s : Bytes} (h : Fits i v s) (hs : (v = [43] ∨ v = [45]) → NoHead RxByte.digit s)
    (hd : v = [45] → NoHead (· == 45) s) : Takes sRules.ms (v ++ s) i v.length := by
  refine ⟨fits_pos h, ⟨_, ms_get.2 ⟨_, List.getElem?_eq_getElem (fits_lt h), rfl⟩, ?_⟩, ?_⟩
  · exact (fits_len (List.getElem?_eq_getElem (fits_lt h))).2 ⟨v, s, rfl, rfl, h⟩
  · intro j g n' hj hg
    obtain ⟨r, hr, rfl⟩ := ms_get.1 hj
    obtain ⟨v', s', e, rfl, h'⟩ := (fits_len hr).1 hg
    rcases fits_compete h h' e with rfl | ⟨rfl, hv, x, u, rfl, hx⟩ | ⟨rfl, hl⟩ | ⟨rfl, rfl⟩ | ⟨rfl, rfl⟩
    · have h1 := (fits_len hr).2 ⟨v, s, rfl, rfl, h⟩
      rw [hg] at h1
      have := Option.some.inj h1
      exact .inr ⟨this, Nat.le_refl _⟩
    · rw [hs hv x u rfl] at hx
      cases hx
    · exact .inl hl
    · simp only [List.cons_append, List.nil_append, List.cons.injEq, true_and] at e
      have := hd rfl 45 s' e
      cases this
    · exact .inl (by simp)

/-- What is taken, fits. -/
theorem fits_takes {i : Nat} {v s : Bytes} (h : Takes sRules.ms (v ++ s) i v.length) : Fits i v s ∧
    ((v = [43] ∨ v = [45]) → NoHead RxByte.digit s) ∧ (v = [45] → NoHead (· == 45) s) := by
  obtain ⟨-, ⟨f, hf, h2⟩, h3⟩ := h
  obtain ⟨r, hr, rfl⟩ := ms_get.1 hf
  have big : ∀ {j : Nat} {v' s' : Bytes}, Fits j v' s' → v ++ s = v' ++ s' → v'.length ≤ v.length := by
    intro j v' s' hj e
    have hr := List.getElem?_eq_getElem (fits_lt hj)
    have := h3 j _ _ (ms_get.2 ⟨_, hr, rfl⟩) ((fits_len hr).2 ⟨v', s', e, rfl, hj⟩)
    omega
  refine ⟨?_, ?_, ?_⟩
  · obtain ⟨v', s', e, hl, h'⟩ := (fits_len hr).1 h2
    obtain ⟨rfl, rfl⟩ := List.append_inj e hl.symm
    exact h'
  · rintro hv x t rfl
    cases hx : RxByte.digit x with
    | false => rfl
    | true =>
      obtain ⟨d, u, rfl, hd, hu⟩ := take_drop RxByte.digit t
      have := big (j := 1) (v' := v ++ x :: d) (s' := u) ⟨v, x :: d, rfl, .inr hv, by simp, by
        intro y hy
        rcases List.mem_cons.1 hy with rfl | hy
        · exact hx
        · exact hd y hy, hu⟩ (by simp)
      simp at this
  · rintro rfl x t rfl
    cases hx : (x == 45) with
    | false => exact hx
    | true =>
      obtain rfl : x = 45 := by simpa using hx
      have := big (j := 3) (v' := [45, 45]) (s' := t) ⟨.uop, rfl, by decide⟩ rfl
      simp at this

theorem sRules_kinds : sRules.map (fun r => (chars r.1, r.2.2)) =
    [("space".toList, true), ("int".toList, false), ("dec".toList, false), ("uop".toList, false), ("bop".toList, false), ("sop".toList, false),
     ("smp".toList, false), ("?".toList, false), ("(".toList, false), (")".toList, false)] := by decide +kernel

theorem kept_at (i : Nat) (v : Bytes) : sRules.kept (i, v) =
    (([("space".toList, true), ("int".toList, false), ("dec".toList, false), ("uop".toList, false), ("bop".toList, false), ("sop".toList, false),
     ("smp".toList, false), ("?".toList, false), ("(".toList, false), (")".toList, false)] : List (Str × Bool))[i]?).bind
      (fun r => if r.2 then none else some (r.1, nameOf v)) := by
  rw [← sRules_kinds, Rules.kept, List.getElem?_map]
  cases sRules[i]? <;> rfl

/-- A token as the parser sees it. -/
def tokKv (t : Tok) : Str × Str := (kn t.1, t.2)

theorem kept0 (v : Bytes) : sRules.kept (0, v) = none := by rw [kept_at]; rfl
theorem kept1 (v : Bytes) : sRules.kept (1, v) = some (tokKv (.int, nameOf v)) := by rw [kept_at]; rfl
theorem kept2 (v : Bytes) : sRules.kept (2, v) = some (tokKv (.dec, nameOf v)) := by rw [kept_at]; rfl
theorem kept_word {i : Nat} {k : Spec.Scalc.Kind} (h : wordKinds[i]? = some k) (v : Bytes) : sRules.kept (i + 3, v) = some (tokKv (k, nameOf v)) := by
  rw [kept_at]
  have big : ∀ j, wordKinds[j + 7]? = none := fun j => List.getElem?_eq_none (by show 7 ≤ _; omega)
  match i with
  | 0 => cases h; rfl
  | 1 => cases h; rfl
  | 2 => cases h; rfl
  | 3 => cases h; rfl
  | 4 => cases h; rfl
  | 5 => cases h; rfl
  | 6 => cases h; rfl
  | j + 7 => rw [big j] at h; cases h

theorem takes_space {w s : Bytes} (ne : w ≠ []) (h : ∀ x ∈ w, RxByte.space x = true) (stop : NoHead RxByte.space s) :
    Takes sRules.ms (w ++ s) 0 w.length :=
  takes_fits (i := 0) ⟨ne, h, stop⟩
    (by rintro (rfl | rfl) <;> exact absurd (h _ (.head _)) (by decide)) (by rintro rfl; exact absurd (h _ (.head _)) (by decide))

theorem word_idx {k : Spec.Scalc.Kind} {w : Bytes} (h : (k, w) ∈ words) : ∃ i : Nat, wordKinds[i]? = some k := by
  have : ∀ x ∈ words, x.1 ∈ wordKinds := by decide
  exact List.mem_iff_getElem?.1 (this _ h)

theorem cut_of_text {s : Bytes} {ts : List Tok} (h : SText s ts) : ∃ c, Cut sRules.ms s c ∧ c.filterMap sRules.kept = ts.map tokKv := by
  induction h with
  | done => exact ⟨[], .done, rfl⟩
  | @space x s ts h rest ih =>
    obtain ⟨c, h1, h2⟩ := ih
    obtain ⟨v, u, rfl, hv, hu⟩ := take_drop RxByte.space s
    cases v with
    | nil => exact ⟨(0, [x]) :: c, .tok (v := [x]) (takes_space (by simp) (by simpa using h) hu) h1, by rw [← h2, List.filterMap_cons, kept0]⟩
    | cons y v =>
      have ht : Takes sRules.ms (x :: (y :: v ++ u)) 0 (x :: y :: v).length :=
        takes_space (w := x :: y :: v) (by simp) (by
          intro z hz
          rcases List.mem_cons.1 hz with rfl | hz
          · exact h
          · exact hv z hz) hu
      have ht' : Takes sRules.ms (y :: v ++ u) 0 (y :: v).length := takes_space (by simp) hv hu
      generalize e : y :: v ++ u = z at h1
      cases h1 with
      | done => simp at e
      | @tok i v' s' segs h3 h4 =>
        rw [e] at ht'
        obtain ⟨rfl, hl⟩ := takes_unique ht' h3
        obtain ⟨rfl, rfl⟩ := List.append_inj e hl
        exact ⟨(0, x :: y :: v) :: segs, .tok (v := x :: y :: v) ht h4, by
          rw [← h2, List.filterMap_cons, kept0, List.filterMap_cons, kept0]⟩
  | @int g d s ts hg ne h stop rest ih =>
    obtain ⟨c, h1, h2⟩ := ih
    have hl : 1 < (g ++ d).length ∨ g = [] := by
      have := List.length_pos_iff.2 ne
      rcases hg with rfl | rfl | rfl
      · exact .inr rfl
      · exact .inl (by simp; omega)
      · exact .inl (by simp; omega)
    have no : ∀ x : UInt8, x = 43 ∨ x = 45 → g ++ d ≠ [x] := by
      intro x hx e
      rcases hl with hl | rfl
      · rw [e] at hl; simp at hl
      · rw [List.nil_append] at e
        exact digit_sign (h x (by simp [e])) hx
    have := Cut.tok (v := g ++ d) (takes_fits (i := 1) (v := g ++ d) (s := s) ⟨g, d, rfl, hg, ne, h, stop⟩
      (by rintro (e | e); exact absurd e (no _ (.inl rfl)); exact absurd e (no _ (.inr rfl))) (fun e => absurd e (no _ (.inr rfl)))) h1
    rw [List.append_assoc] at this
    exact ⟨_, this, by rw [List.filterMap_cons, kept1, List.map_cons, ← h2]⟩
  | @dec d s ts ne h stop rest ih =>
    obtain ⟨c, h1, h2⟩ := ih
    have := Cut.tok (v := 46 :: d) (takes_fits (i := 2) (v := 46 :: d) (s := s) ⟨d, rfl, ne, h, stop⟩
      (by rintro (e | e) <;> simp at e) (by intro e; simp at e)) h1
    exact ⟨_, this, by rw [List.filterMap_cons, kept2, List.map_cons, ← h2]⟩
  | @word k w s ts h sign dash rest ih =>
    obtain ⟨c, h1, h2⟩ := ih
    obtain ⟨i, hi⟩ := word_idx h
    exact ⟨_, Cut.tok (takes_fits (i := i + 3) ⟨k, hi, h⟩ sign dash) h1, by rw [List.filterMap_cons, kept_word hi, List.map_cons, ← h2]⟩

theorem text_space {s : Bytes} {ts : List Tok} (h : SText s ts) : ∀ v : Bytes, (∀ y ∈ v, RxByte.space y = true) → SText (v ++ s) ts
  | [], _ => h
  | _ :: v, hv => .space (hv _ (by simp)) (text_space h v fun y hy => hv y (by simp [hy]))

theorem text_of_cut {s : Bytes} {c : List (Nat × Bytes)} (h : Cut sRules.ms s c) : ∃ ts, SText s ts ∧ c.filterMap sRules.kept = ts.map tokKv := by
  induction h with
  | done => exact ⟨[], .done, rfl⟩
  | @tok i v s c h rest ih =>
    obtain ⟨ts, ih, hk⟩ := ih
    obtain ⟨hf, sign, dash⟩ := fits_takes h
    match i, hf with
    | 0, hf => rw [List.filterMap_cons, kept0]; exact ⟨ts, text_space ih v hf.2.1, hk⟩
    | 1, hf =>
      obtain ⟨g, d, rfl, hg, ne, hd, hs⟩ := hf
      rw [List.filterMap_cons, kept1, List.append_assoc]
      exact ⟨_, .int hg ne hd hs ih, by rw [hk]; rfl⟩
    | 2, hf =>
      obtain ⟨d, rfl, ne, hd, hs⟩ := hf
      rw [List.filterMap_cons, kept2]
      exact ⟨_, .dec ne hd hs ih, by rw [hk]; rfl⟩
    | i + 3, hf =>
      obtain ⟨k, hi, hm⟩ := hf
      rw [List.filterMap_cons, kept_word hi]
      exact ⟨_, .word hm sign dash ih, by rw [hk]; rfl⟩

theorem tokKv_inj {t t' : Tok} (h : tokKv t = tokKv t') : t = t' :=
  Prod.ext (kn_inj (congrArg Prod.fst h)) (show (tokKv t).2 = (tokKv t').2 from congrArg Prod.snd h)

theorem text_unique {s : Bytes} {ts ts' : List Tok} (h : SText s ts) (h' : SText s ts') : ts = ts' := by
  obtain ⟨c, h1, h2⟩ := cut_of_text h
  obtain ⟨c', h3, h4⟩ := cut_of_text h'
  rw [cut_unique h1 h3, h4] at h2
  exact (List.map_injective_iff.2 fun _ _ h => tokKv_inj h) h2.symm

/-- The lexer in some state after calls. -/
structure LReady (l : Lexer) : Prop where
  ready : Ready sRules [] [] l
  inv : SetSymbol.Inv l.set
  error : l.error = defaultErrorString

theorem addAll_error : ∀ (h : List (Bytes × Re × Bool)) (l : Lexer), (h.foldl (fun l x => (add l x.1 x.2.1 x.2.2).1) l).error = l.error
  | [], _ => rfl
  | x :: h, l => by
    rw [List.foldl_cons, addAll_error h]
    unfold add addRule
    simp only
    split
    · next l'' e =>
      obtain ⟨rs, -, rfl⟩ := Option.map_eq_some_iff.1 e
      rfl
    · rfl

theorem lxr_ready : ∃ l, lxr = .ok l ∧ LReady l := by
  refine ⟨_, lxr_eq, ready_first sRules_nodup, ?_, addAll_error _ _⟩
  exact (table_eq sRules_nodup).2.2.2.1.inv

/-- **Lexing.** -/
theorem lex_text {l : Lexer} (h : LReady l) (b : Bytes) : ∃ ls l', Out.Returns (fun n => lex n l b) (ls, l') ∧ LReady l' ∧
    ((∃ ts, SText b ts ∧ (ls.map (toLexeme l')).map (fun x => (x.kind, x.val)) = ts.map tokKv) ∨
     ((∀ ts, ¬ SText b ts) ∧ (∃ x ∈ ls.map (toLexeme l'), x.kind = "Error".toList) ∧
      ∀ x ∈ ls.map (toLexeme l'), x.kind ∉ sTable.map (·.1))) := by
  obtain ⟨ls, l', h1, h2, h3, h4, h5⟩ := lex_cut h.ready h.inv (fine_ascii sRules_fine) b
  refine ⟨ls, l', h1, ⟨h2, h3, h4.trans h.error⟩, ?_⟩
  have he : chars l.error = "Error".toList := by rw [h.error]; decide +kernel
  rcases h5 with ⟨c, hc, hk⟩ | ⟨hc, hx, hall⟩
  · obtain ⟨ts, ht, hk'⟩ := text_of_cut hc
    exact .inl ⟨ts, ht, by rw [← hk', ← hk]; rfl⟩
  · refine .inr ⟨?_, ?_, ?_⟩
    · intro ts ht
      obtain ⟨c, h', -⟩ := cut_of_text ht
      exact hc c h'
    · rw [he] at hx; exact hx
    · intro x hm
      have names : ∀ r ∈ sRules, chars r.1 ∉ sTable.map (·.1) := by decide +kernel
      rcases hall x hm with h | ⟨r, hr, h⟩
      · rw [h, he]; decide
      · rw [h]; exact names r hr

end Verif.Scalc
