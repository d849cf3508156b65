import Verif.Proofs.LexText
import Verif.Proofs.Lit
import Verif.Proofs.RegexpMore
import Verif.Model.ReducerText
import Verif.Spec.ReducerText
/-
The lexer of tree/reducer cuts texts as Spec/ReducerText.lean says.
-/
namespace Verif.ReducerDSL
open Verif Verif.Spec Verif.SimpleLexer Verif.Props.SimpleLexer
open Verif.RegexGram (cW cS byte_cW byte_cS len_of_rest dropWhile_stop noHead_drop take_drop)

/-- The words with a meaning, as bytes. -/
def wordB : List Bytes := rdWords.map bytes

/-- The rule of the lexer for a word. -/
def wordRule (k : Bytes) : Bytes × Rex × Bool := (k, Rex.word (k.map (·.toNat)), false)

def rW : Rex := .cap 1 (.seq (.cls cW) (.star (.cls cW)))
def rCom : Rex := .seq (.cls ⟨false, [(47, 47)]⟩) (.seq (.cls ⟨false, [(47, 47)]⟩) (.star (.cls cL)))
def rSp : Rex := .seq (.cls cS) (.star (.cls cS))

def otherRules : Rules :=
  [(bytes "number".toList, rInt, false),
   (bytes "rule".toList, rW, false),
   (bytes "string".toList, rStr 1 2, false),
   (bytes "lp".toList, Rex.word [40], false),
   (bytes "rp".toList, Rex.word [41], false),
   (bytes "comma".toList, Rex.word [44], false),
   (bytes "period".toList, Rex.word [46], false),
   (bytes "comment".toList, rCom, true),
   (bytes "space".toList, rSp, true)]

/-- The rules of the lexer. -/
def rdRules : Rules := wordB.map wordRule ++ otherRules

set_option maxRecDepth 10000 in
theorem rdRules_said : (Regexp.compile lexStr).map (fun re => saidBy re (lines (bytes lexerRules))) =
    some (rdRules.map (fun x => (x.1, some x.2.1, x.2.2))) := by
  unfold lexStr lexerRules rdRules otherRules wordB rdWords
  simp only [litToList]
  decide +kernel

theorem rdRules_nodup : (rdRules.map (·.1)).Nodup := by decide +kernel

theorem rdRules_fine : rdRules.fine = true := by decide +kernel

theorem lxr_eq : lxr = .ok (addAll rdRules.adds) := by
  rw [lxr, new_rules rdRules_nodup rdRules_said]
  rfl

theorem lxr_ready : ∃ l, lxr = .ok l ∧ Ready rdRules [] [] l := ⟨_, lxr_eq, ready_first rdRules_nodup⟩

theorem wordB_len : wordB.length = 12 := rfl
theorem wordB_nodup : wordB.Nodup := by decide +kernel

theorem rule_word {j : Nat} (hj : j < 12) {r} (h : rdRules[j]? = some r) : ∃ k, wordB[j]? = some k ∧ r = wordRule k := by
  rw [rdRules, List.getElem?_append_left (by simpa [wordB_len] using hj), List.getElem?_map, Option.map_eq_some_iff] at h
  obtain ⟨k, h1, h2⟩ := h
  exact ⟨k, h1, h2.symm⟩

theorem rule_at {j : Nat} {k : Bytes} (h : wordB[j]? = some k) : rdRules[j]? = some (wordRule k) := by
  have hj : j < wordB.length := (List.getElem?_eq_some_iff.1 h).1
  rw [rdRules, List.getElem?_append_left (by simpa using hj), List.getElem?_map, h]
  rfl

theorem rule12 : rdRules[12]? = some (bytes "number".toList, rInt, false) := rfl
theorem rule13 : rdRules[13]? = some (bytes "rule".toList, rW, false) := rfl
theorem rule14 : rdRules[14]? = some (bytes "string".toList, rStr 1 2, false) := rfl
theorem rule18 : rdRules[18]? = some (bytes "period".toList, Rex.word [46], false) := rfl
theorem rule19 : rdRules[19]? = some (bytes "comment".toList, rCom, true) := rfl
theorem rule20 : rdRules[20]? = some (bytes "space".toList, rSp, true) := rfl

theorem alive_digit {x : UInt8} (h : RxByte.digit x = true) : rdRules.alive x = [12, 13] := by
  have := all_bytes (p := fun x => !RxByte.digit x || decide (rdRules.alive x = [12, 13])) (by decide +kernel) x
  simpa [h] using this
theorem alive_word {x : UInt8} (h : RxByte.word x = true) : ∀ j ∈ rdRules.alive x, j < 12 ∨ j = 12 ∨ j = 13 := by
  have := all_bytes (p := fun x => !RxByte.word x || (rdRules.alive x).all (fun j => decide (j < 12 ∨ j = 12 ∨ j = 13))) (by decide +kernel) x
  simpa [h] using this
theorem alive_space {x : UInt8} (h : RxByte.space x = true) : rdRules.alive x = [20] := by
  have := all_bytes (p := fun x => !RxByte.space x || decide (rdRules.alive x = [20])) (by decide +kernel) x
  simpa [h] using this
theorem alive_dash : rdRules.alive 45 = [12] := by decide +kernel
theorem alive_dot : rdRules.alive 46 = [12, 18] := by decide +kernel
theorem alive_quote : rdRules.alive 34 = [14] := by decide +kernel
theorem alive_slash : rdRules.alive 47 = [19] := by decide +kernel
theorem alive_other {x : UInt8} (h1 : RxByte.word x = false) (h2 : RxByte.space x = false) (h3 : RdTok.ofByte x = none)
    (h4 : x ≠ 45) (h5 : x ≠ 46) (h6 : x ≠ 34) (h7 : x ≠ 47) : rdRules.alive x = [] := by
  have := all_bytes (p := fun x => RxByte.word x || RxByte.space x || decide (RdTok.ofByte x ≠ none) || decide (x = 45) || decide (x = 46) ||
    decide (x = 34) || decide (x = 47) || decide (rdRules.alive x = [])) (by decide +kernel) x
  simpa [h1, h2, h3, h4, h5, h6, h7] using this

theorem digit_word {x : UInt8} (h : RxByte.digit x = true) : RxByte.word x = true := by
  have := all_bytes (p := fun x => !RxByte.digit x || RxByte.word x) (by decide +kernel) x
  simpa [h] using this

theorem wordB_word : ∀ k ∈ wordB, ∀ x ∈ k, RxByte.word x = true := by decide +kernel

/-! ### Names and numbers -/

theorem len_name {w s : Bytes} (ne : w ≠ []) (h : ∀ x ∈ w, RxByte.word x = true) (stop : NoHead RxByte.word s) :
    rW.len (w ++ s) = some w.length := by
  cases w with
  | nil => exact absurd rfl ne
  | cons x w =>
    apply len_of_rest
    rw [List.cons_append, rW, cap_rest, plus_rest (by decide) rfl, byte_cW, if_pos (h x (by simp))]
    congr 1
    exact dropWhile_stop (fun y hy => by rw [byte_cW]; exact h y (by simp [hy])) (fun y t e => by rw [byte_cW]; exact stop y t e)

theorem len_num {m d s : Bytes} (hm : m = [] ∨ m = [45]) (ne : d ≠ []) (h : ∀ x ∈ d, RxByte.digit x = true)
    (stop : NoHead RxByte.digit s) (nf : NoFrac s) : rInt.len (m ++ (d ++ s)) = some (m ++ d).length := by
  rw [← List.append_assoc]
  apply len_of_rest
  rcases hm with rfl | rfl
  · cases d with
    | nil => exact absurd rfl ne
    | cons x d =>
      rw [List.nil_append, List.cons_append, int_plain (digit_no_dash (h x (by simp)))]
      exact num_int ne h stop nf
  · rw [List.append_assoc, List.singleton_append, int_dash]
    exact num_int ne h stop nf

theorem len_frac {m d f s : Bytes} (hm : m = [] ∨ m = [45]) (hd : ∀ x ∈ d, RxByte.digit x = true) (ne : f ≠ [])
    (hf : ∀ x ∈ f, RxByte.digit x = true) (stop : NoHead RxByte.digit s) :
    rInt.len (m ++ (d ++ 46 :: (f ++ s))) = some (m ++ (d ++ 46 :: f)).length := by
  have e : m ++ (d ++ 46 :: (f ++ s)) = (m ++ (d ++ 46 :: f)) ++ s := by simp
  rw [e]
  apply len_of_rest
  rw [← e]
  rcases hm with rfl | rfl
  · rw [List.nil_append]
    cases d with
    | nil =>
      rw [List.nil_append, int_plain (by decide)]
      exact num_frac (d := []) (by simp) ne hf stop
    | cons x d =>
      rw [List.cons_append, int_plain (digit_no_dash (hd x (by simp)))]
      exact num_frac hd ne hf stop
  · rw [List.singleton_append, int_dash]
    exact num_frac hd ne hf stop

/-- A number takes less than a name. -/
theorem num_lt {w s : Bytes} (h : ∀ x ∈ w, RxByte.word x = true) (nd : ∃ x ∈ w, RxByte.digit x = false) {n : Nat}
    (hn : rInt.len (w ++ s) = some n) : n < w.length := by
  obtain ⟨d, u, rfl, h1, h2⟩ := take_drop RxByte.digit w
  cases u with
  | nil =>
    obtain ⟨x, hx, hd⟩ := nd
    rw [List.append_nil] at hx
    rw [h1 x hx] at hd
    cases hd
  | cons y u =>
    have hy : RxByte.word y = true := h y (by simp)
    have stop : NoHead RxByte.digit (y :: (u ++ s)) := by
      intro z t e
      cases e
      exact h2 y u rfl
    have nf : NoFrac (y :: (u ++ s)) := by
      intro z t e
      injection e with e1 e2
      subst e1
      exact absurd hy (by decide)
    rw [List.append_assoc, List.cons_append] at hn
    by_cases ne : d = []
    · subst ne
      rw [len_rest, List.nil_append, int_plain (by
        intro e
        rw [show y = 45 from UInt8.toNat_inj.1 e] at hy
        exact absurd hy (by decide)), rest_none.2 (num_none stop nf)] at hn
      cases hn
    · have := len_num (m := []) (.inl rfl) ne h1 stop nf
      rw [List.nil_append, List.nil_append, hn] at this
      cases this
      simp

theorem len_word (k s : Bytes) (hk : ∀ x ∈ k, RxByte.word x = true) {n : Nat} (h : (Rex.word (k.map (·.toNat))).len s = some n) :
    n = k.length ∧ ∃ u, s = k ++ u := by
  rw [len_rest, word_rest (by
    intro c hc
    obtain ⟨x, hx, rfl⟩ := List.mem_map.1 hc
    have := all_bytes (p := fun x => !RxByte.word x || decide (x.toNat < 0x80)) (by decide +kernel) x
    simpa [hk x hx] using this)] at h
  split at h
  · rename_i hp
    obtain ⟨t, ht⟩ := List.isPrefixOf_iff_prefix.1 hp
    have hl : k.length ≤ s.length := by
      have := congrArg List.length ht
      simp at this
      omega
    have hs : s = k ++ s.drop k.length := by
      have e := congrArg (List.take k.length) ht
      rw [List.take_left' (by simp), ← List.map_take] at e
      have e2 : k = s.take k.length := List.map_injective_iff.2 (fun a b h => UInt8.toNat_inj.1 h) e
      conv => lhs; rw [← List.take_append_drop k.length s]
      rw [← e2]
    refine ⟨?_, _, hs⟩
    simp at h
    omega
  · cases h

/-- A word with a meaning that takes the beginning of a name takes not more than the name. -/
theorem word_le {k w s u : Bytes} (hk : ∀ x ∈ k, RxByte.word x = true) (stop : NoHead RxByte.word s) (e : w ++ s = k ++ u) :
    k.length ≤ w.length ∧ (k.length = w.length → k = w) := by
  refine ⟨?_, fun h => (List.append_inj e h.symm).1.symm⟩
  by_cases h : k.length ≤ w.length
  · exact h
  · exfalso
    rw [List.append_eq_append_iff] at e
    rcases e with ⟨a, rfl, rfl⟩ | ⟨a, rfl, rfl⟩
    · cases a with
      | nil => simp at h
      | cons y a =>
        have := stop y (a ++ u) rfl
        rw [hk y (by simp)] at this
        cases this
    · simp at h

theorem takes_name {w s : Bytes} (ne : w ≠ []) (h : ∀ x ∈ w, RxByte.word x = true) (nd : ∃ x ∈ w, RxByte.digit x = false)
    (stop : NoHead RxByte.word s) : ∃ i, Takes rdRules.ms (w ++ s) i w.length ∧ (wordB[i]? = some w ∨ (i = 13 ∧ w ∉ wordB)) := by
  cases w with
  | nil => exact absurd rfl ne
  | cons x w =>
    have hname := len_name ne h stop
    have others : ∀ j ∈ rdRules.alive x, ∀ r n', rdRules[j]? = some r → r.2.1.len (x :: (w ++ s)) = some n' →
        (n' < (x :: w).length ∨ (n' = (x :: w).length ∧ (j = 13 ∨ wordB[j]? = some (x :: w)))) := by
      intro j hj r n' hr hn
      rcases alive_word (h x (by simp)) j hj with hj | rfl | rfl
      · obtain ⟨k, hk, rfl⟩ := rule_word hj hr
        have hkw := wordB_word k (List.mem_of_getElem? hk)
        obtain ⟨rfl, u, e⟩ := len_word k _ hkw hn
        obtain ⟨h1, h2⟩ := word_le (w := x :: w) hkw stop e
        by_cases hl : k.length = (x :: w).length
        · exact .inr ⟨hl, .inr (by rw [hk, h2 hl])⟩
        · exact .inl (by omega)
      · rw [rule12] at hr
        cases hr
        exact .inl (num_lt h nd hn)
      · rw [rule13] at hr
        cases hr
        have hn : rW.len (x :: w ++ s) = some n' := hn
        rw [hname] at hn
        cases hn
        exact .inr ⟨rfl, .inl rfl⟩
    by_cases hw : x :: w ∈ wordB
    · obtain ⟨i, hi⟩ := List.mem_iff_getElem?.1 hw
      have hlen : (wordRule (x :: w)).2.1.len (x :: (w ++ s)) = some (x :: w).length := by
        have := len_of_rest (r := Rex.word ((x :: w).map (·.toNat))) (v := x :: w) (s := s) (by
          rw [word_rest (by
            intro c hc
            obtain ⟨y, hy, rfl⟩ := List.mem_map.1 hc
            have := all_bytes (p := fun x => !RxByte.word x || decide (x.toNat < 0x80)) (by decide +kernel) y
            simpa [h y hy] using this), if_pos (by
              rw [List.isPrefixOf_iff_prefix, List.map_append]
              exact List.prefix_append _ _)]
          simp)
        exact this
      refine ⟨i, ?_, .inl hi⟩
      rw [List.cons_append, takes_iff rdRules_fine]
      refine ⟨mem_alive rdRules_fine (rule_at hi) hlen, ⟨_, rule_at hi, hlen⟩, fun j hj r n' hr hn => ?_⟩
      rcases others j hj r n' hr hn with h1 | ⟨h1, rfl | h2⟩
      · exact .inl h1
      · refine .inr ⟨h1, ?_⟩
        have := (List.getElem?_eq_some_iff.1 hi).1
        rw [wordB_len] at this
        omega
      · refine .inr ⟨h1, ?_⟩
        have : i = j := (List.getElem?_inj (List.getElem?_eq_some_iff.1 hi).1 wordB_nodup).1 (hi.trans h2.symm)
        omega
    · refine ⟨13, ?_, .inr ⟨rfl, hw⟩⟩
      rw [List.cons_append, takes_iff rdRules_fine]
      refine ⟨mem_alive rdRules_fine rule13 hname, ⟨_, rule13, hname⟩, fun j hj r n' hr hn => ?_⟩
      rcases others j hj r n' hr hn with h1 | ⟨h1, rfl | h2⟩
      · exact .inl h1
      · exact .inr ⟨h1, by omega⟩
      · exact absurd (List.mem_of_getElem? h2) hw

theorem takes_int {d s : Bytes} (ne : d ≠ []) (h : ∀ x ∈ d, RxByte.digit x = true) (stop : NoHead RxByte.word s) (nf : NoFrac s) :
    Takes rdRules.ms (d ++ s) 12 d.length := by
  have h1 := len_num (m := []) (.inl rfl) ne h (fun x t e => by
    have := stop x t e
    cases hd : RxByte.digit x with
    | false => rfl
    | true => rw [digit_word hd] at this; cases this) nf
  have h2 := len_name ne (fun x hx => digit_word (h x hx)) stop
  cases d with
  | nil => exact absurd rfl ne
  | cons x d =>
    rw [List.cons_append, takes_two rdRules_fine (alive_digit (h x (by simp))) (by omega) rule12 rule13]
    refine .inl ⟨rfl, h1, fun n' hn => ?_⟩
    have hn : rW.len (x :: d ++ s) = some n' := hn
    rw [h2] at hn
    cases hn
    omega

theorem takes_neg {d s : Bytes} (ne : d ≠ []) (h : ∀ x ∈ d, RxByte.digit x = true) (stop : NoHead RxByte.digit s) (nf : NoFrac s) :
    Takes rdRules.ms (45 :: (d ++ s)) 12 (45 :: d).length := by
  rw [takes_single rdRules_fine alive_dash rule12]
  exact ⟨rfl, len_num (m := [45]) (.inr rfl) ne h stop nf⟩

theorem takes_frac {m d f s : Bytes} (hm : m = [] ∨ m = [45]) (hd : ∀ x ∈ d, RxByte.digit x = true) (ne : f ≠ [])
    (hf : ∀ x ∈ f, RxByte.digit x = true) (stop : NoHead RxByte.digit s) :
    Takes rdRules.ms (m ++ (d ++ 46 :: (f ++ s))) 12 (m ++ (d ++ 46 :: f)).length := by
  have hl := len_frac hm hd ne hf stop
  rcases hm with rfl | rfl
  · cases d with
    | nil =>
      simp only [List.nil_append] at hl ⊢
      rw [takes_two rdRules_fine alive_dot (by omega) rule12 rule18]
      refine .inl ⟨rfl, hl, fun n' hn => ?_⟩
      have := len_of_rest (r := Rex.word [46]) (v := [46]) (s := f ++ s) (by
        rw [word_rest (by simp)]
        simp)
      have hn : (Rex.word [46]).len ([46] ++ (f ++ s)) = some n' := hn
      rw [this] at hn
      cases hn
      simp
    | cons x d =>
      simp only [List.nil_append, List.cons_append] at hl ⊢
      rw [takes_two rdRules_fine (alive_digit (hd x (by simp))) (by omega) rule12 rule13]
      refine .inl ⟨rfl, hl, fun n' hn => ?_⟩
      have := len_name (w := x :: d) (s := 46 :: (f ++ s)) (by simp) (fun y hy => digit_word (hd y hy)) (by
        intro y t e
        cases e
        decide)
      have hn : rW.len (x :: d ++ 46 :: (f ++ s)) = some n' := hn
      rw [this] at hn
      cases hn
      simp
  · simp only [List.singleton_append] at hl ⊢
    rw [takes_single rdRules_fine alive_dash rule12]
    exact ⟨rfl, hl⟩

/-- No number begins with a dash here. -/
theorem no_dash {s : Bytes} (h1 : NoHead RxByte.digit s) (h2 : NoFrac s) {i n : Nat} : ¬ Takes rdRules.ms (45 :: s) i n := by
  rw [takes_single rdRules_fine alive_dash rule12]
  rintro ⟨-, h⟩
  have h : rInt.len (45 :: s) = some n := h
  rw [len_rest, int_dash, rest_none.2 (num_none h1 h2)] at h
  cases h

theorem takes_period {s : Bytes} (stop : NoHead RxByte.digit s) : Takes rdRules.ms (46 :: s) 18 1 := by
  rw [takes_two rdRules_fine alive_dot (by omega) rule12 rule18]
  refine .inr ⟨rfl, ?_, fun n' hn => ?_⟩
  · have := len_of_rest (r := Rex.word [46]) (v := [46]) (s := s) (by
      rw [word_rest (by simp)]
      simp)
    exact this
  · have hn : rInt.len (46 :: s) = some n' := hn
    rw [len_rest, int_plain (by decide), rest_none.2 (num_none (by intro x t e; cases e; decide) (by
      intro x t e
      injection e with _ e
      exact stop x t e))] at hn
    cases hn

/-! ### Strings and the rest -/

theorem takes_string {b s : Bytes} (h : StrBody b) : Takes rdRules.ms (34 :: (b ++ 34 :: s)) 14 (34 :: (b ++ [34])).length := by
  rw [takes_single rdRules_fine alive_quote rule14]
  refine ⟨rfl, ?_⟩
  have := len_of_rest (r := rStr 1 2) (v := 34 :: (b ++ [34])) (s := s) (by
    simp only [List.cons_append, List.append_assoc, List.nil_append]
    exact str_some 1 2 h)
  simpa only [List.cons_append, List.append_assoc, List.nil_append] using this

theorem no_string {s : Bytes} (h : ∀ b u, StrBody b → s ≠ b ++ 34 :: u) {i n : Nat} : ¬ Takes rdRules.ms (34 :: s) i n := by
  rw [takes_single rdRules_fine alive_quote rule14]
  rintro ⟨-, h'⟩
  have h' : (rStr 1 2).len (34 :: s) = some n := h'
  rw [len_rest, rest_none.2 (str_none 1 2 h)] at h'
  cases h'

theorem takes_comment {c s : Bytes} (hc : ∀ y ∈ c, y ≠ 10) (stop : ∀ y u, s = y :: u → y = 10) :
    Takes rdRules.ms (47 :: 47 :: (c ++ s)) 19 (47 :: 47 :: c).length := by
  rw [takes_single rdRules_fine alive_slash rule19]
  refine ⟨rfl, ?_⟩
  have := len_of_rest (r := rCom) (v := 47 :: 47 :: c) (s := s) (by
    rw [rCom]
    refine seq_rest (t := 47 :: (c ++ s)) ?_ (seq_rest (t := c ++ s) ?_ ?_)
    · rw [Rex.rest, one_rest (by omega)]; rfl
    · rw [Rex.rest, one_rest (by omega)]; rfl
    · rw [star_rest (by decide)]
      congr 1
      exact dropWhile_stop (fun y hy => by rw [byte_cL]; simpa using hc y hy) (fun y t e => by rw [byte_cL, stop y t e]; rfl))
  exact this

theorem no_comment {s : Bytes} (h : ∀ u, s ≠ 47 :: u) {i n : Nat} : ¬ Takes rdRules.ms (47 :: s) i n := by
  rw [takes_single rdRules_fine alive_slash rule19]
  rintro ⟨-, h'⟩
  have h' : rCom.len (47 :: s) = some n := h'
  have e : rCom.ends decode (47 :: s) = [] := by
    rw [rCom, seq_ends, one_rest (by omega)]
    simp only [show (47 : UInt8).toNat = 47 from rfl, if_true, List.flatMap_cons, List.flatMap_nil, List.append_nil]
    rw [seq_ends, one_rest (by omega)]
    cases s with
    | nil => rfl
    | cons y t =>
      have hy : ¬ y.toNat = 47 := by
        intro hy
        exact h t (by rw [show y = 47 from UInt8.toNat_inj.1 hy])
      simp [hy]
  rw [len_rest, rest_none.2 e] at h'
  cases h'

theorem takes_space {w s : Bytes} (ne : w ≠ []) (h : ∀ x ∈ w, RxByte.space x = true) (stop : NoHead RxByte.space s) :
    Takes rdRules.ms (w ++ s) 20 w.length := by
  cases w with
  | nil => exact absurd rfl ne
  | cons x w =>
    have hx := h x (by simp)
    rw [List.cons_append, takes_single rdRules_fine (alive_space hx) rule20]
    refine ⟨rfl, ?_⟩
    have := len_of_rest (r := rSp) (v := x :: w) (s := s) (by
      rw [List.cons_append, rSp, plus_rest (by decide) rfl, byte_cS, if_pos hx]
      congr 1
      exact dropWhile_stop (fun y hy => by rw [byte_cS]; exact h y (by simp [hy])) (fun y t e => by rw [byte_cS]; exact stop y t e))
    exact this

/-- The number of the rule for a token of one character. -/
def oneIdx : UInt8 → Nat
  | 40 => 15
  | 41 => 16
  | _ => 17

theorem takes_one {x : UInt8} {t : RdTok} (h : RdTok.ofByte x = some t) (s : Bytes) : Takes rdRules.ms (x :: s) (oneIdx x) 1 := by
  have ha : rdRules.alive x = [oneIdx x] := by
    have := all_bytes (p := fun x => decide (RdTok.ofByte x = none) || decide (rdRules.alive x = [oneIdx x])) (by decide +kernel) x
    simpa [h] using this
  have hr : rdRules[oneIdx x]? = some ((rdRules.map (·.1))[oneIdx x]?.getD [], Rex.word [x.toNat], false) := by
    have := all_bytes (p := fun x => decide (RdTok.ofByte x = none) ||
      decide (rdRules[oneIdx x]? = some ((rdRules.map (·.1))[oneIdx x]?.getD [], Rex.word [x.toNat], false))) (by decide +kernel) x
    simpa [h] using this
  have hx : x.toNat < 0x80 := by
    have := all_bytes (p := fun x => decide (RdTok.ofByte x = none) || decide (x.toNat < 0x80)) (by decide +kernel) x
    simpa [h] using this
  rw [takes_single rdRules_fine ha hr]
  refine ⟨rfl, ?_⟩
  have := len_of_rest (r := Rex.word [x.toNat]) (v := [x]) (s := s) (by
    rw [word_rest (by simpa using hx)]
    simp)
  exact this

/-! ### The text as a whole -/

/-- The token of a piece. -/
def tokOf (p : Nat × Bytes) : Option RdTok :=
  if p.1 < 12 then some (.word (nameOf p.2))
  else match p.1 with
    | 12 => some (.number (nameOf p.2))
    | 13 => some (.rule (nameOf p.2))
    | 14 => some (.string (nameOf p.2))
    | 15 => some .lp
    | 16 => some .rp
    | 17 => some .comma
    | 18 => some .period
    | _ => none

theorem tokOf_one {x : UInt8} {t : RdTok} (h : RdTok.ofByte x = some t) (v : Bytes) : tokOf (oneIdx x, v) = some t := by
  have e : tokOf (oneIdx x, v) = tokOf (oneIdx x, []) := by
    have := all_bytes (p := fun x => decide (oneIdx x = 15) || decide (oneIdx x = 16) || decide (oneIdx x = 17)) (by decide +kernel) x
    simp only [Bool.or_eq_true, decide_eq_true_eq] at this
    rcases this with (h | h) | h <;> rw [h] <;> rfl
  have := all_bytes (p := fun x => decide (RdTok.ofByte x = none) || decide (tokOf (oneIdx x, []) = RdTok.ofByte x)) (by decide +kernel) x
  rw [e]
  simp only [Bool.or_eq_true, decide_eq_true_eq, h] at this
  simpa using this

theorem nameOf_inj {a b : Bytes} (h : nameOf a = nameOf b) : a = b := by
  refine List.map_injective_iff.2 (fun x y e => ?_) h
  have hx := all_bytes (p := fun x => decide ((Char.ofNat x.toNat).toNat = x.toNat)) (by decide +kernel) x
  have hy := all_bytes (p := fun x => decide ((Char.ofNat x.toNat).toNat = x.toNat)) (by decide +kernel) y
  simp only [decide_eq_true_eq] at hx hy
  have e : Char.ofNat x.toNat = Char.ofNat y.toNat := e
  rw [e, hy] at hx
  exact (UInt8.toNat_inj.1 hx).symm

theorem rdWords_eq : rdWords = wordB.map nameOf := by decide +kernel

theorem mem_words {w : Bytes} : nameOf w ∈ rdWords ↔ w ∈ wordB := by
  rw [rdWords_eq, List.mem_map]
  constructor
  · rintro ⟨v, hv, e⟩
    rw [← nameOf_inj e]
    exact hv
  · exact fun h => ⟨w, h, rfl⟩

theorem tokOf_name {i : Nat} {w : Bytes} (h : wordB[i]? = some w ∨ (i = 13 ∧ w ∉ wordB)) :
    tokOf (i, w) = some (RdTok.ofName (nameOf w)) := by
  rcases h with h | ⟨rfl, h⟩
  · have hi : i < 12 := by
      have := (List.getElem?_eq_some_iff.1 h).1
      rwa [wordB_len] at this
    rw [tokOf, if_pos hi, RdTok.ofName, if_pos (mem_words.2 (List.mem_of_getElem? h))]
  · rw [RdTok.ofName, if_neg (fun e => h (mem_words.1 e))]
    rfl

theorem cut_of_text {s : Bytes} {ts : List RdTok} (h : RdText s ts) : ∃ c, Cut rdRules.ms s c ∧ c.filterMap tokOf = ts := by
  induction h with
  | done => exact ⟨[], .done, rfl⟩
  | @space x s ts h rest ih =>
    obtain ⟨c, h1, h2⟩ := ih
    obtain ⟨v, u, rfl, hv, hu⟩ := take_drop RxByte.space s
    cases v with
    | nil => exact ⟨(20, [x]) :: c, .tok (v := [x]) (takes_space (by simp) (by simpa using h) hu) h1, by rw [← h2]; rfl⟩
    | cons y v =>
      have ht : Takes rdRules.ms (x :: (y :: v ++ u)) 20 (x :: y :: v).length :=
        takes_space (w := x :: y :: v) (by simp) (by
          intro z hz
          rcases List.mem_cons.1 hz with rfl | hz
          · exact h
          · exact hv z hz) hu
      have ht' : Takes rdRules.ms (y :: v ++ u) 20 (y :: v).length := takes_space (by simp) hv hu
      generalize e : y :: v ++ u = z at h1
      cases h1 with
      | done => simp at e
      | @tok i v' s' segs h3 h4 =>
        rw [e] at ht'
        obtain ⟨rfl, hl⟩ := takes_unique ht' h3
        obtain ⟨rfl, rfl⟩ := List.append_inj e hl
        exact ⟨(20, x :: y :: v) :: segs, .tok (v := x :: y :: v) ht h4, by rw [← h2]; rfl⟩
  | @comment c s ts hc stop rest ih =>
    obtain ⟨c', h1, rfl⟩ := ih
    exact ⟨_, .tok (v := 47 :: 47 :: c) (takes_comment hc stop) h1, rfl⟩
  | name ne h nd stop rest ih =>
    obtain ⟨c, h1, rfl⟩ := ih
    obtain ⟨i, h2, h3⟩ := takes_name ne h nd stop
    exact ⟨_, .tok h2 h1, by rw [List.filterMap_cons, tokOf_name h3]⟩
  | int ne h stop nf rest ih =>
    obtain ⟨c, h1, rfl⟩ := ih
    exact ⟨_, .tok (takes_int ne h stop nf) h1, rfl⟩
  | @neg d s ts ne h stop nf rest ih =>
    obtain ⟨c, h1, rfl⟩ := ih
    exact ⟨_, .tok (v := 45 :: d) (takes_neg ne h stop nf) h1, rfl⟩
  | @frac m d f s ts hm hd ne hf stop rest ih =>
    obtain ⟨c, h1, rfl⟩ := ih
    have := Cut.tok (v := m ++ (d ++ 46 :: f)) (s := s) (by
      have := takes_frac hm hd ne hf stop
      simpa only [List.append_assoc, List.cons_append] using this) h1
    simp only [List.append_assoc, List.cons_append] at this
    exact ⟨_, this, by rw [List.filterMap_cons]; rfl⟩
  | @string b s ts h rest ih =>
    obtain ⟨c, h1, rfl⟩ := ih
    have := Cut.tok (v := 34 :: (b ++ [34])) (s := s) (by
      have := takes_string (s := s) h
      simpa only [List.append_assoc, List.cons_append, List.nil_append] using this) h1
    simp only [List.append_assoc, List.cons_append, List.nil_append] at this
    exact ⟨_, this, rfl⟩
  | @one x t s ts h rest ih =>
    obtain ⟨c, h1, rfl⟩ := ih
    exact ⟨_, .tok (v := [x]) (takes_one h _) h1, by rw [List.filterMap_cons, tokOf_one h]⟩
  | @period s ts stop rest ih =>
    obtain ⟨c, h1, rfl⟩ := ih
    exact ⟨_, .tok (v := [46]) (takes_period stop) h1, rfl⟩

theorem text_space {s : Bytes} {ts : List RdTok} (h : RdText s ts) : ∀ v : Bytes, (∀ y ∈ v, RxByte.space y = true) → RdText (v ++ s) ts
  | [], _ => h
  | _ :: v, hv => .space (hv _ (by simp)) (text_space h v fun y hy => hv y (by simp [hy]))

/-- The text goes on with a period and digits, or not. -/
theorem frac_or (u : Bytes) : NoFrac u ∨ ∃ f s, u = 46 :: (f ++ s) ∧ f ≠ [] ∧ (∀ x ∈ f, RxByte.digit x = true) ∧ NoHead RxByte.digit s := by
  by_cases h : NoFrac u
  · exact .inl h
  · right
    unfold NoFrac at h
    simp only [Classical.not_forall] at h
    obtain ⟨x, t, rfl, hx⟩ := h
    obtain ⟨f, s, rfl, h1, h2⟩ := take_drop RxByte.digit t
    exact ⟨x :: f, s, rfl, by simp, by simpa using ⟨by simpa using hx, h1⟩, h2⟩

/-- What the piece is that is taken. -/
theorem piece {v s w u : Bytes} {x : UInt8} {i j n : Nat} (h : Takes rdRules.ms (x :: (v ++ s)) i (x :: v).length) (e : v ++ s = w ++ u)
    (ht : Takes rdRules.ms (x :: (w ++ u)) j n) (hn : n = w.length + 1) : i = j ∧ v = w ∧ s = u := by
  rw [e] at h
  obtain ⟨rfl, hl⟩ := takes_unique h ht
  rw [List.length_cons] at hl
  obtain ⟨rfl, rfl⟩ := List.append_inj e (by omega)
  exact ⟨rfl, rfl, rfl⟩

theorem text_of_cut {s : Bytes} {c : List (Nat × Bytes)} (h : Cut rdRules.ms s c) : RdText s (c.filterMap tokOf) := by
  induction h with
  | done => exact .done
  | @tok i v s c h rest ih =>
    cases v with
    | nil => exact absurd h.1 (by simp)
    | cons x v =>
      rw [List.cons_append] at h
      by_cases hw : RxByte.word x = true
      · obtain ⟨w, u, e, h1, h2⟩ := take_drop RxByte.word (v ++ s)
        have hall : ∀ y ∈ x :: w, RxByte.word y = true := by simpa [hw] using h1
        by_cases nd : ∃ y ∈ x :: w, RxByte.digit y = false
        · obtain ⟨j, ht, hj⟩ := takes_name (w := x :: w) (by simp) hall nd h2
          obtain ⟨rfl, rfl, rfl⟩ := piece h e ht rfl
          rw [List.filterMap_cons, tokOf_name hj]
          exact .name (w := x :: v) (by simp) hall nd h2 ih
        · have hd : ∀ y ∈ x :: w, RxByte.digit y = true := by
            intro y hy
            cases hy' : RxByte.digit y with
            | true => rfl
            | false => exact absurd ⟨y, hy, hy'⟩ nd
          rcases frac_or u with nf | ⟨f, s', rfl, ne, hf, stop⟩
          · obtain ⟨rfl, rfl, rfl⟩ := piece h e (takes_int (d := x :: w) (by simp) hd h2 nf) rfl
            exact .int (d := x :: v) (by simp) hd h2 nf ih
          · have ht := takes_frac (m := []) (d := x :: w) (.inl rfl) hd ne hf stop
            have e' : v ++ s = (w ++ 46 :: f) ++ s' := by rw [e]; simp
            obtain ⟨rfl, rfl, rfl⟩ := piece (w := w ++ 46 :: f) h e' (by simpa using ht) rfl
            have := RdText.frac (m := []) (d := x :: w) (.inl rfl) hd ne hf stop ih
            simp only [List.cons_append, List.append_assoc, List.nil_append] at this ⊢
            exact this
      by_cases hs : RxByte.space x = true
      · obtain ⟨w, u, e, h1, h2⟩ := take_drop RxByte.space (v ++ s)
        have hall : ∀ y ∈ x :: w, RxByte.space y = true := by simpa [hs] using h1
        obtain ⟨rfl, rfl, rfl⟩ := piece h e (takes_space (w := x :: w) (by simp) hall h2) rfl
        exact text_space ih (x :: v) hall
      cases ho : RdTok.ofByte x with
      | some t =>
        obtain ⟨rfl, rfl, -⟩ := piece (w := []) h rfl (takes_one ho _) rfl
        rw [List.filterMap_cons, tokOf_one ho]
        exact .one ho ih
      | none =>
        by_cases h45 : x = 45
        · subst h45
          obtain ⟨d, u, e, hd, h2⟩ := take_drop RxByte.digit (v ++ s)
          rcases frac_or u with nf | ⟨f, s', rfl, ne, hf, stop⟩
          · by_cases ne : d = []
            · subst ne
              rw [e] at h
              exact absurd h (no_dash h2 nf)
            · obtain ⟨rfl, rfl, rfl⟩ := piece h e (takes_neg ne hd h2 nf) rfl
              exact .neg ne hd h2 nf ih
          · have ht := takes_frac (m := [45]) (.inr rfl) hd ne hf stop
            have e' : v ++ s = (d ++ 46 :: f) ++ s' := by rw [e]; simp
            obtain ⟨rfl, rfl, rfl⟩ := piece (w := d ++ 46 :: f) h e' (by simpa using ht) rfl
            have := RdText.frac (m := [45]) (.inr rfl) hd ne hf stop ih
            simp only [List.cons_append, List.append_assoc, List.nil_append] at this ⊢
            exact this
        by_cases h46 : x = 46
        · subst h46
          obtain ⟨f, u, e, hf, h2⟩ := take_drop RxByte.digit (v ++ s)
          by_cases ne : f = []
          · subst ne
            obtain ⟨rfl, rfl, -⟩ := piece (w := []) (u := v ++ s) h rfl (takes_period (by rw [e]; exact h2)) rfl
            exact .period (by rw [show s = u from e]; exact h2) ih
          · have ht := takes_frac (m := []) (d := []) (.inl rfl) (by simp) ne hf h2
            obtain ⟨rfl, rfl, rfl⟩ := piece h e ht rfl
            exact RdText.frac (m := []) (d := []) (.inl rfl) (by simp) ne hf h2 ih
        by_cases h34 : x = 34
        · subst h34
          by_cases hb : ∃ b u, StrBody b ∧ v ++ s = b ++ 34 :: u
          · obtain ⟨b, u, hb, e⟩ := hb
            have e' : v ++ s = (b ++ [34]) ++ u := by rw [e]; simp
            obtain ⟨rfl, rfl, rfl⟩ := piece (w := b ++ [34]) h e' (by simpa using takes_string (s := u) hb) (by simp)
            have := RdText.string hb ih
            simp only [List.cons_append, List.append_assoc, List.nil_append] at this ⊢
            exact this
          · exact absurd h (no_string fun b u hb' e => hb ⟨b, u, hb', e⟩)
        by_cases h47 : x = 47
        · subst h47
          by_cases hb : ∃ u, v ++ s = 47 :: u
          · obtain ⟨u, e⟩ := hb
            obtain ⟨d, u, rfl, h3, h4⟩ := take_drop (fun y => y != 10) u
            have h4' : ∀ y t, u = y :: t → y = 10 := fun y t e => by simpa using h4 y t e
            have h3' : ∀ y ∈ d, y ≠ 10 := fun y hy => by simpa using h3 y hy
            obtain ⟨rfl, rfl, rfl⟩ := piece (w := 47 :: d) h e (takes_comment h3' h4') rfl
            exact .comment h3' h4' ih
          · exact absurd h (no_comment fun u e => hb ⟨u, e⟩)
        exact absurd h (takes_none rdRules_fine (alive_other (by simpa using hw) (by simpa using hs) ho h45 h46 h34 h47))

theorem text_unique {s : Bytes} {ts ts' : List RdTok} (h : RdText s ts) (h' : RdText s ts') : ts = ts' := by
  obtain ⟨c, h1, rfl⟩ := cut_of_text h
  obtain ⟨c', h2, rfl⟩ := cut_of_text h'
  rw [cut_unique h1 h2]

end Verif.ReducerDSL
