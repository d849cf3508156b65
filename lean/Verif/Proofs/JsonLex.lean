import Verif.Proofs.LexText
import Verif.Proofs.Lit
import Verif.Proofs.RegexpMore
import Verif.Proofs.ReducerLex
import Verif.Model.JsonText
import Verif.Spec.JsonText
/-
The lexer of examples/parlexjson cuts texts as Spec/JsonText.lean says.
-/
namespace Verif.Json
open Verif Verif.Spec Verif.Spec.Json Verif.SimpleLexer Verif.Props.SimpleLexer
open Verif.RegexGram (cS byte_cS len_of_rest dropWhile_stop noHead_drop take_drop)

def rSp : Rex := .seq (.cls cS) (.star (.cls cS))
def rBool : Rex := .alt (.cap 1 (Rex.word [116, 114, 117, 101])) (.cap 2 (Rex.word [102, 97, 108, 115, 101]))

/-- The rules of the lexer. -/
def jsRules : Rules :=
  [(bytes "space".toList, rSp, true),
   (bytes "number".toList, rNum, false),
   (bytes "string".toList, .cap 1 (rStr 2 3), false),
   (bytes "bool".toList, rBool, false),
   (bytes "null".toList, Rex.word [110, 117, 108, 108], false),
   (bytes "comma".toList, Rex.word [44], false),
   (bytes "lcb".toList, Rex.word [123], false),
   (bytes "rcb".toList, Rex.word [125], false),
   (bytes "lb".toList, Rex.word [91], false),
   (bytes "rb".toList, Rex.word [93], false),
   (bytes "colon".toList, Rex.word [58], false)]

set_option maxRecDepth 10000 in
theorem jsRules_said : (Regexp.compile lexStr).map (fun re => saidBy re (lines (bytes lexerText))) =
    some (jsRules.map (fun x => (x.1, some x.2.1, x.2.2))) := by
  unfold lexStr lexerText jsRules
  simp only [litToList]
  decide +kernel

theorem jsRules_nodup : (jsRules.map (·.1)).Nodup := by decide +kernel

theorem jsRules_fine : jsRules.fine = true := by decide +kernel

theorem lxr_eq : lxr = .ok (addAll jsRules.adds) := by
  rw [lxr, new_rules jsRules_nodup jsRules_said]
  rfl

theorem lxr_ready : ∃ l, lxr = .ok l ∧ Ready jsRules [] [] l := ⟨_, lxr_eq, ready_first jsRules_nodup⟩

theorem rule0 : jsRules[0]? = some (bytes "space".toList, rSp, true) := rfl
theorem rule1 : jsRules[1]? = some (bytes "number".toList, rNum, false) := rfl
theorem rule2 : jsRules[2]? = some (bytes "string".toList, .cap 1 (rStr 2 3), false) := rfl
theorem rule3 : jsRules[3]? = some (bytes "bool".toList, rBool, false) := rfl
theorem rule4 : jsRules[4]? = some (bytes "null".toList, Rex.word [110, 117, 108, 108], false) := rfl

theorem alive_digit {x : UInt8} (h : RxByte.digit x = true) : jsRules.alive x = [1] := by
  have := all_bytes (p := fun x => !RxByte.digit x || decide (jsRules.alive x = [1])) (by decide +kernel) x
  simpa [h] using this
theorem alive_space {x : UInt8} (h : RxByte.space x = true) : jsRules.alive x = [0] := by
  have := all_bytes (p := fun x => !RxByte.space x || decide (jsRules.alive x = [0])) (by decide +kernel) x
  simpa [h] using this
theorem alive_dot : jsRules.alive 46 = [1] := by decide +kernel
theorem alive_quote : jsRules.alive 34 = [2] := by decide +kernel
theorem alive_t : jsRules.alive 116 = [3] := by decide +kernel
theorem alive_f : jsRules.alive 102 = [3] := by decide +kernel
theorem alive_n : jsRules.alive 110 = [4] := by decide +kernel
theorem alive_other {x : UInt8} (h1 : RxByte.digit x = false) (h2 : RxByte.space x = false) (h3 : punct x = none)
    (h4 : x ≠ 46) (h5 : x ≠ 34) (h6 : x ≠ 116) (h7 : x ≠ 102) (h8 : x ≠ 110) : jsRules.alive x = [] := by
  have := all_bytes (p := fun x => RxByte.digit x || RxByte.space x || decide (punct x ≠ none) || decide (x = 46) || decide (x = 34) ||
    decide (x = 116) || decide (x = 102) || decide (x = 110) || decide (jsRules.alive x = [])) (by decide +kernel) x
  simpa [h1, h2, h3, h4, h5, h6, h7, h8] using this

/-! ### Pieces -/

theorem takes_space {w s : Bytes} (ne : w ≠ []) (h : ∀ x ∈ w, RxByte.space x = true) (stop : NoHead RxByte.space s) :
    Takes jsRules.ms (w ++ s) 0 w.length := by
  cases w with
  | nil => exact absurd rfl ne
  | cons x w =>
    have hx := h x (by simp)
    rw [List.cons_append, takes_single jsRules_fine (alive_space hx) rule0]
    refine ⟨rfl, ?_⟩
    have := len_of_rest (r := rSp) (v := x :: w) (s := s) (by
      rw [List.cons_append, rSp, plus_rest (by decide) rfl, byte_cS, if_pos hx]
      congr 1
      exact dropWhile_stop (fun y hy => by rw [byte_cS]; exact h y (by simp [hy])) (fun y t e => by rw [byte_cS]; exact stop y t e))
    exact this

theorem takes_int {d s : Bytes} (ne : d ≠ []) (h : ∀ x ∈ d, RxByte.digit x = true) (stop : NoHead RxByte.digit s) (nf : NoFrac s) :
    Takes jsRules.ms (d ++ s) 1 d.length := by
  cases d with
  | nil => exact absurd rfl ne
  | cons x d =>
    rw [List.cons_append, takes_single jsRules_fine (alive_digit (h x (by simp))) rule1]
    exact ⟨rfl, len_of_rest (v := x :: d) (num_int ne h stop nf)⟩

theorem takes_frac {d f s : Bytes} (hd : ∀ x ∈ d, RxByte.digit x = true) (ne : f ≠ [])
    (hf : ∀ x ∈ f, RxByte.digit x = true) (stop : NoHead RxByte.digit s) :
    Takes jsRules.ms (d ++ 46 :: (f ++ s)) 1 (d ++ 46 :: f).length := by
  have e : d ++ 46 :: (f ++ s) = (d ++ 46 :: f) ++ s := by simp
  have hl : rNum.len (d ++ 46 :: (f ++ s)) = some (d ++ 46 :: f).length := by
    rw [e]
    apply len_of_rest
    rw [← e]
    exact num_frac hd ne hf stop
  cases d with
  | nil =>
    rw [List.nil_append, takes_single jsRules_fine alive_dot rule1]
    exact ⟨rfl, hl⟩
  | cons x d =>
    rw [List.cons_append, takes_single jsRules_fine (alive_digit (hd x (by simp))) rule1]
    exact ⟨rfl, hl⟩

/-- A period alone begins nothing. -/
theorem no_dot {s : Bytes} (h : NoHead RxByte.digit s) {i n : Nat} : ¬ Takes jsRules.ms (46 :: s) i n := by
  rw [takes_single jsRules_fine alive_dot rule1]
  rintro ⟨-, h'⟩
  have h' : rNum.len (46 :: s) = some n := h'
  rw [len_rest, rest_none.2 (num_none (by intro x t e; cases e; decide) (by
    intro x t e
    injection e with _ e
    exact h x t e))] at h'
  cases h'

theorem takes_string {b s : Bytes} (h : StrBody b) : Takes jsRules.ms (34 :: (b ++ 34 :: s)) 2 (34 :: (b ++ [34])).length := by
  rw [takes_single jsRules_fine alive_quote rule2]
  refine ⟨rfl, ?_⟩
  have := len_of_rest (r := .cap 1 (rStr 2 3)) (v := 34 :: (b ++ [34])) (s := s) (by
    simp only [List.cons_append, List.append_assoc, List.nil_append]
    rw [cap_rest]
    exact str_some 2 3 h)
  simpa only [List.cons_append, List.append_assoc, List.nil_append] using this

theorem no_string {s : Bytes} (h : ∀ b u, StrBody b → s ≠ b ++ 34 :: u) {i n : Nat} : ¬ Takes jsRules.ms (34 :: s) i n := by
  rw [takes_single jsRules_fine alive_quote rule2]
  rintro ⟨-, h'⟩
  have h' : (Rex.cap 1 (rStr 2 3)).len (34 :: s) = some n := h'
  rw [len_rest, cap_rest, rest_none.2 (str_none 2 3 h)] at h'
  cases h'

theorem word_here {k : Bytes} (hk : ∀ x ∈ k, x.toNat < 0x80) (s : Bytes) : (Rex.word (k.map (·.toNat))).rest decode (k ++ s) = some s := by
  rw [word_rest (by
    intro c hc
    obtain ⟨x, hx, rfl⟩ := List.mem_map.1 hc
    exact hk x hx), if_pos (by
      rw [List.isPrefixOf_iff_prefix, List.map_append]
      exact List.prefix_append _ _)]
  simp

theorem word_not {k s : Bytes} (hk : ∀ x ∈ k, x.toNat < 0x80) (h : ∀ u, s ≠ k ++ u) : (Rex.word (k.map (·.toNat))).rest decode s = none := by
  rw [word_rest (by
    intro c hc
    obtain ⟨x, hx, rfl⟩ := List.mem_map.1 hc
    exact hk x hx), if_neg]
  intro hp
  obtain ⟨t, ht⟩ := List.isPrefixOf_iff_prefix.1 hp
  refine h (s.drop k.length) ?_
  have e := congrArg (List.take k.length) ht
  rw [List.take_left' (by simp), ← List.map_take] at e
  have e2 : k = s.take k.length := List.map_injective_iff.2 (fun a b h => UInt8.toNat_inj.1 h) e
  conv => lhs; rw [← List.take_append_drop k.length s]
  rw [← e2]

def wT : Bytes := [116, 114, 117, 101]
def wF : Bytes := [102, 97, 108, 115, 101]
def wN : Bytes := [110, 117, 108, 108]

theorem bool_rest (s : Bytes) : rBool.rest decode s = ((Rex.word (wT.map (·.toNat))).rest decode s).or ((Rex.word (wF.map (·.toNat))).rest decode s) := by
  rw [show rBool = .alt (.cap 1 (Rex.word (wT.map (·.toNat)))) (.cap 2 (Rex.word (wF.map (·.toNat)))) from rfl, alt_rest, cap_rest, cap_rest]

theorem takes_t (s : Bytes) : Takes jsRules.ms (wT ++ s) 3 4 := by
  rw [show wT ++ s = 116 :: ([114, 117, 101] ++ s) from rfl, takes_single jsRules_fine alive_t rule3]
  exact ⟨rfl, len_of_rest (v := wT) (by rw [bool_rest, word_here (by decide)]; rfl)⟩

theorem takes_f (s : Bytes) : Takes jsRules.ms (wF ++ s) 3 5 := by
  rw [show wF ++ s = 102 :: ([97, 108, 115, 101] ++ s) from rfl, takes_single jsRules_fine alive_f rule3]
  exact ⟨rfl, len_of_rest (v := wF) (by
    rw [bool_rest, word_here (k := wF) (by decide), word_not (k := wT) (by decide) (by intro u e; cases e)]
    rfl)⟩

theorem takes_n (s : Bytes) : Takes jsRules.ms (wN ++ s) 4 4 := by
  rw [show wN ++ s = 110 :: ([117, 108, 108] ++ s) from rfl, takes_single jsRules_fine alive_n rule4]
  exact ⟨rfl, len_of_rest (v := wN) (word_here (k := wN) (by decide) s)⟩

theorem no_t {s : Bytes} (h : ∀ u, 116 :: s ≠ wT ++ u) {i n : Nat} : ¬ Takes jsRules.ms (116 :: s) i n := by
  rw [takes_single jsRules_fine alive_t rule3]
  rintro ⟨-, h'⟩
  have h' : rBool.len (116 :: s) = some n := h'
  rw [len_rest, bool_rest, word_not (k := wT) (by decide) h, word_not (k := wF) (by decide) (by intro u e; cases e)] at h'
  cases h'

theorem no_f {s : Bytes} (h : ∀ u, 102 :: s ≠ wF ++ u) {i n : Nat} : ¬ Takes jsRules.ms (102 :: s) i n := by
  rw [takes_single jsRules_fine alive_f rule3]
  rintro ⟨-, h'⟩
  have h' : rBool.len (102 :: s) = some n := h'
  rw [len_rest, bool_rest, word_not (k := wF) (by decide) h, word_not (k := wT) (by decide) (by intro u e; cases e)] at h'
  cases h'

theorem no_n {s : Bytes} (h : ∀ u, 110 :: s ≠ wN ++ u) {i n : Nat} : ¬ Takes jsRules.ms (110 :: s) i n := by
  rw [takes_single jsRules_fine alive_n rule4]
  rintro ⟨-, h'⟩
  have h' : (Rex.word (wN.map (·.toNat))).len (110 :: s) = some n := h'
  rw [len_rest, word_not (k := wN) (by decide) h] at h'
  cases h'

/-- The number of the rule for a token of one character. -/
def oneIdx : UInt8 → Nat
  | 44 => 5
  | 123 => 6
  | 125 => 7
  | 91 => 8
  | 93 => 9
  | _ => 10

theorem takes_one {x : UInt8} {t : Str} (h : punct x = some t) (s : Bytes) : Takes jsRules.ms (x :: s) (oneIdx x) 1 := by
  have ha : jsRules.alive x = [oneIdx x] := by
    have := all_bytes (p := fun x => decide (punct x = none) || decide (jsRules.alive x = [oneIdx x])) (by decide +kernel) x
    simpa [h] using this
  have hr : jsRules[oneIdx x]? = some ((jsRules.map (·.1))[oneIdx x]?.getD [], Rex.word [x.toNat], false) := by
    have := all_bytes (p := fun x => decide (punct x = none) ||
      decide (jsRules[oneIdx x]? = some ((jsRules.map (·.1))[oneIdx x]?.getD [], Rex.word [x.toNat], false))) (by decide +kernel) x
    simpa [h] using this
  have hx : x.toNat < 0x80 := by
    have := all_bytes (p := fun x => decide (punct x = none) || decide (x.toNat < 0x80)) (by decide +kernel) x
    simpa [h] using this
  rw [takes_single jsRules_fine ha hr]
  refine ⟨rfl, ?_⟩
  have := len_of_rest (r := Rex.word [x.toNat]) (v := [x]) (s := s) (by
    rw [word_rest (by simpa using hx)]
    simp)
  exact this

/-! ### The text as a whole -/

theorem jsRules_kinds : jsRules.map (fun r => (chars r.1, r.2.2)) =
    [("space".toList, true), ("number".toList, false), ("string".toList, false), ("bool".toList, false), ("null".toList, false),
     ("comma".toList, false), ("lcb".toList, false), ("rcb".toList, false), ("lb".toList, false), ("rb".toList, false),
     ("colon".toList, false)] := by decide +kernel

theorem kept_at (i : Nat) (v : Bytes) : jsRules.kept (i, v) =
    (([("space".toList, true), ("number".toList, false), ("string".toList, false), ("bool".toList, false), ("null".toList, false),
     ("comma".toList, false), ("lcb".toList, false), ("rcb".toList, false), ("lb".toList, false), ("rb".toList, false),
     ("colon".toList, false)] : List (Str × Bool))[i]?).bind (fun r => if r.2 then none else some (r.1, nameOf v)) := by
  rw [← jsRules_kinds, Rules.kept, List.getElem?_map]
  cases jsRules[i]? <;> rfl

theorem kept0 (v : Bytes) : jsRules.kept (0, v) = none := by rw [kept_at]; rfl
theorem kept1 (v : Bytes) : jsRules.kept (1, v) = some ("number".toList, nameOf v) := by rw [kept_at]; rfl
theorem kept2 (v : Bytes) : jsRules.kept (2, v) = some ("string".toList, nameOf v) := by rw [kept_at]; rfl
theorem kept3 (v : Bytes) : jsRules.kept (3, v) = some ("bool".toList, nameOf v) := by rw [kept_at]; rfl
theorem kept4 (v : Bytes) : jsRules.kept (4, v) = some ("null".toList, nameOf v) := by rw [kept_at]; rfl
theorem kept_one {x : UInt8} {t : Str} (h : punct x = some t) (v : Bytes) : jsRules.kept (oneIdx x, v) = some (t, nameOf v) := by
  rw [kept_at]
  unfold punct at h
  split at h <;> cases h <;> rfl

theorem cut_of_text {s : Bytes} {ts : List (Str × Str)} (h : JsText s ts) : ∃ c, Cut jsRules.ms s c ∧ c.filterMap jsRules.kept = ts := by
  induction h with
  | done => exact ⟨[], .done, rfl⟩
  | @space x s ts h rest ih =>
    obtain ⟨c, h1, h2⟩ := ih
    obtain ⟨v, u, rfl, hv, hu⟩ := take_drop RxByte.space s
    cases v with
    | nil => exact ⟨(0, [x]) :: c, .tok (v := [x]) (takes_space (by simp) (by simpa using h) hu) h1, by rw [← h2, List.filterMap_cons, kept0]⟩
    | cons y v =>
      have ht : Takes jsRules.ms (x :: (y :: v ++ u)) 0 (x :: y :: v).length :=
        takes_space (w := x :: y :: v) (by simp) (by
          intro z hz
          rcases List.mem_cons.1 hz with rfl | hz
          · exact h
          · exact hv z hz) hu
      have ht' : Takes jsRules.ms (y :: v ++ u) 0 (y :: v).length := takes_space (by simp) hv hu
      generalize e : y :: v ++ u = z at h1
      cases h1 with
      | done => simp at e
      | @tok i v' s' segs h3 h4 =>
        rw [e] at ht'
        obtain ⟨rfl, hl⟩ := takes_unique ht' h3
        obtain ⟨rfl, rfl⟩ := List.append_inj e hl
        exact ⟨(0, x :: y :: v) :: segs, .tok (v := x :: y :: v) ht h4, by
          rw [← h2, List.filterMap_cons, kept0, List.filterMap_cons, kept0]⟩
  | int ne h stop nf rest ih =>
    obtain ⟨c, h1, rfl⟩ := ih
    exact ⟨_, .tok (takes_int ne h stop nf) h1, by rw [List.filterMap_cons, kept1]⟩
  | @frac d f s ts hd ne hf stop rest ih =>
    obtain ⟨c, h1, rfl⟩ := ih
    have := Cut.tok (v := d ++ 46 :: f) (s := s) (by
      have := takes_frac hd ne hf stop
      simpa only [List.append_assoc, List.cons_append] using this) h1
    simp only [List.append_assoc, List.cons_append] at this
    exact ⟨_, this, by rw [List.filterMap_cons, kept1]⟩
  | @string b s ts h rest ih =>
    obtain ⟨c, h1, rfl⟩ := ih
    have := Cut.tok (v := 34 :: (b ++ [34])) (s := s) (by
      have := takes_string (s := s) h
      simpa only [List.append_assoc, List.cons_append, List.nil_append] using this) h1
    simp only [List.append_assoc, List.cons_append, List.nil_append] at this
    exact ⟨_, this, by rw [List.filterMap_cons, kept2]⟩
  | @word w k s ts h rest ih =>
    obtain ⟨c, h1, rfl⟩ := ih
    simp only [jsWords, List.mem_cons, Prod.mk.injEq, List.not_mem_nil, or_false] at h
    rcases h with ⟨rfl, rfl⟩ | ⟨rfl, rfl⟩ | ⟨rfl, rfl⟩
    · exact ⟨_, .tok (takes_t _) h1, by rw [List.filterMap_cons, kept3]⟩
    · exact ⟨_, .tok (takes_f _) h1, by rw [List.filterMap_cons, kept3]⟩
    · exact ⟨_, .tok (takes_n _) h1, by rw [List.filterMap_cons, kept4]⟩
  | @one x t s ts h rest ih =>
    obtain ⟨c, h1, rfl⟩ := ih
    exact ⟨_, .tok (v := [x]) (takes_one h _) h1, by rw [List.filterMap_cons, kept_one h]⟩

theorem text_space {s : Bytes} {ts : List (Str × Str)} (h : JsText s ts) : ∀ v : Bytes, (∀ y ∈ v, RxByte.space y = true) → JsText (v ++ s) ts
  | [], _ => h
  | _ :: v, hv => .space (hv _ (by simp)) (text_space h v fun y hy => hv y (by simp [hy]))

/-- What the piece is that is taken. -/
theorem piece {v s w u : Bytes} {x : UInt8} {i j n : Nat} (h : Takes jsRules.ms (x :: (v ++ s)) i (x :: v).length) (e : v ++ s = w ++ u)
    (ht : Takes jsRules.ms (x :: (w ++ u)) j n) (hn : n = w.length + 1) : i = j ∧ v = w ∧ s = u := by
  rw [e] at h
  obtain ⟨rfl, hl⟩ := takes_unique h ht
  rw [List.length_cons] at hl
  obtain ⟨rfl, rfl⟩ := List.append_inj e (by omega)
  exact ⟨rfl, rfl, rfl⟩

theorem text_of_cut {s : Bytes} {c : List (Nat × Bytes)} (h : Cut jsRules.ms s c) : JsText s (c.filterMap jsRules.kept) := by
  induction h with
  | done => exact .done
  | @tok i v s c h rest ih =>
    cases v with
    | nil => exact absurd h.1 (by simp)
    | cons x v =>
      rw [List.cons_append] at h
      by_cases hd : RxByte.digit x = true
      · obtain ⟨w, u, e, h1, h2⟩ := take_drop RxByte.digit (v ++ s)
        have hall : ∀ y ∈ x :: w, RxByte.digit y = true := by simpa [hd] using h1
        rcases Verif.ReducerDSL.frac_or u with nf | ⟨f, s', rfl, ne, hf, stop⟩
        · obtain ⟨rfl, rfl, rfl⟩ := piece h e (takes_int (d := x :: w) (by simp) hall h2 nf) rfl
          rw [List.filterMap_cons, kept1]
          exact .int (d := x :: v) (by simp) hall h2 nf ih
        · have ht := takes_frac (d := x :: w) hall ne hf stop
          have e' : v ++ s = (w ++ 46 :: f) ++ s' := by rw [e]; simp
          obtain ⟨rfl, rfl, rfl⟩ := piece (w := w ++ 46 :: f) h e' (by simpa using ht) rfl
          rw [List.filterMap_cons, kept1]
          have := JsText.frac (d := x :: w) hall ne hf stop ih
          simp only [List.cons_append, List.append_assoc] at this ⊢
          exact this
      by_cases hs : RxByte.space x = true
      · obtain ⟨w, u, e, h1, h2⟩ := take_drop RxByte.space (v ++ s)
        have hall : ∀ y ∈ x :: w, RxByte.space y = true := by simpa [hs] using h1
        obtain ⟨rfl, rfl, rfl⟩ := piece h e (takes_space (w := x :: w) (by simp) hall h2) rfl
        rw [List.filterMap_cons, kept0]
        exact text_space ih (x :: v) hall
      cases ho : punct x with
      | some t =>
        obtain ⟨rfl, rfl, -⟩ := piece (w := []) h rfl (takes_one ho _) rfl
        rw [List.filterMap_cons, kept_one ho]
        exact .one ho ih
      | none =>
        by_cases h46 : x = 46
        · subst h46
          obtain ⟨f, u, e, hf, h2⟩ := take_drop RxByte.digit (v ++ s)
          by_cases ne : f = []
          · subst ne
            exact absurd h (no_dot (by rw [e]; exact h2))
          · have ht := takes_frac (d := []) (by simp) ne hf h2
            obtain ⟨rfl, rfl, rfl⟩ := piece h e ht rfl
            rw [List.filterMap_cons, kept1]
            exact JsText.frac (d := []) (by simp) ne hf h2 ih
        by_cases h34 : x = 34
        · subst h34
          by_cases hb : ∃ b u, StrBody b ∧ v ++ s = b ++ 34 :: u
          · obtain ⟨b, u, hb, e⟩ := hb
            have e' : v ++ s = (b ++ [34]) ++ u := by rw [e]; simp
            obtain ⟨rfl, rfl, rfl⟩ := piece (w := b ++ [34]) h e' (by simpa using takes_string (s := u) hb) (by simp)
            rw [List.filterMap_cons, kept2]
            have := JsText.string hb ih
            simp only [List.cons_append, List.append_assoc, List.nil_append] at this ⊢
            exact this
          · exact absurd h (no_string fun b u hb' e => hb ⟨b, u, hb', e⟩)
        by_cases h116 : x = 116
        · subst h116
          by_cases hb : ∃ u, 116 :: (v ++ s) = wT ++ u
          · obtain ⟨u, e⟩ := hb
            have e' : v ++ s = [114, 117, 101] ++ u := List.tail_eq_of_cons_eq e
            obtain ⟨rfl, rfl, rfl⟩ := piece h e' (takes_t _) rfl
            rw [List.filterMap_cons, kept3]
            exact .word (w := wT) (by simp [jsWords, wT]) ih
          · exact absurd h (no_t fun u e => hb ⟨u, e⟩)
        by_cases h102 : x = 102
        · subst h102
          by_cases hb : ∃ u, 102 :: (v ++ s) = wF ++ u
          · obtain ⟨u, e⟩ := hb
            have e' : v ++ s = [97, 108, 115, 101] ++ u := List.tail_eq_of_cons_eq e
            obtain ⟨rfl, rfl, rfl⟩ := piece h e' (takes_f _) rfl
            rw [List.filterMap_cons, kept3]
            exact .word (w := wF) (by simp [jsWords, wF]) ih
          · exact absurd h (no_f fun u e => hb ⟨u, e⟩)
        by_cases h110 : x = 110
        · subst h110
          by_cases hb : ∃ u, 110 :: (v ++ s) = wN ++ u
          · obtain ⟨u, e⟩ := hb
            have e' : v ++ s = [117, 108, 108] ++ u := List.tail_eq_of_cons_eq e
            obtain ⟨rfl, rfl, rfl⟩ := piece h e' (takes_n _) rfl
            rw [List.filterMap_cons, kept4]
            exact .word (w := wN) (by simp [jsWords, wN]) ih
          · exact absurd h (no_n fun u e => hb ⟨u, e⟩)
        exact absurd h (takes_none jsRules_fine (alive_other (by simpa using hd) (by simpa using hs) ho h46 h34 h116 h102 h110))

theorem text_unique {s : Bytes} {ts ts' : List (Str × Str)} (h : JsText s ts) (h' : JsText s ts') : ts = ts' := by
  obtain ⟨c, h1, rfl⟩ := cut_of_text h
  obtain ⟨c', h2, rfl⟩ := cut_of_text h'
  rw [cut_unique h1 h2]

end Verif.Json
