import Verif.Proofs.JsonLex
import Verif.Props.JsonFormat
/-
What `prettyPrint` writes for a value, and that it is read again as the same tokens.
-/
namespace Verif.Json
open Verif Verif.Spec Verif.Spec.Json Verif.SimpleLexer
open Verif.Props.JsonFormat (Faithful punctuation)

/-! ### The text for a value -/

theorem stands_nested {t : PN Str Str} {v : Val} (h : Stands t v) :
    (decide (t.kind = kArray) || decide (t.kind = kObject)) = v.nested := by
  cases h with
  | @atom l ks hk =>
    simp only [List.mem_cons, List.not_mem_nil, or_false, not_or] at hk
    rw [decide_eq_false (show ¬ (PN.node l ks).kind = kArray from hk.1), decide_eq_false (show ¬ (PN.node l ks).kind = kObject from hk.2.1)]
    rfl
  | @arr l ks vs hk hl h => rw [decide_eq_true (show (PN.node l ks).kind = kArray from hk)]; rfl
  | @obj l ks fs hk hl hkv h =>
    rw [decide_eq_true (show (PN.node l (ks.map fun x => PN.node x.1 [x.2])).kind = kObject from hk)]
    simp [Val.nested]

theorem arr_pretty : ∀ (vs : List Val) (ks : List (PN Str Str)) (first : Bool) (pad : Str), ks.length = vs.length →
    (∀ (i : Nat) t v, ks[i]? = some t → vs[i]? = some v → Stands t v ∧ ∀ pad, pp t pad = .ok (pretty v pad)) →
    ppArr ks first pad = .ok (prettyL vs first pad, vs.any Val.nested)
  | [], [], _, _, _, _ => by simp [ppArr, prettyL]
  | [], _ :: _, _, _, hl, _ => by simp at hl
  | _ :: _, [], _, _, hl, _ => by simp at hl
  | v :: vs, t :: ks, first, pad, hl, h => by
    obtain ⟨h1, h2⟩ := h 0 t v rfl rfl
    rw [ppArr, h2, Out.bind_ok, arr_pretty vs ks false pad (by simpa using hl) (fun i t v a b => h (i + 1) t v a b), Out.bind_ok,
      stands_nested h1, prettyL, List.any_cons]

theorem obj_pretty : ∀ (fs : List (Str × Val)) (ks : List (Spec.Lexeme Str Str × PN Str Str)) (first : Bool) (pad : Str),
    ks.map (·.1.val) = fs.map (·.1) → (∀ x ∈ ks, x.1.kind = "KeyVal".toList) →
    (∀ (i : Nat) x f, ks[i]? = some x → fs[i]? = some f → ∀ pad, pp x.2 pad = .ok (pretty f.2 pad)) →
    ppObj (ks.map fun x => .node x.1 [x.2]) first pad = .ok (prettyF fs first pad)
  | [], [], _, _, _, _, _ => by simp [ppObj, prettyF]
  | [], _ :: _, _, _, hl, _, _ => by simp at hl
  | _ :: _, [], _, _, hl, _, _ => by simp at hl
  | (k, v) :: fs, x :: ks, first, pad, hl, hk, h => by
    simp only [List.map_cons, List.cons.injEq] at hl
    rw [List.map_cons, ppObj, Verif.Props.Json.pp_kv (hk x (by simp)) (h 0 x (k, v) rfl rfl pad), Out.bind_ok,
      obj_pretty fs ks false pad hl.2 (fun y hy => hk y (by simp [hy])) (fun i t v a b => h (i + 1) t v a b), Out.bind_ok, prettyF,
      hl.1]
    simp only [List.append_assoc]

/-- `prettyPrint` writes the value as `pretty` says. -/
theorem pp_pretty {t : PN Str Str} {v : Val} (h : Stands t v) : ∀ pad, pp t pad = .ok (pretty v pad) := by
  induction h with
  | @atom l ks hk =>
    intro pad
    simp only [List.mem_cons, List.not_mem_nil, or_false, not_or] at hk
    simp only [pp, show ¬ l.kind = kArray from hk.1, show ¬ l.kind = kObject from hk.2.1,
      show ¬ l.kind = kKeyVal from hk.2.2, if_false, pretty]
  | @arr l ks vs hk hl h ih =>
    intro pad
    rw [pp, if_pos (show l.kind = kArray from hk), arr_pretty vs ks true _ hl (fun i t v a b => ⟨h i t v a b, ih i t v a b⟩), Out.bind_ok,
      pretty]
  | @obj l ks fs hk hm hkv h ih =>
    intro pad
    have n1 : ¬ l.kind = kArray := by rw [hk]; decide
    have n2 : l.kind = kObject := hk
    match ks, fs, hm, hkv, ih with
    | [], [], _, _, _ => rw [pp, if_neg n1, if_pos n2]; simp [pretty]
    | [], _ :: _, hm, _, _ => simp at hm
    | _ :: _, [], hm, _, _ => simp at hm
    | [x], [(k, v)], hm, hkv, ih =>
      rw [pp, if_neg n1, if_pos n2, List.map_cons, List.map_nil, if_neg (by simp), if_pos (by simp), ppFst,
        Verif.Props.Json.pp_kv (hkv x (by simp)) (ih 0 x (k, v) rfl rfl pad), Out.bind_ok, pretty]
      simp only [List.map_cons, List.map_nil, List.cons.injEq, and_true] at hm
      rw [hm]
      simp only [List.append_assoc]
    | [_], _ :: _ :: _, hm, _, _ => simp at hm
    | _ :: _ :: _, [_], hm, _, _ => simp at hm
    | x :: y :: ks, f :: g :: fs, hm, hkv, ih =>
      rw [pp, if_neg n1, if_pos n2, if_neg (by simp), if_neg (by simp), obj_pretty (f :: g :: fs) (x :: y :: ks) true _ hm hkv ih, Out.bind_ok]
      rw [pretty]
      simp

/-! ### Numbers are apart -/

/-- No two lexemes side by side are numbers. -/
def Apart (ls : List (Lexeme Str Str)) : Prop := ls.IsChain fun a b => a.kind = "number".toList → b.kind ≠ "number".toList

/-- What a list of lexemes begins with, if it begins. -/
def Begins (ls : List (Lexeme Str Str)) : Prop := ∀ l ∈ ls.head?, l.kind ≠ "number".toList

theorem apart_append {a b : List (Lexeme Str Str)} (ha : Apart a) (hb : Apart b) (h : Begins b) : Apart (a ++ b) :=
  List.isChain_append.2 ⟨ha, hb, fun _ _ y hy _ => h y hy⟩

theorem apart_cons {l : Lexeme Str Str} {a : List (Lexeme Str Str)} (hl : l.kind ≠ "number".toList) (ha : Apart a) : Apart (l :: a) := by
  have : Apart ([l] ++ a) := List.isChain_append.2 ⟨.singleton _, ha, fun x hx _ _ e => by
    cases hx
    exact absurd e hl⟩
  exact this

theorem apart_one (l : Lexeme Str Str) : Apart [l] := .singleton _

theorem begins_cons {l : Lexeme Str Str} {a : List (Lexeme Str Str)} (hl : l.kind ≠ "number".toList) : Begins (l :: a) := by
  rintro x ⟨⟩
  exact hl

theorem begins_append {a b : List (Lexeme Str Str)} (ha : Begins a) (hb : Begins b) : Begins (a ++ b) := by
  cases a with
  | nil => exact hb
  | cons x a => exact ha

/-- Parts that follow others do not begin with a number. -/
def follows : Part → Prop
  | .val _ => False
  | _ => True

theorem written_apart {p : Part} {ls : List (Lexeme Str Str)} (h : Written p ls) : Apart ls ∧ (follows p → Begins ls) := by
  have ne : ∀ {l : Lexeme Str Str} {k : Str}, l.kind = k → k ≠ "number".toList → l.kind ≠ "number".toList := fun e h => by rw [e]; exact h
  induction h with
  | atom h => exact ⟨apart_one _, False.elim⟩
  | noItems ha hb => exact ⟨apart_cons (ne ha (by decide)) (apart_one _), False.elim⟩
  | arr ha hb _ _ ih1 ih2 =>
    refine ⟨apart_cons (ne ha (by decide)) (apart_append (apart_append ih1.1 ih2.1 (ih2.2 trivial)) (apart_one _) (begins_cons (ne hb (by decide)))), False.elim⟩
  | noFields ha hb => exact ⟨apart_cons (ne ha (by decide)) (apart_one _), False.elim⟩
  | obj ha hb _ _ ih1 ih2 =>
    refine ⟨apart_cons (ne ha (by decide)) (apart_append (apart_append ih1.1 ih2.1 (ih2.2 trivial)) (apart_one _) (begins_cons (ne hb (by decide)))), False.elim⟩
  | itemsEnd => exact ⟨.nil, fun _ => by rintro l ⟨⟩⟩
  | item hc _ _ ih1 ih2 =>
    exact ⟨apart_cons (ne hc (by decide)) (apart_append ih1.1 ih2.1 (ih2.2 trivial)), fun _ => begins_cons (ne hc (by decide))⟩
  | field hl hc _ ih =>
    exact ⟨apart_cons (ne hl (by decide)) (apart_cons (ne hc (by decide)) ih.1), fun _ => begins_cons (ne hl (by decide))⟩
  | fieldsEnd => exact ⟨.nil, fun _ => by rintro l ⟨⟩⟩
  | moreFields hc _ _ ih1 ih2 =>
    exact ⟨apart_cons (ne hc (by decide)) (apart_append ih1.1 ih2.1 (ih2.2 trivial)), fun _ => begins_cons (ne hc (by decide))⟩

/-! ### Tokens of texts -/

/-- The text does not go on a number. -/
def Clean (s : Bytes) : Prop := ∀ x t, s = x :: t → RxByte.digit x = false ∧ x ≠ 46

theorem Clean.stop {s : Bytes} (h : Clean s) : NoHead RxByte.digit s := fun x t e => (h x t e).1
theorem Clean.noFrac {s : Bytes} (h : Clean s) : NoFrac s := fun x t e => absurd rfl (h 46 (x :: t) e).2

/-- A token that texts can have, and the bytes of its text: before any text that does not go on a number it is
read, and only numbers begin as numbers do. -/
structure TokIs (t : Str × Str) (w : Bytes) : Prop where
  text : t.2 = nameOf w
  ne : w ≠ []
  reads : ∀ {s ts}, JsText s ts → Clean s → JsText (w ++ s) (t :: ts)
  always : t.1 ≠ "number".toList → ∀ {s ts}, JsText s ts → JsText (w ++ s) (t :: ts)
  begins : t.1 ≠ "number".toList → Clean w
  punct : ∀ p ∈ punctuation, t.1 = p.1 → t.2 = p.2

theorem tok_num {w : Bytes} (ne : w ≠ []) (h : ∀ {s ts}, JsText s ts → Clean s → JsText (w ++ s) (("number".toList, nameOf w) :: ts)) :
    TokIs ("number".toList, nameOf w) w where
  text := rfl
  ne := ne
  reads := h
  always := fun h => absurd rfl h
  begins := fun h => absurd rfl h
  punct := by
    intro p hp e
    have : ∀ p ∈ punctuation, "number".toList ≠ p.1 := by decide +kernel
    exact absurd e (this p hp)

theorem tok_other {k : Str} {w : Bytes} (ne : w ≠ []) (h : ∀ {s ts}, JsText s ts → JsText (w ++ s) ((k, nameOf w) :: ts)) (hc : Clean w)
    (hp : ∀ p ∈ punctuation, k = p.1 → nameOf w = p.2) : TokIs (k, nameOf w) w where
  text := rfl
  ne := ne
  reads := fun h' _ => h h'
  always := fun _ _ _ h' => h h'
  begins := fun _ => hc
  punct := hp

theorem clean_cons {x : UInt8} {s : Bytes} (h : RxByte.digit x = false) (h' : x ≠ 46) : Clean (x :: s) := by
  rintro y t ⟨⟩
  exact ⟨h, h'⟩

theorem text_toks {b : Bytes} {ts : List (Str × Str)} (h : JsText b ts) : ∀ t ∈ ts, ∃ w, TokIs t w := by
  induction h with
  | done => intro t ht; cases ht
  | space h rest ih => exact ih
  | @int d s ts ne h stop nf rest ih =>
    intro t ht
    rcases List.mem_cons.1 ht with rfl | ht
    · exact ⟨d, tok_num ne fun h' hc => .int ne h hc.stop hc.noFrac h'⟩
    · exact ih t ht
  | @frac d f s ts hd ne hf stop rest ih =>
    intro t ht
    rcases List.mem_cons.1 ht with rfl | ht
    · refine ⟨d ++ 46 :: f, tok_num (by simp) fun h' hc => ?_⟩
      have := JsText.frac hd ne hf hc.stop h'
      simp only [List.append_assoc, List.cons_append] at this ⊢
      exact this
    · exact ih t ht
  | @string b s ts h rest ih =>
    intro t ht
    rcases List.mem_cons.1 ht with rfl | ht
    · refine ⟨34 :: (b ++ [34]), tok_other (by simp) (fun h' => ?_) (clean_cons (by decide) (by decide)) ?_⟩
      · have := JsText.string h h'
        simp only [List.append_assoc, List.cons_append, List.nil_append] at this ⊢
        exact this
      · intro p hp e
        have : ∀ p ∈ punctuation, "string".toList ≠ p.1 := by decide +kernel
        exact absurd e (this p hp)
    · exact ih t ht
  | @word w k s ts h rest ih =>
    intro t ht
    rcases List.mem_cons.1 ht with rfl | ht
    · have h' := h
      simp only [jsWords, List.mem_cons, Prod.mk.injEq, List.not_mem_nil, or_false] at h'
      refine ⟨w, tok_other ?_ (fun h' => .word h h') ?_ ?_⟩
      · rcases h' with ⟨rfl, rfl⟩ | ⟨rfl, rfl⟩ | ⟨rfl, rfl⟩ <;> simp
      · rcases h' with ⟨rfl, rfl⟩ | ⟨rfl, rfl⟩ | ⟨rfl, rfl⟩ <;> exact clean_cons (by decide) (by decide)
      · intro p hp e
        have h1 : ∀ p ∈ punctuation, "bool".toList ≠ p.1 ∧ "null".toList ≠ p.1 := by decide +kernel
        rcases h' with ⟨rfl, rfl⟩ | ⟨rfl, rfl⟩ | ⟨rfl, rfl⟩
        · exact absurd e (h1 p hp).1
        · exact absurd e (h1 p hp).1
        · exact absurd e (h1 p hp).2
    · exact ih t ht
  | @one x k s ts h rest ih =>
    intro t ht
    rcases List.mem_cons.1 ht with rfl | ht
    · refine ⟨[x], tok_other (by simp) (fun h' => .one h h') ?_ ?_⟩
      · have := all_bytes (p := fun x => decide (punct x = none) || (!RxByte.digit x && decide (x ≠ 46))) (by decide +kernel) x
        simp only [h] at this
        simp at this
        exact clean_cons this.1 this.2
      · unfold Spec.Json.punct at h
        split at h <;> cases h <;> decide +kernel
    · exact ih t ht

theorem text_faithful {b : Bytes} {ls : List (Lexeme Str Str)} (h : JsText b (ls.map fun l => (l.kind, l.val))) : Faithful ls := by
  intro l hl p hp e
  obtain ⟨w, hw⟩ := text_toks h _ (List.mem_map_of_mem hl)
  exact hw.punct p hp e

/-! ### Reading again -/

theorem packed_nameOf (w : Bytes) : packed (nameOf w) = w := by
  rw [packed, nameOf, List.map_map]
  conv => rhs; rw [← List.map_id w]
  refine List.map_congr_left fun x _ => ?_
  have := all_bytes (p := fun x => decide (UInt8.ofNat (Char.ofNat x.toNat).toNat = x)) (by decide +kernel) x
  simpa using this

theorem packed_append (a b : Str) : packed (a ++ b) = packed a ++ packed b := List.map_append

theorem blank_space {s : Str} (h : Blank s) : ∀ x ∈ packed s, RxByte.space x = true := by
  intro x hx
  obtain ⟨c, hc, rfl⟩ := List.mem_map.1 hx
  rcases h c hc with rfl | rfl <;> decide

theorem clean_blank {s : Str} {t : Bytes} (h : Blank s) (ht : Clean t) : Clean (packed s ++ t) := by
  cases s with
  | nil => exact ht
  | cons c s =>
    refine clean_cons ?_ ?_
    · rcases h c (by simp) with rfl | rfl <;> decide
    · rcases h c (by simp) with rfl | rfl <;> decide

theorem clean_append {a b : Bytes} (ne : a ≠ []) (h : Clean a) : Clean (a ++ b) := by
  cases a with
  | nil => exact absurd rfl ne
  | cons x a => exact clean_cons (h x a rfl).1 (h x a rfl).2

theorem clean_nil : Clean [] := by rintro x t ⟨⟩

/-- The tokens with blanks between them are read as these tokens, if no two numbers are side by side. -/
theorem spaced_text {S : Str} : ∀ {ls : List (Lexeme Str Str)}, Apart ls → (∀ l ∈ ls, ∃ w, TokIs (l.kind, l.val) w) → Spaced (ls.map (·.val)) S →
    JsText (packed S) (ls.map fun l => (l.kind, l.val)) ∧ (Begins ls → Clean (packed S)) := by
  intro ls ha hw h
  generalize e : ls.map (·.val) = vs at h
  induction h generalizing ls with
  | one t =>
    match ls, ha, hw, e with
    | [l], ha, hw, e =>
      simp only [List.map_cons, List.map_nil, List.cons.injEq, and_true] at e
      subst e
      obtain ⟨w, hw⟩ := hw l (by simp)
      rw [show l.val = nameOf w from hw.text, packed_nameOf]
      have := hw.reads .done clean_nil
      rw [List.append_nil] at this
      exact ⟨this, fun hb => hw.begins (hb l rfl)⟩
  | @cons t ws ts r hb h ih =>
    match ls, ha, hw, e with
    | l :: ls, ha, hw, e' =>
      simp only [List.map_cons, List.cons.injEq] at e'
      obtain ⟨rfl, e1⟩ := e'
      obtain ⟨h1, h2⟩ := ih (List.isChain_of_isChain_cons ha) (fun l hl => hw l (by simp [hl])) e1
      obtain ⟨w, hw⟩ := hw l (by simp)
      rw [packed_append, packed_append, show packed l.val = w by rw [show l.val = nameOf w from hw.text, packed_nameOf], List.append_assoc]
      have h3 := text_space h1 _ (blank_space hb)
      refine ⟨?_, fun hb' => clean_append hw.ne (hw.begins (hb' l rfl))⟩
      by_cases hk : l.kind = "number".toList
      · refine hw.reads h3 (clean_blank hb (h2 ?_))
        intro l' hl'
        cases ls with
        | nil => cases hl'
        | cons y ls =>
          have e2 : y = l' := by simpa using hl'
          rw [← e2]
          exact (List.isChain_cons_cons.1 ha).1 hk
      · exact hw.always hk h3

end Verif.Json
