import Verif.Model.Json
import Verif.Spec.Json
/- Properties of the JSON formatter (C56). -/
namespace Verif.Props.Json
open Verif.Spec Verif.Spec.Json Verif.Json

theorem blank_append {a b : Str} (h1 : Blank a) (h2 : Blank b) : Blank (a ++ b) := by
  intro c hc
  rcases List.mem_append.1 hc with h | h
  · exact h1 c h
  · exact h2 c h

theorem spaced_append {a b : List Str} {x y ws : Str} (h1 : Spaced a x) (hw : Blank ws) (h2 : Spaced b y) :
    Spaced (a ++ b) (x ++ ws ++ y) := by
  induction h1 with
  | one t => exact .cons hw h2
  | @cons t ws' ts r hb _ ih =>
    have := Spaced.cons (t := t) hb ih
    simpa [List.append_assoc] using this

theorem blank_two : Blank "  ".toList := by
  intro c hc
  left
  revert c
  decide

theorem blank_nl : Blank "\n".toList := by
  intro c hc
  right
  revert c
  decide

theorem blank_nil : Blank [] := by simp [Blank]

theorem pp_kv {l : Spec.Lexeme Str Str} {c pad s} (hk : l.kind = "KeyVal".toList) (e : pp c pad = .ok s) :
    pp (.node l [c]) pad = .ok (l.val ++ ": ".toList ++ s) := by
  rw [pp, if_neg (by rw [hk]; decide), if_neg (by rw [hk]; decide), if_pos (show l.kind = kKeyVal from hk), ppFst, e]
  rfl

/-- What is shown of one tree. -/
def Good (t : PN Str Str) (v : Val) : Prop := ∀ pad, Blank pad → ∃ s, pp t pad = .ok s ∧ Spaced (tokens v) s

theorem arr_loop : ∀ (vs : List Val) (ks : List (PN Str Str)) (first : Bool), ks.length = vs.length →
    (∀ (i : Nat) t v, ks[i]? = some t → vs[i]? = some v → Good t v) → ∀ pad, Blank pad →
    ∃ s b, ppArr ks first pad = .ok (s, b) ∧ ∀ T x R y ws, Spaced T x → Blank ws → Spaced R y →
      Spaced (T ++ tokensL vs first ++ R) (x ++ s ++ ws ++ y) := by
  intro vs
  induction vs with
  | nil =>
    intro ks first hl _ pad _
    cases ks with
    | cons k ks => simp at hl
    | nil =>
      exact ⟨[], false, by simp [ppArr], fun T x R y ws h1 hw h2 => by simpa [tokensL] using spaced_append h1 hw h2⟩
  | cons v vs ih =>
    intro ks first hl hg pad hp
    cases ks with
    | nil => simp at hl
    | cons t ks =>
      obtain ⟨s1, e1, h1⟩ := hg 0 t v rfl rfl pad hp
      obtain ⟨s2, b, e2, h2⟩ := ih ks false (by simpa using hl) (fun i t v a b => hg (i + 1) t v a b) pad hp
      refine ⟨_, _, by rw [ppArr, e1, Out.bind_ok, e2, Out.bind_ok], ?_⟩
      intro T x R y ws hT hw hR
      have hn : Blank (if (decide (t.kind = kArray) || decide (t.kind = kObject)) = true then "\n".toList ++ pad else []) := by
        split
        · exact blank_append blank_nl hp
        · exact blank_nil
      have hc : Spaced (T ++ (if first then [] else [",".toList]) ++ tokens v)
          (x ++ (if first then [] else ",".toList) ++
            (if (decide (t.kind = kArray) || decide (t.kind = kObject)) = true then "\n".toList ++ pad else []) ++ s1) := by
        cases first
        · have := spaced_append (spaced_append hT blank_nil (.one ",".toList)) hn h1
          simpa [List.append_assoc] using this
        · have := spaced_append hT hn h1
          simpa [List.append_assoc] using this
      have := h2 _ _ R y ws hc hw hR
      simpa [tokensL, List.append_assoc] using this

theorem obj_loop : ∀ (fs : List (Str × Val)) (ks : List (Spec.Lexeme Str Str × PN Str Str)) (first : Bool),
    ks.map (·.1.val) = fs.map (·.1) → (∀ x ∈ ks, x.1.kind = "KeyVal".toList) →
    (∀ (i : Nat) x f, ks[i]? = some x → fs[i]? = some f → Good x.2 f.2) → ∀ pad, Blank pad →
    ∃ s, ppObj (ks.map fun x => .node x.1 [x.2]) first pad = .ok s ∧
      ∀ T x R y w0 ws, Spaced T x → Blank w0 → Blank ws → Spaced R y →
      Spaced (T ++ tokensF fs first ++ R) (x ++ w0 ++ s ++ ws ++ y) := by
  intro fs
  induction fs with
  | nil =>
    intro ks first hl _ _ pad _
    cases ks with
    | cons k ks => simp at hl
    | nil =>
      exact ⟨[], by simp [ppObj], fun T x R y w0 ws h1 h0 hw h2 => by
        simpa [tokensF, List.append_assoc] using spaced_append h1 (blank_append h0 hw) h2⟩
  | cons f fs ih =>
    intro ks first hl hk hg pad hp
    cases ks with
    | nil => simp at hl
    | cons t ks =>
      simp only [List.map_cons, List.cons.injEq] at hl
      obtain ⟨s1, e1, h1⟩ := hg 0 t f rfl rfl pad hp
      obtain ⟨s2, e2, h2⟩ := ih ks false hl.2 (fun x hx => hk x (by simp [hx])) (fun i t v a b => hg (i + 1) t v a b) pad hp
      have ekv := pp_kv (hk t (by simp)) e1
      refine ⟨_, by rw [List.map_cons, ppObj, ekv, Out.bind_ok, e2, Out.bind_ok], ?_⟩
      intro T x R y w0 ws hT h0 hw hR
      have hc : Spaced (T ++ (if first then [] else [",".toList]) ++ [f.1, ":".toList] ++ tokens f.2)
          (x ++ w0 ++ (if first then [] else ",\n".toList) ++ pad ++ (t.1.val ++ ": ".toList ++ s1)) := by
        have hsp : Blank " ".toList := by intro c hc; left; revert c; decide
        have h3 : Spaced ([f.1, ":".toList] ++ tokens f.2) (t.1.val ++ ": ".toList ++ s1) := by
          rw [hl.1]
          have := spaced_append (spaced_append (.one f.1) blank_nil (.one ":".toList)) hsp h1
          simpa [List.append_assoc] using this
        cases first
        · have := spaced_append (spaced_append hT h0 (.one ",".toList)) (blank_append blank_nl hp) h3
          simpa [List.append_assoc] using this
        · have := spaced_append hT (blank_append h0 hp) h3
          simpa [List.append_assoc] using this
      have := h2 _ _ R y [] ws hc blank_nil hw hR
      simpa [tokensF, List.append_assoc] using this

theorem good {t v} (h : Stands t v) : Good t v := by
  induction h with
  | @atom l ks hk =>
    intro pad _
    simp only [List.mem_cons, List.not_mem_nil, or_false, not_or] at hk
    refine ⟨l.val, ?_, by simpa [tokens] using Spaced.one l.val⟩
    simp only [pp, show ¬ l.kind = kArray from hk.1, show ¬ l.kind = kObject from hk.2.1,
      show ¬ l.kind = kKeyVal from hk.2.2, if_false]
  | @arr l ks vs hk hl _ ih =>
    intro pad hp
    obtain ⟨s, b, e, h⟩ := arr_loop vs ks true hl ih (pad ++ "  ".toList) (blank_append hp blank_two)
    refine ⟨_, by rw [pp, if_pos (show l.kind = kArray from hk), e, Out.bind_ok], ?_⟩
    have hw : Blank (if b = true then "\n".toList ++ pad else []) := by
      split
      · exact blank_append blank_nl hp
      · exact blank_nil
    have := h ["[".toList] "[".toList ["]".toList] "]".toList _ (.one _) hw (.one _)
    simpa [tokens] using this
  | @obj l ks fs hk hm hkv _ ih =>
    intro pad hp
    have n1 : ¬ l.kind = kArray := by rw [hk]; decide
    have n2 : l.kind = kObject := hk
    have n3 : ¬ kObject = kArray := by decide
    match ks, hm, hkv, ih with
    | [], hm, _, _ =>
      have hf : fs = [] := by simpa using hm.symm
      subst hf
      refine ⟨"{}".toList, by simp [pp, n3, n2], ?_⟩
      have := spaced_append (.one "{".toList) blank_nil (.one "}".toList)
      simpa [tokens, tokensF] using this
    | [x], hm, hkv, ih =>
      match fs, hm with
      | [], hm => simp at hm
      | _ :: _ :: _, hm => simp at hm
      | [f], hm =>
        simp only [List.map_cons, List.map_nil, List.cons.injEq, and_true] at hm
        obtain ⟨s1, e1, h1⟩ := ih 0 x f rfl rfl pad hp
        have ekv := pp_kv (hkv x (by simp)) e1
        refine ⟨"{".toList ++ (x.1.val ++ ": ".toList ++ s1) ++ "}".toList, ?_, ?_⟩
        · rw [List.map_cons, List.map_nil, pp, if_neg n1, if_pos n2, if_neg (by simp), if_pos (by simp), ppFst, ekv]
          rfl
        · have hsp : Blank " ".toList := by intro c hc; left; revert c; decide
          have h3 := spaced_append (spaced_append (.one f.1) blank_nil (.one ":".toList)) hsp h1
          have := spaced_append (spaced_append (.one "{".toList) blank_nil h3) blank_nil (.one "}".toList)
          rw [hm]
          simpa [tokens, tokensF, List.append_assoc] using this
    | x :: y :: ks, hm, hkv, ih =>
      obtain ⟨s, e, h⟩ := obj_loop fs (x :: y :: ks) true hm hkv ih (pad ++ "  ".toList) (blank_append hp blank_two)
      refine ⟨"{\n".toList ++ s ++ "\n".toList ++ pad ++ "}".toList, ?_, ?_⟩
      · rw [pp, if_neg n1, if_pos n2, if_neg (by simp), if_neg (by simp), e]
        rfl
      · -- the opening brace is followed by a newline
        have := h ["{".toList] "{".toList ["}".toList] "}".toList "\n".toList _ (.one _) blank_nl (blank_append blank_nl hp) (.one _)
        simpa [tokens, List.append_assoc] using this

/-- **C56**: for every tree that stands for a JSON value and any indentation made of blanks, prettyPrint
does not panic, and the text it writes is the sequence of the value's tokens with only blanks and
newlines between them. -/
theorem C56_only_whitespace {t : PN Str Str} {v : Val} (h : Stands t v) {pad : Str} (hp : Blank pad) :
    ∃ s, pp t pad = .ok s ∧ Spaced (tokens v) s := good h pad hp

/-- In particular for the call made by Format, with no indentation. -/
theorem C56_format {t : PN Str Str} {v : Val} (h : Stands t v) : ∃ s, pp t [] = .ok s ∧ Spaced (tokens v) s :=
  good h [] blank_nil

/-- Two trees are written in the same way and are nested or not alike. -/
def Same (t t' : PN Str Str) : Prop :=
  (∀ pad, pp t pad = pp t' pad) ∧ (t.kind = kArray ↔ t'.kind = kArray) ∧ (t.kind = kObject ↔ t'.kind = kObject)

theorem arr_same : ∀ (ks ks' : List (PN Str Str)), ks.length = ks'.length →
    (∀ (i : Nat) t t', ks[i]? = some t → ks'[i]? = some t' → Same t t') →
    ∀ first pad, ppArr ks first pad = ppArr ks' first pad := by
  intro ks
  induction ks with
  | nil => intro ks' hl _; cases ks' <;> simp at hl; intros; rfl
  | cons k ks ih =>
    intro ks' hl h first pad
    cases ks' with
    | nil => simp at hl
    | cons k' ks' =>
      obtain ⟨h1, h2, h3⟩ := h 0 k k' rfl rfl
      rw [ppArr, ppArr, h1, ih ks' (by simpa using hl) (fun i t t' a b => h (i + 1) t t' a b)]
      simp only [h2, h3]

theorem obj_same : ∀ (ks ks' : List (PN Str Str)), ks.length = ks'.length →
    (∀ (i : Nat) t t', ks[i]? = some t → ks'[i]? = some t' → ∀ pad, pp t pad = pp t' pad) →
    ∀ first pad, ppObj ks first pad = ppObj ks' first pad := by
  intro ks
  induction ks with
  | nil => intro ks' hl _; cases ks' <;> simp at hl; intros; rfl
  | cons k ks ih =>
    intro ks' hl h first pad
    cases ks' with
    | nil => simp at hl
    | cons k' ks' =>
      rw [ppObj, ppObj, h 0 k k' rfl rfl, ih ks' (by simpa using hl) (fun i t t' a b => h (i + 1) t t' a b)]

theorem same {t v} (h : Stands t v) : ∀ {t'}, Stands t' v → Same t t' := by
  induction h with
  | @atom l ks hk =>
    intro t' h'
    generalize e : Val.atom l.val = v at h'
    cases h' with
    | arr => cases e
    | obj => cases e
    | @atom l' ks' hk' =>
      simp only [List.mem_cons, List.not_mem_nil, or_false, not_or] at hk hk'
      obtain ⟨a, b, c⟩ := hk
      obtain ⟨a', b', c'⟩ := hk'
      have hv : l.val = l'.val := by injection e
      refine ⟨fun pad => ?_, iff_of_false a a', iff_of_false b b'⟩
      rw [pp, pp, if_neg (show ¬ l.kind = kArray from a), if_neg (show ¬ l.kind = kObject from b),
        if_neg (show ¬ l.kind = kKeyVal from c), if_neg (show ¬ l'.kind = kArray from a'),
        if_neg (show ¬ l'.kind = kObject from b'), if_neg (show ¬ l'.kind = kKeyVal from c'), hv]
  | @arr l ks vs hk hl _ ih =>
    intro t' h'
    generalize e : Val.arr vs = v at h'
    cases h' with
    | atom => cases e
    | obj => cases e
    | @arr l' ks' vs' hk' hl' h' =>
      cases e
      refine ⟨fun pad => ?_, iff_of_true hk hk', iff_of_false (by rw [PN.kind, PN.lx, hk]; decide) (by rw [PN.kind, PN.lx, hk']; decide)⟩
      rw [pp, pp, if_pos (show l.kind = kArray from hk), if_pos (show l'.kind = kArray from hk'), arr_same ks ks' (hl.trans hl'.symm)]
      intro i t t' ht ht'
      have hi : i < vs.length := by
        rw [← hl]; exact (List.getElem?_eq_some_iff.1 ht).1
      exact ih i t vs[i] ht (by simp [hi]) (h' i t' vs[i] ht' (by simp [hi]))
  | @obj l ks fs hk hm hkv _ ih =>
    intro t' h'
    generalize e : Val.obj fs = v at h'
    cases h' with
    | atom => cases e
    | arr => cases e
    | @obj l' ks' fs' hk' hm' hkv' h' =>
      cases e
      have hlen : ks.length = fs.length := by simpa using congrArg List.length hm
      have hlen' : ks'.length = fs.length := by simpa using congrArg List.length hm'
      have n1 : ¬ l.kind = kArray := by rw [hk]; decide
      have n1' : ¬ l'.kind = kArray := by rw [hk']; decide
      have hp : ∀ (i : Nat) t t', (ks.map fun x => PN.node x.1 [x.2])[i]? = some t →
          (ks'.map fun x => PN.node x.1 [x.2])[i]? = some t' → ∀ pad, pp t pad = pp t' pad := by
        intro i t t' ht ht' pad
        rw [List.getElem?_map, Option.map_eq_some_iff] at ht ht'
        obtain ⟨x, hx, rfl⟩ := ht
        obtain ⟨x', hx', rfl⟩ := ht'
        have hi : i < fs.length := by
          rw [← hlen]; exact (List.getElem?_eq_some_iff.1 hx).1
        have e1 := (ih i x fs[i] hx (by simp [hi]) (h' i x' fs[i] hx' (by simp [hi]))).1 pad
        have hv : x.1.val = x'.1.val := by
          have := congrArg (·[i]?) (hm.trans hm'.symm)
          simpa [hx, hx'] using this
        have k1 := hkv x (List.mem_of_getElem? hx)
        have k1' := hkv' x' (List.mem_of_getElem? hx')
        rw [pp, pp, if_neg (by rw [k1]; decide), if_neg (by rw [k1]; decide), if_pos (show x.1.kind = kKeyVal from k1),
          if_neg (by rw [k1']; decide), if_neg (by rw [k1']; decide), if_pos (show x'.1.kind = kKeyVal from k1'),
          ppFst, ppFst, e1, hv]
      refine ⟨fun pad => ?_, iff_of_false n1 n1', iff_of_true hk hk'⟩
      rw [pp, pp, if_neg n1, if_neg n1', if_pos (show l.kind = kObject from hk), if_pos (show l'.kind = kObject from hk'),
        obj_same _ _ (by simp [hlen, hlen']) hp]
      simp only [List.length_map, hlen, hlen']
      have hf : ∀ pad, fs.length = 1 → ppFst (ks.map fun x => PN.node x.1 [x.2]) pad = ppFst (ks'.map fun x => PN.node x.1 [x.2]) pad := by
        intro pad h1
        match ks, ks', hlen, hlen', hp with
        | [], _, a, _, _ => simp at a; omega
        | _ :: _, [], _, b, _ => simp at b; omega
        | x :: ks, x' :: ks', _, _, hp => exact hp 0 _ _ rfl rfl pad
      split
      · rfl
      · split
        · next h1 => rw [hf pad h1]
        · rfl

/-- What prettyPrint writes depends only on the value: two trees that stand for the same value, whatever
the positions of their lexemes and whatever lies below their atoms, are written alike (C56). So formatting
formatted text changes nothing, as soon as reading it gives a tree for the same value. -/
theorem C56_value {t t' : PN Str Str} {v : Val} (h : Stands t v) (h' : Stands t' v) (pad : Str) :
    pp t pad = pp t' pad := (same h h').1 pad

/-- A tree for `{"a":[1,[]],"b":{"c":null}}`, used as concrete case. -/
def sample : PN Str Str :=
  .node ⟨"Object".toList, [], 0, 0⟩ [
    .node ⟨"KeyVal".toList, "\"a\"".toList, 0, 0⟩ [.node ⟨"Array".toList, [], 0, 0⟩
      [.node ⟨"number".toList, "1".toList, 0, 0⟩ [], .node ⟨"Array".toList, [], 0, 0⟩ []]],
    .node ⟨"KeyVal".toList, "\"b\"".toList, 0, 0⟩ [.node ⟨"Object".toList, [], 0, 0⟩
      [.node ⟨"KeyVal".toList, "\"c\"".toList, 0, 0⟩ [.node ⟨"null".toList, "null".toList, 0, 0⟩ []]]]]

/-- It meets the hypotheses of the theorems. -/
theorem sample_stands : Stands sample (.obj [("\"a\"".toList, .arr [.atom "1".toList, .arr []]),
    ("\"b\"".toList, .obj [("\"c\"".toList, .atom "null".toList)])]) := by
  have nul : Stands (.node ⟨"null".toList, "null".toList, 0, 0⟩ []) (.atom "null".toList) := .atom (by decide)
  have one : Stands (.node ⟨"number".toList, "1".toList, 0, 0⟩ []) (.atom "1".toList) := .atom (by decide)
  have emp : Stands (.node ⟨"Array".toList, [], 0, 0⟩ []) (.arr []) := .arr rfl rfl (by simp)
  have a : Stands (.node ⟨"Array".toList, [], 0, 0⟩
      [.node ⟨"number".toList, "1".toList, 0, 0⟩ [], .node ⟨"Array".toList, [], 0, 0⟩ []])
      (.arr [.atom "1".toList, .arr []]) := by
    refine .arr rfl rfl ?_
    intro i t v ht hv
    match i with
    | 0 => cases ht; cases hv; exact one
    | 1 => cases ht; cases hv; exact emp
    | i + 2 => cases ht
  have b : Stands (.node ⟨"Object".toList, [], 0, 0⟩
      [.node ⟨"KeyVal".toList, "\"c\"".toList, 0, 0⟩ [.node ⟨"null".toList, "null".toList, 0, 0⟩ []]])
      (.obj [("\"c\"".toList, .atom "null".toList)]) := by
    refine .obj (ks := [(⟨"KeyVal".toList, "\"c\"".toList, 0, 0⟩, .node ⟨"null".toList, "null".toList, 0, 0⟩ [])])
      rfl rfl (by simp) ?_
    intro i x f hx hf
    match i with
    | 0 => cases hx; cases hf; exact nul
    | i + 1 => cases hx
  refine .obj (ks := [(⟨"KeyVal".toList, "\"a\"".toList, 0, 0⟩, _), (⟨"KeyVal".toList, "\"b\"".toList, 0, 0⟩, _)])
      rfl rfl (by simp) ?_
  intro i x f hx hf
  match i with
  | 0 => cases hx; cases hf; exact a
  | 1 => cases hx; cases hf; exact b
  | i + 2 => cases hx

/-- What is written for it. -/
theorem sample_text : pp sample [] = .ok "{\n  \"a\": [1,\n    []\n  ],\n  \"b\": {\"c\": null}\n}".toList := by
  decide +kernel

end Verif.Props.Json
