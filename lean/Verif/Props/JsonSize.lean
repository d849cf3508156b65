import Verif.Props.JsonText
/-
C101: how long the texts are that the JSON formatter returns (examples/parlexjson/json.go).
-/
namespace Verif.Props.JsonSize
open Verif Verif.Spec Verif.Spec.Json Verif.SimpleLexer Verif.Json
open Verif.Props.JsonText

variable {rl0 rl pl : Lexer} {p1 p2 o1 o2 : List Str}

/-! ### Specification -/

mutual
/-- How deep arrays and objects are nested. -/
def depth : Val → Nat
  | .atom _ => 0
  | .arr vs => depthL vs + 1
  | .obj fs => depthF fs + 1
/-- The deepest of the items. -/
def depthL : List Val → Nat
  | [] => 0
  | v :: vs => max (depth v) (depthL vs)
/-- The deepest of the fields. -/
def depthF : List (Str × Val) → Nat
  | [] => 0
  | f :: fs => max (depth f.2) (depthF fs)
end

/-! ### Auxiliary facts -/

/-- The characters of the tokens. -/
def total (ts : List Str) : Nat := (ts.map List.length).sum

theorem total_append (a b : List Str) : total (a ++ b) = total a + total b := by simp [total]
theorem total_one (a : Str) : total [a] = a.length := by simp [total]

theorem pad_le {c : Bool} {pad : Str} {W : Nat} (h : 1 + pad.length ≤ W) :
    (if c then "\n".toList ++ pad else []).length ≤ W := by
  cases c
  · simp
  · simp; omega

mutual
theorem pretty_le : ∀ (v : Val) (pad : Str) (W : Nat), 1 + pad.length + 2 * depth v ≤ W →
    (pretty v pad).length + W ≤ total (tokens v) + (tokens v).length * W
  | .atom s, pad, W, h => by simp [pretty, tokens, total]
  | .arr vs, pad, W, h => by
    rw [depth] at h
    have h1 := prettyL_le vs true (pad ++ "  ".toList) W (by simp; omega)
    have h2 := pad_le (c := vs.any Val.nested) (pad := pad) (W := W) (by omega)
    rw [pretty, tokens]
    simp only [total_append, List.length_append, total_one, List.length_singleton, Nat.add_mul, Nat.one_mul]
    simp at *
    omega
  | .obj [], pad, W, h => by
    simp [pretty, tokens, tokensF, total]
    omega
  | .obj [(k, v)], pad, W, h => by
    simp only [depth, depthF] at h
    have h1 := pretty_le v pad W (by omega)
    simp only [pretty, tokens, tokensF]
    simp [Nat.add_mul, total] at *
    omega
  | .obj (f :: f' :: fs), pad, W, h => by
    rw [depth] at h
    have h1 := prettyF_le (f :: f' :: fs) true (pad ++ "  ".toList) W (by simp; omega)
    rw [pretty, tokens]
    · simp only [total_append, List.length_append, total_one, List.length_singleton, Nat.add_mul, Nat.one_mul]
      simp at *
      omega
    · simp
theorem prettyL_le : ∀ (vs : List Val) (first : Bool) (pad : Str) (W : Nat), 1 + pad.length + 2 * depthL vs ≤ W →
    (prettyL vs first pad).length ≤ total (tokensL vs first) + (tokensL vs first).length * W
  | [], _, _, _, _ => by simp [prettyL]
  | v :: vs, first, pad, W, h => by
    rw [depthL] at h
    have h1 := pretty_le v pad W (by omega)
    have h2 := prettyL_le vs false pad W (by omega)
    have h3 := pad_le (c := v.nested) (pad := pad) (W := W) (by omega)
    rw [prettyL, tokensL]
    cases first <;>
    simp [Nat.add_mul, total] at * <;> omega
theorem prettyF_le : ∀ (fs : List (Str × Val)) (first : Bool) (pad : Str) (W : Nat), 1 + pad.length + 2 * depthF fs ≤ W →
    (prettyF fs first pad).length ≤ total (tokensF fs first) + (tokensF fs first).length * W
  | [], _, _, _, _ => by simp [prettyF]
  | (k, v) :: fs, first, pad, W, h => by
    rw [depthF] at h
    have h1 := pretty_le v pad W (by simp only at h; omega)
    have h2 := prettyF_le fs false pad W (by omega)
    rw [prettyF, tokensF]
    cases first <;>
    simp [Nat.add_mul, total] at * <;> omega
end

mutual
theorem depth_le : ∀ v : Val, 2 * depth v ≤ (tokens v).length
  | .atom _ => by simp [depth]
  | .arr vs => by
    have := depthL_le vs true
    simp [depth, tokens]; omega
  | .obj fs => by
    have := depthF_le fs true
    simp [depth, tokens]; omega
theorem depthL_le : ∀ (vs : List Val) (first : Bool), 2 * depthL vs ≤ (tokensL vs first).length
  | [], _ => by simp [depthL]
  | v :: vs, first => by
    have h1 := depth_le v
    have h2 := depthL_le vs false
    simp [depthL, tokensL]; omega
theorem depthF_le : ∀ (fs : List (Str × Val)) (first : Bool), 2 * depthF fs ≤ (tokensF fs first).length
  | [], _ => by simp [depthF]
  | f :: fs, first => by
    have h1 := depth_le f.2
    have h2 := depthF_le fs false
    simp [depthF, tokensF]; omega
end

theorem text_le {b : List UInt8} {ts : List (Str × Str)} (h : JsText b ts) :
    total (ts.map (·.2)) ≤ b.length ∧ ts.length ≤ b.length := by
  induction h with
  | done => simp [total]
  | space h rest ih => simp only [List.length_cons]; omega
  | @int d s ts ne h stop nf rest ih =>
    have := List.length_pos_iff.2 ne
    simp [total, nameOf] at *; omega
  | @frac d f s ts hd ne hf stop rest ih => simp [total, nameOf] at *; omega
  | @string b s ts h rest ih => simp [total, nameOf] at *; omega
  | @word w k s ts h rest ih =>
    have : 0 < w.length := by
      simp [jsWords] at h
      rcases h with h | h | h <;> simp [h.1]
    simp [total, nameOf] at *; omega
  | @one x k s ts h rest ih => simp [total, nameOf] at *; omega

theorem size_le {b : List UInt8} {v : Val} (h : JsonOf b v) :
    (packed (pretty v [])).length ≤ b.length * (2 * depth v + 2) ∧ 2 * depth v ≤ b.length := by
  obtain ⟨ls, h1, h2⟩ := h
  have e : ls.map (·.val) = tokens v := Verif.Props.JsonFormat.written_tokens h2 (text_faithful h1)
  obtain ⟨h3, h4⟩ := text_le h1
  have e1 : (ls.map fun l => (l.kind, l.val)).map (·.2) = tokens v := by rw [List.map_map, ← e]; rfl
  have e2 : (ls.map fun l => (l.kind, l.val)).length = (tokens v).length := by rw [← e]; simp
  rw [e1] at h3
  rw [e2] at h4
  have h5 := pretty_le v [] (1 + 2 * depth v) (by simp)
  have h6 := depth_le v
  have h7 := Nat.mul_le_mul_right (1 + 2 * depth v) h4
  refine ⟨?_, by omega⟩
  have : b.length * (2 * depth v + 2) = b.length + b.length * (1 + 2 * depth v) := by
    rw [show 2 * depth v + 2 = (1 + 2 * depth v) + 1 by omega, Nat.mul_succ]; omega
  simp only [packed, List.length_map]
  omega

/-! ### The claims -/

/-- C101, what holds: what `Format` returns for a value nested `d` deep is at most `2d + 2` times as long as the
text, and so at most quadratic. -/
theorem C101_bound_partial (hS : Started rl0 rl pl p1 p2 o1 o2) {l l' : Lexer} (hl : Reach rl0 rl pl p1 p2 o1 o2 l) {b s : Bytes}
    (h : Out.Returns (fun n => formatText n rl0 rl pl p1 p2 o1 o2 l b) (some s, l')) :
    (∃ v, JsonOf b v ∧ s.length ≤ b.length * (2 * depth v + 2)) ∧ s.length ≤ b.length * (b.length + 2) := by
  rcases C71_format hS hl b with ⟨v, h1, l1, h2⟩ | ⟨-, l1, h2⟩
  · have e := h.unique h2
    cases e
    obtain ⟨h3, h4⟩ := size_le h1
    exact ⟨⟨v, h1, h3⟩, Nat.le_trans h3 (Nat.mul_le_mul_left _ (by omega))⟩
  · have e := h.unique h2
    cases e

/-- Arrays in each other. -/
def nest : Nat → Val
  | 0 => .arr []
  | n + 1 => .arr [nest n]

/-- `[[[…]]]` -/
def nestText (n : Nat) : Bytes := List.replicate (n + 1) 91 ++ List.replicate (n + 1) 93

theorem nest_json (n : Nat) : JsonOf (nestText n) (nest n) := by
  let lb : Lexeme Str Str := ⟨"lb".toList, ['['], 0, 0⟩
  let rb : Lexeme Str Str := ⟨"rb".toList, [']'], 0, 0⟩
  have key : ∀ n, Written (.val (nest n)) (List.replicate (n + 1) lb ++ List.replicate (n + 1) rb) := by
    intro n
    induction n with
    | zero => exact .noItems rfl rfl
    | succ n ih =>
      have := Written.arr (a := lb) (b := rb) rfl rfl ih .itemsEnd
      rw [List.append_nil, List.append_assoc, ← List.replicate_succ'] at this
      exact this
  have text : ∀ n m, JsText (List.replicate n 91 ++ List.replicate m 93)
      ((List.replicate n lb ++ List.replicate m rb).map fun l => (l.kind, l.val)) := by
    intro n m
    induction n with
    | zero =>
      induction m with
      | zero => exact .done
      | succ m ih => exact .one (x := 93) rfl ih
    | succ n ih => exact .one (x := 91) rfl ih
  exact ⟨_, text _ _, key n⟩

theorem nest_length : ∀ (n : Nat) (pad : Str), (pretty (nest n) pad).length = 2 * (n + 1) * (n + 1) + 2 * n * pad.length
  | 0, pad => by simp [nest, pretty, prettyL]
  | n + 1, pad => by
    have ih := nest_length n (pad ++ [' ', ' '])
    have hn : (nest n).nested = true := by cases n <;> rfl
    rw [nest, pretty, prettyL, prettyL]
    simp [hn, ih]
    clear ih
    simp only [Nat.mul_assoc, Nat.mul_add, Nat.add_mul, Nat.mul_one, Nat.one_mul]
    generalize n * n = x
    generalize n * pad.length = y
    omega

/-- C101 is false: of `n + 1` arrays in each other, a text of `2(n + 1)` bytes, `Format` makes `2(n + 1)^2`. -/
theorem C101_refuted (n : Nat) : ∃ b : Bytes, b.length = 2 * (n + 1) ∧ ∀ rl0 rl pl p1 p2 o1 o2 l,
    Started rl0 rl pl p1 p2 o1 o2 → Reach rl0 rl pl p1 p2 o1 o2 l →
    ∃ s l', Out.Returns (fun f => formatText f rl0 rl pl p1 p2 o1 o2 l b) (some s, l') ∧ s.length = 2 * (n + 1) * (n + 1) := by
  refine ⟨nestText n, by simp [nestText]; omega, fun rl0 rl pl p1 p2 o1 o2 l hS hl => ?_⟩
  rcases C71_format hS hl (nestText n) with ⟨v, h1, l1, h2⟩ | ⟨h1, -⟩
  · rw [C71_unique h1 (nest_json n)] at h2
    refine ⟨_, l1, h2, ?_⟩
    simp [packed, nest_length]
  · exact absurd (nest_json n) (h1 _)

/-- Non-trivial case: the text of C71. -/
example : ∃ rl0 rl pl p1 p2 o1 o2 l l', Started rl0 rl pl p1 p2 o1 o2 ∧ Reach rl0 rl pl p1 p2 o1 o2 l ∧
    Out.Returns (fun n => formatText n rl0 rl pl p1 p2 o1 o2 l exText) (some exOut, l') := by
  obtain ⟨rl0, rl, pl, p1, p2, o1, o2, l, hS, hl⟩ := started_ex
  obtain ⟨l', h⟩ := ex_format hS hl
  exact ⟨rl0, rl, pl, p1, p2, o1, o2, l, l', hS, hl, h⟩

end Verif.Props.JsonSize
