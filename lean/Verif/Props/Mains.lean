import Verif.Model.Mains
import Verif.Props.JsonText
import Verif.Props.MathText
/-
C86: the command line programs that format JSON and evaluate expressions.
-/
namespace Verif.Props.Mains
open Verif Verif.Spec Verif.SimpleLexer Verif.Mains Verif.ScalcMain

/-- Arguments with the tokens of each. -/
inductive Args {T : Type} (R : Bytes → List T → Prop) : List Bytes → List T → Prop
  | nil : Args R [] []
  | cons {a ts as us} : R a ts → Args R as us → Args R (a :: as) (ts ++ us)

theorem NoHead.blank {p : UInt8 → Bool} (hp : p 32 = false) {s t : Bytes} (h : NoHead p s) : NoHead p (s ++ 32 :: t) := by
  cases s with
  | nil => rintro x u e; cases e; exact hp
  | cons y s => rintro x u e; cases e; exact h y s rfl

theorem NoFrac.blank {s t : Bytes} (h : NoFrac s) : NoFrac (s ++ 32 :: t) := by
  match s with
  | [] => rintro x u e; cases e
  | [y] =>
    rintro x u e
    simp only [List.cons_append, List.nil_append, List.cons.injEq] at e
    rw [← e.2.1]
    decide
  | y :: z :: s =>
    rintro x u e
    simp only [List.cons_append, List.cons.injEq] at e
    obtain ⟨rfl, rfl, -⟩ := e
    exact h _ _ rfl

theorem json_append {a b : Bytes} {ts us} (h : Json.JsText a ts) (h' : Json.JsText b us) : Json.JsText (a ++ 32 :: b) (ts ++ us) := by
  induction h with
  | done => exact .space (by decide) h'
  | space hx _ ih => exact .space hx ih
  | int ne hd stop nf _ ih => rw [List.append_assoc]; exact .int ne hd (NoHead.blank (by decide) stop) (NoFrac.blank nf) ih
  | frac hd ne hf stop _ ih =>
    have := Json.JsText.frac hd ne hf (NoHead.blank (by decide) stop) ih
    simpa using this
  | string hb _ ih =>
    have := Json.JsText.string hb ih
    simpa using this
  | word hw _ ih => rw [List.append_assoc]; exact .word hw ih
  | one hx _ ih => exact .one hx ih

theorem math_append {a b : Bytes} {ts us} (h : Math.MText a ts) (h' : Math.MText b us) : Math.MText (a ++ 32 :: b) (ts ++ us) := by
  induction h with
  | done => exact .space (by decide) h'
  | space hx _ ih => exact .space hx ih
  | int ne hd stop nf _ ih => rw [List.append_assoc]; exact .int ne hd (NoHead.blank (by decide) stop) (NoFrac.blank nf) ih
  | frac hd ne hf stop _ ih =>
    have := Math.MText.frac hd ne hf (NoHead.blank (by decide) stop) ih
    simpa using this
  | one hx _ ih => exact .one hx ih

theorem args_text {T : Type} {R : Bytes → List T → Prop} (nil : R [] []) (app : ∀ {a b ts us}, R a ts → R b us → R (a ++ 32 :: b) (ts ++ us)) {args : List Bytes} {ts : List T}
    (h : Args R args ts) : R (joinSpace args) ts := by
  induction h with
  | nil => exact nil
  | @cons a ts as us h1 h2 ih =>
    cases h2 with
    | nil => simpa [joinSpace] using h1
    | cons h3 h4 => exact app h1 ih

variable {rl0 rl pl : Lexer} {p1 p2 o1 o2 : List Str}

/-- C86 for JSON: the value that the arguments spell, joined by blanks, is printed laid out, or else only an error. Missing is an exit
status that tells which. -/
theorem C86_json_partial (hS : JsonText.Started rl0 rl pl p1 p2 o1 o2) {l : Lexer} (hl : Json.lxr = .ok l) (args : List Bytes) :
    (∃ v, Json.JsonOf (joinSpace args) v ∧
      Out.Returns (fun n => jsonMain n rl0 rl pl p1 p2 o1 o2 l args) ⟨Json.packed (Json.pretty v []) ++ [10], false, 0⟩) ∨
    ((∀ v, ¬ Json.JsonOf (joinSpace args) v) ∧ Out.Returns (fun n => jsonMain n rl0 rl pl p1 p2 o1 o2 l args) ⟨[], true, 0⟩) := by
  rcases JsonText.C71_format hS (.start hl) (joinSpace args) with ⟨v, h1, l', N, hN⟩ | ⟨h1, l', N, hN⟩
  · refine .inl ⟨v, h1, N, fun n hn => ?_⟩
    simp only [jsonMain]
    rw [show Json.formatText n rl0 rl pl p1 p2 o1 o2 l _ = _ from hN n hn]
    rfl
  · refine .inr ⟨h1, N, fun n hn => ?_⟩
    simp only [jsonMain]
    rw [show Json.formatText n rl0 rl pl p1 p2 o1 o2 l _ = _ from hN n hn]
    rfl

/-- C86 for JSON: how the tokens of a value are distributed over arguments does not matter. -/
theorem C86_json_args (hS : JsonText.Started rl0 rl pl p1 p2 o1 o2) {l : Lexer} (hl : Json.lxr = .ok l) {args : List Bytes}
    {ls : List (Lexeme Str Str)} {v : Json.Val} (h : Args Json.JsText args (ls.map fun l => (l.kind, l.val))) (hv : Json.Written (.val v) ls) :
    Out.Returns (fun n => jsonMain n rl0 rl pl p1 p2 o1 o2 l args) ⟨Json.packed (Json.pretty v []) ++ [10], false, 0⟩ := by
  have hj : Json.JsonOf (joinSpace args) v := ⟨ls, args_text .done json_append h, hv⟩
  rcases C86_json_partial hS hl args with ⟨v', h1, h2⟩ | ⟨h1, -⟩
  · rw [JsonText.C71_unique hj h1]; exact h2
  · exact absurd hj (h1 v)

variable {N : Type} {A : Math.Arith N} {sh : N → Bytes}

/-- C86 for expressions: the value of what the arguments spell, joined by blanks, is printed; if they spell no token, zero is printed unless
they spell nothing; otherwise only an error. Missing is an exit status that tells which, and an error for blanks. -/
theorem C86_math_partial {l : Lexer} (hl : PMath.lxr = .ok l) (args : List Bytes) :
    (∃ v, Math.ValueOf A (joinSpace args) v ∧ Out.Returns (fun n => mathMain A sh n l args) ⟨sh v ++ [10], false, 0⟩) ∨
    (Math.MText (joinSpace args) [] ∧ joinSpace args ≠ [] ∧ Out.Returns (fun n => mathMain A sh n l args) ⟨sh A.zero ++ [10], false, 0⟩) ∨
    ((∀ v, ¬ Math.ValueOf A (joinSpace args) v) ∧ Out.Returns (fun n => mathMain A sh n l args) ⟨[], true, 0⟩) := by
  obtain ⟨l', ⟨v, h1, K, hK⟩ | ⟨h1, K, hK⟩ | ⟨h1, h2, K, hK⟩⟩ := MathText.C72_eval (A := A) (.start hl) (joinSpace args)
  · by_cases e : joinSpace args = []
    · exfalso
      rw [e] at h1 hK
      obtain ⟨l1, N1, hN1⟩ := MathText.C72_value (A := A) (.start hl) h1
      obtain ⟨ts, h2, h3⟩ := h1
      obtain rfl := PMath.text_unique h2 .done
      have := (PMath.reads_ex h3 (ts := []) .full).1.lt
      simp at this
    · refine .inl ⟨v, h1, K, fun n hn => ?_⟩
      simp only [mathMain, if_neg e]
      rw [show PMath.evalText A n l _ = _ from hK n hn]
      rfl
  · by_cases e : joinSpace args = []
    · refine .inr (.inr ⟨fun v hv => ?_, 0, fun n _ => by simp [mathMain, e]⟩)
      obtain ⟨ts, h2, h3⟩ := hv
      rw [e] at h2
      obtain rfl := PMath.text_unique h2 .done
      have := (PMath.reads_ex h3 (ts := []) .full).1.lt
      simp at this
    · refine .inr (.inl ⟨h1, e, K, fun n hn => ?_⟩)
      simp only [mathMain, if_neg e]
      rw [show PMath.evalText A n l _ = _ from hK n hn]
      rfl
  · refine .inr (.inr ⟨h1, K, fun n hn => ?_⟩)
    by_cases e : joinSpace args = []
    · simp [mathMain, e]
    · simp only [mathMain, if_neg e]
      rw [show PMath.evalText A n l _ = _ from hK n hn]
      rfl

/-- C86 for expressions: how the tokens of an expression are distributed over arguments does not matter. -/
theorem C86_math_args {l : Lexer} (hl : PMath.lxr = .ok l) {args : List Bytes} {ts : List Math.Tok} {v : N} (h : Args Math.MText args ts)
    (hv : Math.Reads A .expr ts v) : Out.Returns (fun n => mathMain A sh n l args) ⟨sh v ++ [10], false, 0⟩ := by
  have hj : Math.ValueOf A (joinSpace args) v := ⟨ts, args_text .done math_append h, hv⟩
  rcases C86_math_partial (A := A) (sh := sh) hl args with ⟨v', h1, h2⟩ | ⟨h1, -, -⟩ | ⟨h1, -⟩
  · rw [MathText.C72_unique hj h1]; exact h2
  · obtain ⟨ts', h2, h3⟩ := hj
    obtain rfl := PMath.text_unique h1 h2
    have := (PMath.reads_ex h3 (ts := []) .full).1.lt
    simp at this
  · exact absurd hj (h1 v)

/-- C86 is false of the exit status: it is 0 whatever is printed. -/
theorem C86_status_refuted {args : List Bytes} {n : Nat} {l : Lexer} :
    (∀ e, jsonMain n rl0 rl pl p1 p2 o1 o2 l args = .ok e → e.status = 0) ∧ ∀ e, mathMain A sh n l args = .ok e → e.status = 0 := by
  constructor
  · intro e h
    rw [jsonMain, Out.bind_eq_ok] at h
    obtain ⟨⟨_ | s, l'⟩, -, h⟩ := h <;> cases h <;> rfl
  · intro e h
    rw [mathMain] at h
    split at h
    · cases h; rfl
    · rw [Out.bind_eq_ok] at h
      obtain ⟨⟨_ | s, l'⟩, -, h⟩ := h <;> cases h <;> rfl

/-- C86 is false of expressions: blanks are no expression, and zero is printed for them. -/
theorem C86_blank_refuted {l : Lexer} (hl : PMath.lxr = .ok l) : (∀ v, ¬ Math.ValueOf A [32] v) ∧ Out.Returns (fun n => mathMain A sh n l [[32]]) ⟨sh A.zero ++ [10], false, 0⟩ := by
  have hb : Math.MText [32] [] := .space (by decide) .done
  have hn : ∀ v, ¬ Math.ValueOf A [32] v := by
    rintro v ⟨ts, h2, h3⟩
    obtain rfl := PMath.text_unique hb h2
    have := (PMath.reads_ex h3 (ts := []) .full).1.lt
    simp at this
  refine ⟨hn, ?_⟩
  obtain ⟨l', ⟨v, h1, -⟩ | ⟨h1, K, hK⟩ | ⟨-, h2, -⟩⟩ := MathText.C72_eval (A := A) (.start hl) [32]
  · exact absurd h1 (hn v)
  · refine ⟨K, fun n hn => ?_⟩
    simp only [mathMain, joinSpace]
    rw [show PMath.evalText A n l _ = _ from hK n hn]
    rfl
  · exact absurd hb h2

/-- `parlexmath 1+ 2` prints 3. -/
example {l : Lexer} (hl : PMath.lxr = .ok l) {sh : Int → Bytes} : Out.Returns (fun n => mathMain MathText.exA sh n l [[49, 43], [50]]) ⟨sh 3 ++ [10], false, 0⟩ := by
  have i : ∀ {x : UInt8} {s : Bytes} {ts}, Math.MText s ts → RxByte.digit x = true → (∀ y ∈ s.head?, RxByte.digit y = false ∧ y ≠ 46) →
      Math.MText (x :: s) (.num (nameOf [x]) :: ts) := by
    intro x s ts h hx hs
    exact Math.MText.int (d := [x]) (by simp) (by simpa using hx) (by rintro y t rfl; exact (hs y rfl).1) (by rintro y t rfl; exact absurd rfl (hs 46 rfl).2) h
  have h1 : Math.MText [49, 43] [.num (nameOf [49]), .plus] := i (.one (k := .plus) rfl .done) (by decide) (by decide)
  have h2 : Math.MText [50] [.num (nameOf [50])] := i .done (by decide) (by decide)
  have := C86_math_args (A := MathText.exA) (sh := sh) hl (.cons h1 (.cons h2 .nil)) (.add (.term (.factor .num)) (.factor .num))
  exact this

end Verif.Props.Mains
