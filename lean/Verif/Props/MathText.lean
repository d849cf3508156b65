import Verif.Proofs.MathParse
import Verif.Proofs.MathLex
import Verif.Props.ReducerText
/-
C72: `Eval` of examples/parlexmath from text to number.
-/
namespace Verif.Props.MathText
open Verif Verif.Spec Verif.Spec.Math Verif.PMath Verif.SimpleLexer

variable {N : Type}

/-- The lexer of the package in some state: as it is at start, or after calls of `Eval`. -/
inductive Reach (A : Arith N) : Lexer → Prop
  | start {l} (h : lxr = .ok l) : Reach A l
  | eval {l l' b r} (h : Reach A l) (c : Out.Returns (fun n => evalText A n l b) (r, l')) : Reach A l'

theorem eval_lexer {A : Arith N} {l l' l'' : Lexer} {b : Bytes} {o r}
    (h1 : Out.Returns (fun n => lexText n l b) (o, l'')) (h2 : Out.Returns (fun n => evalText A n l b) (r, l')) : l' = l'' := by
  obtain ⟨M, hM⟩ := h1
  obtain ⟨K, hK⟩ := h2
  have e := hK (max M K) (by omega)
  simp only at e
  rw [evalText, show lexText _ l b = _ from hM (max M K) (by omega), Out.bind_ok] at e
  cases o with
  | none => exact (congrArg Prod.snd (Out.ok.inj e)).symm
  | some ls =>
    obtain ⟨q, -, h3⟩ := Out.bind_eq_ok.1 e
    exact (congrArg Prod.snd (Out.ok.inj h3)).symm

theorem reach_ready {A : Arith N} {l : Lexer} (h : Reach A l) : Ready mRules [] [] l := by
  induction h with
  | start h =>
    obtain ⟨l0, e, hr⟩ := lxr_ready
    have : l0 = _ := Out.ok.inj (e.symm.trans h)
    rw [← this]
    exact hr
  | @eval l l' b r h c ih =>
    obtain ⟨o, l'', h1, h2, -⟩ := lexText_cut ih (fine_ascii mRules_fine) b
    rw [eval_lexer h1 c]
    exact h2

/-- **C72, lexing.** A layout of tokens is read as these tokens; any other text is an error. -/
theorem C72_lexes {A : Arith N} {l : Lexer} (hl : Reach A l) (b : Bytes) :
    (∃ ts ls l', MText b ts ∧ ls.map (fun l => (l.kind, l.val)) = ts.map tokKv ∧
      Out.Returns (fun n => lexText n l b) (some ls, l')) ∨
    (∃ l', (∀ ts, ¬ MText b ts) ∧ Out.Returns (fun n => lexText n l b) (none, l')) := by
  obtain ⟨r, l', h1, -, ⟨c, ls, h3, rfl, h4⟩ | ⟨rfl, h3⟩⟩ := lexText_cut (reach_ready hl) (fine_ascii mRules_fine) b
  · rw [Verif.Props.ReducerText.ins_none, List.nil_append] at h4
    have h4 : ls.map (fun l => (l.kind, l.val)) = _ := h4
    obtain ⟨ts, h5, h6⟩ := text_of_cut h3
    exact .inl ⟨ts, ls, l', h5, by rw [h4]; exact h6, h1⟩
  · refine .inr ⟨l', fun ts ht => ?_, h1⟩
    obtain ⟨c, hc, -⟩ := cut_of_text ht
    exact h3 c hc

/-- The rest of `Eval`, on the lexemes of tokens. -/
theorem eval_lexemes (A : Arith N) {ts : List Tok} {ls : List (Lexeme Str Str)} (hls : ls.map (fun l => (l.kind, l.val)) = ts.map tokKv) :
    (∃ r, Out.Returns (fun n => evalLexemes A n ls) r) ∧ (∀ v, Reads A .expr ts v → Out.Returns (fun n => evalLexemes A n ls) (some v)) ∧
    (ts ≠ [] → (∀ v, ¬ Reads A .expr ts v) → Out.Returns (fun n => evalLexemes A n ls) none) ∧
    (ts = [] → Out.Returns (fun n => evalLexemes A n ls) (some A.zero)) := by
  obtain ⟨G, hG, hok⟩ := grmr_ok
  have run : ∀ {t : PN Str Str} {v}, Out.Returns (Packrat.parse [] G ls) (some t) → Gives A t v →
      Out.Returns (fun n => evalLexemes A n ls) (some v) := by
    rintro t v ⟨K, hK⟩ ⟨t', h1, h2⟩
    refine ⟨K, fun n hn => ?_⟩
    simp only [evalLexemes]
    rw [hG, Out.bind_ok, hK n hn, Out.bind_ok, Tree.reduce, h1, Out.bind_ok, Out.bind_ok]
    simp only
    rw [h2, Out.bind_ok]
  by_cases hne : ts = []
  · subst hne
    obtain rfl : ls = [] := by simpa using hls
    have h0 : Out.Returns (fun n => evalLexemes A n []) (some A.zero) := by
      refine run (parse_empty hok) ⟨.node ⟨nE, [], -1, 0⟩ [], ?_, ?_⟩
      · refine red_node (k := nE) rfl red_E reds_nil ?_
        simp [reduceE, PN.kids]
      · rw [eval, if_neg (show ¬ nE = "number".toList by decide), if_neg (fun h => (show ¬ nE = "op2".toList by decide) h.1),
          if_neg (by rintro (h | h); exact (show ¬ nE = "op2".toList by decide) h; exact (show ¬ nE = "op1".toList by decide) h)]
    refine ⟨⟨_, h0⟩, fun v hv => ?_, fun h => absurd rfl h, fun _ => h0⟩
    have := (reads_ex hv (ts := []) .full).1.lt
    simp at this
  · have hread : ∀ {t f v}, f 0 = nE → f 4 = nP → TrE (ts.map code) f ls 0 ts.length t → Reads A .expr ts v → Gives A t v :=
      fun h1 h2 h3 h4 => tree_gives hls h1 h2 h4 .full h3
    rcases parse_lexemes hok hne hls with ⟨t, f, h1, h2, h3, h4⟩ | ⟨⟨K, hK⟩, h2⟩
    · have hall : ∀ v, Reads A .expr ts v → Out.Returns (fun n => evalLexemes A n ls) (some v) :=
        fun v hv => run h1 (hread h2 h3 h4 hv)
      obtain ⟨v, hv⟩ := ex_reads A h4.ex
      exact ⟨⟨_, hall v hv⟩, hall, fun _ h => absurd hv (h v), fun h => absurd h hne⟩
    · have h0 : Out.Returns (fun n => evalLexemes A n ls) none := by
        refine ⟨K, fun n hn => ?_⟩
        simp only [evalLexemes]
        rw [hG, Out.bind_ok, hK n hn, Out.bind_ok, Tree.reduce, Out.bind_ok]
      exact ⟨⟨_, h0⟩, fun v hv => absurd (reads_ex hv .full).1 h2, fun _ _ => h0, fun h => absurd h hne⟩

/-- **C72, one reading.** Tokens have at most one value as an expression. -/
theorem C72_reading {A : Arith N} {ts : List Tok} {v v' : N} (h : Reads A .expr ts v) (h' : Reads A .expr ts v') : v = v' := by
  have e : (ts.map fun t => (⟨(tokKv t).1, (tokKv t).2, 0, 0⟩ : Lexeme Str Str)).map (fun l => (l.kind, l.val)) = ts.map tokKv := by
    simp
  have := ((eval_lexemes A e).2.1 v h).unique ((eval_lexemes A e).2.1 v' h')
  exact Option.some.inj this

/-- A text has at most one value. -/
theorem C72_unique {A : Arith N} {b : Bytes} {v v' : N} (h : ValueOf A b v) (h' : ValueOf A b v') : v = v' := by
  obtain ⟨ts, h1, h2⟩ := h
  obtain ⟨ts', h3, h4⟩ := h'
  rw [text_unique h1 h3] at h2
  exact C72_reading h2 h4

/-- **C72.** `Eval` returns the value of every text that is an expression, whatever it was called with before. For a text
without tokens it returns zero. For every other text it returns an error. -/
theorem C72_eval {A : Arith N} {l : Lexer} (hl : Reach A l) (b : Bytes) :
    ∃ l', (∃ v, ValueOf A b v ∧ Out.Returns (fun n => evalText A n l b) (some v, l')) ∨
      (MText b [] ∧ Out.Returns (fun n => evalText A n l b) (some A.zero, l')) ∨
      ((∀ v, ¬ ValueOf A b v) ∧ ¬ MText b [] ∧ Out.Returns (fun n => evalText A n l b) (none, l')) := by
  rcases C72_lexes hl b with ⟨ts, ls, l', h1, h2, M, hM⟩ | ⟨l', h1, M, hM⟩
  · have run : ∀ {o}, Out.Returns (fun n => evalLexemes A n ls) o → Out.Returns (fun n => evalText A n l b) (o, l') := by
      rintro o ⟨J, hJ⟩
      refine ⟨max M J, fun n hn => ?_⟩
      simp only [evalText]
      rw [show lexText n l b = _ from hM n (by omega), Out.bind_ok]
      simp only
      rw [show evalLexemes A n ls = _ from hJ n (by omega), Out.bind_ok]
    obtain ⟨-, e1, e2, e3⟩ := eval_lexemes A h2
    refine ⟨l', ?_⟩
    by_cases h : ∃ v, Reads A .expr ts v
    · obtain ⟨v, hv⟩ := h
      exact .inl ⟨v, ⟨ts, h1, hv⟩, run (e1 v hv)⟩
    · by_cases hne : ts = []
      · exact .inr (.inl ⟨by rw [← hne]; exact h1, run (e3 hne)⟩)
      · refine .inr (.inr ⟨?_, fun h3 => hne (text_unique h1 h3), run (e2 hne fun v hv => h ⟨v, hv⟩)⟩)
        rintro v ⟨ts', h3, h4⟩
        rw [← text_unique h1 h3] at h4
        exact h ⟨v, h4⟩
  · refine ⟨l', .inr (.inr ⟨fun v ⟨ts, h, _⟩ => h1 _ h, h1 _, M, fun n hn => ?_⟩)⟩
    simp only [evalText]
    rw [show lexText n l b = _ from hM n hn, Out.bind_ok]

/-- **C72, exactly the expressions.** -/
theorem C72_value {A : Arith N} {l : Lexer} (hl : Reach A l) {b : Bytes} {v : N} (h : ValueOf A b v) :
    ∃ l', Out.Returns (fun n => evalText A n l b) (some v, l') := by
  obtain ⟨l', ⟨v', h1, h2⟩ | ⟨h1, -⟩ | ⟨h1, -⟩⟩ := C72_eval hl b
  · rw [C72_unique h h1]; exact ⟨l', h2⟩
  · obtain ⟨ts, h2, h3⟩ := h
    obtain rfl := text_unique h1 h2
    have := (reads_ex h3 (ts := []) .full).1.lt
    simp at this
  · exact absurd h (h1 v)

/-! ### Concrete case -/

/-- Integers, with numbers read digit by digit. -/
def exA : Arith Int :=
  ⟨fun s => s.foldl (fun n c => 10 * n + ((c.toNat : Int) - 48)) 0, 0, (- ·), (· + ·), (· - ·), (· * ·), (· / ·)⟩

def exText : Bytes := bytes "10 - 2 -3*(4+ -1)/ 2".toList

def exToks : List Tok := [.num "10".toList, .minus, .num "2".toList, .minus, .num "3".toList, .times, .opening, .num "4".toList, .plus,
  .minus, .num "1".toList, .closing, .over, .num "2".toList]

private theorem exInt {d s : List UInt8} {n : Str} {ts : List Tok} (rest : MText s ts) (ne : d ≠ []) (h : ∀ x ∈ d, RxByte.digit x = true)
    (e : nameOf d = n) (stop : ∀ x ∈ s.head?, RxByte.digit x = false ∧ x ≠ 46) : MText (d ++ s) (.num n :: ts) := by
  subst e
  refine .int ne h ?_ ?_ rest
  · rintro x t rfl
    exact (stop x rfl).1
  · rintro x t rfl
    exact absurd rfl (stop 46 rfl).2

theorem exText_toks : MText exText exToks := by
  have e : exText = [49, 48] ++ [32, 45, 32] ++ [50] ++ [32, 45] ++ [51] ++ [42, 40] ++ [52] ++ [43, 32, 45] ++ [49] ++ [41, 47, 32] ++ [50] := by
    decide +kernel
  rw [e]
  have h1 : MText [50] [.num "2".toList] := exInt (d := [50]) .done (by simp) (by decide) (by decide) (by decide)
  have h2 := exInt (d := [49]) (n := "1".toList)
    (.one (x := 41) (k := .closing) rfl (.one (x := 47) (k := .over) rfl (.space (x := 32) (by decide) h1))) (by simp) (by decide) (by decide) (by decide)
  have h3 := exInt (d := [52]) (n := "4".toList)
    (.one (x := 43) (k := .plus) rfl (.space (x := 32) (by decide) (.one (x := 45) (k := .minus) rfl h2))) (by simp) (by decide) (by decide) (by decide)
  have h4 := exInt (d := [51]) (n := "3".toList)
    (.one (x := 42) (k := .times) rfl (.one (x := 40) (k := .opening) rfl h3)) (by simp) (by decide) (by decide) (by decide)
  have h5 := exInt (d := [50]) (n := "2".toList)
    (.space (x := 32) (by decide) (.one (x := 45) (k := .minus) rfl h4)) (by simp) (by decide) (by decide) (by decide)
  exact exInt (d := [49, 48]) (n := "10".toList)
    (.space (x := 32) (by decide) (.one (x := 45) (k := .minus) rfl (.space (x := 32) (by decide) h5))) (by simp) (by decide) (by decide) (by decide)

/-- Minus is taken from the left, `*` and `/` go first. -/
theorem exText_value : ValueOf exA exText 4 := by
  refine ⟨_, exText_toks, ?_⟩
  have f : ∀ s : Str, Reads exA .term [.num s] (exA.num s) := fun s => .factor .num
  have g := Reads.group (.add (.term (f "4".toList)) (.factor (.neg (A := exA) (s := "1".toList))))
  have t := Reads.div (.mul (f "3".toList) g) (.num (A := exA) (s := "2".toList))
  exact .sub (.sub (.term (f "10".toList)) (f "2".toList)) t

/-- The package's lexer at start meets the hypothesis of the theorems above, and `Eval` returns the value. -/
example : ∃ l, Reach exA l ∧ ∃ l', Out.Returns (fun n => evalText exA n l exText) (some 4, l') := by
  obtain ⟨l, h, -⟩ := lxr_ready
  exact ⟨l, .start h, C72_value (.start h) exText_value⟩

/-- Two signs are not an expression, so `Eval` returns an error. -/
example (v : Int) : ¬ ValueOf exA [45, 45, 49] v := by
  rintro ⟨ts, h, hr⟩
  have h' : MText [45, 45, 49] [.minus, .minus, .num "1".toList] :=
    .one rfl (.one rfl (exInt (d := [49]) .done (by simp) (by decide) (by decide) (by decide)))
  rw [text_unique h h'] at hr
  have a : ∀ q, ¬ Atm [1, 1, 3] 0 q := by
    rintro q (h | ⟨-, h⟩ | ⟨h, -, -⟩) <;> simp at h
  rcases (reads_ex hr .full).1 with h | ⟨h, -, -⟩ <;> exact a _ h

end Verif.Props.MathText
