import Verif.Proofs.ScalcLex
/-
C73: `Eval` of examples/scalc returns on every text.
-/
namespace Verif.Props.ScalcText
open Verif Verif.Spec Verif.Spec.Scalc Verif.Scalc Verif.SimpleLexer

variable {N : Type}

/-- The lexer of the package in some state: as it is at start, or after calls of `Eval`. -/
inductive Reach (A : Arith N) : Lexer → Prop
  | start {l} (h : lxr = .ok l) : Reach A l
  | eval {l l' b r} (h : Reach A l) (c : Out.Returns (fun n => evalText A n l b) (r, l')) : Reach A l'

theorem eval_lexer {A : Arith N} {l l' l'' : Lexer} {b : Bytes} {o r}
    (h1 : Out.Returns (fun n => lex n l b) (o, l'')) (h2 : Out.Returns (fun n => evalText A n l b) (r, l')) : l' = l'' := by
  obtain ⟨M, hM⟩ := h1
  obtain ⟨K, hK⟩ := h2
  have e := hK (max M K) (by omega)
  simp only at e
  rw [evalText, show lex _ l b = _ from hM (max M K) (by omega), Out.bind_ok] at e
  obtain ⟨q, -, h3⟩ := Out.bind_eq_ok.1 e
  exact (congrArg Prod.snd (Out.ok.inj h3)).symm

theorem reach_ready {A : Arith N} {l : Lexer} (h : Reach A l) : LReady l := by
  induction h with
  | start h =>
    obtain ⟨l0, e, hr⟩ := lxr_ready
    have : l0 = _ := Out.ok.inj (e.symm.trans h)
    rw [← this]
    exact hr
  | @eval l l' b r h c ih =>
    obtain ⟨o, l'', h1, h2, -⟩ := lex_text ih b
    rw [eval_lexer h1 c]
    exact h2

theorem eval_run {A : Arith N} {l l' : Lexer} {b : Bytes} {ls o} (h1 : Out.Returns (fun n => lex n l b) (ls, l'))
    (h2 : Out.Returns (fun n => evalLexemes A n (ls.map (toLexeme l'))) o) : Out.Returns (fun n => evalText A n l b) (o, l') := by
  obtain ⟨M, hM⟩ := h1
  obtain ⟨K, hK⟩ := h2
  refine ⟨max M K, fun n hn => ?_⟩
  simp only [evalText]
  rw [show lex n l b = _ from hM n (by omega), Out.bind_ok]
  simp only
  rw [show evalLexemes A n _ = _ from hK n (by omega), Out.bind_ok]

theorem kinds_of {ls : List (Lexeme Str Str)} {ts : List Tok} (h : ls.map (fun x => (x.kind, x.val)) = ts.map tokKv) :
    ls.map (·.kind) = (ts.map (·.1)).map kn := by
  have := congrArg (List.map Prod.fst) h
  simpa [Function.comp_def, tokKv] using this

/-- **C73, lexing.** A text has at most one reading as tokens. -/
theorem C73_tokens {b : Bytes} {ts ts' : List Tok} (h : SText b ts) (h' : SText b ts') : ts = ts' := text_unique h h'

/-- **C73.** `Eval` returns on every text, whatever it was called with before. It returns a stack for every program and nil
for any other text; it never panics. -/
theorem C73_eval {A : Arith N} {l : Lexer} (hl : Reach A l) (b : Bytes) :
    ∃ l', (Program b ∧ ∃ vs, Out.Returns (fun n => evalText A n l b) (some vs, l')) ∨
      (¬ Program b ∧ Out.Returns (fun n => evalText A n l b) (none, l')) := by
  obtain ⟨G, hg, hG⟩ := grmr_ok
  obtain ⟨ls, l', h1, -, ⟨ts, ht, hk⟩ | ⟨hno, ⟨x, hx, he⟩, hall⟩⟩ := lex_text (reach_ready hl) b
  · have hkinds := kinds_of hk
    have hterm : ∀ x ∈ ls.map (toLexeme l'), G.Term x.kind := by
      intro x hx
      have : x.kind ∈ (ls.map (toLexeme l')).map (·.kind) := List.mem_map.2 ⟨x, hx, rfl⟩
      rw [hkinds] at this
      obtain ⟨k, -, e⟩ := List.mem_map.1 this
      rw [← e]
      exact hG.term k
    obtain ⟨hy, hn⟩ := eval_lexemes A hg hG hterm
    rw [hkinds, sentence_iff hG] at hy hn
    refine ⟨l', ?_⟩
    by_cases hp : Is .stack (ts.map (·.1))
    · obtain ⟨vs, hvs⟩ := hy hp
      exact .inl ⟨⟨ts, ht, hp⟩, vs, eval_run h1 hvs⟩
    · refine .inr ⟨?_, eval_run h1 (hn hp)⟩
      rintro ⟨ts', ht', hp'⟩
      rw [text_unique ht' ht] at hp'
      exact hp hp'
  · refine ⟨l', .inr ⟨fun ⟨ts, ht, _⟩ => hno ts ht, eval_run h1 ?_⟩⟩
    refine (eval_lexemes A hg hG fun x hx => hG.other (hall x hx)).2 fun hs => ?_
    obtain ⟨k, e⟩ := sentence_known hG hs x.kind (List.mem_map.2 ⟨x, hx, rfl⟩)
    rw [he] at e
    cases k <;> exact absurd e (by decide)

/-- **C73, no panic.** -/
theorem C73_no_panic {A : Arith N} {l : Lexer} (hl : Reach A l) (b : Bytes) : ∃ M, ∀ n, M ≤ n → evalText A n l b ≠ .panic := by
  obtain ⟨l', ⟨-, vs, M, h⟩ | ⟨-, M, h⟩⟩ := C73_eval hl b
  · exact ⟨M, fun n hn e => by have := h n hn; simp only at this; rw [e] at this; cases this⟩
  · exact ⟨M, fun n hn e => by have := h n hn; simp only at this; rw [e] at this; cases this⟩

/-! ### Concrete case -/

/-- Integers, with numbers read digit by digit. -/
def exA : Arith Int :=
  ⟨fun s => s.foldl (fun n c => 10 * n + ((c.toNat : Int) - 48)) 0, 0, 1, -1, fun n => n, (- ·), (· + ·), (· - ·), (· * ·), (· / ·),
   fun a b => a ^ b.toNat, (· % ·), fun a b => decide (a < b), fun a b => decide (a = b)⟩

/-- `-3.25 2--swap` -/
def exText : Bytes := [45, 51, 46, 50, 53, 32, 50, 45, 45, 115, 119, 97, 112]

def exToks : List Tok :=
  [(.int, nameOf [45, 51]), (.dec, nameOf [46, 50, 53]), (.int, nameOf [50]), (.uop, nameOf [45, 45]), (.smp, nameOf [115, 119, 97, 112])]

theorem exText_toks : SText exText exToks := by
  have nh : ∀ {x : UInt8} {l}, RxByte.digit x = false → NoHead RxByte.digit (x :: l) := fun h y s e => by cases e; exact h
  have d : ∀ {l : List UInt8}, l.all RxByte.digit = true → ∀ x ∈ l, RxByte.digit x = true := fun h => List.all_eq_true.1 h
  refine SText.int (g := [45]) (d := [51]) (.inr (.inr rfl)) (by simp) (d (by decide)) ?_ ?_
  · exact nh (by decide)
  refine SText.dec (d := [50, 53]) (by simp) (d (by decide)) ?_ ?_
  · exact nh (by decide)
  refine SText.space (by decide) (SText.int (g := []) (d := [50]) (.inl rfl) (by simp) (d (by decide)) ?_ ?_)
  · exact nh (by decide)
  refine SText.word (w := [45, 45]) (by simp [words]) (by simp) (by simp) ?_
  exact SText.word (w := [115, 119, 97, 112]) (s := []) (by simp [words]) (by simp) (by simp) .done

theorem exText_program : Program exText :=
  ⟨exToks, exText_toks, Is.manip (a := [.int, .dec, .int, .uop]) (Is.push (a := [.int, .dec]) .dec
    (Is.push (a := [.int, .uop]) (b := []) (.un (a := [.int]) .int (.op (by simp [operators]))) .none)) (.op (by simp [operators]))⟩

/-- A closing parenthesis alone is no program. -/
theorem exText_not : ¬ Program [41] := by
  rintro ⟨ts, h1, h2⟩
  have h3 : SText [41] [(.closing, nameOf [41])] := SText.word (w := [41]) (s := []) (by simp [words]) (by simp) (by simp) .done
  rw [text_unique h1 h3] at h2
  obtain ⟨G, -, hG⟩ := grmr_ok
  have bal : ∀ {q w}, Is q w → w.count .opening = w.count .closing := by
    intro q w h
    induction h with
    | op h => simp only [operators, List.mem_cons, Prod.mk.injEq, List.not_mem_nil, or_false] at h; rcases h with ⟨-, rfl⟩ | ⟨-, rfl⟩ | ⟨-, rfl⟩ | ⟨-, rfl⟩ <;> rfl
    | none => rfl
    | int => rfl
    | dec => rfl
    | push => simp [List.count_append]; omega
    | manip => simp [List.count_append]; omega
    | un => simp [List.count_append]; omega
    | fold => simp [List.count_append]; omega
    | bin => simp [List.count_append]; omega
    | paren => simp [List.count_append]; omega
    | cond => simp [List.count_append]; omega
    | choose => simp [List.count_append]; omega
  exact absurd (bal h2) (by decide)

/-- **C73, concrete case.** After a text that is no program, a program with a manipulation of the stack. -/
theorem C73_eval_case : ∃ l l' vs, Reach exA l ∧ Out.Returns (fun n => evalText exA n l exText) (some vs, l') := by
  obtain ⟨l0, e, -⟩ := lxr_ready
  have h0 : Reach exA l0 := .start e
  obtain ⟨l1, ⟨h, -⟩ | ⟨-, h⟩⟩ := C73_eval h0 [41]
  · exact absurd h exText_not
  · have h1 := Reach.eval h0 h
    obtain ⟨l2, ⟨-, vs, h3⟩ | ⟨h3, -⟩⟩ := C73_eval h1 exText
    · exact ⟨l1, l2, vs, h1, h3⟩
    · exact absurd exText_program h3

end Verif.Props.ScalcText
