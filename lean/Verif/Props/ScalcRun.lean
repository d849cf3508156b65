import Verif.Props.ScalcText
import Verif.Proofs.ScalcChoice
/-
C74: what `Eval` of examples/scalc returns. In full: if the machine of Spec/Scalc, given the tokens of a text, ends with a
stack, `Eval` returns this stack. This is proved for texts of numbers, unary and binary operators, and where everything on
the whole stack comes last, and for three values and a question mark; it is refuted in general.
-/
namespace Verif.Props.ScalcText
open Verif Verif.Spec Verif.Spec.Scalc Verif.Scalc Verif.SimpleLexer

variable {N : Type}

/-- **C74, numbers and their operators.** `Eval` returns the stack the machine ends with, and nil if the machine fails.
Missing: stack operators, manipulations, question marks, parentheses. -/
theorem C74_runs_partial {A : Arith N} {l : Lexer} (hl : Reach A l) {b : Bytes} {ts : List Tok} (hb : SText b ts)
    (hf : ∀ x ∈ ts, x.1 = .int ∨ x.1 = .dec ∨ x.1 = .uop ∨ x.1 = .bop) :
    ∃ l', Out.Returns (fun n => evalText A n l b) (exec A ts [] [], l') := by
  obtain ⟨G, hg, hG⟩ := grmr_ok
  obtain ⟨ls, l', h1, -, ⟨ts', ht, hk⟩ | ⟨hno, -⟩⟩ := lex_text (reach_ready hl) b
  · obtain rfl := text_unique hb ht
    exact ⟨l', eval_run h1 (eval_frag hg hG hk fun x hx => text_fine A hb x hx (by simpa [frag] using hf x hx))⟩
  · exact absurd hb (hno ts)

/-- **C74, operations on the whole stack last.** Stack operators and manipulations may come after all values, and
parentheses around everything before them. Missing: question marks (below), and anything after an operation on the stack but such
operations. -/
theorem C74_last_partial {A : Arith N} {l : Lexer} (hl : Reach A l) {b : Bytes} {ts : List Tok} (hb : SText b ts) {m f : Bool}
    (hp : Plain m f (ts.map (·.1))) : ∃ l', Out.Returns (fun n => evalText A n l b) (exec A ts [] [], l') := by
  obtain ⟨G, hg, hG⟩ := grmr_ok
  obtain ⟨ls, l', h1, -, ⟨ts', ht, hk⟩ | ⟨hno, -⟩⟩ := lex_text (reach_ready hl) b
  · obtain rfl := text_unique hb ht
    exact ⟨l', eval_run h1 (eval_plain hg hG hk hp (text_known A hb))⟩
  · exact absurd hb (hno ts)

/-- **C74, choices.** Of three values and a question mark the last decides between the others. Missing: values below or after
them, and choices within choices. -/
theorem C74_choice_partial {A : Arith N} {l : Lexer} (hl : Reach A l) {t : Bytes} {ts : List Tok} (ht : SText t ts) {a b c : List Spec.Scalc.Kind}
    (ha : Is .value a) (hb : Is .value b) (hc : Is .value c) (hts : ts.map (·.1) = a ++ b ++ c ++ [.choice])
    (hf : ∀ k ∈ a ++ b ++ c, k = .int ∨ k = .dec ∨ k = .uop ∨ k = .bop) :
    ∃ v l', exec A ts [] [] = some [v] ∧ Out.Returns (fun n => evalText A n l t) (some [v], l') := by
  obtain ⟨G, hg, hG⟩ := grmr_ok
  obtain ⟨ls, l', h1, -, ⟨ts', ht', hk⟩ | ⟨hno, -⟩⟩ := lex_text (reach_ready hl) t
  · obtain rfl := text_unique ht ht'
    obtain ⟨v, h2, h3⟩ := eval_choice hg hG hk ha hb hc (by simpa using hts) (fun k hk => by simpa [frag] using hf k (by simpa using hk)) (text_fine A ht)
    exact ⟨v, l', h2, eval_run h1 h3⟩
  · exact absurd ht (hno ts)

/-! ### Concrete case -/

/-- `3 4+2.5--` -/
def runText : Bytes := [51, 32, 52, 43, 50, 46, 53, 45, 45]

def runToks : List Tok :=
  [(.int, nameOf [51]), (.int, nameOf [52]), (.int, nameOf [43, 50]), (.dec, nameOf [46, 53]), (.uop, nameOf [45, 45])]

theorem runText_toks : SText runText runToks := by
  have d : ∀ {l : List UInt8}, l.all RxByte.digit = true → ∀ x ∈ l, RxByte.digit x = true := fun h => List.all_eq_true.1 h
  have nh : ∀ {x : UInt8} {l}, RxByte.digit x = false → NoHead RxByte.digit (x :: l) := fun h y s e => by cases e; exact h
  refine SText.int (g := []) (d := [51]) (.inl rfl) (by simp) (d (by decide)) (nh (by decide)) (.space (by decide) ?_)
  refine SText.int (g := []) (d := [52]) (.inl rfl) (by simp) (d (by decide)) (nh (by decide)) ?_
  refine SText.int (g := [43]) (d := [50]) (.inr (.inl rfl)) (by simp) (d (by decide)) (nh (by decide)) ?_
  refine SText.dec (d := [53]) (by simp) (d (by decide)) (nh (by decide)) ?_
  exact SText.word (w := [45, 45]) (s := []) (by simp [words]) (by simp) (by simp) .done

/-- A sign before a digit belongs to the number: three values are left. -/
theorem C74_case {l : Lexer} (hl : Reach exA l) :
    ∃ l', Out.Returns (fun n => evalText exA n l runText) (some [⟨3, 0⟩, ⟨4, 0⟩, ⟨-(exA.num (nameOf [43, 50, 46, 53])), 1⟩], l') :=
  C74_runs_partial hl runText_toks (by decide)

/-! ### The rest is not as described -/

/-- The run of a text, for computing. -/
def outcome (b : Bytes) : Option (Option (List Int)) :=
  match lxr with
  | .ok l =>
    match evalText exA 1000 l b with
    | .ok (r, _) => some (r.map (·.map (·.V)))
    | _ => none
  | _ => none

theorem outcome_returns {b : Bytes} {r : Option (List Int)} (h : outcome b = some r) :
    ∃ l l' vs, Reach exA l ∧ Out.Returns (fun n => evalText exA n l b) (vs, l') ∧ vs.map (·.map (·.V)) = r := by
  unfold outcome at h
  split at h
  · next l hl =>
    split at h
    · next r' l' he => exact ⟨l, l', r', .start hl, Out.returns_of (evalText_mono exA l b) he, Option.some.inj h⟩
    · cases h
  · cases h

/-- Texts with what `Eval` returns for them: `(1 2) 3`, `1 (2 3) 4`, `1 2 swap 3`, `1 2 swap swap`, `5 1 2 3 ?`,
`1 2 3 ? 4 +`, `1--sum 2-`. -/
def odd : List (Bytes × Option (List Int)) :=
  [([40, 49, 32, 50, 41, 32, 51], some [0, 3]), ([49, 40, 50, 32, 51, 41, 52], some [1, 0, 4]),
   ([49, 32, 50, 115, 119, 97, 112, 32, 51], none), ([49, 32, 50, 115, 119, 97, 112, 115, 119, 97, 112], some [0]),
   ([53, 32, 49, 32, 50, 32, 51, 63], some [2]), ([49, 32, 50, 32, 51, 63, 32, 52, 43], some [4]), ([49, 45, 45, 115, 117, 109, 32, 50, 45], some [-1, -2])]

set_option maxRecDepth 100000 in
theorem odd_outcome : (odd.all fun x => decide (outcome x.1 = some x.2)) = true := by
  unfold outcome lxr evalText evalLexemes parseLexemes grmr lexerText grammarText
  simp only [litToList]
  decide +kernel

/-- `Eval` does not return what the machine ends with. -/
def Differs (b : Bytes) (ts : List Tok) (vs r : Option (List Int)) : Prop :=
  SText b ts ∧ (exec exA ts [] []).map (·.map (·.V)) = vs ∧ vs ≠ r ∧
  ∃ l l' o, Reach exA l ∧ Out.Returns (fun n => evalText exA n l b) (o, l') ∧ o.map (·.map (·.V)) = r

theorem differs {b : Bytes} {ts : List Tok} {vs r : Option (List Int)} (h : (b, r) ∈ odd) (ht : SText b ts)
    (he : (exec exA ts [] []).map (·.map (·.V)) = vs) (hne : vs ≠ r) : Differs b ts vs r :=
  ⟨ht, he, hne, outcome_returns (by simpa using List.all_eq_true.1 odd_outcome _ h)⟩

/-- Single digits as tokens. -/
theorem digit_text {x : UInt8} {s : Bytes} {ts : List Tok} (hx : RxByte.digit x = true) (hs : NoHead RxByte.digit s) (h : SText s ts) :
    SText (x :: s) ((.int, nameOf [x]) :: ts) :=
  SText.int (g := []) (d := [x]) (.inl rfl) (by simp) (by simpa using hx) hs h

theorem noHead {x : UInt8} {l : Bytes} (h : RxByte.digit x = false) : NoHead RxByte.digit (x :: l) := fun y s e => by cases e; exact h

theorem noHead_nil : NoHead RxByte.digit [] := fun y s e => by cases e

theorem word_text {k : Spec.Scalc.Kind} {w s : Bytes} {ts : List Tok} (h : (k, w) ∈ words) (hw : w ≠ [43] ∧ w ≠ [45]) (hs : SText s ts) :
    SText (w ++ s) ((k, nameOf w) :: ts) :=
  .word h (fun e => absurd e (by simp [hw])) (fun e => absurd e hw.2) hs

/-- `(1 2) 3` -/
def t1b : Bytes := [40, 49, 32, 50, 41, 32, 51]

def t1s : List Tok := [(.opening, nameOf [40]), (.int, nameOf [49]), (.int, nameOf [50]), (.closing, nameOf [41]), (.int, nameOf [51])]

theorem t1_text : SText t1b t1s :=
  word_text (w := [40]) (by simp [words]) (by simp) (digit_text (by decide) (noHead (by decide)) (.space (by decide) (digit_text (by decide) (noHead (by decide)) (word_text (w := [41]) (by simp [words]) (by simp) (.space (by decide) (digit_text (by decide) noHead_nil (.done)))))))

/-- `1(2 3)4` -/
def t2b : Bytes := [49, 40, 50, 32, 51, 41, 52]

def t2s : List Tok := [(.int, nameOf [49]), (.opening, nameOf [40]), (.int, nameOf [50]), (.int, nameOf [51]), (.closing, nameOf [41]), (.int, nameOf [52])]

theorem t2_text : SText t2b t2s :=
  digit_text (by decide) (noHead (by decide)) (word_text (w := [40]) (by simp [words]) (by simp) (digit_text (by decide) (noHead (by decide)) (.space (by decide) (digit_text (by decide) (noHead (by decide)) (word_text (w := [41]) (by simp [words]) (by simp) (digit_text (by decide) noHead_nil (.done)))))))

/-- `1 2swap 3` -/
def t3b : Bytes := [49, 32, 50, 115, 119, 97, 112, 32, 51]

def t3s : List Tok := [(.int, nameOf [49]), (.int, nameOf [50]), (.smp, nameOf [115, 119, 97, 112]), (.int, nameOf [51])]

theorem t3_text : SText t3b t3s :=
  digit_text (by decide) (noHead (by decide)) (.space (by decide) (digit_text (by decide) (noHead (by decide)) (word_text (w := [115, 119, 97, 112]) (by simp [words]) (by simp) (.space (by decide) (digit_text (by decide) noHead_nil (.done))))))

/-- `1 2swapswap` -/
def t4b : Bytes := [49, 32, 50, 115, 119, 97, 112, 115, 119, 97, 112]

def t4s : List Tok := [(.int, nameOf [49]), (.int, nameOf [50]), (.smp, nameOf [115, 119, 97, 112]), (.smp, nameOf [115, 119, 97, 112])]

theorem t4_text : SText t4b t4s :=
  digit_text (by decide) (noHead (by decide)) (.space (by decide) (digit_text (by decide) (noHead (by decide)) (word_text (w := [115, 119, 97, 112]) (by simp [words]) (by simp) (word_text (w := [115, 119, 97, 112]) (s := []) (by simp [words]) (by simp) (.done)))))

/-- `5 1 2 3?` -/
def t5b : Bytes := [53, 32, 49, 32, 50, 32, 51, 63]

def t5s : List Tok := [(.int, nameOf [53]), (.int, nameOf [49]), (.int, nameOf [50]), (.int, nameOf [51]), (.choice, nameOf [63])]

theorem t5_text : SText t5b t5s :=
  digit_text (by decide) (noHead (by decide)) (.space (by decide) (digit_text (by decide) (noHead (by decide)) (.space (by decide) (digit_text (by decide) (noHead (by decide)) (.space (by decide) (digit_text (by decide) (noHead (by decide)) (word_text (w := [63]) (s := []) (by simp [words]) (by simp) (.done))))))))

/-- `1 2 3? 4+` -/
def t6b : Bytes := [49, 32, 50, 32, 51, 63, 32, 52, 43]

def t6s : List Tok := [(.int, nameOf [49]), (.int, nameOf [50]), (.int, nameOf [51]), (.choice, nameOf [63]), (.int, nameOf [52]), (.bop, nameOf [43])]

theorem t6_text : SText t6b t6s :=
  digit_text (by decide) (noHead (by decide)) (.space (by decide) (digit_text (by decide) (noHead (by decide)) (.space (by decide) (digit_text (by decide) (noHead (by decide)) (word_text (w := [63]) (by simp [words]) (by simp) (.space (by decide) (digit_text (by decide) (noHead (by decide)) (SText.word (w := [43]) (s := []) (by simp [words]) (fun _ => noHead_nil) (by simp) (.done)))))))))

/-- `1--sum 2-` -/
def t7b : Bytes := [49, 45, 45, 115, 117, 109, 32, 50, 45]

def t7s : List Tok := [(.int, nameOf [49]), (.uop, nameOf [45, 45]), (.sop, nameOf [115, 117, 109]), (.int, nameOf [50]), (.bop, nameOf [45])]

theorem t7_text : SText t7b t7s :=
  digit_text (by decide) (noHead (by decide)) (word_text (w := [45, 45]) (by simp [words]) (by simp) (word_text (w := [115, 117, 109]) (by simp [words]) (by simp)
    (.space (by decide) (digit_text (by decide) (noHead (by decide)) (SText.word (w := [45]) (s := []) (by simp [words]) (fun _ => noHead_nil) (fun _ y s e => by cases e) (.done))))))

/-- `(3 8 2swap)first` -/
def lastText : Bytes := [40, 51, 32, 56, 32, 50, 115, 119, 97, 112, 41, 102, 105, 114, 115, 116]

def lastToks : List Tok :=
  [(.opening, nameOf [40]), (.int, nameOf [51]), (.int, nameOf [56]), (.int, nameOf [50]), (.smp, nameOf [115, 119, 97, 112]),
   (.closing, nameOf [41]), (.sop, nameOf [102, 105, 114, 115, 116])]

theorem lastText_toks : SText lastText lastToks :=
  word_text (w := [40]) (by simp [words]) (by simp) (digit_text (by decide) (noHead (by decide)) (.space (by decide) (digit_text (by decide) (noHead (by decide))
    (.space (by decide) (digit_text (by decide) (noHead (by decide)) (word_text (w := [115, 119, 97, 112]) (by simp [words]) (by simp)
      (word_text (w := [41]) (by simp [words]) (by simp) (word_text (w := [102, 105, 114, 115, 116]) (s := []) (by simp [words]) (by simp) .done))))))))

theorem lastText_plain : Plain true false (lastToks.map (·.1)) :=
  .fold (w := [.opening, .int, .int, .int, .smp, .closing]) (.paren (w := [.int, .int, .int, .smp]) (.manip (w := [.int, .int, .int]) (.vals (by simp))))

/-- Two and eight are swapped, and the eight is on top. -/
theorem C74_last_case {l : Lexer} (hl : Reach exA l) : ∃ l', Out.Returns (fun n => evalText exA n l lastText) (some [⟨8, 0⟩], l') :=
  C74_last_partial hl lastText_toks lastText_plain

/-- `7 8 1 4-?` -/
def pickText : Bytes := [55, 32, 56, 32, 49, 32, 52, 45, 63]

def pickToks : List Tok :=
  [(.int, nameOf [55]), (.int, nameOf [56]), (.int, nameOf [49]), (.int, nameOf [52]), (.bop, nameOf [45]), (.choice, nameOf [63])]

theorem pickText_toks : SText pickText pickToks :=
  digit_text (by decide) (noHead (by decide)) (.space (by decide) (digit_text (by decide) (noHead (by decide)) (.space (by decide)
    (digit_text (by decide) (noHead (by decide)) (.space (by decide) (digit_text (by decide) (noHead (by decide))
      (SText.word (w := [45]) (s := [63]) (by simp [words]) (fun _ => noHead (by decide)) (fun _ y s e => by cases e; decide)
        (word_text (w := [63]) (s := []) (by simp [words]) (by simp) .done))))))))

/-- The condition is -3: the lower value is kept. -/
theorem C74_choice_case {l : Lexer} (hl : Reach exA l) : ∃ l', Out.Returns (fun n => evalText exA n l pickText) (some [⟨7, 0⟩], l') := by
  obtain ⟨v, l', h1, h2⟩ := C74_choice_partial hl pickText_toks (a := [.int]) (b := [.int]) (c := [.int, .int, .bop]) .int .int
    (.bin (a := [.int]) (b := [.int]) .int .int (.op (by simp [operators]))) (by decide) (by decide)
  have : exec exA pickToks [] [] = some [⟨7, 0⟩] := by rfl
  rw [this] at h1
  cases h1
  exact ⟨l', h2⟩

/-- **C74, operators on the stack.** `1--sum 2-` should leave -3; it leaves -1 and -2. -/
theorem C74_fold_refuted : Differs t7b t7s (some [-3]) (some [-1, -2]) :=
  differs (by simp [odd, t7b]) t7_text (by decide) (by decide)

/-- **C74, parentheses.** `(1 2) 3` should leave 1, 2 and 3; it leaves 0 and 3. `1(2 3)4` leaves 1, 0 and 4. -/
theorem C74_substack_refuted : Differs t1b t1s (some [1, 2, 3]) (some [0, 3]) ∧ Differs t2b t2s (some [1, 2, 3, 4]) (some [1, 0, 4]) :=
  ⟨differs (by simp [odd, t1b]) t1_text (by decide) (by decide), differs (by simp [odd, t2b]) t2_text (by decide) (by decide)⟩

/-- **C74, manipulations.** `1 2swap 3` should leave 2, 1 and 3; `Eval` returns nil. `1 2swapswap` should leave 1 and 2;
it leaves 0. -/
theorem C74_manip_refuted : Differs t3b t3s (some [2, 1, 3]) none ∧ Differs t4b t4s (some [1, 2]) (some [0]) :=
  ⟨differs (by simp [odd, t3b]) t3_text (by decide) (by decide), differs (by simp [odd, t4b]) t4_text (by decide) (by decide)⟩

/-- **C74, choices.** `5 1 2 3?` should leave 5 and 2; it leaves 2. `1 2 3? 4+` should leave 6; it leaves 4. -/
theorem C74_choice_refuted : Differs t5b t5s (some [5, 2]) (some [2]) ∧ Differs t6b t6s (some [6]) (some [4]) :=
  ⟨differs (by simp [odd, t5b]) t5_text (by decide) (by decide), differs (by simp [odd, t6b]) t6_text (by decide) (by decide)⟩

end Verif.Props.ScalcText
