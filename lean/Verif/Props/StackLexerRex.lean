import Verif.Proofs.RegexpMarks
import Verif.Props.LexerDef
/-
C77: stack lexers with compiled expressions: what the lexemes of rules with groups hold. And C76: the samples of lexer/stacklexer/readme.md.
-/
namespace Verif.Props.StackLexerRex
open Verif Verif.SetSymbol Verif.StackLexer Verif.Spec
open Verif.SimpleLexer (Bytes Lx Kind)
open Verif.Props.SimpleLexer (seen inserted)
open Verif.Props.StackLexer (Found made part emitted leads NoAdjacentErrors C43_lossless run_mono)

/-! ### Specification -/

/-- What an element of a rewriting stands for, in a match of the text `t` with the captures `k`: a literal, the whole match, or what
a group captured (nothing if it took no part). -/
def stands (t : Bytes) (k : Caps UInt8) (s : Submatch) : Bytes :=
  if s.section_ = -1 then s.str else if s.section_.toNat = 0 then t else group k s.section_.toNat

/-- The value of a lexeme: the text matched, or what the elements of the rewriting stand for. -/
def written (r : Rule) (t : Bytes) (k : Caps UInt8) : Bytes :=
  match r.submatches with
  | none => t
  | some ss => ss.flatMap (stands t k)

/-- The rule of the sub-lexer was found at `[p, p+n)` by looking for its expression from a position `c ≤ p` on, and the value is
written by what it captured there. -/
def FoundText (b : Bytes) (_ : Mode) (s : Sub) (p : Nat) (k : Tok) (n : Nat) : Prop :=
  some k.1 ∈ s.rules ∧ ∀ x, k.1.re = ofRex x → ∃ c ≤ p, ∃ caps,
    x.find decode (b.length - c) (b.drop c) = some ((b.drop p).take n, caps) ∧ k.2 = written k.1 ((b.drop p).take n) caps

theorem found_text {b : Bytes} {f : Mode} {s : Sub} {p : Nat} {k : Tok} {n : Nat} (h : Found b f s p k n) : FoundText b f s p k n := by
  obtain ⟨h1, c, hc, g, h2, h3⟩ := h
  refine ⟨h1, fun x hx => ?_⟩
  rw [hx] at h2
  simp only [ofRex, Option.map_eq_some_iff] at h2
  obtain ⟨⟨a, e, m⟩, h4, h5⟩ := h2
  simp only [Prod.mk.injEq] at h5
  obtain ⟨rfl, rfl, rfl⟩ := h5
  have hf := findP_find x (b.drop c) (b.drop c).length (b.drop c) (List.suffix_refl _)
  rw [h4, Option.map_some] at hf
  have hb := findP_bound x _ _ _ _ _ _ (Nat.le_refl _) h4
  have hk := findP_caps x _ _ _ _ _ _ h4
  simp only at hf
  rw [List.drop_drop, show c + (p - c) = p by omega, show p - c + n - (p - c) = n by omega] at hf
  refine ⟨c, hc, _, by rw [← List.length_drop]; exact hf.symm, ?_⟩
  rw [h3]
  unfold made written
  have ht : ((b.drop c).drop (p - c)).take (p - c + n - (p - c)) = (b.drop p).take n := by
    rw [List.drop_drop, show c + (p - c) = p by omega, show p - c + n - (p - c) = n by omega]
  cases k.1.submatches with
  | none => exact ht
  | some ss =>
    refine flatMap_same fun s _ => ?_
    unfold part stands
    split
    · rfl
    · cases hn : s.section_.toNat with
      | zero =>
        simp only [List.getElem?_cons_zero, if_true]
        rw [if_pos (by omega), show (((p - c + n : Nat) : Int) - ((p - c : Nat) : Int)).toNat = p - c + n - (p - c) by omega]
        simpa using ht
      | succ i =>
        simp only [List.getElem?_cons_succ, List.getElem?_map]
        rw [if_neg (by omega)]
        by_cases hi : i < x.caps
        · rw [List.getElem?_range hi]
          simp only [Option.map_some]
          exact bounds_group (b.drop c) m (i + 1) hb.2.2
        · rw [List.getElem?_eq_none (by simpa using hi), group_map]
          simp only [Option.map_none]
          have : m.find? (·.1 == i + 1) = none := by
            rw [List.find?_eq_none]
            intro q hq
            have := hk q hq
            simp
            omega
          rw [this]

/-! ### Claims -/

/-- C77: for every stack lexer and every input on which `Lex` returns, the input is cut into lexemes and errors so that for every
lexeme of a rule whose expression is compiled, the value is what the rewriting of the rule makes of the match: literals, and the
texts that its groups captured. -/
theorem C77_values (l : Lexer) (b : Bytes) (lxs : List Lx) (l' : Lexer) (h : Out.Returns (fun n => lex n l b) (lxs, l')) :
    ∃ s segs, l.start = some s ∧ cover segs = b ∧
      lxs.map seen = (inserted l.startKind l.startVal).map seen ++
        segs.filterMap (emitted (str l.set l.error).2) ++ (inserted l.endKind l.endVal).map seen ∧
      Run (FoundText b) (fun _ _ => True) (leads l.lexers) b .taken [s] 0 segs ∧ NoAdjacentErrors segs := by
  obtain ⟨s, segs, h1, h2, h3, h4, h5⟩ := C43_lossless l b lxs l' h
  exact ⟨s, segs, h1, h2, h3, run_mono h4 (fun _ _ _ _ _ _ h => found_text h) (fun _ _ _ h => h), h5⟩

/-! ### Concrete cases -/

/-- The lexemes for an input, with the lexer of texts, by priority or not. -/
def lexWith (ord : List Str) (texts : List Str) (prio : Bool) (input : Str) : Out (List Lx × Lexer) :=
  (newText compile (ord.map SimpleLexer.bytes) (texts.map SimpleLexer.bytes) 20).bind fun x =>
  lex 60 (if prio then { x.1 with compare := priorityThenLength } else x.1) (SimpleLexer.bytes input)

/-- Names of kinds, values, lines and columns. -/
def shown (o : Out (List Lx × Lexer)) : Option (List (Option Bytes × Bytes × Int × Int)) :=
  match o with
  | .ok (lxs, l') => some (lxs.map fun x => (match x.kind with
    | .idx i => l'.set.symb2str[i]?
    | .plain s => some s, x.val, x.line, x.col))
  | _ => none

/-- It panics. -/
def panics (o : Out (List Lx × Lexer)) : Bool :=
  match o with
  | .panic => true
  | _ => false

def tok (k v : String) (l c : Int) : Option Bytes × Bytes × Int × Int := (some (SimpleLexer.bytes k.toList), SimpleLexer.bytes v.toList, l, c)

/-- The definition in `TestStacklexer` (stacklexer_test.go:11-24). -/
def testDef : Str := r"
    == main ==
      START innerLexer
      outerword  /\w+/
      shared
    == innerLexer ==
      STOP ^
      innerword  /\w+/
      foo /This will mask shared foo/
      shared
    == shared ==
      foo
      space /\s+/ -
      nl /\n/ -
  ".toList

set_option maxRecDepth 100000 in
/-- `TestStacklexer` (stacklexer_test.go:10-48), from text to lexemes. -/
example : shown (lexWith ["main".toList, "innerLexer".toList, "shared".toList] [testDef] false "this \n START is \n a STOP test".toList) =
    some [tok "outerword" "this" 1 1, tok "START" "START" 2 2, tok "innerword" "is" 2 8, tok "innerword" "a" 3 2, tok "STOP" "STOP" 3 4,
      tok "outerword" "test" 3 9] := by
  unfold testDef
  simp only [litToList, tok]
  decide +kernel

/-- The definition in `TestStacklexerSubSection` (stacklexer_test.go:112-125). -/
def subDef : Str := r"
    == main ==
      START innerLexer
      outerword  /\w+/
      shared
    == innerLexer ==
      STOP ^
      foo /foo\n(\w+)foo/ (1)
      innerword  /\w+/
      shared
    == shared ==
      space /\s+/ -
      nl /\n/ -
  ".toList

set_option maxRecDepth 100000 in
/-- `TestStacklexerSubSection` (stacklexer_test.go:111-150): the value of `foo` is what its group captured. -/
example : shown (lexWith ["main".toList, "innerLexer".toList, "shared".toList] [subDef] true
      "this \n START foo\nbarfoo is \n a STOP test".toList) =
    some [tok "outerword" "this" 1 1, tok "START" "START" 2 2, tok "foo" "bar" 2 8, tok "innerword" "is" 3 8, tok "innerword" "a" 4 2,
      tok "STOP" "STOP" 4 4, tok "outerword" "test" 4 9] := by
  unfold subDef
  simp only [litToList, tok]
  decide +kernel

/-- The sample of the readme (readme.md:10-22). -/
def readmeDef : Str := r"== Main ==
  start innerLexer
  outerFoo /foo/
  Shared
== InnerLexer ==
  stop ^
  innerFoo /foo/
  Shared
== Shared ==
  word  /\w+/
  space /\s+/ -
".toList

set_option maxRecDepth 100000 in
/-- C76, the readme: its sample does not lex what it should (readme.md:24-31), but panics: it pushes `innerLexer`, where the
sub-lexer is called `InnerLexer`. With the name put right the lexemes are those of the readme. -/
theorem C76_readme_refuted :
    panics (lexWith ["Main".toList, "InnerLexer".toList, "Shared".toList] [readmeDef] false "foo bar start foo bar baz stop foo".toList) = true ∧
    shown (lexWith ["Main".toList, "InnerLexer".toList, "Shared".toList]
        [("== Main ==\n  start InnerLexer".toList ++ readmeDef.drop 29)] false "foo bar start foo bar baz stop foo".toList) =
      some [tok "outerFoo" "foo" 1 1, tok "word" "bar" 1 5, tok "start" "start" 1 9, tok "innerFoo" "foo" 1 15, tok "word" "bar" 1 19,
        tok "word" "baz" 1 23, tok "stop" "stop" 1 27, tok "outerFoo" "foo" 1 32] := by
  unfold readmeDef
  simp only [litToList, tok]
  decide +kernel

/-- The sample with groups (readme.md:65-68). -/
def codeDef : Str := "== Main ==\n  code /\\s*(\\d{3})[-:_](\\d{3})/ (1|\":\"|2)\n".toList

set_option maxRecDepth 100000 in
/-- C77, the readme: it says that the value reported for `  123_456` is `123:456` (readme.md:70); it has the quotes in it. Without
quotes around the colon the value is as described. -/
theorem C77_readme_refuted :
    shown (lexWith ["Main".toList] [codeDef] false "  123_456".toList) = some [tok "code" "123\":\"456" 1 1] ∧
    shown (lexWith ["Main".toList] ["== Main ==\n  code /\\s*(\\d{3})[-:_](\\d{3})/ (1|:|2)\n".toList] false "  123_456".toList) =
      some [tok "code" "123:456" 1 1] := by
  unfold codeDef
  simp only [litToList, tok]
  refine ⟨?_, ?_⟩ <;> decide +kernel

set_option maxRecDepth 100000 in
/-- C77: a group that took no part stands for nothing, but at the beginning of the input it makes `Lex` panic. -/
theorem C77_absent_refuted :
    panics (lexWith ["Main".toList] ["== Main ==\n  c /(a)?b/ (1)\n".toList] false "b".toList) = true ∧
    shown (lexWith ["Main".toList] ["== Main ==\n  c /(a)?b/ (1)\n".toList] false "abb".toList) = some [tok "c" "a" 1 1, tok "c" "" 1 3] := by
  simp only [litToList, tok]
  refine ⟨?_, ?_⟩ <;> decide +kernel

end Verif.Props.StackLexerRex
