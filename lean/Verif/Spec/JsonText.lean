import Verif.Spec.TextTokens
import Verif.Spec.Json
/-
How the tokens of JSON values are laid out in a text. Numbers are those of examples/parlexjson: digits with
perhaps a fraction, no sign and no exponent. Independent of the lexer by which the code reads them.
-/
namespace Verif.Spec.Json
open Verif.Spec

/-- The punctuation. -/
def punct : UInt8 → Option Str
  | 44 => some "comma".toList
  | 123 => some "lcb".toList
  | 125 => some "rcb".toList
  | 91 => some "lb".toList
  | 93 => some "rb".toList
  | 58 => some "colon".toList
  | _ => none

/-- The words: `true`, `false`, `null`. -/
def jsWords : List (List UInt8 × Str) :=
  [([116, 114, 117, 101], "bool".toList), ([102, 97, 108, 115, 101], "bool".toList), ([110, 117, 108, 108], "null".toList)]

/-- The text is a layout of the tokens, each given by kind and text: white space is skipped, numbers are as
long as they can be. -/
inductive JsText : List UInt8 → List (Str × Str) → Prop
  | done : JsText [] []
  | space {x s ts} (h : RxByte.space x = true) (rest : JsText s ts) : JsText (x :: s) ts
  | int {d s ts} (ne : d ≠ []) (h : ∀ x ∈ d, RxByte.digit x = true) (stop : NoHead RxByte.digit s) (nf : NoFrac s)
      (rest : JsText s ts) : JsText (d ++ s) (("number".toList, nameOf d) :: ts)
  | frac {d f s ts} (hd : ∀ x ∈ d, RxByte.digit x = true) (ne : f ≠ []) (hf : ∀ x ∈ f, RxByte.digit x = true)
      (stop : NoHead RxByte.digit s) (rest : JsText s ts) :
      JsText (d ++ 46 :: (f ++ s)) (("number".toList, nameOf (d ++ 46 :: f)) :: ts)
  | string {b s ts} (h : StrBody b) (rest : JsText s ts) :
      JsText (34 :: (b ++ 34 :: s)) (("string".toList, nameOf (34 :: (b ++ [34]))) :: ts)
  | word {w k s ts} (h : (w, k) ∈ jsWords) (rest : JsText s ts) : JsText (w ++ s) ((k, nameOf w) :: ts)
  | one {x k s ts} (h : punct x = some k) (rest : JsText s ts) : JsText (x :: s) ((k, nameOf [x]) :: ts)

/-- The text is a JSON value. -/
def JsonOf (b : List UInt8) (v : Val) : Prop :=
  ∃ ls : List (Lexeme Str Str), JsText b (ls.map fun l => (l.kind, l.val)) ∧ Written (.val v) ls

/-- Arrays and objects. -/
def Val.nested : Val → Bool
  | .atom _ => false
  | _ => true

mutual
/-- A value laid out with the indentation `pad`. Items of an array follow each other, but arrays and objects
among them begin a line, two blanks further in; if there are any, the closing bracket begins a line. An object
with one field is on one line with it; otherwise each field begins a line, two blanks further in. -/
def pretty : Val → Str → Str
  | .atom s, _ => s
  | .arr vs, pad => "[".toList ++ prettyL vs true (pad ++ "  ".toList) ++ (if vs.any Val.nested then "\n".toList ++ pad else []) ++ "]".toList
  | .obj [], _ => "{}".toList
  | .obj [(k, v)], pad => "{".toList ++ k ++ ": ".toList ++ pretty v pad ++ "}".toList
  | .obj (f :: fs), pad => "{\n".toList ++ prettyF (f :: fs) true (pad ++ "  ".toList) ++ "\n".toList ++ pad ++ "}".toList
/-- The items. -/
def prettyL : List Val → Bool → Str → Str
  | [], _, _ => []
  | v :: vs, first, pad => (if first then [] else ",".toList) ++ (if v.nested then "\n".toList ++ pad else []) ++ pretty v pad ++ prettyL vs false pad
/-- The fields. -/
def prettyF : List (Str × Val) → Bool → Str → Str
  | [], _, _ => []
  | (k, v) :: fs, first, pad => (if first then [] else ",\n".toList) ++ pad ++ k ++ ": ".toList ++ pretty v pad ++ prettyF fs false pad
end

end Verif.Spec.Json
