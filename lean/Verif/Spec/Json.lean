import Verif.Spec.CFG
import Verif.Spec.GrammarDef
/-
Specification for the JSON formatter: trees that stand for JSON values, their tokens, and texts that
consist of given tokens with white space between them.
-/
namespace Verif.Spec.Json
open Verif.Spec

/-- JSON values as data: an atom by its text. -/
inductive Val where
  | atom (text : Str)
  | arr (items : List Val)
  | obj (fields : List (Str × Val))

/-- `Stands t v`: the tree stands for the value. Arrays are nodes of kind `Array` over values, objects
nodes of kind `Object` over nodes of kind `KeyVal`, whose value is the key and whose only child is a
value; nodes of any other kind are atoms and stand for their value, whatever they have below. -/
inductive Stands : PN Str Str → Val → Prop
  | atom {l ks} : l.kind ∉ ["Array".toList, "Object".toList, "KeyVal".toList] →
      Stands (.node l ks) (.atom l.val)
  | arr {l ks vs} : l.kind = "Array".toList → ks.length = vs.length →
      (∀ (i : Nat) t v, ks[i]? = some t → vs[i]? = some v → Stands t v) → Stands (.node l ks) (.arr vs)
  | obj {l} {ks : List (Spec.Lexeme Str Str × PN Str Str)} {fs : List (Str × Val)} :
      l.kind = "Object".toList → ks.map (·.1.val) = fs.map (·.1) →
      (∀ x ∈ ks, x.1.kind = "KeyVal".toList) →
      (∀ (i : Nat) x f, ks[i]? = some x → fs[i]? = some f → Stands x.2 f.2) →
      Stands (.node l (ks.map fun x => .node x.1 [x.2])) (.obj fs)

mutual
/-- The tokens of a value. -/
def tokens : Val → List Str
  | .atom s => [s]
  | .arr vs => ["[".toList] ++ tokensL vs true ++ ["]".toList]
  | .obj fs => ["{".toList] ++ tokensF fs true ++ ["}".toList]
/-- The tokens of the items, with commas between them. -/
def tokensL : List Val → Bool → List Str
  | [], _ => []
  | v :: vs, first => (if first then [] else [",".toList]) ++ tokens v ++ tokensL vs false
/-- The tokens of the fields, with commas between them. -/
def tokensF : List (Str × Val) → Bool → List Str
  | [], _ => []
  | f :: fs, first => (if first then [] else [",".toList]) ++ [f.1, ":".toList] ++ tokens f.2 ++ tokensF fs false
end

/-- Only blanks and newlines. -/
def Blank (s : Str) : Prop := ∀ c ∈ s, c = ' ' ∨ c = '\n'

/-- The text is the sequence of tokens with white space between them, none before the first and none
after the last. -/
inductive Spaced : List Str → Str → Prop
  | one (t) : Spaced [t] t
  | cons {t ws ts r} : Blank ws → Spaced ts r → Spaced (t :: ts) (t ++ ws ++ r)

/-- Parts of values, as they are written: a value, the items of an array after the first, a field, the
fields of an object after the first. -/
inductive Part where
  | val (v : Val)
  | items (vs : List Val)
  | field (k : Str) (v : Val)
  | fields (fs : List (Str × Val))

/-- The kinds of the tokens that are values by themselves. -/
def atomKinds : List Str := ["string".toList, "number".toList, "bool".toList, "null".toList]

/-- `Written x ls`: the lexemes are the part `x` as JSON writes it. -/
inductive Written : Part → List (Lexeme Str Str) → Prop
  | atom {l} : l.kind ∈ atomKinds → Written (.val (.atom l.val)) [l]
  | noItems {a b} : a.kind = "lb".toList → b.kind = "rb".toList → Written (.val (.arr [])) [a, b]
  | arr {a b v vs x y} : a.kind = "lb".toList → b.kind = "rb".toList → Written (.val v) x → Written (.items vs) y →
      Written (.val (.arr (v :: vs))) (a :: (x ++ y ++ [b]))
  | noFields {a b} : a.kind = "lcb".toList → b.kind = "rcb".toList → Written (.val (.obj [])) [a, b]
  | obj {a b k v fs x y} : a.kind = "lcb".toList → b.kind = "rcb".toList → Written (.field k v) x →
      Written (.fields fs) y → Written (.val (.obj ((k, v) :: fs))) (a :: (x ++ y ++ [b]))
  | itemsEnd : Written (.items []) []
  | item {c v vs x y} : c.kind = "comma".toList → Written (.val v) x → Written (.items vs) y →
      Written (.items (v :: vs)) (c :: (x ++ y))
  | field {l c v x} : l.kind = "string".toList → c.kind = "colon".toList → Written (.val v) x →
      Written (.field l.val v) (l :: c :: x)
  | fieldsEnd : Written (.fields []) []
  | moreFields {c k v fs x y} : c.kind = "comma".toList → Written (.field k v) x → Written (.fields fs) y →
      Written (.fields ((k, v) :: fs)) (c :: (x ++ y))

end Verif.Spec.Json
