import Verif.Model.Basic
/-
Model of symbol/setsymbol/set.go: the interning table.
The type `α` stands for Go's `string` (only equality of strings is used by this file).
-/
namespace Verif.SetSymbol

variable {α : Type} [DecidableEq α]

/-- `Set` (set.go:11-14): `str2sym` map and `symb2str` slice. -/
structure SymSet (α : Type) where
  str2sym : α → Option Nat
  symb2str : List α

/-- `New` (set.go:17-21). -/
def new : SymSet α := ⟨fun _ => none, []⟩

/-- `Size` (set.go:24). -/
def size (s : SymSet α) : Nat := s.symb2str.length

/-- `Str` (set.go:63-77); the returned `*Symbol` is represented by its index `val`
(its `set` field is the set the call was made on). -/
def str (s : SymSet α) (x : α) : SymSet α × Nat :=
  match s.str2sym x with
  | some v => (s, v)
  | none => (⟨upd s.str2sym x (some s.symb2str.length), s.symb2str ++ [x]⟩, s.symb2str.length)

/-- A value of interface type `parlex.Symbol` passed to a set (set.go:39, 51, 86): `nil`, one of the set's own symbols
(`*Symbol` with `set == s`, so only its index matters), or any other implementation, of which only
`String()` is used. -/
inductive SymArg (α : Type) where
  | nil
  | own (i : Nat)
  | other (x : α)

/-- `ByIdx` (set.go:27-35): `nil` is `none`; otherwise a symbol with the given index.
The index is a Go `int`, hence `Int`. -/
def byIdx (s : SymSet α) (i : Int) : Option Int :=
  if i > s.symb2str.length then none else some i

/-- `(*Symbol).String` (set.go:107): indexing panics out of range. -/
def symString (s : SymSet α) (i : Int) : Out α :=
  if i < 0 then .panic else
  match s.symb2str[i.toNat]? with
  | some x => .ok x
  | none => .panic

/-- `Idx` (set.go:39-48). A nil interface argument panics (method call on nil). -/
def idx (s : SymSet α) : SymArg α → Out Int
  | .nil => .panic
  | .own i => .ok i
  | .other x => .ok (match s.str2sym x with | some v => (v : Int) | none => -1)

/-- `Symbol` (set.go:51-59): `nil` gives `nil`. -/
def symbol (s : SymSet α) : SymArg α → SymSet α × Option Nat
  | .nil => (s, none)
  | .own i => (s, some i)
  | .other x => let r := str s x; (r.1, some r.2)

/-- `Has` (set.go:80-83). -/
def has (s : SymSet α) (x : α) : Bool := (s.str2sym x).isSome

/-- `HasSymbol` (set.go:86-98). -/
def hasSymbol (s : SymSet α) : SymArg α → Out (Option Nat)
  | .nil => .panic
  | .own i => .ok (some i)
  | .other x => .ok (s.str2sym x)

/-- Symbols of a production cast one by one (loops of `Production` set.go:124-126, `AddSymbols`
139-141, `CastProduction` 158-160); here the production's symbols are foreign, given by their
strings. -/
def castSyms (s : SymSet α) : List α → SymSet α × List Nat
  | [] => (s, [])
  | x :: xs =>
    let r := str s x
    let q := castSyms r.1 xs
    (q.1, r.2 :: q.2)

/-- `Production` built from arbitrary symbols (set.go:119-128); a nil symbol panics because `.val`
is read through the nil result of `Symbol`. -/
def production (s : SymSet α) : List (SymArg α) → Out (SymSet α × List Nat)
  | [] => .ok (s, [])
  | a :: as =>
    match symbol s a with
    | (_, none) => .panic
    | (s', some v) => (production s' as).bind fun q => .ok (q.1, v :: q.2)

/-- `(*Production).Symbol(i)` read for every position, then `String()` (set.go:182-190, 107). -/
def readSyms (s : SymSet α) (p : List Nat) : Out (List α) :=
  match p with
  | [] => .ok []
  | v :: vs => (symString s v).bind fun x => (readSyms s vs).bind fun xs => .ok (x :: xs)

/-- `CastProductions`/`Productions` on foreign productions (set.go:223-232, 235-251). -/
def castProds (s : SymSet α) : List (List α) → SymSet α × List (List Nat)
  | [] => (s, [])
  | p :: ps =>
    let r := castSyms s p
    let q := castProds r.1 ps
    (q.1, r.2 :: q.2)

/-- Calls a client can make on a set (set.go:39, 51, 63, 80, 86, 146). -/
inductive Op (α : Type) where
  | str (x : α)
  | symbol (a : SymArg α)
  | idx (a : SymArg α)
  | has (x : α)
  | hasSymbol (a : SymArg α)
  | cast (p : List α)

/-- State after a call (set.go:39-98, 146-162). -/
def step (s : SymSet α) : Op α → SymSet α
  | .str x => (str s x).1
  | .symbol a => (symbol s a).1
  | .idx _ => s
  | .has _ => s
  | .hasSymbol _ => s
  | .cast p => (castSyms s p).1

/-- State after a history of calls on a new set (set.go:17-21). -/
def run (h : List (Op α)) : SymSet α := h.foldl step new

end Verif.SetSymbol
