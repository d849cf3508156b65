import Verif.Model.Basic
/-
Model of the productions of symbol/setsymbol/set.go with their backing arrays, which several productions may share. Symbols are
their indices in one set, to which everything belongs. How much an array grows when `append` needs a larger one is a parameter.
-/
namespace Verif.SetSymbolHeap

/-- A slice of symbols (set.go:114, 196): the array and the length. The offset is always 0. -/
structure Slice where
  arr : Nat
  len : Nat
deriving DecidableEq

/-- The arrays, each as long as its capacity; the `*Production`s made so far (set.go:113-116), and the `*Productions` (set.go:195-198). -/
structure St where
  arrs : List (List Nat)
  prods : List Slice
  sets : List (List Slice)
deriving DecidableEq

/-- What a slice holds (set.go:182-190, 262-270). -/
def read (st : St) (s : Slice) : List Nat := ((st.arrs[s.arr]?).getD []).take s.len

/-- `append(p.symbs, x)` for the slice `s` (set.go:140): the arrays and the new slice. -/
def append1 (grow : Nat → Nat) (arrs : List (List Nat)) (s : Slice) (x : Nat) : List (List Nat) × Slice :=
  let a := (arrs[s.arr]?).getD []
  if s.len < a.length then (arrs.set s.arr (a.set s.len x), ⟨s.arr, s.len + 1⟩)
  else (arrs ++ [a.take s.len ++ x :: List.replicate (grow s.len - (s.len + 1)) 0], ⟨arrs.length, s.len + 1⟩)

/-- The loop of `AddSymbols` (set.go:139-141). -/
def appends (grow : Nat → Nat) : List (List Nat) → Slice → List Nat → List (List Nat) × Slice
  | arrs, s, [] => (arrs, s)
  | arrs, s, x :: xs => appends grow (append1 grow arrs s x).1 (append1 grow arrs s x).2 xs

/-- Calls (set.go:119, 138, 223, 262, 273). -/
inductive Op where
  | production (syms : List Nat)
  | addSymbols (i : Nat) (syms : List Nat)
  | productions (is : List Nat)
  | addProductions (j : Nat) (is : List Nat)
  | at' (j i : Nat)

/-- A call. Productions and sets of productions are numbered in the order they are made; calls with other numbers do nothing.
`Production` (set.go:119-128, as `CastProduction` 146-162 for productions of other packages) makes an array of exact length;
`AddSymbols` (138-142); `Productions` (223-232) and `AddProductions` (273-277), in which `CastProduction` returns its argument
(set.go:150-152), so that slices are shared; `Production(i)` (262-270), which shares too. -/
def step (grow : Nat → Nat) (st : St) : Op → St
  | .production syms => { st with arrs := st.arrs ++ [syms], prods := st.prods ++ [⟨st.arrs.length, syms.length⟩] }
  | .addSymbols i syms =>
    match st.prods[i]? with
    | none => st
    | some s => { st with arrs := (appends grow st.arrs s syms).1, prods := st.prods.set i (appends grow st.arrs s syms).2 }
  | .productions is => { st with sets := st.sets ++ [is.filterMap (st.prods[·]?)] }
  | .addProductions j is =>
    match st.sets[j]? with
    | none => st
    | some q => { st with sets := st.sets.set j (q ++ is.filterMap (st.prods[·]?)) }
  | .at' j i =>
    match (st.sets[j]?).bind (·[i]?) with
    | none => st
    | some s => { st with prods := st.prods ++ [s] }

/-- After calls (set.go:119-277). -/
def run (grow : Nat → Nat) (h : List Op) : St := h.foldl (step grow) ⟨[], [], []⟩

end Verif.SetSymbolHeap
