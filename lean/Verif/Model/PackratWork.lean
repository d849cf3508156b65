import Verif.Model.Packrat
/-
Model of `createsCircularDep` and `comparePriority` of parser/packrat/packrat.go with their calls counted. Otherwise as Model/Packrat.
-/
namespace Verif.Packrat

/-- Loop of `createsCircularDep` (packrat.go:194-198), with the number of calls that it makes. -/
def circKidsC (rec : Def → Out (Bool × Nat)) (get : Key → Def) (root : Key) : List Key → Out (Bool × Nat)
  | [] => .ok (false, 0)
  | k :: ks =>
    if k = root then .ok (true, 0)
    else (rec (get k)).bind fun r =>
      if r.1 then .ok r else (circKidsC rec get root ks).bind fun r' => .ok (r'.1, r.2 + r'.2)

/-- `createsCircularDep` (packrat.go:193-200), with the number of calls, this one included. -/
def circC (get : Key → Def) (root : Key) : Nat → Def → Out (Bool × Nat)
  | 0, _ => .fuel
  | n + 1, d => (circKidsC (circC get root n) get root d.children).bind fun r => .ok (r.1, r.2 + 1)

/-- Loop of `comparePriority` (packrat.go:215-226), with the number of calls that it makes. -/
def compareKidsC (cmp : Def → Def → Out (Int × Nat)) (get : Key → Def) : List Key → List Key → Out (Int × Nat)
  | [], _ => .ok (0, 0)
  | _ :: _, [] => .panic
  | k1 :: ks1, k2 :: ks2 =>
    if k1 = k2 then compareKidsC cmp get ks1 ks2
    else (cmp (get k1) (get k2)).bind fun p =>
      if p.1 ≠ 0 then .ok p else (compareKidsC cmp get ks1 ks2).bind fun r => .ok (r.1, p.2 + r.2)

/-- `comparePriority` (packrat.go:205-227), with the number of calls, this one included. -/
def compareC (get : Key → Def) : Nat → Def → Def → Out (Int × Nat)
  | 0, _, _ => .fuel
  | n + 1, a, b =>
    if a.priority ≠ b.priority then
      if a.priority < b.priority then .ok (1, 1) else .ok (-1, 1)
    else (compareKidsC (compareC get n) get a.children b.children).bind fun r => .ok (r.1, r.2 + 1)

end Verif.Packrat
