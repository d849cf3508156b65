import Mathlib.Logic.Relation
/-
Goroutines that share memory, without any synchronisation between them: every access is one step, and the steps of the goroutines are
interleaved in any way. There is a race if at some moment one goroutine is about to write to a place that another is about to read or to
write. (Go's memory model says nothing about executions with a race beyond that; those without behave as some interleaving.)
-/
namespace Verif.Spec

/-- What a goroutine does with memory of type `S`, which has the places `X`, until it returns a value. -/
inductive Prog (X S α : Type) where
  | ret (a : α)
  | read (x : X) (k : S → Prog X S α)
  | write (x : X) (f : S → S) (k : Prog X S α)

namespace Prog
variable {X S α β : Type}

/-- One after the other. -/
def bind : Prog X S α → (α → Prog X S β) → Prog X S β
  | ret a, f => f a
  | read x k, f => read x fun s => (k s).bind f
  | write x g k, f => write x g (k.bind f)

/-- Run alone: what is returned, and the memory then. -/
def run : Prog X S α → S → α × S
  | ret a, s => (a, s)
  | read _ k, s => (k s).run s
  | write _ f k, s => k.run (f s)

/-- The next access is to the place. -/
def At (x : X) : Prog X S α → Prop
  | ret _ => False
  | read y _ => y = x
  | write y _ _ => y = x

/-- The next access is a write to the place. -/
def WritesAt (x : X) : Prog X S α → Prop
  | write y _ _ => y = x
  | _ => False

/-- One access. -/
inductive Step1 : S → Prog X S α → S → Prog X S α → Prop
  | read {x k s} : Step1 s (read x k) s (k s)
  | write {x f k s} : Step1 s (write x f k) (f s) k

/-- Run alone, it writes to the place at some time. -/
inductive Meets (x : X) : Prog X S α → S → Prop
  | now {f k s} : Meets x (write x f k) s
  | read {y k s} : Meets x (k s) s → Meets x (read y k) s
  | write {y f k s} : Meets x k (f s) → Meets x (write y f k) s

end Prog

/-- One goroutine makes one access. -/
inductive Sched {X S α : Type} : S × List (Prog X S α) → S × List (Prog X S α) → Prop
  | mk {s ps i p s' p'} : ps[i]? = some p → Prog.Step1 s p s' p' → Sched (s, ps) (s', ps.set i p')

/-- Two goroutines are about to access the same place, one of them to write. -/
def RaceNow {X S α : Type} (ps : List (Prog X S α)) : Prop :=
  ∃ (i j : Nat) (p q : Prog X S α) (x : X), i ≠ j ∧ ps[i]? = some p ∧ ps[j]? = some q ∧ p.WritesAt x ∧ q.At x

/-- There can be a race between the goroutines. -/
def CanRace {X S α : Type} (s : S) (ps : List (Prog X S α)) : Prop :=
  ∃ s' ps', Relation.ReflTransGen Sched (s, ps) (s', ps') ∧ RaceNow ps'

end Verif.Spec
