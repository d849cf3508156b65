/-
Outcome of a piece of Go code: it returns a value, panics, or (for code transcribed with a fuel
argument) has not returned within the given number of recursive steps.
Not a transcription of a particular function; used by every model file.
-/
namespace Verif

/-- Outcome of running Go code. `fuel` means "still running when the fuel ran out". -/
inductive Out (α : Type u) where
  | ok (a : α)
  | panic
  | fuel
  deriving Repr, DecidableEq

namespace Out

/-- Sequencing: a panic or non-return of the first part is one of the whole. -/
def bind {α : Type u} {β : Type v} : Out α → (α → Out β) → Out β
  | ok a, f => f a
  | panic, _ => panic
  | fuel, _ => fuel

/-- Apply a pure function to the returned value. -/
def map {α : Type u} {β : Type v} (f : α → β) : Out α → Out β
  | ok a => ok (f a)
  | panic => panic
  | fuel => fuel

instance : Monad Out where
  pure := ok
  bind := bind

@[simp] theorem bind_ok {α : Type u} {β : Type v} (a : α) (f : α → Out β) : (ok a).bind f = f a := rfl
@[simp] theorem bind_panic {α : Type u} {β : Type v} (f : α → Out β) :
    (panic : Out α).bind f = panic := rfl
@[simp] theorem bind_fuel {α : Type u} {β : Type v} (f : α → Out β) :
    (fuel : Out α).bind f = fuel := rfl
@[simp] theorem map_ok {α : Type u} {β : Type v} (f : α → β) (a : α) : (ok a).map f = ok (f a) := rfl

theorem bind_eq_ok {α : Type u} {β : Type v} {x : Out α} {f : α → Out β} {b : β} :
    x.bind f = ok b ↔ ∃ a, x = ok a ∧ f a = ok b := by
  cases x <;> simp [bind]

/-- The code returns `r`: with enough fuel the outcome is `ok r`, whatever the fuel. -/
def Returns {β : Type u} (f : Nat → Out β) (r : β) : Prop := ∃ N, ∀ n, N ≤ n → f n = ok r

/-- The code panics. -/
def Panics {β : Type u} (f : Nat → Out β) : Prop := ∃ N, ∀ n, N ≤ n → f n = panic

/-- The code never returns. -/
def Diverges {β : Type u} (f : Nat → Out β) : Prop := ∀ n, f n = fuel

/-- `x` is still running or already has the outcome `y`. -/
def Le {β : Type u} (x y : Out β) : Prop := x = fuel ∨ x = y

theorem Le.refl {β : Type u} (x : Out β) : Le x x := .inr rfl

theorem Le.ok {β : Type u} {x y : Out β} {r : β} (h : Le x y) (e : x = ok r) : y = Out.ok r := by
  rcases h with h | h
  · rw [e] at h; cases h
  · rw [← h, e]

theorem Le.panic {β : Type u} {x y : Out β} (h : Le x y) (e : x = panic) : y = Out.panic := by
  rcases h with h | h
  · rw [e] at h; cases h
  · rw [← h, e]

theorem Le.bind {α : Type u} {β : Type v} {x y : Out α} {f g : α → Out β} (h : Le x y)
    (hf : ∀ a, Le (f a) (g a)) : Le (x.bind f) (y.bind g) := by
  rcases h with h | h
  · subst h; exact .inl rfl
  · subst h
    cases x with
    | ok a => exact hf a
    | panic => exact .inr rfl
    | fuel => exact .inr rfl

/-- A function whose outcome only becomes more defined with more fuel returns what it returns for
some fuel. -/
theorem returns_of {β : Type u} {f : Nat → Out β} (hm : ∀ n m, n ≤ m → Le (f n) (f m)) {n : Nat} {r : β}
    (e : f n = ok r) : Returns f r := ⟨n, fun m hnm => (hm n m hnm).ok e⟩

theorem Returns.unique {β : Type u} {f : Nat → Out β} {r r' : β} (h : Returns f r) (h' : Returns f r') :
    r = r' := by
  obtain ⟨n, hn⟩ := h
  obtain ⟨m, hm⟩ := h'
  have h1 := hn (max n m) (by omega)
  have h2 := hm (max n m) (by omega)
  rw [h1] at h2
  exact Out.ok.inj h2

theorem Returns.eq_of {β : Type u} {f : Nat → Out β} (hm : ∀ n m, n ≤ m → Le (f n) (f m)) {n : Nat}
    {r r' : β} (h : Returns f r) (e : f n = ok r') : r = r' := h.unique (returns_of hm e)

end Out

/-- A Go map used through lookup and assignment only, as a function (absent key = `none`);
`m[k] = v` is `upd m k v`. -/
def upd {κ : Type u} {β : Type v} [DecidableEq κ] (f : κ → β) (k : κ) (b : β) : κ → β :=
  fun x => if x = k then b else f x

@[simp] theorem upd_same {κ : Type u} {β : Type v} [DecidableEq κ] (f : κ → β) (k : κ) (b : β) :
    upd f k b k = b := by simp [upd]

theorem upd_ne {κ : Type u} {β : Type v} [DecidableEq κ] (f : κ → β) {k x : κ} (b : β) (h : x ≠ k) :
    upd f k b x = f x := by simp [upd, h]

end Verif
