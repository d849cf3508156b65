import Verif.Model.ConcurrentRun
import Verif.Proofs.ConcurrentParse
/-
Goroutines that share two parts of memory and write to the first only.
-/
namespace Verif.Spec
namespace Prog
variable {X Y S T α β : Type}

theorem left_run (p : Prog X S α) (s : S) (t : T) : (p.left (Y := Y)).run (s, t) = ((p.run s).1, ((p.run s).2, t)) := by
  induction p generalizing s with
  | ret => rfl
  | read x k ih => exact ih s s
  | write x f k ih => exact ih (f s)

theorem right_run (p : Prog Y T α) (s : S) (t : T) : (p.right (X := X)).run (s, t) = ((p.run t).1, (s, (p.run t).2)) := by
  induction p generalizing t with
  | ret => rfl
  | read x k ih => exact ih t t
  | write x f k ih => exact ih (f t)

theorem left_meets (p : Prog X S α) (s : S) (t : T) (x : X) : Meets (.inl x) (p.left (Y := Y)) (s, t) ↔ Meets x p s := by
  induction p generalizing s with
  | ret => exact ⟨fun h => (meets_ret h).elim, fun h => (meets_ret h).elim⟩
  | read y k ih => rw [left, meets_read, meets_read]; exact ih s s
  | write y f k ih =>
    rw [left, meets_write, meets_write, ih]
    simp only [Sum.inl.injEq]

theorem left_not (p : Prog X S α) (s : S) (t : T) (y : Y) : ¬ Meets (.inr y) (p.left (Y := Y)) (s, t) := by
  induction p generalizing s with
  | ret => exact meets_ret
  | read y k ih => rw [left, meets_read]; exact ih s s
  | write y f k ih =>
    rw [left, meets_write]
    rintro (h | h)
    · cases h
    · exact ih _ h

theorem right_quiet (p : Prog Y T α) (s : S) (t : T) (h : ¬ p.Writes t) : ¬ (p.right (X := X)).Writes (s, t) := by
  induction p with
  | ret => rintro ⟨_, h⟩; exact meets_ret h
  | read y k ih =>
    rintro ⟨z, hz⟩
    rw [right, meets_read] at hz
    exact ih t (fun ⟨w, hw⟩ => h ⟨w, .read hw⟩) ⟨z, hz⟩
  | write y f k ih => exact absurd ⟨y, .now⟩ h

/-- As long as the second part of memory is as given, it writes to the first part only, whatever that is. -/
def NoRight (t : T) : Prog (X ⊕ Y) (S × T) α → Prop
  | ret _ => True
  | read _ k => ∀ s, NoRight t (k (s, t))
  | write (.inl _) f k => (∀ s, (f (s, t)).2 = t) ∧ NoRight t k
  | write (.inr _) _ _ => False

/-- It does nothing with the first part, whatever memory is. -/
def NoLeft : Prog (X ⊕ Y) (S × T) α → Prop
  | ret _ => True
  | read (.inl _) _ => False
  | read (.inr _) k => ∀ st, NoLeft (k st)
  | write (.inl _) _ _ => False
  | write (.inr _) _ k => NoLeft k

theorem noRight_left (t : T) (p : Prog X S α) : NoRight t (p.left (Y := Y)) := by
  induction p with
  | ret => trivial
  | read x k ih => exact fun s => ih s
  | write x f k ih => exact ⟨fun _ => rfl, ih⟩

theorem noRight_right (t : T) (p : Prog Y T α) (h : ¬ p.Writes t) : NoRight t (p.right (X := X) (S := S)) := by
  induction p with
  | ret => trivial
  | read x k ih => exact fun s => ih t fun ⟨y, hy⟩ => h ⟨y, .read hy⟩
  | write x f k ih => exact absurd ⟨x, .now⟩ h

theorem noRight_bind {t : T} (p : Prog (X ⊕ Y) (S × T) α) {f : α → Prog (X ⊕ Y) (S × T) β} (h : NoRight t p)
    (hf : ∀ a, NoRight t (f a)) : NoRight t (p.bind f) := by
  induction p with
  | ret a => exact hf a
  | read x k ih => exact fun s => ih (s, t) (h s)
  | write x g k ih =>
    cases x with
    | inl x => exact ⟨h.1, ih h.2⟩
    | inr x => exact h

theorem noLeft_right (p : Prog Y T α) : NoLeft (p.right (X := X) (S := S)) := by
  induction p with
  | ret => trivial
  | read x k ih => exact fun st => ih st.2
  | write x f k ih => exact ih

theorem noLeft_bind (p : Prog (X ⊕ Y) (S × T) α) {f : α → Prog (X ⊕ Y) (S × T) β} (h : NoLeft p) (hf : ∀ a, NoLeft (f a)) :
    NoLeft (p.bind f) := by
  induction p with
  | ret a => exact hf a
  | read x k ih =>
    cases x with
    | inl x => exact h
    | inr x => exact fun st => ih st (h st)
  | write x g k ih =>
    cases x with
    | inl x => exact h
    | inr x => exact ih h

theorem bind_run_andThen (p : Prog X S (Out α)) (f : α → Prog X S (Out β)) (s : S) :
    (p.andThen f).run s = match (p.run s).1 with
      | .ok a => (f a).run (p.run s).2
      | .panic => (.panic, (p.run s).2)
      | .fuel => (.fuel, (p.run s).2) := by
  unfold Spec.Prog.andThen
  rw [Prog.run_bind]
  cases (p.run s).1 <;> rfl

/-- What is done first is done first. -/
theorem at_left {x : X} {p : Prog X S α} (h : p.At x) (f : α → Prog (X ⊕ Y) (S × T) β) : ((p.left (Y := Y)).bind f).At (.inl x) := by
  cases p with
  | ret => exact h.elim
  | read y k => exact congrArg Sum.inl h
  | write y g k => exact congrArg Sum.inl h

/-- As long as the second part of memory is as given, it only reads there, and returns the value, whatever the first part is. -/
def Still (t : T) (a : α) : Prog (X ⊕ Y) (S × T) α → Prop
  | ret b => b = a
  | read (.inr _) k => ∀ s, Still t a (k (s, t))
  | _ => False

theorem still_right (t : T) (p : Prog Y T α) (h : ¬ p.Writes t) : Still t (p.run t).1 (p.right (X := X) (S := S)) := by
  induction p with
  | ret => rfl
  | read x k ih => exact fun s => ih t fun ⟨y, hy⟩ => h ⟨y, .read hy⟩
  | write x f k ih => exact absurd ⟨x, .now⟩ h

theorem still_bind {t : T} {a : α} {b : β} (p : Prog (X ⊕ Y) (S × T) α) {f : α → Prog (X ⊕ Y) (S × T) β} (h : Still t a p)
    (hf : Still t b (f a)) : Still t b (p.bind f) := by
  induction p with
  | ret c => cases h; exact hf
  | read x k ih =>
    cases x with
    | inl x => exact h.elim
    | inr x => exact fun s => ih (s, t) (h s)
  | write x g k ih => exact h.elim

theorem still_run {t : T} {a : α} (p : Prog (X ⊕ Y) (S × T) α) (h : Still t a p) (s : S) : (p.run (s, t)).1 = a := by
  induction p with
  | ret c => exact h
  | read x k ih =>
    cases x with
    | inl x => exact h.elim
    | inr x => exact ih (s, t) (h s)
  | write x g k ih => exact h.elim

end Prog

variable {X Y S T α : Type}
open Prog

/-- One goroutine that writes to the first part only, and others that do nothing with it: all are on the way to what they return alone. -/
theorem sched_solo {s : S} {t : T} {ps : List (Prog (X ⊕ Y) (S × T) α)} {i : Nat} {p : Prog (X ⊕ Y) (S × T) α} (hi : ps[i]? = some p)
    (hr : NoRight t p) (ho : ∀ j q, j ≠ i → ps[j]? = some q → ∃ a, Still t a q) {c : (S × T) × List (Prog (X ⊕ Y) (S × T) α)}
    (h : Relation.ReflTransGen Sched ((s, t), ps) c) : c.1.2 = t ∧
      (∃ p', c.2[i]? = some p' ∧ NoRight t p' ∧ p'.run c.1 = p.run (s, t)) ∧
      ∀ j q q' a, j ≠ i → ps[j]? = some q → Still t a q → c.2[j]? = some q' → Still t a q' := by
  induction h with
  | refl =>
    refine ⟨rfl, ⟨p, hi, hr, rfl⟩, fun j q q' a _ h1 h2 h3 => ?_⟩
    simp only at h3
    rw [h1] at h3; cases h3; exact h2
  | tail hc hs ih =>
    cases hs with
    | @mk s1 ps1 j q s2 q' hj h1 =>
      obtain ⟨e1, ⟨p', e2, e3, e4⟩, e5⟩ := ih
      simp only at e1 e2 e4 e5
      obtain ⟨s1, t1⟩ := s1
      simp only at e1
      subst e1
      have hlt := (List.getElem?_eq_some_iff.1 hj).1
      by_cases e : j = i
      · subst e
        rw [hj] at e2
        cases e2
        have key : s2.2 = t1 ∧ NoRight t1 q' ∧ q'.run s2 = q.run (s1, t1) := by
          cases h1 with
          | @read x k => exact ⟨rfl, e3 s1, rfl⟩
          | @write x f =>
            cases x with
            | inl x => exact ⟨e3.1 s1, e3.2, rfl⟩
            | inr x => exact e3.elim
        refine ⟨key.1, ⟨q', List.getElem?_set_self hlt, key.2.1, key.2.2.trans e4⟩, fun k r r' a hk h2 h3 h4 => ?_⟩
        simp only at h4
        rw [List.getElem?_set_ne (Ne.symm hk)] at h4
        exact e5 k r r' a hk h2 h3 h4
      · have hlen : ps1.length = ps.length := (sched_busy hc).1
        have hj' : ps[j]? = some ps[j] := List.getElem?_eq_getElem (by omega)
        obtain ⟨b, hb⟩ := ho j _ e hj'
        have hq := e5 j _ q b e hj' hb hj
        have key : s2 = (s1, t1) ∧ ∀ a, Still t1 a q → Still t1 a q' := by
          cases h1 with
          | @read x k =>
            cases x with
            | inl x => exact hq.elim
            | inr x => exact ⟨rfl, fun a ha => ha s1⟩
          | write => exact hq.elim
        obtain ⟨rfl, key⟩ := key
        refine ⟨rfl, ⟨p', by simp only; rw [List.getElem?_set_ne e]; exact e2, e3, e4⟩, fun k r r' a hk h2 h3 h4 => ?_⟩
        simp only at h4
        by_cases e' : j = k
        · subst e'
          rw [List.getElem?_set_self hlt] at h4
          cases h4
          exact key a (e5 j r q a hk h2 h3 hj)
        · rw [List.getElem?_set_ne e'] at h4
          exact e5 k r r' a hk h2 h3 h4

/-- The second part of memory stays as it is. -/
theorem sched_right {s : S} {t : T} {ps : List (Prog (X ⊕ Y) (S × T) α)} (hr : ∀ p ∈ ps, NoRight t p)
    {c : (S × T) × List (Prog (X ⊕ Y) (S × T) α)} (h : Relation.ReflTransGen Sched ((s, t), ps) c) :
    c.1.2 = t ∧ c.2.length = ps.length ∧ (∀ p ∈ c.2, NoRight t p) ∧
      ∀ (i : Nat) (p p' : Prog (X ⊕ Y) (S × T) α), ps[i]? = some p → c.2[i]? = some p' → NoLeft p → NoLeft p' := by
  induction h with
  | refl =>
    refine ⟨rfl, rfl, hr, fun i p p' h1 h2 h3 => ?_⟩
    rw [h1] at h2
    cases h2
    exact h3
  | tail _ hs ih =>
    cases hs with
    | @mk s1 ps1 j q s2 q' hj h1 =>
      obtain ⟨e1, e2, e3, e4⟩ := ih
      simp only at e1 e2 e3 e4
      obtain ⟨s1, t1⟩ := s1
      simp only at e1
      subst e1
      have hq := e3 q (List.mem_of_getElem? hj)
      have hlt : j < ps.length := by rw [← e2]; exact (List.getElem?_eq_some_iff.1 hj).1
      have key : s2.2 = t1 ∧ NoRight t1 q' ∧ (NoLeft q → NoLeft q') := by
        cases h1 with
        | @read x k =>
          refine ⟨rfl, hq s1, fun h => ?_⟩
          cases x with
          | inl x => exact h.elim
          | inr x => exact h _
        | @write x f =>
          cases x with
          | inl x => exact ⟨hq.1 s1, hq.2, fun h => h.elim⟩
          | inr x => exact hq.elim
      refine ⟨key.1, by simpa using e2, fun p hp => ?_, fun i p p' hi hi' hl => ?_⟩
      · rcases List.mem_or_eq_of_mem_set hp with hp | rfl
        · exact e3 p hp
        · exact key.2.1
      · by_cases e : j = i
        · subst e
          rw [List.getElem?_set_self (by rw [e2]; exact hlt)] at hi'
          cases hi'
          exact key.2.2 (e4 j p q hi hj hl)
        · rw [List.getElem?_set_ne e] at hi'
          exact e4 i p p' hi hi' hl

/-- When goroutines race that write to the first part only, and to all places of it if at all, and that use it at once if at all. -/
theorem race_left {s : S} {t : T} {ps : List (Prog (X ⊕ Y) (S × T) α)}
    (hall : ∀ p ∈ ps, p.Writes (s, t) → ∀ x, Meets (.inl x) p (s, t)) (hr : ∀ p ∈ ps, NoRight t p)
    (hl : ∀ p ∈ ps, NoLeft p ∨ ∃ x, p.At (.inl x)) :
    CanRace (s, t) ps ↔ ∃ (i j : Nat) (p q : Prog (X ⊕ Y) (S × T) α), i ≠ j ∧ ps[i]? = some p ∧ ps[j]? = some q ∧ p.Writes (s, t) ∧
      ∃ x, q.At (.inl x) := by
  constructor
  · intro hrc
    by_cases hw : ∀ p ∈ ps, ¬ p.Writes (s, t)
    · exact absurd hrc (no_race hw)
    · obtain ⟨p, hp, hpw⟩ : ∃ p ∈ ps, p.Writes (s, t) := by
        by_contra hn
        exact hw fun p hp hpw => hn ⟨p, hp, hpw⟩
      obtain ⟨i, hi⟩ := List.mem_iff_getElem?.1 hp
      obtain ⟨s', ps', h, a, b, pa, pb, x, hab, ha, hb, hwa, hb'⟩ := hrc
      obtain ⟨-, h2, h3, h4⟩ := sched_right hr h
      have hpa := h3 pa (List.mem_of_getElem? ha)
      cases pa with
      | ret => exact hwa.elim
      | read => exact hwa.elim
      | write y f k =>
        cases y with
        | inr y => exact hpa.elim
        | inl y =>
          cases hwa
          have busy : ∀ (j : Nat) (p' : Prog (X ⊕ Y) (S × T) α), ps'[j]? = some p' → p'.At (.inl y) →
              ∃ q, ps[j]? = some q ∧ ∃ x, q.At (.inl x) := by
            intro j p' hj hat
            have hlt : j < ps.length := by rw [← h2]; exact (List.getElem?_eq_some_iff.1 hj).1
            refine ⟨ps[j], List.getElem?_eq_getElem hlt, ?_⟩
            rcases hl ps[j] (List.getElem_mem hlt) with h5 | h5
            · have h6 := h4 j _ p' (List.getElem?_eq_getElem hlt) hj h5
              cases p' with
              | ret => exact hat.elim
              | read z k => cases hat; exact h6.elim
              | write z f k => cases hat; exact h6.elim
            · exact h5
          by_cases e : i = a
          · obtain ⟨q, hq, hq'⟩ := busy b pb hb hb'
            exact ⟨i, b, p, q, fun e' => hab (e.symm.trans e'), hi, hq, hpw, hq'⟩
          · obtain ⟨q, hq, hq'⟩ := busy a _ ha rfl
            exact ⟨i, a, p, q, e, hi, hq, hpw, hq'⟩
  · rintro ⟨i, j, p, q, hij, hi, hj, hw, x, hx⟩
    obtain ⟨s', p', h1, h2⟩ := alone_until (hall p (List.mem_of_getElem? hi) hw x) hi
    refine ⟨s', _, h1, i, j, p', q, _, hij, List.getElem?_set_self (List.getElem?_eq_some_iff.1 hi).1, ?_, h2, hx⟩
    rw [List.getElem?_set_ne hij]
    exact hj

end Verif.Spec

namespace Verif
open Verif.Spec Verif.SetSymbol
open Verif.SimpleLexer (Bytes Lx)

/-- A lexeme as the parsers see it, for a set of symbols (`SimpleLexer.toLexeme`). -/
def lexemeOf (s : SymSet Bytes) (x : Lx) : Lexeme Str Str :=
  ⟨SimpleLexer.chars (match x.kind with | .idx i => (s.symb2str[i]?).getD [] | .plain k => k), SimpleLexer.chars x.val, x.line, x.col⟩

theorem gives_kinds (s : SymSet Bytes) : ∀ lxs : List Lx, Gives (kindsP lxs) s (lxs.map (lexemeOf s))
  | [] => gives_ret _ _
  | x :: xs => by
    rw [List.map_cons]
    unfold kindsP lexemeOf
    cases x.kind with
    | plain k => exact (gives_kinds s xs).bind (gives_ret _ _)
    | idx i => exact .read ((gives_kinds s xs).bind (gives_ret _ _))

/-- What `Run` returns, for the model of it without goroutines (parlex.go:4-29). -/
def result (reducers : List (Option (PN Str Str → Option (PN Str Str)))) (lxs : List Lx) (tree : Option (PN Str Str)) :
    Helpers.RunErr Lx ⊕ PN Str Str :=
  Helpers.run (fun x : Lx => if x.err then some x else none) () (fun _ => some lxs) (fun _ => tree) reducers

theorem lexErrors_any : ∀ lxs : List Lx,
    Helpers.lexErrors (fun x : Lx => if x.err then some x else none) lxs = [] ↔ lxs.any (·.err) = false
  | [] => by simp [Helpers.lexErrors]
  | x :: xs => by
    rw [Helpers.lexErrors, List.any_cons]
    cases h : x.err with
    | true => simp
    | false => simpa using lexErrors_any xs

variable {parser : List (Lexeme Str Str) → GramProg Str (Out (Option (PN Str Str)))} {alone : List (Lexeme Str Str) → Out (Option (PN Str Str))}
  {t : SymSet Str}

theorem Spec.Gives.left {X Y S T α : Type} {p : Prog X S α} {s : S} {a : α} (h : Gives p s a) (t : T) :
    Gives (p.left (Y := Y)) (s, t) a := by
  refine ⟨fun ⟨x, hx⟩ => ?_, by rw [Prog.left_run]; exact h.val⟩
  cases x with
  | inl x => exact h.quiet ⟨x, (Prog.left_meets ..).1 hx⟩
  | inr x => exact Prog.left_not _ _ _ _ hx

theorem Spec.Gives.right {X Y S T α : Type} {p : Prog Y T α} {t : T} {a : α} (h : Gives p t a) (s : S) :
    Gives (p.right (X := X)) (s, t) a := ⟨Prog.right_quiet _ _ _ h.quiet, by rw [Prog.right_run]; exact h.val⟩

theorem gives_after (hp : ∀ ls, Gives (parser ls) t (alone ls)) (reducers) (s : SymSet Bytes) (lxs : List Lx) :
    Gives (afterP parser reducers lxs) (s, t)
      (if lxs.any (·.err) then .ok (result reducers lxs none)
        else (alone (lxs.map (lexemeOf s))).bind fun tree => .ok (result reducers lxs tree)) := by
  unfold afterP
  have hx := lexErrors_any lxs
  cases he : Helpers.lexErrors (fun x : Lx => if x.err then some x else none) lxs with
  | cons e es =>
    rw [he] at hx
    rw [if_pos (by cases h : lxs.any (·.err) with | true => rfl | false => cases hx.2 h)]
    have : result reducers lxs none = .inl (.lexErr e) := by simp only [result, Helpers.run, he]
    rw [this]
    exact gives_ret _ _
  | nil =>
    rw [if_neg (by rw [hx.1 he]; exact Bool.false_ne_true)]
    refine ((gives_kinds s lxs).left t).bind (Gives.andThen ((hp _).right s) fun tree _ => ?_)
    cases tree with
    | none =>
      have : result reducers lxs none = .inl .couldNotParse := by simp only [result, Helpers.run, he]
      rw [this]
      exact gives_ret _ _
    | some t =>
      dsimp only
      cases hr : Helpers.runReducers reducers t with
      | none =>
        have : result reducers lxs (some t) = .inl .couldNotReduce := by simp only [result, Helpers.run, he, hr]
        rw [this]
        exact gives_ret _ _
      | some t' =>
        have : result reducers lxs (some t) = .inr t' := by simp only [result, Helpers.run, he, hr]
        rw [this]
        exact gives_ret _ _

theorem noRight_after (hp : ∀ ls, ¬ (parser ls).Writes t) (reducers) (lxs : List Lx) :
    Prog.NoRight t (afterP parser reducers lxs) := by
  unfold afterP
  split
  · trivial
  · refine Prog.noRight_bind _ (Prog.noRight_left t _) fun ls => Prog.noRight_bind _ (Prog.noRight_right t _ (hp ls)) fun o => ?_
    cases o with
    | panic => trivial
    | fuel => trivial
    | ok o =>
      cases o with
      | none => trivial
      | some t' => dsimp only; split <;> trivial

theorem kindsP_plain : ∀ lxs : List Lx, (∀ x ∈ lxs, ∃ k, x.kind = .plain k) → ∃ ls, kindsP lxs = .ret ls
  | [], _ => ⟨[], rfl⟩
  | x :: xs, h => by
    obtain ⟨k, hk⟩ := h x (.head _)
    obtain ⟨ls, hl⟩ := kindsP_plain xs fun y hy => h y (.tail _ hy)
    unfold kindsP
    rw [hk, hl]
    exact ⟨_, rfl⟩

theorem noLeft_after (reducers) (lxs : List Lx) (h : ∀ x ∈ lxs, ∃ k, x.kind = .plain k) : Prog.NoLeft (afterP parser reducers lxs) := by
  unfold afterP
  split
  · trivial
  · obtain ⟨ls, hl⟩ := kindsP_plain lxs h
    rw [hl]
    refine Prog.noLeft_bind ((parser ls).right) (Prog.noLeft_right _) fun o => ?_
    cases o with
    | panic => trivial
    | fuel => trivial
    | ok o =>
      cases o with
      | none => trivial
      | some t' => dsimp only; split <;> trivial

theorem still_after (hp : ∀ ls, ¬ (parser ls).Writes t) (reducers) (lxs : List Lx) (h : ∀ x ∈ lxs, ∃ k, x.kind = .plain k) :
    ∃ a, Prog.Still t a (afterP parser reducers lxs) := by
  unfold afterP
  split
  · exact ⟨_, rfl⟩
  · obtain ⟨ls, hl⟩ := kindsP_plain lxs h
    rw [hl]
    have h1 := Prog.still_right (X := SetField) (S := SymSet Bytes) t (parser ls) (hp ls)
    generalize ((parser ls).run t).1 = o at h1
    cases o with
    | panic => exact ⟨_, Prog.still_bind ((parser ls).right) h1 rfl⟩
    | fuel => exact ⟨_, Prog.still_bind ((parser ls).right) h1 rfl⟩
    | ok o =>
      cases o with
      | none => exact ⟨_, Prog.still_bind ((parser ls).right) h1 rfl⟩
      | some t' =>
        cases hr : Helpers.runReducers reducers t' with
        | none => exact ⟨_, Prog.still_bind ((parser ls).right) h1 (by simp only [hr]; rfl)⟩
        | some t'' => exact ⟨_, Prog.still_bind ((parser ls).right) h1 (by simp only [hr]; rfl)⟩

/-- On the empty input a simple lexer does nothing with its set, and lexemes that it inserts have kinds of their own. -/
theorem SimpleLexer.lexP_idle_plain {l : SimpleLexer.Lexer} (hT : SimpleLexer.Tab l) (hF : SimpleLexer.Full l) (n : Nat) :
    ∃ o, SimpleLexer.lexP (n + 1) l [] = .ret o ∧ ∀ lxs, o = .ok lxs → ∀ x ∈ lxs, ∃ k, x.kind = .plain k := by
  unfold SimpleLexer.lexP
  dsimp only
  split
  · exact ⟨_, rfl, fun _ h => by cases h⟩
  · exact ⟨_, rfl, fun _ h => by cases h⟩
  · next next hnext =>
    have hc := SimpleLexer.chooseP_nil hT.cmp next (fun r loc h => by
      obtain ⟨h1, h2⟩ := SimpleLexer.populate_mem hnext r _ h
      obtain ⟨i, hi⟩ := List.mem_iff_getElem?.1 h1
      have := r.re.bound [] loc.1 loc.2 h2.symm
      simp at this
      exact ⟨this.2, (hT.kind i r hi).2⟩)
    simp only [SimpleLexer.loopP, SimpleLexer.bodyP, hc, Prog.bind, Spec.Prog.andThen]
    refine ⟨_, by simp [Prog.bind, SimpleLexer.checkErrorP]; rfl, ?_⟩
    intro lxs e x hx
    cases e
    rw [List.mem_append] at hx
    rcases hx with hx | hx
    · split at hx
      · cases hx
      · rw [List.mem_singleton] at hx; subst hx; exact ⟨_, rfl⟩
    · split at hx
      · cases hx
      · rw [List.mem_singleton] at hx; subst hx; exact ⟨_, rfl⟩

theorem runP_eq (lexer : SetProg (Out (List Lx))) (reducers) :
    runP lexer parser reducers = lexer.left.andThen (afterP parser reducers) := rfl

theorem noRight_run (lexer : SetProg (Out (List Lx))) (hp : ∀ ls, ¬ (parser ls).Writes t) (reducers) :
    Prog.NoRight t (runP lexer parser reducers) := by
  rw [runP_eq]
  refine Prog.noRight_bind _ (Prog.noRight_left t _) fun o => ?_
  cases o with
  | panic => trivial
  | fuel => trivial
  | ok o => exact noRight_after hp reducers o

/-- `Run` writes exactly where `Lex` does. -/
theorem run_meets (lexer : SetProg (Out (List Lx))) (hp : ∀ ls, Gives (parser ls) t (alone ls)) (reducers) (s : SymSet Bytes)
    (z : SetField ⊕ SetField) : Prog.Meets z (runP lexer parser reducers) (s, t) ↔ ∃ x, z = .inl x ∧ Prog.Meets x lexer s := by
  rw [runP_eq, Spec.Prog.andThen, Prog.meets_bind, Prog.left_run]
  dsimp only
  constructor
  · rintro (h | h)
    · cases z with
      | inl x => exact ⟨x, rfl, (Prog.left_meets ..).1 h⟩
      | inr y => exact absurd h (Prog.left_not _ _ _ _)
    · exfalso
      revert h
      cases (lexer.run s).1 with
      | ok a => exact fun hm => (gives_after hp reducers _ a).quiet ⟨z, hm⟩
      | panic => exact Prog.meets_ret
      | fuel => exact Prog.meets_ret
  · rintro ⟨x, rfl, h⟩
    exact .inl ((Prog.left_meets ..).2 h)

theorem run_writes (lexer : SetProg (Out (List Lx))) (hp : ∀ ls, Gives (parser ls) t (alone ls)) (reducers) (s : SymSet Bytes) :
    (runP lexer parser reducers).Writes (s, t) ↔ lexer.Writes s := by
  constructor
  · rintro ⟨z, hz⟩
    obtain ⟨x, -, h⟩ := (run_meets lexer hp reducers s z).1 hz
    exact ⟨x, h⟩
  · rintro ⟨x, hx⟩
    exact ⟨.inl x, (run_meets lexer hp reducers s _).2 ⟨x, rfl, hx⟩⟩

/-- What `Run` returns alone. -/
theorem run_val (lexer : SetProg (Out (List Lx))) (hp : ∀ ls, Gives (parser ls) t (alone ls)) (reducers) (s : SymSet Bytes) :
    ((runP lexer parser reducers).run (s, t)).1 = (lexer.run s).1.bind fun lxs =>
      if lxs.any (·.err) then .ok (result reducers lxs none)
      else (alone (lxs.map (lexemeOf (lexer.run s).2))).bind fun tree => .ok (result reducers lxs tree) := by
  rw [runP_eq, Prog.bind_run_andThen, Prog.left_run]
  cases h : (lexer.run s).1 with
  | ok a => exact (gives_after hp reducers _ a).val
  | panic => rfl
  | fuel => rfl

theorem run_at (lexer : SetProg (Out (List Lx))) (reducers) (h : ∀ o, lexer ≠ .ret o) :
    ∃ x, (runP lexer parser reducers).At (.inl x) := by
  obtain ⟨x, hx⟩ : ∃ x, lexer.At x := by
    cases lexer with
    | ret a => exact absurd rfl (h a)
    | read x k => exact ⟨x, rfl⟩
    | write x f k => exact ⟨x, rfl⟩
  exact ⟨x, Prog.at_left hx _⟩

end Verif
