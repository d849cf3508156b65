import Verif.Model.Concurrent
import Verif.Proofs.SimpleLexerHist
/-
Goroutines that write at most one name to a set: when they race, and that they return what they return alone if they do not.
-/
namespace Verif.Spec
namespace Prog
variable {X S α β : Type}

/-- Run alone, it writes. -/
def Writes (p : Prog X S α) (s : S) : Prop := ∃ x, Meets x p s

theorem run_bind (p : Prog X S α) (f : α → Prog X S β) (s : S) :
    (p.bind f).run s = (f (p.run s).1).run (p.run s).2 := by
  induction p generalizing s with
  | ret => rfl
  | read x k ih => exact ih s s
  | write x g k ih => exact ih (g s)

theorem meets_read {x y : X} {k : S → Prog X S α} {s : S} : Meets x (read y k) s ↔ Meets x (k s) s :=
  ⟨fun h => by cases h; assumption, .read⟩

theorem meets_write {x y : X} {f : S → S} {k : Prog X S α} {s : S} : Meets x (write y f k) s ↔ y = x ∨ Meets x k (f s) := by
  constructor
  · intro h
    cases h with
    | now => exact .inl rfl
    | write h => exact .inr h
  · rintro (rfl | h)
    · exact .now
    · exact .write h

theorem meets_ret {x : X} {a : α} {s : S} : ¬ Meets x (ret a) s := by rintro ⟨⟩

theorem meets_bind {x : X} (p : Prog X S α) (f : α → Prog X S β) (s : S) :
    Meets x (p.bind f) s ↔ Meets x p s ∨ Meets x (f (p.run s).1) (p.run s).2 := by
  induction p generalizing s with
  | ret a => exact ⟨.inr, fun h => h.elim (fun h => absurd h meets_ret) id⟩
  | read y k ih => rw [bind, meets_read, ih s s, meets_read]; rfl
  | write y g k ih => rw [bind, meets_write, ih (g s), meets_write, or_assoc]; rfl

/-- Without writing, memory stays as it is. -/
theorem run_snd (p : Prog X S α) (s : S) (h : ¬ p.Writes s) : (p.run s).2 = s := by
  induction p generalizing s with
  | ret => rfl
  | read x k ih => exact ih s s fun ⟨y, hy⟩ => h ⟨y, .read hy⟩
  | write x g k ih => exact absurd ⟨x, .now⟩ h

theorem step1 {p p' : Prog X S α} {s s' : S} (h : Step1 s p s' p') (hw : ¬ p.Writes s) :
    s' = s ∧ p'.run s = p.run s ∧ ¬ p'.Writes s := by
  cases h with
  | read => exact ⟨rfl, rfl, fun ⟨y, hy⟩ => hw ⟨y, .read hy⟩⟩
  | write => exact absurd ⟨_, .now⟩ hw

end Prog

variable {X S α : Type}

/-- If none of the goroutines writes when run alone, none ever does, and each is on the way to what it returns alone. -/
theorem sched_quiet {s : S} {ps : List (Prog X S α)} (hw : ∀ p ∈ ps, ¬ p.Writes s) {c : S × List (Prog X S α)}
    (h : Relation.ReflTransGen Sched (s, ps) c) : c.1 = s ∧ c.2.length = ps.length ∧
      ∀ (i : Nat) (p p' : Prog X S α), ps[i]? = some p → c.2[i]? = some p' → p'.run s = p.run s ∧ ¬ p'.Writes s := by
  induction h with
  | refl =>
    refine ⟨rfl, rfl, fun i p p' h1 h2 => ?_⟩
    rw [h1] at h2
    cases h2
    exact ⟨rfl, hw p (List.mem_of_getElem? h1)⟩
  | tail _ hs ih =>
    cases hs with
    | @mk s1 ps1 j q s2 q' hj h1 =>
      obtain ⟨e1, e2, e3⟩ := ih
      simp only at e1 e2 e3
      subst e1
      have hlt : j < ps.length := by rw [← e2]; exact (List.getElem?_eq_some_iff.1 hj).1
      obtain ⟨f1, f2⟩ := e3 j ps[j] q (List.getElem?_eq_getElem hlt) hj
      obtain ⟨g1, g2, g3⟩ := Prog.step1 h1 f2
      refine ⟨g1, by simpa using e2, fun i p p' hi hi' => ?_⟩
      by_cases e : j = i
      · subst e
        rw [List.getElem?_eq_getElem hlt] at hi
        cases hi
        rw [List.getElem?_set_self (by rw [e2]; exact hlt)] at hi'
        cases hi'
        exact ⟨g2.trans f1, g3⟩
      · rw [List.getElem?_set_ne e] at hi'
        exact e3 i p p' hi hi'

/-- Without writing there is no race. -/
theorem no_race {s : S} {ps : List (Prog X S α)} (hw : ∀ p ∈ ps, ¬ p.Writes s) : ¬ CanRace s ps := by
  rintro ⟨s', ps', h, i, j, p, q, x, -, hi, -, hp, -⟩
  obtain ⟨-, h2, h3⟩ := sched_quiet hw h
  have hlt : i < ps.length := by rw [← h2]; exact (List.getElem?_eq_some_iff.1 hi).1
  obtain ⟨-, h4⟩ := h3 i ps[i] p (List.getElem?_eq_getElem hlt) hi
  cases p with
  | write y f k => exact h4 ⟨y, .now⟩
  | ret => exact hp
  | read => exact hp

/-- A goroutine can run by itself until it writes to the place. -/
theorem alone_until {x : X} {p : Prog X S α} {s : S} (h : Prog.Meets x p s) : ∀ {ps : List (Prog X S α)} {i : Nat}, ps[i]? = some p →
    ∃ s' q, Relation.ReflTransGen Sched (s, ps) (s', ps.set i q) ∧ q.WritesAt x := by
  induction h with
  | @now f k s =>
    intro ps i hi
    refine ⟨s, .write x f k, ?_, rfl⟩
    have : ps.set i (.write x f k) = ps := by
      obtain ⟨h, e⟩ := List.getElem?_eq_some_iff.1 hi
      rw [← e, List.set_getElem_self]
    rw [this]
  | read _ ih =>
    intro ps i hi
    obtain ⟨s', q, h1, h2⟩ := ih (List.getElem?_set_self (List.getElem?_eq_some_iff.1 hi).1)
    rw [List.set_set] at h1
    exact ⟨s', q, .head (.mk hi .read) h1, h2⟩
  | write _ ih =>
    intro ps i hi
    obtain ⟨s', q, h1, h2⟩ := ih (List.getElem?_set_self (List.getElem?_eq_some_iff.1 hi).1)
    rw [List.set_set] at h1
    exact ⟨s', q, .head (.mk hi .write) h1, h2⟩

/-- A goroutine that has something to do in a race had so from the start. -/
theorem sched_busy {c c' : S × List (Prog X S α)} (h : Relation.ReflTransGen Sched c c') :
    c'.2.length = c.2.length ∧ ∀ (i : Nat) (a : α), c.2[i]? = some (.ret a) → c'.2[i]? = some (.ret a) := by
  induction h with
  | refl => exact ⟨rfl, fun _ _ h => h⟩
  | tail _ hs ih =>
    cases hs with
    | @mk s1 ps1 j q s2 q' hj h1 =>
      refine ⟨by simpa using ih.1, fun i a hi => ?_⟩
      have h2 := ih.2 i a hi
      by_cases e : j = i
      · subst e
        simp only at h2
        rw [hj] at h2
        cases h2
        cases h1
      · simp only at h2 ⊢
        rw [List.getElem?_set_ne e, h2]

/-- When goroutines race, if each of them that writes does so to all places. -/
theorem race_iff {s : S} {ps : List (Prog X S α)} (hall : ∀ p ∈ ps, p.Writes s → ∀ x, Prog.Meets x p s) :
    CanRace s ps ↔ ∃ (i j : Nat) (p q : Prog X S α), i ≠ j ∧ ps[i]? = some p ∧ ps[j]? = some q ∧ p.Writes s ∧ ∀ a, q ≠ .ret a := by
  constructor
  · intro hr
    by_cases hw : ∀ p ∈ ps, ¬ p.Writes s
    · exact absurd hr (no_race hw)
    · obtain ⟨p, hp, hpw⟩ : ∃ p ∈ ps, p.Writes s := by
        by_contra hn
        exact hw fun p hp hpw => hn ⟨p, hp, hpw⟩
      obtain ⟨i, hi⟩ := List.mem_iff_getElem?.1 hp
      obtain ⟨s', ps', h, a, b, pa, pb, x, hab, ha, hb, hwa, hb'⟩ := hr
      have busy : ∀ (j : Nat) (p' : Prog X S α), ps'[j]? = some p' → p'.At x → ∃ q, ps[j]? = some q ∧ ∀ a, q ≠ .ret a := by
        intro j p' hj hat
        obtain ⟨h1, h2⟩ := sched_busy h
        have hlt : j < ps.length := by rw [← h1]; exact (List.getElem?_eq_some_iff.1 hj).1
        refine ⟨ps[j], List.getElem?_eq_getElem hlt, fun a e => ?_⟩
        have h3 := h2 j a (by rw [← e]; exact List.getElem?_eq_getElem hlt)
        simp only at h3
        rw [hj] at h3
        cases h3
        exact hat
      by_cases e : i = a
      · obtain ⟨q, hq, hq'⟩ := busy b pb hb hb'
        exact ⟨i, b, p, q, fun e' => hab (e.symm.trans e'), hi, hq, hpw, hq'⟩
      · obtain ⟨q, hq, hq'⟩ := busy a pa ha (by cases pa <;> first | exact hwa | exact hwa.elim)
        exact ⟨i, a, p, q, e, hi, hq, hpw, hq'⟩
  · rintro ⟨i, j, p, q, hij, hi, hj, hw, hq⟩
    have hm := hall p (List.mem_of_getElem? hi) hw
    obtain ⟨x, hx⟩ : ∃ x, q.At x := by
      cases q with
      | ret a => exact absurd rfl (hq a)
      | read x k => exact ⟨x, rfl⟩
      | write x f k => exact ⟨x, rfl⟩
    obtain ⟨s', p', h1, h2⟩ := alone_until (hm x) hi
    refine ⟨s', _, h1, i, j, p', q, x, hij, List.getElem?_set_self (List.getElem?_eq_some_iff.1 hi).1, ?_, h2, hx⟩
    rw [List.getElem?_set_ne hij]
    exact hj

/-- One goroutine, and others that have returned: it is on the way to what it returns alone. -/
theorem sched_one {s : S} {ps : List (Prog X S α)} {i : Nat} {p : Prog X S α} (hi : ps[i]? = some p)
    (ho : ∀ j q, j ≠ i → ps[j]? = some q → ∃ a, q = .ret a) {c : S × List (Prog X S α)} (h : Relation.ReflTransGen Sched (s, ps) c) :
    ∃ p', c.2[i]? = some p' ∧ p'.run c.1 = p.run s := by
  induction h with
  | refl => exact ⟨p, hi, rfl⟩
  | tail hc hs ih =>
    cases hs with
    | @mk s1 ps1 j q s2 q' hj h1 =>
      obtain ⟨p', e1, e2⟩ := ih
      simp only at e1 e2
      have hlt := (List.getElem?_eq_some_iff.1 hj).1
      by_cases e : j = i
      · subst e
        rw [hj] at e1
        cases e1
        refine ⟨q', List.getElem?_set_self hlt, ?_⟩
        rw [← e2]
        cases h1 <;> rfl
      · obtain ⟨hl, hb⟩ := sched_busy hc
        simp only at hl hb
        have hj' : ps[j]? = some ps[j] := List.getElem?_eq_getElem (by omega)
        obtain ⟨a, ha⟩ := ho j _ e hj'
        rw [ha] at hj'
        have := hb j a hj'
        rw [hj] at this
        cases this
        cases h1

/-- If there is no race between goroutines each of which writes to all places if at all, each returns what it returns alone. -/
theorem free_alone {s : S} {ps : List (Prog X S α)} (hall : ∀ p ∈ ps, p.Writes s → ∀ x, Prog.Meets x p s) (hn : ¬ CanRace s ps)
    {s' : S} {ps' : List (Prog X S α)} (h : Relation.ReflTransGen Sched (s, ps) (s', ps')) {i : Nat} {p : Prog X S α} {o : α}
    (hi : ps[i]? = some p) (ho : ps'[i]? = some (.ret o)) : o = (p.run s).1 := by
  by_cases hw : ∀ p ∈ ps, ¬ p.Writes s
  · rw [← ((sched_quiet hw h).2.2 i p _ hi ho).1]
    rfl
  · obtain ⟨q, hq, hqw⟩ : ∃ q ∈ ps, q.Writes s := by
      by_contra hc
      exact hw fun p hp hpw => hc ⟨p, hp, hpw⟩
    obtain ⟨k, hk⟩ := List.mem_iff_getElem?.1 hq
    have hidle : ∀ j r, j ≠ k → ps[j]? = some r → ∃ a, r = .ret a := by
      intro j r hj hr
      by_contra hc
      exact hn ((race_iff hall).2 ⟨k, j, q, r, Ne.symm hj, hk, hr, hqw, fun a e => hc ⟨a, e⟩⟩)
    by_cases e : i = k
    · subst e
      rw [hi] at hk
      cases hk
      obtain ⟨p', h1, h2⟩ := sched_one hi hidle h
      simp only at h1 h2
      rw [ho] at h1
      cases h1
      rw [← h2]
      rfl
    · obtain ⟨a, rfl⟩ := hidle i p e hi
      have := (sched_busy h).2 i a hi
      simp only at this
      rw [ho] at this
      cases this
      rfl

end Verif.Spec

namespace Verif
open Verif.Spec Verif.SetSymbol
open Verif.SimpleLexer (Bytes Lx)

/-- Run alone, it writes nothing, or it enters a name that is not in the set. -/
structure OnlyStr (e : Bytes) {α : Type} (p : SetProg α) : Prop where
  on : ∀ s, (¬ p.Writes s ∧ (p.run s).2 = s) ∨ (s.str2sym e = none ∧ (∀ x, Prog.Meets x p s) ∧ (p.run s).2 = (str s e).1)

theorem onlyStr_ret {e : Bytes} {α : Type} (a : α) : OnlyStr e (.ret a) :=
  ⟨fun _ => .inl ⟨fun ⟨_, h⟩ => Prog.meets_ret h, rfl⟩⟩

theorem onlyStr_size {e : Bytes} {α : Type} {p : SetProg α} (h : OnlyStr e p) : OnlyStr e (sizeP p) := by
  refine ⟨fun s => ?_⟩
  rcases h.on s with ⟨h1, h2⟩ | ⟨h1, h2, h3⟩
  · exact .inl ⟨fun ⟨y, hy⟩ => h1 ⟨y, Prog.meets_read.1 hy⟩, h2⟩
  · exact .inr ⟨h1, fun x => .read (h2 x), h3⟩

theorem strP_run (e : Bytes) (s : SymSet Bytes) : (strP e).run s = ((str s e).2, (str s e).1) := by
  unfold strP str
  rw [Prog.run]
  cases s.str2sym e with
  | some v => rfl
  | none => rfl

theorem onlyStr_str (e : Bytes) : OnlyStr e (strP e) := by
  refine ⟨fun s => ?_⟩
  cases h : s.str2sym e with
  | some v =>
    refine .inl ⟨?_, ?_⟩
    · rintro ⟨x, hx⟩
      unfold strP at hx
      rw [Prog.meets_read] at hx
      simp only [h] at hx
      exact Prog.meets_ret hx
    · rw [strP_run]
      simp only [str, h]
  | none =>
    refine .inr ⟨rfl, fun x => ?_, by rw [strP_run]⟩
    unfold strP
    rw [Prog.meets_read]
    simp only [h]
    rw [Prog.meets_read, Prog.meets_write, Prog.meets_read, Prog.meets_write]
    cases x
    · exact .inl rfl
    · exact .inr (.inl rfl)

theorem str_known {s : SymSet Bytes} (e : Bytes) : (str s e).1.str2sym e ≠ none := by
  unfold str
  cases h : s.str2sym e with
  | some v => rw [h]; simp
  | none => simp [upd]

theorem onlyStr_bind {e : Bytes} {α β : Type} {p : SetProg α} {f : α → SetProg β} (hp : OnlyStr e p)
    (hf : ∀ a, OnlyStr e (f a)) : OnlyStr e (p.bind f) := by
  refine ⟨fun s => ?_⟩
  rcases hp.on s with ⟨h1, h2⟩ | ⟨h1, h2, h3⟩
  · rcases (hf (p.run s).1).on (p.run s).2 with ⟨g1, g2⟩ | ⟨g1, g2, g3⟩
    · refine .inl ⟨?_, by rw [Prog.run_bind, g2, h2]⟩
      rintro ⟨x, hx⟩
      exact ((Prog.meets_bind _ _ _).1 hx).elim (fun h => h1 ⟨x, h⟩) fun h => g1 ⟨x, h⟩
    · refine .inr ⟨h2 ▸ g1, fun x => (Prog.meets_bind _ _ _).2 (.inr (g2 x)), ?_⟩
      rw [Prog.run_bind, g3, h2]
  · refine .inr ⟨h1, fun x => (Prog.meets_bind _ _ _).2 (.inl (h2 x)), ?_⟩
    rw [Prog.run_bind]
    rcases (hf (p.run s).1).on (p.run s).2 with ⟨_, g2⟩ | ⟨g1, _, _⟩
    · rw [g2, h3]
    · rw [h3] at g1
      exact absurd g1 (str_known e)

theorem onlyStr_andThen {e : Bytes} {α β : Type} {p : SetProg (Out α)} {f : α → SetProg (Out β)} (hp : OnlyStr e p)
    (hf : ∀ a, OnlyStr e (f a)) : OnlyStr e (p.andThen f) := by
  refine onlyStr_bind hp fun o => ?_
  cases o with
  | ok a => exact hf a
  | panic => exact onlyStr_ret _
  | fuel => exact onlyStr_ret _

/-- It writes iff the set is another one afterwards. -/
theorem OnlyStr.writes {e : Bytes} {α : Type} {p : SetProg α} (h : OnlyStr e p) (s : SymSet Bytes) :
    p.Writes s ↔ (p.run s).2 ≠ s := by
  rcases h.on s with ⟨h1, h2⟩ | ⟨h1, h2, h3⟩
  · exact ⟨fun h => absurd h h1, fun h => absurd h2 h⟩
  · refine ⟨fun _ e' => ?_, fun _ => ⟨.str2sym, h2 _⟩⟩
    rw [h3] at e'
    have := str_known (s := s) e
    rw [e'] at this
    exact this h1

theorem OnlyStr.meets {e : Bytes} {α : Type} {p : SetProg α} (h : OnlyStr e p) {s : SymSet Bytes} (hw : p.Writes s) (x : SetField) :
    Prog.Meets x p s := by
  rcases h.on s with ⟨h1, -⟩ | ⟨-, h2, -⟩
  · exact absurd hw h1
  · exact h2 x

theorem andThen_run {α β : Type} (p : SetProg (Out α)) (f : α → SetProg (Out β)) (s : SymSet Bytes) :
    (p.andThen f).run s = match (p.run s).1 with
      | .ok a => (f a).run (p.run s).2
      | .panic => (.panic, (p.run s).2)
      | .fuel => (.fuel, (p.run s).2) := by
  unfold Spec.Prog.andThen
  rw [Prog.run_bind]
  cases (p.run s).1 <;> rfl

/-! ### Simple lexers -/

namespace SimpleLexer

theorem chooseP_run (cmp : Cmp) (b : Bytes) (cur : Nat) (s : SymSet Bytes) : ∀ (es : List Ent) (c : Choice),
    (chooseP cmp b cur c es).run s = (choose cmp b cur c es, s)
  | [], c => rfl
  | (r, none) :: es, c => by rw [chooseP, choose]; exact chooseP_run cmp b cur s es c
  | (r, some loc) :: es, c => by
    rw [chooseP, choose]
    split
    · exact chooseP_run cmp b cur s es _
    · exact chooseP_run cmp b cur s es c

theorem onlyStr_choose (e : Bytes) (cmp : Cmp) (b : Bytes) (cur : Nat) : ∀ (es : List Ent) (c : Choice),
    OnlyStr e (chooseP cmp b cur c es)
  | [], c => onlyStr_ret c
  | (r, none) :: es, c => by rw [chooseP]; exact onlyStr_choose e cmp b cur es c
  | (r, some loc) :: es, c => by
    rw [chooseP]
    split
    · exact onlyStr_size (onlyStr_choose e cmp b cur es _)
    · exact onlyStr_choose e cmp b cur es c

theorem onlyStr_check (e b : Bytes) (op : Op) : OnlyStr e (checkErrorP e b op) := by
  unfold checkErrorP
  split
  · exact onlyStr_ret _
  · exact onlyStr_bind (onlyStr_str e) fun _ => onlyStr_ret _

theorem onlyStr_body (cmp : Cmp) (e b : Bytes) (op : Op) : OnlyStr e (bodyP cmp e b op) := by
  refine onlyStr_bind (onlyStr_choose ..) fun c => ?_
  dsimp only
  split
  · exact onlyStr_ret _
  · refine onlyStr_bind (onlyStr_check ..) fun op => ?_
    split <;> exact onlyStr_ret _

theorem onlyStr_loop (cmp : Cmp) (e b : Bytes) : ∀ (n : Nat) (op : Op), OnlyStr e (loopP cmp e b n op)
  | 0, op => onlyStr_ret _
  | n + 1, op => by
    refine onlyStr_andThen (onlyStr_body ..) fun op => ?_
    split
    · exact onlyStr_ret _
    · exact onlyStr_loop cmp e b n _

theorem onlyStr_lex (n : Nat) (l : Lexer) (b : Bytes) : OnlyStr l.error (lexP n l b) := by
  unfold lexP
  dsimp only
  split
  · exact onlyStr_ret _
  · exact onlyStr_ret _
  · exact onlyStr_andThen (onlyStr_loop ..) fun op => onlyStr_bind (onlyStr_check ..) fun op => onlyStr_ret _

/-- An operation with the shared set put into it. -/
def glue (x : Op × SymSet Bytes) : Op := { x.1 with set := x.2 }

theorem check_glue (e b : Bytes) (op : Op) (s : SymSet Bytes) :
    glue ((checkErrorP e b op).run s) = checkError e b { op with set := s } := by
  unfold checkErrorP checkError
  dsimp only
  split
  · rfl
  · rw [Prog.run_bind, strP_run]
    rfl

/-- The same for outcomes. -/
def glueO (x : Out Op × SymSet Bytes) : Out Op := x.1.map fun op => { op with set := x.2 }

theorem body_glue (cmp : Cmp) (e b : Bytes) (op : Op) (s : SymSet Bytes) :
    glueO ((bodyP cmp e b op).run s) = body cmp e b { op with set := s } := by
  unfold bodyP body findNextMatch
  rw [Prog.run_bind, chooseP_run]
  dsimp only
  split
  · rfl
  · rw [Prog.run_bind]
    have := check_glue e b { op with lines := op.lines + countNl (choose cmp b op.cur ⟨none, [], op.cur, -1⟩ op.next).val } s
    rw [← this]
    cases (choose cmp b op.cur ⟨none, [], op.cur, -1⟩ op.next).rule with
    | none => rfl
    | some r => rfl

theorem loop_glue (cmp : Cmp) (e b : Bytes) : ∀ (n : Nat) (op : Op) (s : SymSet Bytes),
    glueO ((loopP cmp e b n op).run s) = loop cmp e b n { op with set := s }
  | 0, op, s => rfl
  | n + 1, op, s => by
    unfold loopP loop
    rw [andThen_run, ← body_glue]
    cases h : (bodyP cmp e b op).run s with
    | mk o s' =>
      cases o with
      | panic => rfl
      | fuel => rfl
      | ok op' =>
        simp only [glueO, Out.map_ok, Out.bind_ok]
        by_cases hc : op'.cur ≥ b.length
        · rw [if_pos hc, if_pos hc]; rfl
        · rw [if_neg hc, if_neg hc]
          exact loop_glue cmp e b n (updateNext b op') s'

/-- Run alone, `Lex` does what the model without goroutines says. -/
theorem lexP_run (n : Nat) (l : Lexer) (b : Bytes) : ((lexP n l b).run l.set).1 = (lex n l b).map Prod.fst ∧
    ∀ lxs l', lex n l b = .ok (lxs, l') → ((lexP n l b).run l.set).2 = l'.set := by
  unfold lexP lex
  dsimp only
  cases populateNext b l.rules with
  | panic => exact ⟨rfl, fun _ _ h => by cases h⟩
  | fuel => exact ⟨rfl, fun _ _ h => by cases h⟩
  | ok next =>
    simp only [Out.bind_ok]
    rw [andThen_run, ← show _ = loop l.compare l.error b n ⟨next, _, false, 0, 0, 0, l.set⟩ from
      loop_glue l.compare l.error b n ⟨next, if l.startKind ≠ [] then [insertLx l.startKind l.startVal] else [], false, 0, 0, 0,
        SetSymbol.new⟩ l.set]
    generalize (loopP l.compare l.error b n _).run l.set = x
    obtain ⟨o, s'⟩ := x
    cases o with
    | panic => exact ⟨rfl, fun _ _ h => by cases h⟩
    | fuel => exact ⟨rfl, fun _ _ h => by cases h⟩
    | ok op =>
      simp only [glueO, Out.map, Out.bind_ok]
      rw [Prog.run_bind, ← check_glue]
      refine ⟨rfl, fun lxs l' h => ?_⟩
      cases h
      rfl

/-- Without any access nothing has been chosen. -/
theorem chooseP_ret (cmp : Cmp) (b : Bytes) (cur : Nat) : ∀ (es : List Ent) (c c' : Choice),
    chooseP cmp b cur c es = .ret c' → c' = c
  | [], c, c', h => by cases h; rfl
  | (r, none) :: es, c, c', h => by rw [chooseP] at h; exact chooseP_ret cmp b cur es c c' h
  | (r, some loc) :: es, c, c', h => by
    rw [chooseP] at h
    split at h
    · cases h
    · exact chooseP_ret cmp b cur es c c' h

end SimpleLexer

theorem bind_ret {X S α β : Type} {p : Prog X S α} {f : α → Prog X S β} {b : β} (h : p.bind f = .ret b) : ∃ a, p = .ret a ∧ f a = .ret b := by
  cases p with
  | ret a => exact ⟨a, rfl, h⟩
  | read => cases h
  | write => cases h

theorem andThen_ret {α β : Type} {p : SetProg (Out α)} {f : α → SetProg (Out β)} {b : β} (h : p.andThen f = .ret (.ok b)) :
    ∃ a, p = .ret (.ok a) ∧ f a = .ret (.ok b) := by
  obtain ⟨o, h1, h2⟩ := bind_ret h
  cases o with
  | ok a => exact ⟨a, h1, h2⟩
  | panic => cases h2
  | fuel => cases h2

namespace SimpleLexer

theorem bodyP_ret {cmp : Cmp} {e b : Bytes} {op op' : Op} (h : bodyP cmp e b op = .ret (.ok op')) :
    op'.errFlag = true ∧ op'.cur = op.cur + 1 := by
  obtain ⟨c, h1, h2⟩ := bind_ret h
  have := chooseP_ret cmp b op.cur op.next _ _ h1
  subst this
  dsimp only at h2
  rw [if_pos rfl] at h2
  cases h2
  exact ⟨rfl, rfl⟩

theorem loopP_ret {cmp : Cmp} {e b : Bytes} : ∀ {n : Nat} {op op' : Op}, op.cur < b.length →
    loopP cmp e b n op = .ret (.ok op') → op'.errFlag = true ∧ op'.cur ≤ b.length
  | 0, op, op', _, h => by cases h
  | n + 1, op, op', hc, h => by
    obtain ⟨op1, h1, h2⟩ := andThen_ret h
    obtain ⟨h3, h4⟩ := bodyP_ret h1
    split at h2
    · cases h2
      exact ⟨h3, by omega⟩
    · next hlt => exact loopP_ret (op := updateNext b op1) (Nat.lt_of_not_ge hlt) h2

/-- `Lex` accesses the set unless there is nothing to lex. -/
theorem lexP_busy {n : Nat} {l : Lexer} {b : Bytes} (hb : b ≠ []) (lxs : List Lx) : lexP n l b ≠ .ret (.ok lxs) := by
  intro h
  unfold lexP at h
  dsimp only at h
  split at h
  · cases h
  · cases h
  · obtain ⟨op, h1, h2⟩ := andThen_ret h
    obtain ⟨h3, h4⟩ := loopP_ret (by exact List.length_pos_iff.2 hb) h1
    obtain ⟨op', h5, -⟩ := bind_ret h2
    unfold checkErrorP at h5
    rw [if_neg (by rw [h3]; simpa using h4)] at h5
    cases h5

/-- On no input nothing is chosen. -/
theorem chooseP_nil {cmp : Cmp} (hcmp : cmp = lengthThenPriority ∨ cmp = priorityThenLength) (next : List Ent)
    (hn : ∀ r loc, (r, some loc) ∈ next → loc.2 = 0 ∧ 0 ≤ r.priority) :
    chooseP cmp [] 0 ⟨none, [], 0, -1⟩ next = .ret ⟨none, [], 0, -1⟩ := by
  induction next with
  | nil => rfl
  | cons x es ih =>
    obtain ⟨r, o⟩ := x
    have ih := ih fun r loc h => hn r loc (List.mem_cons_of_mem _ h)
    cases o with
    | none => rw [chooseP]; exact ih
    | some loc =>
      obtain ⟨h1, h2⟩ := hn r loc (List.mem_cons_self ..)
      rw [chooseP, if_neg]
      · exact ih
      · rintro ⟨-, h⟩
        rw [h1] at h
        rcases hcmp with rfl | rfl
        · rw [ltp_iff] at h; simp at h; omega
        · rw [ptl_iff] at h; simp at h; omega

theorem populate_mem {b : Bytes} : ∀ {rules : List (Option Rule)} {next : List Ent}, populateNext b rules = .ok next →
    ∀ r o, (r, o) ∈ next → some r ∈ rules ∧ o = r.re.find b
  | [], next, h, r, o, hm => by cases h; cases hm
  | none :: rules, next, h, r, o, hm => by cases h
  | some r' :: rules, next, h, r, o, hm => by
    rw [populateNext] at h
    obtain ⟨ns, h1, h2⟩ := Out.bind_eq_ok.1 h
    cases h2
    rcases List.mem_cons.1 hm with e | e
    · cases e; exact ⟨List.mem_cons_self .., rfl⟩
    · obtain ⟨h3, h4⟩ := populate_mem h1 r o e
      exact ⟨List.mem_cons_of_mem _ h3, h4⟩

theorem lexP_idle {l : Lexer} (hT : Tab l) (hF : Full l) (n : Nat) : ∃ o, lexP (n + 1) l [] = .ret o := by
  unfold lexP
  dsimp only
  split
  · exact ⟨_, rfl⟩
  · exact ⟨_, rfl⟩
  · next next hnext =>
    have hc := chooseP_nil hT.cmp next (fun r loc h => by
      obtain ⟨h1, h2⟩ := populate_mem hnext r _ h
      obtain ⟨i, hi⟩ := List.mem_iff_getElem?.1 h1
      have := r.re.bound [] loc.1 loc.2 h2.symm
      simp at this
      exact ⟨this.2, (hT.kind i r hi).2⟩)
    simp only [loopP, bodyP, hc, Prog.bind, Spec.Prog.andThen]
    simp [Prog.bind, checkErrorP]

end SimpleLexer

/-! ### Stack lexers -/

namespace StackLexer
open Verif.SimpleLexer (insertLx)

theorem onlyStr_pop (e b : Bytes) (i : Nat) (op : Op) : OnlyStr e (popP b i op) := by
  unfold popP
  split
  · exact onlyStr_size (onlyStr_ret _)
  · exact onlyStr_ret _
  · exact onlyStr_ret _

theorem onlyStr_stop (e b : Bytes) (op : Op) : OnlyStr e (stopStepP b op) := by
  unfold stopStepP
  split
  · split <;> exact onlyStr_ret _
  · exact onlyStr_andThen (onlyStr_pop ..) fun _ => onlyStr_ret _

theorem onlyStr_move (e : Bytes) (lexers : Bytes → Option Sub) (b : Bytes) (r : Rule) (op : Op) : OnlyStr e (moveStepP lexers b r op) := by
  unfold moveStepP
  split
  · exact onlyStr_ret _
  · split
    · exact onlyStr_andThen (onlyStr_pop ..) fun _ => onlyStr_ret _
    · split
      · split
        · exact onlyStr_ret _
        · exact onlyStr_size (onlyStr_ret _)
      · exact onlyStr_ret _

theorem onlyStr_body (e : Bytes) (cmp : Int → Int → Int → Int → Bool) (lexers : Bytes → Option Sub) (ek : Nat) (b : Bytes) (op : Op) :
    OnlyStr e (bodyP cmp lexers ek b op) := by
  unfold bodyP
  split
  · exact onlyStr_stop ..
  · refine onlyStr_size ?_
    split
    · exact onlyStr_ret _
    · exact onlyStr_ret _
    · dsimp only
      split
      · exact onlyStr_stop ..
      · exact onlyStr_move ..

theorem onlyStr_loop (e : Bytes) (cmp : Int → Int → Int → Int → Bool) (lexers : Bytes → Option Sub) (ek : Nat) (b : Bytes) :
    ∀ (n : Nat) (op : Op), OnlyStr e (loopP cmp lexers ek b n op)
  | 0, op => onlyStr_ret _
  | n + 1, op => by
    refine onlyStr_andThen (onlyStr_body ..) fun o => ?_
    cases o with
    | done op => exact onlyStr_ret _
    | more op => exact onlyStr_loop e cmp lexers ek b n op

theorem onlyStr_lex (n : Nat) (l : Lexer) (b : Bytes) : OnlyStr l.error (lexP n l b) := by
  unfold lexP
  split
  · exact onlyStr_ret _
  · exact onlyStr_bind (onlyStr_str _) fun ek => onlyStr_size (onlyStr_andThen (onlyStr_loop ..) fun op => onlyStr_ret _)

theorem pop_run (b : Bytes) (i : Nat) (op : Op) (s : SymSet Bytes) : (popP b i op).run s = (pop b i op, s) := by
  unfold popP
  cases pop b i op <;> rfl

theorem stop_run (b : Bytes) (op : Op) (s : SymSet Bytes) : (stopStepP b op).run s = (stopStep b op, s) := by
  unfold stopStepP stopStep
  split
  · split <;> rfl
  · rw [andThen_run, pop_run]
    cases pop b 1 op <;> rfl

theorem move_run (lexers : Bytes → Option Sub) (b : Bytes) (r : Rule) (op : Op) (s : SymSet Bytes) :
    (moveStepP lexers b r op).run s = (moveStep lexers b r op, s) := by
  unfold moveStepP moveStep
  split
  · rfl
  · split
    · rw [andThen_run, pop_run]
      cases pop b r.pop op <;> rfl
    · split
      · cases lexers r.push <;> rfl
      · rfl

theorem body_run (cmp : Int → Int → Int → Int → Bool) (lexers : Bytes → Option Sub) (ek : Nat) (b : Bytes) (op : Op) (s : SymSet Bytes) :
    (bodyP cmp lexers ek b op).run s = (body cmp lexers ek b op, s) := by
  unfold bodyP body
  cases choose cmp op.cur none op.next with
  | none => exact stop_run b op s
  | some x =>
    obtain ⟨r, loc⟩ := x
    simp only [sizeP, Prog.run]
    cases value b r loc with
    | panic => rfl
    | fuel => rfl
    | ok val =>
      simp only [Out.bind_ok]
      split
      · exact stop_run ..
      · exact move_run ..

theorem loop_run (cmp : Int → Int → Int → Int → Bool) (lexers : Bytes → Option Sub) (ek : Nat) (b : Bytes) (s : SymSet Bytes) :
    ∀ (n : Nat) (op : Op), (loopP cmp lexers ek b n op).run s = (loop cmp lexers ek b n op, s)
  | 0, op => rfl
  | n + 1, op => by
    unfold loopP loop
    rw [andThen_run, body_run]
    cases body cmp lexers ek b op with
    | panic => rfl
    | fuel => rfl
    | ok o =>
      cases o with
      | done op => rfl
      | more op => exact loop_run cmp lexers ek b s n op

/-- Run alone, `Lex` does what the model without goroutines says. -/
theorem lexP_run (n : Nat) (l : Lexer) (b : Bytes) : ((lexP n l b).run l.set).1 = (lex n l b).map Prod.fst ∧
    ∀ lxs l', lex n l b = .ok (lxs, l') → ((lexP n l b).run l.set).2 = l'.set := by
  unfold lexP lex
  cases l.start with
  | none => exact ⟨rfl, fun _ _ h => by cases h⟩
  | some s0 =>
    simp only [Prog.run_bind, strP_run, sizeP, Prog.run, andThen_run, loop_run]
    generalize loop l.compare l.lexers _ b n _ = o
    cases o with
    | panic => exact ⟨rfl, fun _ _ h => by cases h⟩
    | fuel => exact ⟨rfl, fun _ _ h => by cases h⟩
    | ok op =>
      refine ⟨rfl, fun lxs l' h => ?_⟩
      cases h
      rfl

theorem lexP_busy {n : Nat} {l : Lexer} {b : Bytes} {s : Sub} (hs : l.start = some s) (o : Out (List Lx)) : lexP n l b ≠ .ret o := by
  unfold lexP
  rw [hs]
  rintro ⟨⟩

theorem lexP_writes {n : Nat} {l : Lexer} {b : Bytes} {s : Sub} (hs : l.start = some s) : (lexP n l b).Writes l.set ↔ l.set.str2sym l.error = none := by
  constructor
  · rintro ⟨x, hx⟩
    rcases (onlyStr_lex n l b).on l.set with ⟨h1, -⟩ | ⟨h1, -⟩
    · exact absurd ⟨x, hx⟩ h1
    · exact h1
  · intro h
    refine ⟨.str2sym, ?_⟩
    unfold lexP
    rw [hs]
    dsimp only
    rw [Prog.meets_bind]
    rcases (onlyStr_str l.error).on l.set with ⟨-, h2⟩ | ⟨-, h1, -⟩
    · rw [strP_run] at h2
      have := str_known (s := l.set) l.error
      simp only at h2
      rw [h2] at this
      exact absurd h this
    · exact .inl (h1 _)

end StackLexer

end Verif
