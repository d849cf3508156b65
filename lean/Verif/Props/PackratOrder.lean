import Verif.Props.Packrat
/-
What the packrat parser prefers (C90).

`Code memo d xs`: `xs` lists the production numbers of the tree that the memo holds for `d`, each node before its children (leaves count
as number 0). `Before` is the order of such lists by the first place where they differ, `NotAfter` adds equality. `Reached` says which
states `Parse` goes through; `DefOK` says which readings it may offer: a lexeme, or a production with children that are in the memo
and lie side by side.
-/
namespace Verif.Props.PackratOrder
open Verif.Spec Verif.Spec.Grammar Verif.Packrat Relation

/-- The states of `Parse` before each round of its main loop and after the last one. -/
inductive Reached (env : Env) (fuel s : Nat) : St → Prop
  | start {st} : addProds env fuel fuel St.init ⟨s, 0⟩ = .ok st → Reached env fuel s st
  | round {st tp k rest st'} : Reached env fuel s st → st.stack = (tp, k) :: rest →
      update env fuel fuel { st with stack := rest } tp k = .ok st' → Reached env fuel s st'

/-- The states that follow a state. -/
inductive Later (env : Env) (fuel : Nat) : St → St → Prop
  | refl {st} : Later env fuel st st
  | round {st tp k rest st1 st'} : st.stack = (tp, k) :: rest → update env fuel fuel { st with stack := rest } tp k = .ok st1 →
      Later env fuel st1 st' → Later env fuel st st'

variable {env : Env} {nts : Finset Nat} {st st' : St} {fuel s : Nat}

theorem Reached.inv (e : EnvOK env nts) (hf : bound env nts ≤ fuel) (h : Reached env fuel s st) : ∃ P, LInv env st P := by
  unfold bound at hf
  induction h with
  | @start st h =>
    have hu : unq env nts St.init < fuel := by
      have : unq env nts St.init ≤ (allM env nts).card := Finset.card_filter_le _ _
      omega
    obtain ⟨st0, e0, p0, c30, hq0⟩ := addProds_spec (P := fun _ => False) (nts := nts) e (fuel := fuel) (by omega) fuel St.init ⟨s, 0⟩
      (WF_init env) (by intro m tp h; simp [St.init] at h) (Nat.zero_le _) hu
    rw [e0] at h
    cases h
    exact ⟨_, p0.wf, p0.c1, fun _ _ h => h.elim, c30 _ (by intro m hm; simp [St.init] at hm)⟩
  | round _ hs hu ih =>
    obtain ⟨P, inv⟩ := ih
    obtain ⟨st1, e1, inv1, _⟩ := step_spec e (fuel := fuel) (by omega) (by omega) inv hs
    rw [e1] at hu
    cases hu
    exact ⟨_, inv1⟩

/-- C90: the parser goes through such states up to the end, whatever the grammar and the input. -/
theorem C90_reaches (e : EnvOK env nts) (hf : bound env nts ≤ fuel) (s : Nat) : ∃ st0 st, Reached env fuel s st0 ∧
    loop env fuel fuel st0 = .ok st ∧ Later env fuel st0 st ∧ Reached env fuel s st ∧ st.stack = [] := by
  obtain ⟨st0, st, P, e0, e1, inv, hs, hq⟩ := engine e s hf
  have key : ∀ n a, Reached env fuel s a → loop env fuel n a = .ok st → Later env fuel a st ∧ Reached env fuel s st := by
    intro n
    induction n with
    | zero => intro a _ h; cases h
    | succ n ih =>
      intro a ra h
      unfold loop at h
      cases hst : a.stack with
      | nil => rw [hst] at h; cases h; exact ⟨.refl, ra⟩
      | cons u rest =>
        obtain ⟨tp, k⟩ := u
        rw [hst] at h
        obtain ⟨a1, h1, h2⟩ := Out.bind_eq_ok.1 h
        obtain ⟨l, r⟩ := ih a1 (.round ra hst h1) h2
        exact ⟨.round hst h1 l, r⟩
  obtain ⟨l, r⟩ := key fuel st0 (.start e0) e1
  exact ⟨st0, st, .start e0, e1, l, r, hs⟩

/-- C90: `comparePriority` of two readings of one symbol from one place returns, and says which of them has the smaller production
number at the first node, in the order nodes before children, where they differ; 0 only for equal readings. -/
theorem C90_compare (e : EnvOK env nts) (hf : bound env nts ≤ fuel) (h : Reached env fuel s st) {a b : Def} (ha : DefOK env st a)
    (hb : DefOK env st b) (hi : a.key.idx = b.key.idx) (hs : a.key.start = b.key.start) :
    ∃ c xs ys, comparePriority st.get fuel a b = .ok c ∧ Code st.memo a xs ∧ Code st.memo b ys ∧
      (c = 1 ∨ c = -1 ∨ c = 0) ∧ (c = 1 ↔ Before xs ys) ∧ (c = -1 ↔ Before ys xs) ∧ (c = 0 ↔ a = b) := by
  obtain ⟨P, inv⟩ := h.inv e hf
  obtain ⟨r, rb, hr⟩ := inv.wf.exists_rank e
  unfold bound at hf
  obtain ⟨f, rfl⟩ : ∃ f, fuel = f + 1 := ⟨fuel - 1, by omega⟩
  obtain ⟨c, ec, _⟩ := comparePriority_ok inv.wf r hr f a b ha hb hi (fun c _ => by have := rb c; omega)
  obtain ⟨xs, hx⟩ := code_total e inv.wf ha
  obtain ⟨ys, hy⟩ := code_total e inv.wf hb
  refine ⟨c, xs, ys, ec, hx, hy, ?_⟩
  have hne : a = b → xs = ys := by rintro rfl; exact hx.unique hy
  rcases compare_finds inv.wf _ a b c xs ys ha hb hi hs hx hy ec with ⟨rfl, h1⟩ | ⟨rfl, h1⟩ | ⟨rfl, rfl, h1⟩
  · exact ⟨.inl rfl, ⟨fun _ => h1, fun _ => rfl⟩, ⟨fun h => absurd h (by decide), fun h2 => absurd (h1.trans h2) Before.irrefl⟩,
      ⟨fun h => absurd h (by decide), fun h2 => absurd (hne h2 ▸ h1) Before.irrefl⟩⟩
  · exact ⟨.inr (.inl rfl), ⟨fun h => absurd h (by decide), fun h2 => absurd (h1.trans h2) Before.irrefl⟩, ⟨fun _ => h1, fun _ => rfl⟩,
      ⟨fun h => absurd h (by decide), fun h2 => absurd (hne h2 ▸ h1) Before.irrefl⟩⟩
  · exact ⟨.inr (.inr rfl), ⟨fun h => absurd h (by decide), fun h2 => absurd h2 Before.irrefl⟩,
      ⟨fun h => absurd h (by decide), fun h2 => absurd h2 Before.irrefl⟩, ⟨fun _ => h1, fun _ => rfl⟩⟩

/-- C90: what `addToMemo` does with a reading: the first one for its place is stored, a later one replaces the stored one exactly when it
comes before it and does not contain its own place; no other entry is touched. -/
theorem C90_memo (e : EnvOK env nts) (hf : bound env nts ≤ fuel) (h : Reached env fuel s st) {d : Def} (hd : DefOK env st d) :
    ∃ st', addToMemo fuel st d = .ok st' ∧
      (st.memo d.key = none → st'.memo = upd st.memo d.key (some d)) ∧
      (∀ old xs ys, st.memo d.key = some old → Code st.memo d xs → Code st.memo old ys →
        ((Before xs ys ∧ ∀ c ∈ d.children, ¬ ReflTransGen (Child st.memo) c d.key) → st'.memo = upd st.memo d.key (some d)) ∧
        (¬ (Before xs ys ∧ ∀ c ∈ d.children, ¬ ReflTransGen (Child st.memo) c d.key) → st' = st)) := by
  obtain ⟨P, inv⟩ := h.inv e hf
  cases hm : st.memo d.key with
  | none =>
    refine ⟨_, by unfold addToMemo; rw [hm], fun _ => ?_, fun old _ _ ho => by cases ho⟩
    dsimp only
    rw [foldl_push]
  | some old =>
    have hk := inv.wf.key _ _ hm
    obtain ⟨c, xs, ys, ec, hx, hy, _, h1, _⟩ := C90_compare e hf h hd (inv.wf.ok _ _ hm) (by rw [hk]) (by rw [hk])
    obtain ⟨r, rb, hr⟩ := inv.wf.exists_rank e
    unfold bound at hf
    obtain ⟨f, rfl⟩ : ∃ f, fuel = f + 1 := ⟨fuel - 1, by omega⟩
    obtain ⟨b, eb, hb⟩ := circ_ok inv.wf d.key r hr f d hd.kids (fun c _ => by have := rb c; omega)
    have hno : (∀ c ∈ d.children, ¬ ReflTransGen (Child st.memo) c d.key) ↔ b = false := by
      constructor
      · intro hn
        cases b with
        | false => rfl
        | true =>
          obtain ⟨c, h1, h2⟩ := hb.1 rfl
          exact absurd h2 (hn c h1)
      · rintro rfl c h1 h2
        exact absurd (hb.2 ⟨c, h1, h2⟩) (by decide)
    refine ⟨if c = 1 ∧ b = false then { st with memo := upd st.memo d.key (some d) } else st, ?_, fun h => (by cases h), ?_⟩
    · unfold addToMemo
      rw [hm]
      simp only [ec, Out.bind_ok]
      by_cases hc : c = 1
      · simp only [hc, if_true, eb, Out.bind_ok]
        cases b <;> simp
      · simp [hc]
    · intro old' xs' ys' ho hx' hy'
      cases ho
      rw [hx'.unique hx, hy'.unique hy, hno, ← h1]
      constructor
      · intro hh; rw [if_pos hh]
      · intro hh; rw [if_neg hh]

/-- C90: readings only get better: in every later state each place that has a reading has one that is the same or comes before it, as a
whole tree. -/
theorem C90_only_better (e : EnvOK env nts) (hf : bound env nts ≤ fuel) (h : Reached env fuel s st) (l : Later env fuel st st')
    {k : Key} {d : Def} (hk : st.memo k = some d) :
    ∃ d' xs ys, st'.memo k = some d' ∧ Code st.memo d xs ∧ Code st'.memo d' ys ∧ NotAfter ys xs := by
  have key : Improves st.memo st'.memo := by
    clear hk
    induction l with
    | refl => exact .refl _
    | round hs hu _ ih =>
      obtain ⟨P, inv⟩ := h.inv e hf
      have hf' := hf
      unfold bound at hf'
      obtain ⟨_, e1, _, le1, _⟩ := step_spec e (fuel := fuel) (by omega) (by omega) inv hs
      have h1 := Reached.round h hs hu
      rw [e1] at hu
      cases hu
      exact le1.better.trans (ih h1)
  obtain ⟨P, inv⟩ := h.inv e hf
  obtain ⟨xs, hx⟩ := code_total e inv.wf (inv.wf.ok _ _ hk)
  obtain ⟨ys, ⟨d', hd', hy⟩, hn⟩ := key k xs ⟨d, hk, hx⟩
  exact ⟨d', xs, ys, hd', hx, hy, hn⟩

/-- `E -> E E | a` with E = 0, a = 1, on `a a a`. -/
def envA : Env := ⟨fun i => if i = 0 then some [[0, 0], [1]] else none, fun i => i == 0, [1, 1, 1]⟩

theorem envA_ok : EnvOK envA {0} := by
  refine ⟨?_, ?_, ?_⟩
  · intro i
    by_cases h : i = 0 <;> simp [envA, h]
  · intro i h
    by_cases h0 : i = 0
    · simp [h0]
    · simp [envA, h0] at h
  · intro k hk
    simp only [envA, List.mem_cons, List.not_mem_nil, or_false, or_self] at hk
    subst hk
    rfl

-- C90 for this grammar and input
example : ∃ st0 st, Reached envA (bound envA {0}) 0 st0 ∧ loop envA (bound envA {0}) (bound envA {0}) st0 = .ok st ∧
    Later envA (bound envA {0}) st0 st ∧ Reached envA (bound envA {0}) 0 st ∧ st.stack = [] :=
  C90_reaches envA_ok (Nat.le_refl _) 0

/-- The code of an entry, with fuel. -/
def codeOf (memo : Key → Option Def) : Nat → Key → List Nat
  | 0, _ => []
  | n + 1, k => match memo k with
    | none => []
    | some d => d.priority :: d.children.flatMap (codeOf memo n)

/-- The codes of the whole input's entry in the states of a run, without repetitions. -/
def codes (env : Env) (fuel : Nat) (k : Key) : Nat → St → List (List Nat)
  | 0, _ => []
  | n + 1, st => codeOf st.memo 9 k :: match st.stack with
    | [] => []
    | (tp, k') :: rest => match update env fuel fuel { st with stack := rest } tp k' with
      | .ok st' => codes env fuel k n st'
      | _ => []

/-- On `a a a` the reading `a (a a)` is stored first and then replaced by `(a a) a`. -/
theorem C90_said : (match addProds envA 60 60 St.init ⟨0, 0⟩ with
    | .ok st => ((codes envA 60 ⟨0, 0, 3⟩ 60 st).eraseDups, (loop envA 60 60 st).bind fun st => .ok (codeOf st.memo 9 ⟨0, 0, 3⟩))
    | _ => ([], .fuel)) = ([[], [0, 1, 0, 0, 1, 0, 1, 0], [0, 0, 1, 0, 1, 0, 1, 0]], .ok [0, 0, 1, 0, 1, 0, 1, 0]) := by
  decide +kernel

end Verif.Props.PackratOrder
