import Verif.Model.PackratCount
import Verif.Proofs.Packrat.Tree
import Verif.Proofs.Packrat.Fuel
import Verif.Proofs.Packrat.Lift
/- The rounds of the main loop of the packrat parser. -/
namespace Verif.Packrat
open Verif.Spec Verif.Spec.Grammar

/-- The result without the count. -/
abbrev forget {A : Type} (o : Out (A × Nat)) : Out A := o.bind fun x => .ok x.1

theorem loopC_forget (env : Env) (fuel : Nat) : ∀ n st, forget (loopC env fuel n st) = loop env fuel n st
  | 0, _ => rfl
  | n + 1, st => by
    rw [loopC, loop]
    cases st.stack with
    | nil => rfl
    | cons u rest =>
      obtain ⟨tp, k⟩ := u
      simp only
      cases update env fuel fuel { st with stack := rest } tp k with
      | panic => rfl
      | fuel => rfl
      | ok st' =>
        simp only [Out.bind_ok]
        rw [← loopC_forget env fuel n st']
        cases loopC env fuel n st' <;> rfl

theorem parseIdxC_forget {V : Type} (ev : V) (env : Env) (s : Nat) (lx : List (Lexeme Nat V)) (fuel : Nat) :
    forget (parseIdxC ev env s lx fuel) = parseIdx ev env s lx fuel := by
  unfold parseIdxC parseIdx
  cases addProds env fuel fuel St.init ⟨s, 0⟩ with
  | panic => rfl
  | fuel => rfl
  | ok st0 =>
    simp only [Out.bind_ok]
    rw [← loopC_forget]
    cases loopC env fuel fuel st0 with
    | panic => rfl
    | fuel => rfl
    | ok r =>
      simp only [forget, Out.bind_ok]
      split
      · rfl
      · cases toPN ev lx r.1.get fuel (r.1.get ⟨s, 0, lx.length⟩) <;> rfl

theorem parseC_forget {α V : Type} [DecidableEq α] (ev : V) (g : Grammar α) (ls : List (Lexeme α V)) (fuel : Nat) :
    forget (parseC ev g ls fuel) = parse ev g ls fuel := by
  unfold parseC parse
  cases g.order with
  | nil => rfl
  | cons S rest =>
    simp only
    cases loadSet g ls with
    | panic => rfl
    | fuel => rfl
    | ok s =>
      simp only [Out.bind_ok]
      rw [← parseIdxC_forget]
      cases parseIdxC ev (mkEnv g s ls) (symIdx s S) (ls.map fun l => ⟨symIdx s l.kind, l.val, l.line, l.col⟩) fuel with
      | panic => rfl
      | fuel => rfl
      | ok r =>
        obtain ⟨_ | t, c⟩ := r
        · rfl
        · simp only [forget, Out.bind_ok]
          cases nameTree s t <;> rfl

theorem loopC_mono {n m} (h : n ≤ m) (env) : ∀ d e, d ≤ e → ∀ st, Out.Le (loopC env n d st) (loopC env m e st) := by
  intro d
  induction d with
  | zero => intro e _ st; exact .inl rfl
  | succ d ih =>
    intro e he st
    obtain ⟨e, rfl⟩ : ∃ k, e = k + 1 := ⟨e - 1, by omega⟩
    simp only [loopC]
    split
    · exact .refl _
    · exact (update_mono h env n m h _ _ _).bind fun _ => (ih e (by omega) _).bind fun _ => .refl _

theorem parseC_mono {α V : Type} [DecidableEq α] (ev : V) (g : Grammar α) (ls) : ∀ n m, n ≤ m →
    Out.Le (parseC ev g ls n) (parseC ev g ls m) := by
  intro n m h
  unfold parseC
  split
  · exact .refl _
  · refine (Out.Le.refl _).bind fun s => Out.Le.bind ?_ fun _ => .refl _
    refine (addProds_mono h _ n m h _ _).bind fun st0 => (loopC_mono h _ n m h _).bind fun st => ?_
    dsimp only
    split
    · exact .refl _
    · exact (toPN_mono ev _ _ n m h _).bind fun _ => .refl _

/-- The rounds are bounded by the potential, and each processes one pair. -/
theorem loopC_spec {env nts} (e : EnvOK env nts) {fuel} (hf : (allKeys env nts).card + 2 ≤ fuel)
    (hf2 : (allM env nts).card < fuel) :
    ∀ (n : Nat) (st : St) (L : List (Partial × Key)) P, (∀ v, P v ↔ v ∈ L) → LInv env st P → phi env nts st < n →
      ∃ (st' : St) (P' : Partial × Key → Prop) (c : Nat) (L' : List (Partial × Key)), loopC env fuel n st = .ok (st', c) ∧ LInv env st' P' ∧ st'.stack = [] ∧
        (∀ m, st.queued m = true → st'.queued m = true) ∧ c ≤ phi env nts st ∧ (∀ v, P' v ↔ v ∈ L') ∧ L'.length = L.length + c := by
  intro n
  induction n with
  | zero => intro st L P _ _ h; omega
  | succ n ih =>
    intro st L P hL h hphi
    unfold loopC
    cases hs : st.stack with
    | nil => exact ⟨st, P, 0, L, rfl, h, hs, fun _ h => h, by omega, hL, rfl⟩
    | cons u rest =>
      obtain ⟨tp, k⟩ := u
      dsimp only
      obtain ⟨st1, e1, inv1, le1, hphi1⟩ := step_spec e hf hf2 h hs
      rw [e1]
      simp only [Out.bind_ok]
      obtain ⟨st', P', c, L', e', inv', hs', hq', hc, hL', hlen⟩ := ih st1 ((tp, k) :: L) _ (by
        intro v
        rw [List.mem_cons, hL]
        exact Or.comm) inv1 (by omega)
      refine ⟨st', P', c + 1, L', by rw [e']; rfl, inv', hs', fun m hm => hq' m (le1.queued m hm), by omega, hL', ?_⟩
      rw [hlen, List.length_cons]
      omega

theorem engineC {env nts} (e : EnvOK env nts) (s : Nat) {fuel} (hf : bound env nts ≤ fuel) :
    ∃ (st0 st : St) (P : Partial × Key → Prop) (c : Nat) (L : List (Partial × Key)), addProds env fuel fuel St.init ⟨s, 0⟩ = .ok st0 ∧ loopC env fuel fuel st0 = .ok (st, c) ∧
      LInv env st P ∧ st.stack = [] ∧ st.queued ⟨s, 0⟩ = true ∧ c ≤ phi env nts St.init ∧ (∀ v, P v ↔ v ∈ L) ∧ L.length = c := by
  unfold bound at hf
  have hu : unq env nts St.init < fuel := by
    have : unq env nts St.init ≤ (allM env nts).card := Finset.card_filter_le _ _
    omega
  obtain ⟨st0, e0, p0, c30, hq0⟩ := addProds_spec (P := fun _ => False) (nts := nts) e (fuel := fuel) (by omega) fuel St.init ⟨s, 0⟩
    (WF_init env) (by intro m tp h; simp [St.init] at h) (Nat.zero_le _) hu
  have inv0 : LInv env st0 (fun _ => False) :=
    ⟨p0.wf, p0.c1, fun _ _ h => h.elim, c30 _ (by intro m hm; simp [St.init] at hm)⟩
  obtain ⟨st, P, c, L, e1, inv, hs, hq, hc, hL, hlen⟩ := loopC_spec e (fuel := fuel) (by omega) (by omega) fuel st0 [] _ (by simp) inv0
    (by have := p0.phi; omega)
  refine ⟨st0, st, P, c, L, e0, e1, inv, hs, hq _ hq0, ?_, hL, by simpa using hlen⟩
  have := p0.phi
  omega

/-! ### From below -/

/-- What is read by the symbols of a production from one position on is processed at the last of them. -/
theorem processed_chain {env nts} (e : EnvOK env nts) {st P} (h : LInv env st P) (hs : st.stack = []) (j : Nat) :
    ∀ (cs : List Key) (c : Key) (tp : Partial) (rest : List Nat), tp.prod.drop tp.td.children.length = c.idx :: rest →
      Chain (c :: cs) (c.idx :: rest) c.start j →
      (∀ c' ∈ c :: cs, env.gram.Der env.lex [c'.idx] c'.start c'.stop) → Item env st P tp ⟨c.idx, c.start⟩ →
      ∃ v, P v ∧ v.1.td.children ++ [v.2] = tp.td.children ++ c :: cs := by
  intro cs
  induction cs with
  | nil =>
    intro c tp rest hdrop hch hder hi
    exact ⟨(tp, c), processed e h hs (hder c (by simp)) hi, rfl⟩
  | cons c' cs ih =>
    intro c tp rest hdrop hch hder hi
    have hP := processed e h hs (hder c (by simp)) hi
    have heff := h.c2 tp c hP
    cases hch with
    | cons hch =>
      generalize hst : c.stop = m at hch
      cases hch with
      | @cons _ _ p _ hch =>
        have hdrop' : tp.prod.drop (tp.td.children.length + 1) = c'.idx :: p := by
          rw [← List.drop_drop, hdrop]; rfl
        have hl : tp.td.children.length + 1 ≠ tp.prod.length := by
          intro hl
          rw [hl] at hdrop'
          simp at hdrop'
        unfold Eff at heff
        rw [if_neg hl] at heff
        obtain ⟨X, hX, hi'⟩ := heff
        have hXe : X = c'.idx := by
          obtain ⟨hlt, he⟩ := List.getElem?_eq_some_iff.1 hX
          rw [List.drop_eq_getElem_cons hlt, he] at hdrop'
          exact (List.cons.inj hdrop').1
        subst hXe
        rw [hst] at hi'
        obtain ⟨v, hv, e⟩ := ih c' (extend tp c) p (by simpa [extend] using hdrop') (.cons hch) (fun x hx => hder x (by simp [hx])) hi'
        exact ⟨v, hv, by simpa [extend] using e⟩

/-- Keys of one symbol that end at the given positions, each beginning where the one before ends. -/
def chainOf (A : Nat) : Nat → List Nat → List Key
  | _, [] => []
  | i, s :: ss => ⟨A, i, s⟩ :: chainOf A s ss

theorem chainOf_stop (A : Nat) : ∀ i ss, (chainOf A i ss).map (·.stop) = ss
  | _, [] => rfl
  | i, s :: ss => by simp [chainOf, chainOf_stop A s ss]

theorem chainOf_chain (A : Nat) : ∀ i ss, ∃ j, Chain (chainOf A i ss) (List.replicate ss.length A) i j
  | i, [] => ⟨i, .nil⟩
  | i, s :: ss => by
    obtain ⟨j, h⟩ := chainOf_chain A s ss
    exact ⟨j, .cons (c := ⟨A, i, s⟩) h⟩

/-- Positions, the first from `b` to `b + m - 1`, the next from `b + m` on, and so on. -/
def stops (m : Nat) : Nat → Nat → List (List Nat)
  | 0, _ => [[]]
  | k + 1, b => (List.range m).flatMap fun q => (stops m k (b + m)).map fun ss => (b + q) :: ss

theorem stops_length (m : Nat) : ∀ k b, (stops m k b).length = m ^ k
  | 0, _ => rfl
  | k + 1, b => by
    simp [stops, List.length_flatMap, stops_length m k, Nat.pow_succ, Nat.mul_comm]

theorem stops_nodup (m : Nat) : ∀ k b, (stops m k b).Nodup
  | 0, _ => by simp [stops]
  | k + 1, b => by
    unfold stops
    rw [List.nodup_flatMap]
    refine ⟨fun q _ => (stops_nodup m k (b + m)).map (fun x y h => by simpa using h), ?_⟩
    refine List.nodup_range.imp ?_
    intro q q' hne
    simp only [Function.onFun]
    intro x h1 h2
    obtain ⟨y, _, rfl⟩ := List.mem_map.1 h1
    obtain ⟨z, _, e⟩ := List.mem_map.1 h2
    simp at e
    omega

theorem stops_mem (m : Nat) : ∀ k b ss, ss ∈ stops m k b → ss.length = k
  | 0, _, ss, h => by simp [stops] at h; simp [h]
  | k + 1, b, ss, h => by
    simp only [stops, List.mem_flatMap, List.mem_map] at h
    obtain ⟨q, _, ss, h, rfl⟩ := h
    simp [stops_mem m k _ ss h]

/-- All keys of such a chain are derived. -/
theorem stops_der {env : Env} {A m : Nat} (hA : ∀ i j, i ≤ j → j ≤ env.lex.length → env.gram.Der env.lex [A] i j) :
    ∀ k b i ss, ss ∈ stops m k b → i ≤ b → b + k * m ≤ env.lex.length + 1 →
      ∀ c ∈ chainOf A i ss, env.gram.Der env.lex [c.idx] c.start c.stop
  | 0, b, i, ss, h, _, _, c, hc => by
    simp [stops] at h
    subst h
    cases hc
  | k + 1, b, i, ss, h, hi, hb, c, hc => by
    simp only [stops, List.mem_flatMap, List.mem_map, List.mem_range] at h
    obtain ⟨q, hq, ss, h, rfl⟩ := h
    rw [Nat.succ_mul] at hb
    rcases List.mem_cons.1 hc with rfl | hc
    · exact hA _ _ (by simp; omega) (by simp; omega)
    · exact stops_der hA k (b + m) (b + q) ss h (by omega) (by omega) c hc

/-- With a production of `k + 1` times the same symbol, which derives everything, there are at least `m ^ (k + 1)` rounds. -/
theorem many {env nts} (e : EnvOK env nts) {s j k A m : Nat} (hr : env.gram.Rule s j (List.replicate (k + 1) A))
    (hA : ∀ i j, i ≤ j → j ≤ env.lex.length → env.gram.Der env.lex [A] i j) (hm : (k + 1) * m ≤ env.lex.length + 1)
    {st P} {L : List (Partial × Key)} (inv : LInv env st P) (hs : st.stack = []) (hq : st.queued ⟨s, 0⟩ = true) (hL : ∀ v, P v ↔ v ∈ L) :
    m ^ (k + 1) ≤ L.length := by
  have key : ∀ ss ∈ stops m (k + 1) 0, ss ∈ L.map fun v => (v.1.td.children ++ [v.2]).map (·.stop) := by
    intro ss hss
    have hlen := stops_mem m _ _ ss hss
    obtain ⟨j', hch⟩ := chainOf_chain A 0 ss
    rw [hlen] at hch
    have hder := stops_der hA (k + 1) 0 0 ss hss (Nat.le_refl _) (by omega)
    have hp := inv.c3 ⟨s, 0⟩ hq (by simp) j _ hr
    cases ss with
    | nil => simp at hlen
    | cons x ss =>
      obtain ⟨v, hv, ev⟩ := processed_chain e inv hs j' (chainOf A x ss) ⟨A, 0, x⟩ (initPartial ⟨s, 0⟩ j (List.replicate (k + 1) A))
        (List.replicate k A) (by simp [initPartial, List.replicate_succ]) hch hder hp
      refine List.mem_map.2 ⟨v, (hL v).1 hv, ?_⟩
      rw [ev]
      exact chainOf_stop A 0 (x :: ss)
  have := (List.Nodup.subperm (stops_nodup m (k + 1) 0) key).length_le
  rwa [stops_length, List.length_map] at this

end Verif.Packrat
