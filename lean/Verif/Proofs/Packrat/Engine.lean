import Verif.Proofs.Packrat.Settle
import Verif.Proofs.Packrat.Order
import Mathlib.Algebra.BigOperators.Group.Finset.Basic
import Mathlib.Algebra.Order.BigOperators.Group.Finset
/- The mutating parts of the packrat engine preserve the invariants and do not increase a potential. -/
namespace Verif.Packrat
open Verif.Spec Verif.Spec.Grammar Relation

/-- Cost of a pending extension of a partial with `r` symbols left, for input length `n`. -/
def W (n : Nat) : Nat → Nat
  | 0 => 0
  | r + 1 => 1 + (n + 1) * W n r

/-- Symbols left in a partial. -/
def Partial.rest (tp : Partial) : Nat := tp.prod.length - tp.td.children.length

def cost (n : Nat) (tp : Partial) : Nat := W n tp.rest

/-- Markers that can be queued with productions. -/
def allM (env : Env) (nts : Finset Nat) : Finset (Nat × Nat) :=
  nts ×ˢ Finset.range (env.lex.length + 1)

def mk (t : Nat × Nat) : Marker := ⟨t.1, t.2⟩

def prodsCost (env : Env) (i : Nat) : Nat :=
  (((env.prods i).getD []).map fun p => (env.lex.length + 1) * W env.lex.length p.length).sum

def phiStack (env : Env) (st : St) : Nat := (st.stack.map fun u => cost env.lex.length u.1).sum

def phiPart (env : Env) (st : St) (m : Marker) : Nat :=
  (env.lex.length + 1 - (st.markers m).length) *
    ((st.partials m).map (cost env.lex.length)).sum

def phiQ (env : Env) (st : St) (m : Marker) : Nat :=
  if st.queued m then 0 else prodsCost env m.idx

/-- Potential: bounds the number of remaining loop iterations. -/
def phi (env : Env) (nts : Finset Nat) (st : St) : Nat :=
  phiStack env st + ∑ t ∈ allM env nts, phiPart env st (mk t) +
    ∑ t ∈ allM env nts, phiQ env st (mk t)

/-- Number of markers not yet queued. -/
def unq (env : Env) (nts : Finset Nat) (st : St) : Nat :=
  ((allM env nts).filter fun t => st.queued (mk t) = false).card

theorem sum_change {s : Finset (Nat × Nat)} {f f' : Nat × Nat → Nat} {a : Nat × Nat} (ha : a ∈ s)
    (h : ∀ t ∈ s, t ≠ a → f' t = f t) : ∑ t ∈ s, f' t + f a = ∑ t ∈ s, f t + f' a := by
  classical
  rw [← Finset.add_sum_erase s f ha, ← Finset.add_sum_erase s f' ha]
  have : ∑ t ∈ s.erase a, f' t = ∑ t ∈ s.erase a, f t :=
    Finset.sum_congr rfl fun t ht => h t (Finset.mem_of_mem_erase ht) (Finset.ne_of_mem_erase ht)
  omega

theorem mem_allM {env nts} (e : EnvOK env nts) {m : Marker} (h1 : env.nonterms m.idx = true)
    (h2 : m.start ≤ env.lex.length) : (m.idx, m.start) ∈ allM env nts := by
  simp only [allM, Finset.mem_product, Finset.mem_range]
  exact ⟨e.fin _ (by rw [← e.nt]; exact h1), by omega⟩

theorem markers_le {env st} (h : WF env st) (m : Marker) :
    (st.markers m).length ≤ env.lex.length + 1 := by
  have hnd := h.nd m
  have : ((st.markers m).map (·.key)).map (·.stop) |>.Nodup := by
    refine List.Nodup.map_on ?_ hnd
    intro a ha b hb hab
    have ha := ((h.mark m a).1 ha).1
    have hb := ((h.mark m b).1 hb).1
    cases a; cases b
    simp [Key.marker] at ha hb hab
    rw [← hb] at ha
    simp at ha
    simp [ha, hab]
  have hsub : ∀ x ∈ ((st.markers m).map (·.key)).map (·.stop), x ∈ List.range (env.lex.length + 1) := by
    intro x hx
    obtain ⟨k, hk, rfl⟩ := List.mem_map.1 hx
    have := h.span ((h.mark m k).1 hk).2
    simp; omega
  have := (this.subperm hsub).length_le
  simpa using this

/-- Nothing is lost between stored partials and memo entries: each pair is pending or processed. -/
def C1 (st : St) (P : Partial × Key → Prop) : Prop :=
  ∀ m tp, tp ∈ st.partials m → ∀ k : Key, k.marker = m → (st.memo k).isSome →
    (tp, k) ∈ st.stack ∨ P (tp, k)

/-- The definition `d` has been offered to the memo. -/
def Done (env : Env) (st : St) (d : Def) : Prop :=
  ∃ d', st.memo d.key = some d' ∧ (env.gram.CycleFree → d'.priority ≤ d.priority ∧ (Settles env d → d' = d))

theorem Done.mono {env st st' d} (h : Done env st d) (l : Le env st st') : Done env st' d := by
  obtain ⟨d', e, hp⟩ := h
  obtain ⟨d2, e2, hp2⟩ := l.memo _ _ e
  refine ⟨d2, e2, fun cf => ⟨by have := (hp cf).1; omega, fun hs => ?_⟩⟩
  have := (hp cf).2 hs
  subst this
  rw [l.keep _ _ e hs] at e2
  cases e2; rfl

theorem foldl_push (tps : List Partial) (k : Key) (st : St) :
    tps.foldl (fun s tp => push s tp k) st =
      { st with stack := (tps.map fun tp => (tp, k)).reverse ++ st.stack } := by
  induction tps generalizing st with
  | nil => rfl
  | cons t ts ih => rw [List.foldl_cons, ih]; simp [push]

theorem foldl_push' (tds : List Def) (tp : Partial) (st : St) :
    tds.foldl (fun s td => push s tp td.key) st =
      { st with stack := (tds.map fun td => (tp, td.key)).reverse ++ st.stack } := by
  induction tds generalizing st with
  | nil => rfl
  | cons t ts ih => rw [List.foldl_cons, ih]; simp [push]

/-- What every mutating call guarantees. -/
structure Post (env : Env) (nts : Finset Nat) (P : Partial × Key → Prop) (st st' : St) (c : Nat) :
    Prop where
  wf : WF env st'
  c1 : C1 st' P
  le : Le env st st'
  phi : phi env nts st' ≤ phi env nts st + c

theorem addToMemo_spec {env nts} (e : EnvOK env nts) {P} {st : St} (h : WF env st) (c1 : C1 st P)
    {td : Def} (hd : DefOK env st td) {fuel} (hf : (allKeys env nts).card + 2 ≤ fuel) :
    ∃ st', addToMemo fuel st td = .ok st' ∧ Post env nts P st st' 0 ∧
      Done env st' td ∧ st'.queued = st.queued ∧ st'.partials = st.partials := by
  unfold addToMemo
  cases hm : st.memo td.key with
  | none =>
    dsimp only
    rw [foldl_push]
    refine ⟨_, rfl, ?_, ?_, rfl, rfl⟩
    swap
    · exact ⟨td, by simp, fun _ => ⟨Nat.le_refl _, fun _ => rfl⟩⟩
    have hle : Le env st { st with
        memo := upd st.memo td.key (some td)
        markers := upd st.markers td.key.marker (st.markers td.key.marker ++ [td])
        stack := ((st.partials td.key.marker).map fun tp => (tp, td.key)).reverse ++ st.stack } := by
      refine ⟨?_, ?_, fun _ _ h => h, fun _ h => h, ?_, better_new e h hd hm⟩
      · intro k d hk
        refine ⟨d, ?_, Nat.le_refl _⟩
        by_cases hkt : k = td.key
        · subst hkt; rw [hm] at hk; cases hk
        · simp [upd_ne _ _ hkt, hk]
      · intro k d hk _
        by_cases hkt : k = td.key
        · subst hkt; rw [hm] at hk; cases hk
        · simp [upd_ne _ _ hkt, hk]
      · intro u hu; simp [hu]
    have hwf : WF env { st with
        memo := upd st.memo td.key (some td)
        markers := upd st.markers td.key.marker (st.markers td.key.marker ++ [td])
        stack := ((st.partials td.key.marker).map fun tp => (tp, td.key)).reverse ++ st.stack } := by
      refine ⟨?_, ?_, ?_, ?_, ?_, ?_, ?_⟩
      · intro k d hk
        by_cases hkt : k = td.key
        · subst hkt; simp at hk; rw [← hk]
        · simp only [upd_ne _ _ hkt] at hk; exact h.key k d hk
      · intro k d hk
        by_cases hkt : k = td.key
        · subst hkt; simp at hk; rw [← hk]; exact hd.mono hle
        · simp only [upd_ne _ _ hkt] at hk; exact (h.ok k d hk).mono hle
      · intro m k
        by_cases hmm : m = td.key.marker
        · subst hmm
          simp only [upd_same, List.map_append, List.mem_append, List.map_cons, List.map_nil,
            List.mem_singleton, h.mark]
          by_cases hkt : k = td.key
          · subst hkt; simp
          · simp [upd_ne _ _ hkt, hkt]
        · simp only [upd_ne _ _ hmm, h.mark]
          by_cases hkt : k = td.key
          · subst hkt
            simp only [upd_same]
            constructor
            · rintro ⟨h1, _⟩; exact absurd h1.symm hmm
            · rintro ⟨h1, _⟩; exact absurd h1.symm hmm
          · simp [upd_ne _ _ hkt]
      · intro m
        by_cases hmm : m = td.key.marker
        · subst hmm
          simp only [upd_same, List.map_append, List.map_cons, List.map_nil]
          rw [List.nodup_append]
          refine ⟨h.nd _, by simp, ?_⟩
          intro a ha b hb
          simp only [List.mem_singleton] at hb
          subst hb
          rintro rfl
          have := ((h.mark _ _).1 ha).2
          rw [hm] at this
          simp at this
        · simp only [upd_ne _ _ hmm]; exact h.nd m
      · apply acyclic_replace h.acyc
        intro c hc hr
        -- nothing reaches a key that is not in the memo, except itself
        have hcm := hd.kids c hc
        have : ∀ x, ReflTransGen (Child st.memo) x td.key → (st.memo x).isSome → False := by
          intro x hx
          induction hx using ReflTransGen.head_induction_on with
          | refl => rw [hm]; simp
          | @head a b hab _ ih =>
            intro _
            obtain ⟨d, ed, hb⟩ := hab
            exact ih ((h.ok a d ed).kids b hb)
        exact this c hr hcm
      · intro m tp ht
        have := h.part m tp ht
        exact ⟨this.1.mono hle, this.2⟩
      · intro u hu
        simp only [List.mem_append, List.mem_reverse, List.mem_map] at hu
        rcases hu with ⟨tp, ht, rfl⟩ | hu
        · exact ⟨(h.part _ tp ht).1.mono hle, by simp⟩
        · have := h.stk u hu
          exact ⟨this.1.mono hle, hle.isSome this.2⟩
    refine ⟨hwf, ?_, hle, ?_⟩
    · intro m tp ht k hk hks
      by_cases hkt : k = td.key
      · subst hkt; subst hk
        left; simp; exact .inl ht
      · simp only [upd_ne _ _ hkt] at hks
        rcases c1 m tp ht k hk hks with h1 | h1
        · left; simp [h1]
        · exact .inr h1
    · -- the pushes are paid for by the partials' potential
      have hml := markers_le hwf td.key.marker
      simp only [upd_same, List.length_append, List.length_cons, List.length_nil] at hml
      simp only [phi, Nat.add_zero]
      have hq : (∑ t ∈ allM env nts, phiQ env { st with
          memo := upd st.memo td.key (some td)
          markers := upd st.markers td.key.marker (st.markers td.key.marker ++ [td])
          stack := ((st.partials td.key.marker).map fun tp => (tp, td.key)).reverse ++ st.stack } (mk t))
          = ∑ t ∈ allM env nts, phiQ env st (mk t) := rfl
      rw [hq]
      have hs : phiStack env { st with
          memo := upd st.memo td.key (some td)
          markers := upd st.markers td.key.marker (st.markers td.key.marker ++ [td])
          stack := ((st.partials td.key.marker).map fun tp => (tp, td.key)).reverse ++ st.stack }
          = ((st.partials td.key.marker).map (cost env.lex.length)).sum + phiStack env st := by
        simp [phiStack, List.sum_reverse, Function.comp_def]
      rw [hs]
      by_cases hp : st.partials td.key.marker = []
      · have : (∑ t ∈ allM env nts, phiPart env { st with
          memo := upd st.memo td.key (some td)
          markers := upd st.markers td.key.marker (st.markers td.key.marker ++ [td])
          stack := ((st.partials td.key.marker).map fun tp => (tp, td.key)).reverse ++ st.stack } (mk t))
          = ∑ t ∈ allM env nts, phiPart env st (mk t) := by
          apply Finset.sum_congr rfl
          intro t _
          unfold phiPart
          by_cases ht : mk t = td.key.marker
          · rw [ht, hp]; simp
          · simp [upd_ne _ _ ht]
        rw [this, hp]
        simp
      · obtain ⟨tp, tps, hpe⟩ := List.exists_cons_of_ne_nil hp
        have hpo := h.part td.key.marker tp (by simp [hpe])
        have hin := mem_allM e hpo.2 hpo.1.le2
        have hch := sum_change (f := fun t => phiPart env st (mk t)) (f' := fun t => phiPart env { st with
          memo := upd st.memo td.key (some td)
          markers := upd st.markers td.key.marker (st.markers td.key.marker ++ [td])
          stack := ((st.partials td.key.marker).map fun tp => (tp, td.key)).reverse ++ st.stack } (mk t))
          hin (by
            intro t _ ht
            have : mk t ≠ td.key.marker := by
              intro e; apply ht
              cases t; simp [mk] at e; simp [← e]
            simp [phiPart, upd_ne _ _ this])
        have ea : phiPart env st (mk (td.key.marker.idx, td.key.marker.start)) =
            (env.lex.length + 1 - (st.markers td.key.marker).length) *
              ((st.partials td.key.marker).map (cost env.lex.length)).sum := rfl
        have eb : phiPart env { st with
          memo := upd st.memo td.key (some td)
          markers := upd st.markers td.key.marker (st.markers td.key.marker ++ [td])
          stack := ((st.partials td.key.marker).map fun tp => (tp, td.key)).reverse ++ st.stack }
            (mk (td.key.marker.idx, td.key.marker.start)) =
            (env.lex.length + 1 - ((st.markers td.key.marker).length + 1)) *
              ((st.partials td.key.marker).map (cost env.lex.length)).sum := by
          simp [phiPart, mk, upd_same]
        rw [ea, eb] at hch
        generalize ((st.partials td.key.marker).map (cost env.lex.length)).sum = c at *
        have : env.lex.length + 1 - (st.markers td.key.marker).length =
            (env.lex.length + 1 - ((st.markers td.key.marker).length + 1)) + 1 := by omega
        rw [this, Nat.add_mul] at hch
        omega
  | some old =>
    dsimp only
    have hold := h.ok _ old hm
    have hkey := h.key _ old hm
    obtain ⟨r, rb, hr⟩ := h.exists_rank e
    obtain ⟨f, rfl⟩ : ∃ f, fuel = f + 1 := ⟨fuel - 1, by omega⟩
    obtain ⟨c, ec, hc1, hc2⟩ := comparePriority_ok h r hr f td old hd hold (by rw [hkey])
      (fun c _ => by have := rb c; omega)
    rw [ec]
    simp only [Out.bind_ok]
    have same : Post env nts P st st 0 := ⟨h, c1, Le.refl _, by omega⟩
    by_cases hc : c = 1
    · rw [if_pos hc]
      obtain ⟨b, eb, hb⟩ := circ_ok h td.key r hr f td hd.kids (fun c _ => by have := rb c; omega)
      rw [eb]
      simp only [Out.bind_ok]
      cases b with
      | true =>
        refine ⟨st, rfl, same, ⟨old, hm, ?_⟩, rfl, rfl⟩
        intro cf
        obtain ⟨c', hc', hrt⟩ := hb.1 rfl
        exact absurd (h.circ_cyclic e hd hc' hrt) (cf _)
      | false =>
        have hno : ∀ c ∈ td.children, ¬ ReflTransGen (Child st.memo) c td.key := by
          intro c' hc' hrt
          have := hb.2 ⟨c', hc', hrt⟩
          simp at this
        have hsome : ∀ k, ((upd st.memo td.key (some td)) k).isSome = (st.memo k).isSome := by
          intro k
          by_cases hkt : k = td.key
          · subst hkt; simp [hm]
          · simp [upd_ne _ _ hkt]
        have hle : Le env st { st with memo := upd st.memo td.key (some td) } := by
          refine ⟨?_, ?_, fun _ _ h => h, fun _ h => h, fun _ h => h, better_replace e h hd hm hno (hc ▸ ec)⟩
          · intro k d hk
            by_cases hkt : k = td.key
            · subst hkt; rw [hm] at hk; cases hk
              exact ⟨td, by simp, hc1 hc⟩
            · exact ⟨d, by simp [upd_ne _ _ hkt, hk], Nat.le_refl _⟩
          · intro k d hk hse
            by_cases hkt : k = td.key
            · subst hkt; rw [hm] at hk; cases hk
              rcases settles_compare e h hold hd hkey hse (f := f + 1) with he | ⟨_, hlt⟩
              · simp [he]
              · have := hlt c ec
                omega
            · simp [upd_ne _ _ hkt, hk]
        refine ⟨{ st with memo := upd st.memo td.key (some td) }, by simp, ⟨?_, ?_, hle, ?_⟩, ?_, rfl, rfl⟩
        · refine ⟨?_, ?_, ?_, h.nd, acyclic_replace h.acyc hno, ?_, ?_⟩
          · intro k d hk
            by_cases hkt : k = td.key
            · subst hkt; simp at hk; rw [← hk]
            · simp only [upd_ne _ _ hkt] at hk; exact h.key k d hk
          · intro k d hk
            by_cases hkt : k = td.key
            · subst hkt; simp at hk; rw [← hk]; exact hd.mono hle
            · simp only [upd_ne _ _ hkt] at hk; exact (h.ok k d hk).mono hle
          · intro m k; rw [hsome]; exact h.mark m k
          · intro m tp ht
            have := h.part m tp ht
            exact ⟨this.1.mono hle, this.2⟩
          · intro u hu
            have := h.stk u hu
            exact ⟨this.1.mono hle, hle.isSome this.2⟩
        · intro m tp ht k hk hks
          simp only [hsome] at hks
          exact c1 m tp ht k hk hks
        · show phi env nts st ≤ _
          omega
        · exact ⟨td, by simp, fun _ => ⟨Nat.le_refl _, fun _ => rfl⟩⟩
    · rw [if_neg hc]
      refine ⟨st, rfl, same, ⟨old, hm, fun _ => ⟨hc2 hc, fun hse => ?_⟩⟩, rfl, rfl⟩
      rcases settles_compare e h hd hold hkey.symm hse (f := f + 1) with he | ⟨hgt, _⟩
      · exact he.symm
      · exact absurd (hgt c ec) hc

/-- The work item `tp` waiting for `m` is taken care of. -/
def Item2 (env : Env) (st : St) (P : Partial × Key → Prop) (tp : Partial) (m : Marker) : Prop :=
  if env.nonterms m.idx then tp ∈ st.partials m
  else env.lex[m.start]? = some m.idx →
    (tp, (leafDef m).key) ∈ st.stack ∨ P (tp, (leafDef m).key)

/-- ... and the marker it waits for is queued. -/
def Item (env : Env) (st : St) (P : Partial × Key → Prop) (tp : Partial) (m : Marker) : Prop :=
  st.queued m = true ∧ Item2 env st P tp m

theorem Item2.mono {env st st' P tp m} (h : Item2 env st P tp m) (l : Le env st st') :
    Item2 env st' P tp m := by
  unfold Item2 at *
  split
  · rename_i hn; rw [if_pos hn] at h; exact l.partials _ _ h
  · rename_i hn; rw [if_neg hn] at h
    intro hl
    rcases h hl with h | h
    · exact .inl (l.stack _ h)
    · exact .inr h

theorem Item.mono {env st st' P tp m} (h : Item env st P tp m) (l : Le env st st') :
    Item env st' P tp m := ⟨l.queued _ h.1, h.2.mono l⟩

/-- Production number `k` of `root` is taken care of. -/
def ProdOK (env : Env) (st : St) (P : Partial × Key → Prop) (root : Marker) (k : Nat) :
    List Nat → Prop
  | [] => Done env st (nilDef root k)
  | X :: p => Item env st P (initPartial root k (X :: p)) ⟨X, root.start⟩

theorem ProdOK.mono {env st st' P root k p} (h : ProdOK env st P root k p) (l : Le env st st') :
    ProdOK env st' P root k p := by
  cases p with
  | nil => exact Done.mono h l
  | cons X p => exact Item.mono h l

/-- Every queued marker outside `ex` has all its productions taken care of. -/
def C3 (env : Env) (st : St) (P : Partial × Key → Prop) (ex : Marker → Prop) : Prop :=
  ∀ m, st.queued m = true → ¬ ex m → ∀ k p, env.gram.Rule m.idx k p → ProdOK env st P m k p

theorem C3.mono {env st st' P ex} (h : C3 env st P ex) (l : Le env st st') (hq : st'.queued = st.queued) :
    C3 env st' P ex := by
  intro m hm hex k p hr
  exact (h m (by rwa [hq] at hm) hex k p hr).mono l

theorem leaf_DefOK {env : Env} {st m} (h1 : env.prods m.idx = none)
    (h2 : env.lex[m.start]? = some m.idx) : DefOK env st (leafDef m) :=
  .inl ⟨h1, h2, rfl, rfl, rfl⟩

theorem addPartialPre_spec {env nts} (e : EnvOK env nts) {P} {st : St} (h : WF env st) (c1 : C1 st P)
    {tp : Partial} {m : Marker} (hp : PartialOK env st tp m) {fuel}
    (hf : (allKeys env nts).card + 2 ≤ fuel) :
    ∃ st', addPartialPre env fuel st tp m = .ok st' ∧
      Post env nts P st st' ((env.lex.length + 1) * cost env.lex.length tp) ∧
      Item2 env st' P tp m ∧ st'.queued = st.queued := by
  unfold addPartialPre
  by_cases hn : env.nonterms m.idx = true
  · rw [if_pos hn]
    simp only [Out.bind_ok]
    rw [foldl_push']
    refine ⟨_, rfl, ?_, ?_, rfl⟩
    · have hle : Le env st { st with
          partials := upd st.partials m (st.partials m ++ [tp])
          stack := ((st.markers m).map fun td => (tp, td.key)).reverse ++ st.stack } := by
        refine ⟨fun k d hk => ⟨d, hk, Nat.le_refl _⟩, fun _ _ h _ => h, ?_, fun _ h => h, ?_, .refl _⟩
        · intro m' tp' ht
          by_cases hm : m' = m
          · subst hm; simp [ht]
          · simp [upd_ne _ _ hm, ht]
        · intro u hu; simp [hu]
      have hwf : WF env { st with
          partials := upd st.partials m (st.partials m ++ [tp])
          stack := ((st.markers m).map fun td => (tp, td.key)).reverse ++ st.stack } := by
        refine ⟨h.key, fun k d hk => (h.ok k d hk).mono hle, h.mark, h.nd, h.acyc, ?_, ?_⟩
        · intro m' tp' ht
          by_cases hm : m' = m
          · subst hm
            simp only [upd_same, List.mem_append, List.mem_singleton] at ht
            rcases ht with ht | rfl
            · exact ⟨(h.part _ _ ht).1.mono hle, hn⟩
            · exact ⟨hp.mono hle, hn⟩
          · simp only [upd_ne _ _ hm] at ht
            exact ⟨(h.part _ _ ht).1.mono hle, (h.part _ _ ht).2⟩
        · intro u hu
          simp only [List.mem_append, List.mem_reverse, List.mem_map] at hu
          rcases hu with ⟨td, ht, rfl⟩ | hu
          · have := (h.mark m td.key).1 (List.mem_map.2 ⟨td, ht, rfl⟩)
            refine ⟨?_, this.2⟩
            rw [this.1]; exact hp.mono hle
          · have := h.stk u hu
            exact ⟨this.1.mono hle, this.2⟩
      refine ⟨hwf, ?_, hle, ?_⟩
      · intro m' tp' ht k hk hks
        have hks' : (st.memo k).isSome := hks
        by_cases hm : m' = m
        · subst hm
          simp only [upd_same, List.mem_append, List.mem_singleton] at ht
          rcases ht with ht | rfl
          · rcases c1 _ _ ht k hk hks' with h1 | h1
            · left; simp [h1]
            · exact .inr h1
          · left
            obtain ⟨td, ht, he⟩ := List.mem_map.1 ((h.mark m' k).2 ⟨hk, hks'⟩)
            simp only [List.mem_append, List.mem_reverse, List.mem_map]
            exact .inl ⟨td, ht, by rw [he]⟩
        · simp only [upd_ne _ _ hm] at ht
          rcases c1 _ _ ht k hk hks' with h1 | h1
          · left; simp [h1]
          · exact .inr h1
      · have hml := markers_le h m
        have hin := mem_allM e hn hp.le2
        simp only [phi]
        have hq : (∑ t ∈ allM env nts, phiQ env { st with
          partials := upd st.partials m (st.partials m ++ [tp])
          stack := ((st.markers m).map fun td => (tp, td.key)).reverse ++ st.stack } (mk t))
          = ∑ t ∈ allM env nts, phiQ env st (mk t) := rfl
        rw [hq]
        have hs : phiStack env { st with
          partials := upd st.partials m (st.partials m ++ [tp])
          stack := ((st.markers m).map fun td => (tp, td.key)).reverse ++ st.stack }
          = (st.markers m).length * cost env.lex.length tp + phiStack env st := by
          simp only [phiStack, List.map_append, List.map_reverse, List.sum_append, List.sum_reverse,
            List.map_map, Function.comp_def]
          simp
        rw [hs]
        have hch := sum_change (f := fun t => phiPart env st (mk t)) (f' := fun t => phiPart env { st with
          partials := upd st.partials m (st.partials m ++ [tp])
          stack := ((st.markers m).map fun td => (tp, td.key)).reverse ++ st.stack } (mk t))
          hin (by
            intro t _ ht
            have : mk t ≠ m := by
              intro e; apply ht
              cases t; simp [mk] at e; simp [← e]
            simp [phiPart, upd_ne _ _ this])
        have ea : phiPart env st (mk (m.idx, m.start)) =
            (env.lex.length + 1 - (st.markers m).length) *
              ((st.partials m).map (cost env.lex.length)).sum := rfl
        have eb : phiPart env { st with
          partials := upd st.partials m (st.partials m ++ [tp])
          stack := ((st.markers m).map fun td => (tp, td.key)).reverse ++ st.stack }
            (mk (m.idx, m.start)) =
            (env.lex.length + 1 - (st.markers m).length) *
              (((st.partials m).map (cost env.lex.length)).sum + cost env.lex.length tp) := by
          simp [phiPart, mk, upd_same]
        rw [ea, eb, Nat.mul_add] at hch
        have : (env.lex.length + 1) * cost env.lex.length tp =
            (env.lex.length + 1 - (st.markers m).length) * cost env.lex.length tp +
            (st.markers m).length * cost env.lex.length tp := by
          rw [← Nat.add_mul]; congr 1; omega
        omega
    · unfold Item2
      rw [if_pos hn]
      simp
  · rw [if_neg hn]
    have hnone : env.prods m.idx = none := by
      have := e.nt m.idx
      rw [this] at hn
      simpa using hn
    -- the terminal is looked up first
    obtain ⟨st1, o, e1, post1, hleaf, hq1, hp1⟩ : ∃ st1 o, checkNonTerminal env fuel st m = .ok (st1, o) ∧
        Post env nts P st st1 0 ∧ (env.lex[m.start]? = some m.idx → (st1.memo (leafDef m).key).isSome) ∧
        st1.queued = st.queued ∧ st1.partials = st.partials := by
      unfold checkNonTerminal
      by_cases hl : env.lex[m.start]? = some m.idx
      · rw [if_pos hl]
        obtain ⟨st', e', p', d', q', pp'⟩ := addToMemo_spec e h c1 (leaf_DefOK hnone hl) hf
        refine ⟨st', some (leafDef m), by simp [e'], p', ?_, q', pp'⟩
        intro _
        obtain ⟨d, ed, _⟩ := d'
        simp [ed]
      · rw [if_neg hl]
        exact ⟨st, none, rfl, ⟨h, c1, Le.refl _, by omega⟩, fun h => absurd h hl, rfl, rfl⟩
    rw [e1]
    simp only [Out.bind_ok]
    rw [foldl_push']
    have hle : Le env st1 { st1 with
        stack := ((st1.markers m).map fun td => (tp, td.key)).reverse ++ st1.stack } :=
      ⟨fun k d hk => ⟨d, hk, Nat.le_refl _⟩, fun _ _ h _ => h, fun _ _ h => h, fun _ h => h, fun u hu => by simp [hu], .refl _⟩
    refine ⟨_, rfl, ⟨?_, ?_, post1.le.trans hle, ?_⟩, ?_, hq1⟩
    · have h1 := post1.wf
      refine ⟨h1.key, fun k d hk => (h1.ok k d hk).mono hle, h1.mark, h1.nd, h1.acyc, ?_, ?_⟩
      · intro m' tp' ht
        exact ⟨(h1.part _ _ ht).1.mono hle, (h1.part _ _ ht).2⟩
      · intro u hu
        simp only [List.mem_append, List.mem_reverse, List.mem_map] at hu
        rcases hu with ⟨td, ht, rfl⟩ | hu
        · have := (h1.mark m td.key).1 (List.mem_map.2 ⟨td, ht, rfl⟩)
          refine ⟨?_, this.2⟩
          rw [this.1]; exact hp.mono (post1.le.trans hle)
        · have := h1.stk u hu
          exact ⟨this.1.mono hle, this.2⟩
    · intro m' tp' ht k hk hks
      rcases post1.c1 m' tp' ht k hk hks with h1 | h1
      · left; simp [h1]
      · exact .inr h1
    · have hml := markers_le post1.wf m
      have hs : phiStack env { st1 with
          stack := ((st1.markers m).map fun td => (tp, td.key)).reverse ++ st1.stack }
          = (st1.markers m).length * cost env.lex.length tp + phiStack env st1 := by
        simp only [phiStack, List.map_append, List.map_reverse, List.sum_append, List.sum_reverse,
          List.map_map, Function.comp_def]
        simp
      have h1 := post1.phi
      have : phi env nts { st1 with
          stack := ((st1.markers m).map fun td => (tp, td.key)).reverse ++ st1.stack }
          = (st1.markers m).length * cost env.lex.length tp + phi env nts st1 := by
        simp only [phi]
        rw [hs]
        simp only [phiPart, phiQ]
        omega
      rw [this]
      have : (st1.markers m).length * cost env.lex.length tp ≤
          (env.lex.length + 1) * cost env.lex.length tp := Nat.mul_le_mul_right _ hml
      omega
    · unfold Item2
      rw [if_neg hn]
      intro hl
      left
      obtain ⟨td, ht, he⟩ := List.mem_map.1 ((post1.wf.mark m (leafDef m).key).2 ⟨rfl, hleaf hl⟩)
      simp only [List.mem_append, List.mem_reverse, List.mem_map]
      exact .inl ⟨td, ht, by rw [he]⟩

theorem unq_mono {env nts st st'} (l : Le env st st') : unq env nts st' ≤ unq env nts st := by
  unfold unq
  apply Finset.card_le_card
  intro t ht
  simp only [Finset.mem_filter] at ht ⊢
  refine ⟨ht.1, ?_⟩
  cases hq : st.queued (mk t) with
  | false => rfl
  | true => rw [l.queued _ hq] at ht; simp at ht

/-- What a call of `addProds` guarantees. -/
def AddProdsSpec (env : Env) (nts : Finset Nat) (P : Partial × Key → Prop)
    (rec : St → Marker → Out St) (bound : Nat) : Prop :=
  ∀ st root, WF env st → C1 st P → root.start ≤ env.lex.length → unq env nts st < bound →
    ∃ st', rec st root = .ok st' ∧ Post env nts P st st' 0 ∧
      (∀ ex, C3 env st P ex → C3 env st' P ex) ∧ st'.queued root = true

theorem init_PartialOK {env : Env} {st} {root : Marker} {k X p}
    (hr : env.gram.Rule root.idx k (X :: p)) (hq : st.queued root = true)
    (hs : root.start ≤ env.lex.length) :
    PartialOK env st (initPartial root k (X :: p)) ⟨X, root.start⟩ :=
  ⟨hr, by simpa [initPartial] using Chain.nil, by simp [initPartial], by simp [initPartial], hq,
    Nat.le_refl _, hs⟩

theorem addProdsLoop_spec {env nts} (e : EnvOK env nts) {P} {fuel}
    (hf : (allKeys env nts).card + 2 ≤ fuel) {rec bound} (hrec : AddProdsSpec env nts P rec bound)
    {root : Marker} (hs : root.start ≤ env.lex.length) :
    ∀ (ps : List (List Nat)) (k : Nat) (st : St), WF env st → C1 st P → st.queued root = true →
      unq env nts st < bound → (∀ i p, ps[i]? = some p → env.gram.Rule root.idx (k + i) p) →
      ∃ st', addProdsLoop env fuel rec root st k ps = .ok st' ∧
        Post env nts P st st'
          (ps.map fun p => (env.lex.length + 1) * W env.lex.length p.length).sum ∧
        (∀ ex, C3 env st P ex → C3 env st' P ex) ∧
        (∀ i p, ps[i]? = some p → ProdOK env st' P root (k + i) p) := by
  intro ps
  induction ps with
  | nil =>
    intro k st h c1 hq _ _
    exact ⟨st, rfl, ⟨h, c1, Le.refl _, by simp⟩, fun _ h => h, by simp⟩
  | cons p ps ih =>
    intro k st h c1 hq hu hr
    have hr' : ∀ i p, ps[i]? = some p → env.gram.Rule root.idx (k + 1 + i) p := by
      intro i p hi
      have := hr (i + 1) p (by simpa using hi)
      rwa [show k + 1 + i = k + (i + 1) by omega]
    have hr0 : env.gram.Rule root.idx k p := by simpa using hr 0 p (by simp)
    cases p with
    | nil =>
      unfold addProdsLoop
      have hd : DefOK env st (nilDef root k) :=
        .inr ⟨[], hr0, by simpa [nilDef] using Chain.nil, by simp [nilDef], hq, Nat.le_refl _, hs⟩
      obtain ⟨st1, e1, p1, d1, q1, pp1⟩ := addToMemo_spec e h c1 hd hf
      rw [e1]
      simp only [Out.bind_ok]
      obtain ⟨st2, e2, p2, c3, hp⟩ := ih (k + 1) st1 p1.wf p1.c1 (p1.le.queued _ hq)
        (Nat.lt_of_le_of_lt (unq_mono p1.le) hu) hr'
      refine ⟨st2, e2, ⟨p2.wf, p2.c1, p1.le.trans p2.le, ?_⟩, ?_, ?_⟩
      · have := p1.phi; have := p2.phi; simp only [List.map_cons, List.sum_cons]; omega
      · intro ex hex
        exact c3 ex (hex.mono p1.le q1)
      · intro i p hi
        cases i with
        | zero =>
          simp at hi
          subst hi
          exact Done.mono d1 p2.le
        | succ i =>
          have := hp i p (by simpa using hi)
          rwa [show k + 1 + i = k + (i + 1) by omega] at this
    | cons X p =>
      unfold addProdsLoop
      obtain ⟨st1, e1, p1, it1, q1⟩ := addPartialPre_spec e h c1 (init_PartialOK hr0 hq hs) hf
      rw [e1]
      simp only [Out.bind_ok]
      obtain ⟨st2, e2, p2, c32, hq2⟩ := hrec st1 ⟨X, root.start⟩ p1.wf p1.c1 hs
        (Nat.lt_of_le_of_lt (unq_mono p1.le) hu)
      rw [e2]
      simp only [Out.bind_ok]
      have l12 := p1.le.trans p2.le
      obtain ⟨st3, e3, p3, c33, hp⟩ := ih (k + 1) st2 p2.wf p2.c1 (l12.queued _ hq)
        (Nat.lt_of_le_of_lt (unq_mono l12) hu) hr'
      refine ⟨st3, e3, ⟨p3.wf, p3.c1, l12.trans p3.le, ?_⟩, ?_, ?_⟩
      · have h1 := p1.phi; have h2 := p2.phi; have h3 := p3.phi
        have : cost env.lex.length (initPartial root k (X :: p)) = W env.lex.length (X :: p).length := by
          simp [cost, Partial.rest, initPartial]
        rw [this] at h1
        simp only [List.map_cons, List.sum_cons]; omega
      · intro ex hex
        exact c33 ex (c32 ex (hex.mono p1.le q1))
      · intro i p' hi
        cases i with
        | zero =>
          simp at hi
          subst hi
          exact Item.mono ⟨hq2, it1.mono p2.le⟩ p3.le
        | succ i =>
          have := hp i p' (by simpa using hi)
          rwa [show k + 1 + i = k + (i + 1) by omega] at this

theorem addProds_spec {env nts} (e : EnvOK env nts) {P} {fuel}
    (hf : (allKeys env nts).card + 2 ≤ fuel) :
    ∀ depth, AddProdsSpec env nts P (addProds env fuel depth) depth := by
  intro depth
  induction depth with
  | zero => intro st root _ _ _ h; omega
  | succ depth ih =>
    intro st root h c1 hs hu
    unfold addProds
    by_cases hq : st.queued root = true
    · rw [if_pos hq]
      exact ⟨st, rfl, ⟨h, c1, Le.refl _, by omega⟩, fun _ h => h, hq⟩
    · rw [if_neg hq]
      dsimp only
      have hle : Le env st { st with queued := upd st.queued root true } := by
        refine ⟨fun k d hk => ⟨d, hk, Nat.le_refl _⟩, fun _ _ h _ => h, fun _ _ h => h, ?_, fun _ h => h, .refl _⟩
        intro m hm
        by_cases hmr : m = root
        · subst hmr; simp
        · simp [upd_ne _ _ hmr, hm]
      have hwf : WF env { st with queued := upd st.queued root true } :=
        ⟨h.key, fun k d hk => (h.ok k d hk).mono hle, h.mark, h.nd, h.acyc,
          fun m tp ht => ⟨(h.part m tp ht).1.mono hle, (h.part m tp ht).2⟩,
          fun u hu => ⟨(h.stk u hu).1.mono hle, (h.stk u hu).2⟩⟩
      have hc1 : C1 { st with queued := upd st.queued root true } P := c1
      -- the other markers keep their productions taken care of
      have hc3 : ∀ ex, C3 env st P ex →
          C3 env { st with queued := upd st.queued root true } P (fun m => ex m ∨ m = root) := by
        intro ex hex m hm hne k p hr
        have hmr : m ≠ root := fun e => hne (.inr e)
        simp only [upd_ne _ _ hmr] at hm
        exact (hex m hm (fun e => hne (.inl e)) k p hr).mono hle
      cases hps : env.prods root.idx with
      | none =>
        dsimp only
        refine ⟨_, rfl, ⟨hwf, hc1, hle, ?_⟩, ?_, by simp⟩
        · have : phi env nts { st with queued := upd st.queued root true } ≤ phi env nts st := by
            simp only [phi]
            have h1 : phiStack env { st with queued := upd st.queued root true } = phiStack env st := rfl
            have h2 : (∑ t ∈ allM env nts, phiPart env { st with queued := upd st.queued root true } (mk t))
                = ∑ t ∈ allM env nts, phiPart env st (mk t) := rfl
            have h3 : (∑ t ∈ allM env nts, phiQ env { st with queued := upd st.queued root true } (mk t))
                ≤ ∑ t ∈ allM env nts, phiQ env st (mk t) := by
              apply Finset.sum_le_sum
              intro t _
              unfold phiQ
              by_cases ht : mk t = root
              · rw [ht]; simp
              · simp [upd_ne _ _ ht]
            omega
          omega
        · intro ex hex m hm hne k p hr
          by_cases hmr : m = root
          · subst hmr
            obtain ⟨ps, hps', _⟩ := hr
            have hps' : env.prods m.idx = some ps := hps'
            rw [hps] at hps'; cases hps'
          · exact hc3 ex hex m hm (by simp [hne, hmr]) k p hr
      | some ps =>
        dsimp only
        have hn : env.nonterms root.idx = true := by rw [e.nt, hps]; rfl
        have hin := mem_allM e hn hs
        have hu' : unq env nts { st with queued := upd st.queued root true } < depth := by
          have : unq env nts { st with queued := upd st.queued root true } < unq env nts st := by
            unfold unq
            apply Finset.card_lt_card
            rw [Finset.ssubset_iff_of_subset]
            · refine ⟨(root.idx, root.start), ?_, ?_⟩
              · simp only [Finset.mem_filter]
                exact ⟨hin, by simpa [mk] using hq⟩
              · simp [show mk (root.idx, root.start) = root from rfl]
            · intro t ht
              simp only [Finset.mem_filter] at ht ⊢
              refine ⟨ht.1, ?_⟩
              by_cases htr : mk t = root
              · rw [htr] at ht; simp at ht
              · simpa [upd_ne _ _ htr] using ht.2
          omega
        obtain ⟨st', e', p', c3', hp'⟩ := addProdsLoop_spec e hf ih hs ps 0
          { st with queued := upd st.queued root true } hwf hc1 (by simp) hu'
          (by intro i p hi; exact ⟨ps, hps, by simpa using hi⟩)
        refine ⟨st', e', ⟨p'.wf, p'.c1, hle.trans p'.le, ?_⟩, ?_, ?_⟩
        · have h4 := p'.phi
          have : phi env nts { st with queued := upd st.queued root true } +
              (ps.map fun p => (env.lex.length + 1) * W env.lex.length p.length).sum = phi env nts st := by
            simp only [phi]
            have h1 : phiStack env { st with queued := upd st.queued root true } = phiStack env st := rfl
            have h2 : (∑ t ∈ allM env nts, phiPart env { st with queued := upd st.queued root true } (mk t))
                = ∑ t ∈ allM env nts, phiPart env st (mk t) := rfl
            have hch := sum_change (f := fun t => phiQ env st (mk t))
              (f' := fun t => phiQ env { st with queued := upd st.queued root true } (mk t)) hin (by
                intro t _ ht
                have : mk t ≠ root := by
                  intro e; apply ht
                  cases t; simp [mk] at e; simp [← e]
                simp [phiQ, upd_ne _ _ this])
            have ea : phiQ env st (mk (root.idx, root.start)) =
                (ps.map fun p => (env.lex.length + 1) * W env.lex.length p.length).sum := by
              have : mk (root.idx, root.start) = root := rfl
              rw [this]
              simp [phiQ, hq, prodsCost, hps]
            have eb : phiQ env { st with queued := upd st.queued root true } (mk (root.idx, root.start)) = 0 := by
              have : mk (root.idx, root.start) = root := rfl
              rw [this]
              simp [phiQ]
            rw [ea, eb] at hch
            omega
          omega
        · intro ex hex m hm hne k p hr
          by_cases hmr : m = root
          · subst hmr
            obtain ⟨ps', hps', hk⟩ := hr
            have hps' : env.prods m.idx = some ps' := hps'
            rw [hps] at hps'; cases hps'
            have := hp' k p hk
            simpa using this
          · exact c3' _ (hc3 ex hex) m hm (by simp [hne, hmr]) k p hr
        · exact p'.le.queued _ (by simp)

end Verif.Packrat
