import Verif.Proofs.Packrat.Loop
import Verif.Proofs.Packrat.Sound
import Verif.Proofs.MathGeom
/-
What single steps of the packrat engine do with the grammar of examples/parlexmath: 0 is `E`, 1 is `op2`, 2 is `op1`,
3 is `number`, 4 is `P`, 5 and 6 are the parentheses.
-/
namespace Verif.PMath
open Verif Verif.Packrat Verif.Spec Verif.Spec.Grammar

/-- The productions by index. -/
def mprods (i : Nat) : Option (List (List Nat)) :=
  if i = 0 then some [[0, 1, 0], [0, 2, 0], [3], [1, 3], [4]] else if i = 4 then some [[5, 0, 6]] else none

/-- The engine runs on this grammar. -/
structure MEnv (env : Env) : Prop where
  prods : env.prods = mprods
  nonterms : ∀ i, env.nonterms i = (mprods i).isSome
  lex : ∀ k ∈ env.lex, mprods k = none

/-- A nonterminal. -/
def NT (i : Nat) : Prop := i = 0 ∨ i = 4

theorem mprods_none {i} (h : ¬ NT i) : mprods i = none := by
  unfold NT at h; unfold mprods
  rw [if_neg (fun e => h (.inl e)), if_neg (fun e => h (.inr e))]

theorem MEnv.ok {env} (h : MEnv env) : EnvOK env {0, 4} := by
  refine ⟨fun i => by rw [h.nonterms, h.prods], fun i hi => ?_, fun k hk => by rw [h.prods]; exact h.lex k hk⟩
  rw [h.prods] at hi
  by_cases hn : NT i
  · rcases hn with rfl | rfl <;> simp
  · rw [mprods_none hn] at hi; cases hi

theorem MEnv.lexNT {env} (h : MEnv env) {i e : Nat} (hi : NT i) : env.lex[e]? ≠ some i := by
  intro hl
  have := h.lex i (List.mem_of_getElem? hl)
  rcases hi with rfl | rfl <;> cases this

/-! ### Partials -/

/-- `E -> . E op E`. -/
def p (i b : Nat) : Partial := initPartial ⟨0, b⟩ i [0, i + 1, 0]
/-- `E -> E . op E`. -/
def b1 (i s q : Nat) : Partial := extend (p i s) ⟨0, s, q⟩
/-- `E -> E op . E`. -/
def b2 (i s q : Nat) : Partial := extend (b1 i s q) ⟨i + 1, q, q + 1⟩
/-- `E -> . number`. -/
def aN (b : Nat) : Partial := initPartial ⟨0, b⟩ 2 [3]
/-- `E -> . op2 number`. -/
def aU (b : Nat) : Partial := initPartial ⟨0, b⟩ 3 [1, 3]
/-- `E -> op2 . number`. -/
def aU1 (b : Nat) : Partial := extend (aU b) ⟨1, b, b + 1⟩
/-- `E -> . P`. -/
def aP (b : Nat) : Partial := initPartial ⟨0, b⟩ 4 [4]
/-- `P -> . ( E )`. -/
def r0 (b : Nat) : Partial := initPartial ⟨4, b⟩ 0 [5, 0, 6]
/-- `P -> ( . E )`. -/
def r1 (b : Nat) : Partial := extend (r0 b) ⟨5, b, b + 1⟩
/-- `P -> ( E . )`. -/
def r2 (b e : Nat) : Partial := extend (r1 b) ⟨0, b + 1, e⟩

/-- The partials there are, with what they wait for. -/
inductive Form (lex : List Nat) : Partial → Marker → Prop
  | p {i b} : i ≤ 1 → Form lex (p i b) ⟨0, b⟩
  | b1 {i s q} : i ≤ 1 → Form lex (b1 i s q) ⟨i + 1, q⟩
  | b2 {i s q} : i ≤ 1 → lex[q]? = some (i + 1) → Form lex (b2 i s q) ⟨0, q + 1⟩
  | aN {b} : Form lex (aN b) ⟨3, b⟩
  | aU {b} : Form lex (aU b) ⟨1, b⟩
  | aU1 {b} : lex[b]? = some 1 → Form lex (aU1 b) ⟨3, b + 1⟩
  | aP {b} : Form lex (aP b) ⟨4, b⟩
  | r0 {b} : Form lex (r0 b) ⟨5, b⟩
  | r1 {b} : lex[b]? = some 5 → Form lex (r1 b) ⟨0, b + 1⟩
  | r2 {b e} : lex[b]? = some 5 → Form lex (r2 b e) ⟨6, e⟩

/-! ### Steps that wait for a terminal -/

/-- The entries for terminals are as they should be. -/
structure TermOK (env : Env) (st : St) : Prop where
  leaf : ∀ t e d, ¬ NT t → st.memo ⟨t, e, e + 1⟩ = some d → d.priority = 0 ∧ d.children = []
  mark : ∀ t e, ¬ NT t → (st.markers ⟨t, e⟩).map (·.key) =
    if (st.memo ⟨t, e, e + 1⟩).isSome then [⟨t, e, e + 1⟩] else []
  lex : ∀ t e, ¬ NT t → (st.memo ⟨t, e, e + 1⟩).isSome → env.lex[e]? = some t
  part : ∀ t e, ¬ NT t → st.partials ⟨t, e⟩ = []

/-- Only terminals were touched. -/
structure Keep (st st' : St) : Prop where
  partials : st'.partials = st.partials
  queued : ∀ m : Marker, NT m.idx → st'.queued m = st.queued m
  memo : ∀ k : Key, NT k.idx → st'.memo k = st.memo k
  markers : ∀ m : Marker, NT m.idx → st'.markers m = st.markers m

theorem Keep.refl (st : St) : Keep st st := ⟨rfl, fun _ _ => rfl, fun _ _ => rfl, fun _ _ => rfl⟩

theorem Keep.trans {a b c : St} (h1 : Keep a b) (h2 : Keep b c) : Keep a c :=
  ⟨h2.partials.trans h1.partials, fun m h => (h2.queued m h).trans (h1.queued m h),
    fun m h => (h2.memo m h).trans (h1.memo m h), fun m h => (h2.markers m h).trans (h1.markers m h)⟩

theorem wf_termOK {env st} (me : MEnv env) (h : WF env st) : TermOK env st := by
  have hd : ∀ t e j d, ¬ NT t → st.memo ⟨t, e, j⟩ = some d →
      env.lex[e]? = some t ∧ j = e + 1 ∧ d.children = [] ∧ d.priority = 0 := by
    intro t e j d ht hm
    have hk := h.key _ _ hm
    rcases h.ok _ _ hm with ⟨_, h2, h3, h4, h5⟩ | ⟨q, ⟨ps, hr, _⟩, _⟩
    · rw [hk] at h2 h3; exact ⟨h2, h3, h4, h5⟩
    · have hr : env.prods d.key.idx = some ps := hr
      rw [hk, me.prods, mprods_none ht] at hr; cases hr
  refine ⟨fun t e d ht hm => ⟨(hd t e _ d ht hm).2.2.2, (hd t e _ d ht hm).2.2.1⟩, ?_, ?_, ?_⟩
  · intro t e ht
    have hm := h.mark ⟨t, e⟩
    have hn := h.nd ⟨t, e⟩
    have all : ∀ k ∈ (st.markers ⟨t, e⟩).map (·.key), k = ⟨t, e, e + 1⟩ := by
      intro k hk
      obtain ⟨h1, h2⟩ := (hm k).1 hk
      obtain ⟨d, h3⟩ := Option.isSome_iff_exists.1 h2
      obtain ⟨i, s, j⟩ := k
      simp only [Key.marker, Marker.mk.injEq] at h1
      obtain ⟨rfl, rfl⟩ := h1
      rw [(hd _ _ _ d ht h3).2.1]
    split
    · rename_i hs
      have hin := (hm ⟨t, e, e + 1⟩).2 ⟨rfl, hs⟩
      revert hn all hin
      generalize (st.markers ⟨t, e⟩).map (·.key) = l
      intro hn all hin
      match l with
      | [] => cases hin
      | [a] => rw [all a (by simp)]
      | a :: b :: l =>
        have := all a (by simp)
        have := all b (by simp)
        subst_vars
        simp at hn
    · rename_i hs
      cases hl : (st.markers ⟨t, e⟩).map (·.key) with
      | nil => rfl
      | cons k l =>
        exfalso
        have := all k (by rw [hl]; simp)
        subst this
        exact hs ((hm _).1 (by rw [hl]; simp)).2
  · intro t e ht hs
    obtain ⟨d, h3⟩ := Option.isSome_iff_exists.1 hs
    exact (hd _ _ _ d ht h3).1
  · intro t e ht
    cases hp : st.partials ⟨t, e⟩ with
    | nil => rfl
    | cons a l =>
      have := (h.part ⟨t, e⟩ a (by rw [hp]; simp)).2
      rw [me.nonterms, mprods_none ht] at this; cases this

theorem upd_of {κ β : Type} [DecidableEq κ] (f : κ → β) {k x : κ} (b : β) (h : x ≠ k) : upd f k b x = f x := by
  simp [upd, h]

theorem memo_leaf {env : Env} {st st' : St} {fuel t e} (ht : ¬ NT t) (h : TermOK env st) (hl : env.lex[e]? = some t)
    (hr : addToMemo fuel st (leafDef ⟨t, e⟩) = .ok st') :
    Keep st st' ∧ TermOK env st' ∧ st'.stack = st.stack ∧ st'.queued = st.queued ∧
      (st'.memo ⟨t, e, e + 1⟩).isSome := by
  unfold addToMemo at hr
  have hk : (leafDef ⟨t, e⟩).key = ⟨t, e, e + 1⟩ := rfl
  have hkm : (leafDef ⟨t, e⟩).key.marker = ⟨t, e⟩ := rfl
  rw [hk] at hr
  cases hm : st.memo ⟨t, e, e + 1⟩ with
  | some old =>
    rw [hm] at hr
    dsimp only at hr
    have h0 := h.leaf t e old ht hm
    cases fuel with
    | zero => simp [comparePriority, Out.bind] at hr
    | succ n =>
      have : comparePriority st.get (n + 1) (leafDef ⟨t, e⟩) old = .ok 0 := by
        unfold comparePriority
        have e1 : (leafDef ⟨t, e⟩).priority = 0 := rfl
        have e2 : (leafDef ⟨t, e⟩).children = [] := rfl
        rw [e1, e2, if_neg (by simp [h0.1])]
        rfl
      rw [this] at hr
      simp only [Out.bind_ok] at hr
      rw [if_neg (by decide)] at hr
      cases hr
      exact ⟨Keep.refl _, h, rfl, rfl, by simp [hm]⟩
  | none =>
    rw [hm] at hr
    dsimp only at hr
    have hkm2 : Key.marker ⟨t, e, e + 1⟩ = ⟨t, e⟩ := rfl
    rw [hkm2] at hr
    have hp := h.part t e ht
    rw [hp] at hr
    simp only [List.foldl_nil, Out.ok.injEq] at hr
    subst hr
    have hmk := h.mark t e ht
    rw [hm] at hmk
    simp only [Option.isSome_none, Bool.false_eq_true, if_false, List.map_eq_nil_iff] at hmk
    refine ⟨⟨rfl, fun _ _ => rfl, ?_, ?_⟩, ⟨?_, ?_, ?_, h.part⟩, rfl, rfl, by simp⟩
    · intro k hn
      refine upd_of _ _ ?_
      rintro rfl; exact ht hn
    · intro m hn
      refine upd_of _ _ ?_
      rintro rfl; exact ht hn
    · intro t' e' d ht' hd
      dsimp only at hd
      by_cases hc : (⟨t', e', e' + 1⟩ : Key) = ⟨t, e, e + 1⟩
      · rw [hc, upd_same] at hd; cases hd; exact ⟨rfl, rfl⟩
      · rw [upd_of _ _ hc] at hd; exact h.leaf t' e' d ht' hd
    · intro t' e' ht'
      dsimp only
      by_cases hc : (⟨t', e'⟩ : Marker) = ⟨t, e⟩
      · cases hc
        rw [upd_same, hmk, if_pos (by simp)]
        rfl
      · have e1 := upd_of st.memo (k := ⟨t, e, e + 1⟩) (x := ⟨t', e', e' + 1⟩) (some (leafDef ⟨t, e⟩))
          (by rintro ⟨⟩; exact hc rfl)
        rw [upd_of _ _ hc, h.mark t' e' ht']
        simp only [e1]
    · intro t' e' ht' hd
      dsimp only at hd
      by_cases hc : (⟨t', e', e' + 1⟩ : Key) = ⟨t, e, e + 1⟩
      · cases hc; exact hl
      · rw [upd_of _ _ hc] at hd; exact h.lex t' e' ht' hd

theorem pre_term {env : Env} {st st' : St} {fuel t e tp} (me : MEnv env) (ht : ¬ NT t) (h : TermOK env st)
    (hr : addPartialPre env fuel st tp ⟨t, e⟩ = .ok st') :
    Keep st st' ∧ TermOK env st' ∧ st'.queued = st.queued ∧
      st'.stack = (if env.lex[e]? = some t then [(tp, ⟨t, e, e + 1⟩)] else []) ++ st.stack := by
  unfold addPartialPre at hr
  have hn : env.nonterms t = false := by rw [me.nonterms, mprods_none ht]; rfl
  dsimp only at hr
  rw [hn] at hr
  simp only [Bool.false_eq_true, if_false] at hr
  unfold checkNonTerminal at hr
  dsimp only at hr
  by_cases hl : env.lex[e]? = some t
  · rw [if_pos hl] at hr
    obtain ⟨x, hx, hr⟩ := Out.bind_eq_ok.1 hr
    obtain ⟨y, hy, hx⟩ := Out.bind_eq_ok.1 hx
    obtain ⟨z, hz, hy⟩ := Out.bind_eq_ok.1 hy
    cases hy
    cases hx
    obtain ⟨k1, k2, k3, k4, k5⟩ := memo_leaf ht h hl hz
    rw [foldl_push'] at hr
    cases hr
    have hmk := k2.mark t e ht
    rw [if_pos k5] at hmk
    have hmm : (z.markers ⟨t, e⟩).map (fun td => (tp, td.key)) = [(tp, ⟨t, e, e + 1⟩)] := by
      have : (z.markers ⟨t, e⟩).map (fun td => (tp, td.key)) = ((z.markers ⟨t, e⟩).map (·.key)).map (fun k => (tp, k)) := by
        rw [List.map_map]; rfl
      rw [this, hmk]; rfl
    refine ⟨⟨k1.partials, k1.queued, k1.memo, k1.markers⟩, ⟨k2.leaf, k2.mark, k2.lex, k2.part⟩, k4, ?_⟩
    rw [if_pos hl]
    show (List.map (fun td => (tp, td.key)) (z.markers ⟨t, e⟩)).reverse ++ z.stack = _
    rw [hmm, k3]; rfl
  · rw [if_neg hl] at hr
    simp only [Out.bind_ok] at hr
    rw [foldl_push'] at hr
    cases hr
    have hns : ¬ (st.memo ⟨t, e, e + 1⟩).isSome = true := fun hs => hl (h.lex t e ht hs)
    have hmk := h.mark t e ht
    rw [if_neg hns, List.map_eq_nil_iff] at hmk
    refine ⟨⟨rfl, fun _ _ => rfl, fun _ _ => rfl, fun _ _ => rfl⟩, ⟨h.leaf, h.mark, h.lex, h.part⟩, rfl, ?_⟩
    rw [if_neg hl]
    show (List.map (fun td => (tp, td.key)) (st.markers ⟨t, e⟩)).reverse ++ st.stack = _
    rw [hmk]; rfl

theorem rec_term {env : Env} {st st' : St} {fuel d t e} (me : MEnv env) (ht : ¬ NT t) (h : TermOK env st)
    (hr : addProds env fuel d st ⟨t, e⟩ = .ok st') :
    Keep st st' ∧ TermOK env st' ∧ st'.stack = st.stack := by
  cases d with
  | zero => cases hr
  | succ d =>
    unfold addProds at hr
    split at hr
    · cases hr; exact ⟨Keep.refl _, h, rfl⟩
    · have hn : env.prods t = none := by rw [me.prods, mprods_none ht]
      dsimp only at hr
      rw [hn] at hr
      cases hr
      refine ⟨⟨rfl, ?_, fun _ _ => rfl, fun _ _ => rfl⟩, ⟨h.leaf, h.mark, h.lex, h.part⟩, rfl⟩
      intro m hm
      refine upd_of _ _ ?_
      rintro rfl; exact ht hm

theorem term_step {env : Env} {st st' : St} {fuel t e tp} (me : MEnv env) (ht : ¬ NT t) (h : TermOK env st)
    (hr : addPartial env fuel st tp ⟨t, e⟩ = .ok st') :
    Keep st st' ∧ st'.stack = (if env.lex[e]? = some t then [(tp, ⟨t, e, e + 1⟩)] else []) ++ st.stack := by
  unfold addPartial at hr
  obtain ⟨x, hx, hr⟩ := Out.bind_eq_ok.1 hr
  obtain ⟨k1, k2, _, k3⟩ := pre_term me ht h hx
  obtain ⟨k4, _, k5⟩ := rec_term me ht k2 hr
  exact ⟨k1.trans k4, by rw [k5, k3]⟩

/-- An `update` that is not the last of its production only waits for the next symbol. -/
theorem update_next {env : Env} {st : St} {fuel n tp k X} (me : MEnv env) (hi : NT tp.td.key.idx)
    (hX : tp.prod[tp.td.children.length + 1]? = some X) :
    update env fuel (n + 1) st tp k = addPartial env fuel st (extend tp k) ⟨X, k.stop⟩ := by
  unfold update
  dsimp only
  have hlt := (List.getElem?_eq_some_iff.1 hX).1
  have e1 : (extend tp k).prod = tp.prod := rfl
  rw [e1, if_neg (by omega), hX]
  dsimp only
  have hcn : checkNonTerminal env fuel st (extend tp k).td.key.marker = .ok (st, none) := by
    unfold checkNonTerminal
    rw [if_neg]
    exact me.lexNT hi
  rw [hcn]
  simp only [Out.bind_ok]
  rfl

theorem update_last {env : Env} {st : St} {fuel n tp k} (hl : tp.td.children.length + 1 = tp.prod.length) :
    update env fuel (n + 1) st tp k = addToMemo fuel st (extend tp k).td := by
  unfold update
  dsimp only
  have e1 : (extend tp k).prod = tp.prod := rfl
  rw [e1, if_pos hl]

/-! ### Asking for an expression -/

/-- A partial that waits for a nonterminal of which nothing is known yet. -/
theorem pre_fresh {env : Env} {st : St} {fuel tp} {m : Marker} (me : MEnv env) (hm : NT m.idx) (hk : st.markers m = []) :
    addPartialPre env fuel st tp m = .ok { st with partials := upd st.partials m (st.partials m ++ [tp]) } := by
  unfold addPartialPre
  have hn : env.nonterms m.idx = true := by
    rw [me.nonterms]
    rcases hm with hm | hm <;> rw [hm] <;> rfl
  rw [hn, if_pos rfl]
  simp only [Out.bind_ok]
  rw [hk]
  rfl

theorem rec_queued {env : Env} {st st' : St} {fuel d m} (hq : st.queued m = true) (h : addProds env fuel d st m = .ok st') :
    st' = st := by
  cases d with
  | zero => cases h
  | succ d =>
    unfold addProds at h
    rw [if_pos hq] at h
    cases h; rfl

/-- The item that a fresh request for an expression leaves on the stack. -/
inductive Start (lex : List Nat) (e : Nat) : List (Partial × Key) → Prop
  | none : Start lex e []
  | num : lex[e]? = some 3 → Start lex e [(aN e, ⟨3, e, e + 1⟩)]
  | un : lex[e]? = some 1 → Start lex e [(aU e, ⟨1, e, e + 1⟩)]
  | par : lex[e]? = some 5 → Start lex e [(r0 e, ⟨5, e, e + 1⟩)]

theorem not_NT {i : Nat} (h : i = 1 ∨ i = 2 ∨ i = 3 ∨ i = 5 ∨ i = 6) : ¬ NT i := by unfold NT; omega

theorem fresh_P {env : Env} {st st' : St} {fuel d e} (me : MEnv env) (ht : TermOK env st)
    (hq : ¬ st.queued ⟨4, e⟩ = true) (hr : addProds env fuel d st ⟨4, e⟩ = .ok st') :
    TermOK env st' ∧ st'.partials = st.partials ∧
      (∀ m : Marker, NT m.idx → (st'.queued m = true ↔ st.queued m = true ∨ m = ⟨4, e⟩)) ∧
      (∀ k : Key, NT k.idx → st'.memo k = st.memo k) ∧
      st'.stack = (if env.lex[e]? = some 5 then [(r0 e, ⟨5, e, e + 1⟩)] else []) ++ st.stack := by
  cases d with
  | zero => cases hr
  | succ d =>
    unfold addProds at hr
    rw [if_neg hq] at hr
    have hp : env.prods 4 = some [[5, 0, 6]] := by rw [me.prods]; rfl
    dsimp only at hr
    rw [hp] at hr
    dsimp only at hr
    simp only [addProdsLoop] at hr
    obtain ⟨s1, h1, hr⟩ := Out.bind_eq_ok.1 hr
    obtain ⟨s2, h2, hr⟩ := Out.bind_eq_ok.1 hr
    cases hr
    have ht0 : TermOK env { st with queued := upd st.queued ⟨4, e⟩ true } := ⟨ht.leaf, ht.mark, ht.lex, ht.part⟩
    obtain ⟨k1, t1, q1, g1⟩ := pre_term me (not_NT (by simp)) ht0 h1
    obtain ⟨k2, t2, g2⟩ := rec_term me (not_NT (by simp)) t1 h2
    refine ⟨t2, by rw [k2.partials, k1.partials], ?_, ?_, by rw [g2, g1]; rfl⟩
    · intro m hm
      rw [k2.queued m hm, k1.queued m hm]
      dsimp only
      by_cases hc : m = ⟨4, e⟩
      · rw [hc, upd_same]; simp
      · rw [upd_of _ _ hc]; simp [hc]
    · intro k hk
      rw [k2.memo k hk, k1.memo k hk]

theorem fresh_E {env : Env} {st st' : St} {fuel d e} (me : MEnv env) (ht : TermOK env st)
    (hq : ¬ st.queued ⟨0, e⟩ = true) (hqP : ¬ st.queued ⟨4, e⟩ = true)
    (hm : st.markers ⟨0, e⟩ = []) (hmP : st.markers ⟨4, e⟩ = [])
    (hr : addProds env fuel d st ⟨0, e⟩ = .ok st') :
    st'.partials = upd (upd st.partials ⟨0, e⟩ (st.partials ⟨0, e⟩ ++ [p 0 e, p 1 e])) ⟨4, e⟩
        (st.partials ⟨4, e⟩ ++ [aP e]) ∧
      (∀ m : Marker, NT m.idx → (st'.queued m = true ↔ st.queued m = true ∨ m = ⟨0, e⟩ ∨ m = ⟨4, e⟩)) ∧
      (∀ k : Key, NT k.idx → st'.memo k = st.memo k) ∧
      ∃ S, Start env.lex e S ∧ st'.stack = S ++ st.stack := by
  cases d with
  | zero => cases hr
  | succ d =>
    unfold addProds at hr
    rw [if_neg hq] at hr
    have hp : env.prods 0 = some [[0, 1, 0], [0, 2, 0], [3], [1, 3], [4]] := by rw [me.prods]; rfl
    dsimp only at hr
    rw [hp] at hr
    dsimp only at hr
    simp only [addProdsLoop] at hr
    obtain ⟨s1, h1, hr⟩ := Out.bind_eq_ok.1 hr
    obtain ⟨s2, h2, hr⟩ := Out.bind_eq_ok.1 hr
    obtain ⟨s3, h3, hr⟩ := Out.bind_eq_ok.1 hr
    obtain ⟨s4, h4, hr⟩ := Out.bind_eq_ok.1 hr
    obtain ⟨s5, h5, hr⟩ := Out.bind_eq_ok.1 hr
    obtain ⟨s6, h6, hr⟩ := Out.bind_eq_ok.1 hr
    obtain ⟨s7, h7, hr⟩ := Out.bind_eq_ok.1 hr
    obtain ⟨s8, h8, hr⟩ := Out.bind_eq_ok.1 hr
    obtain ⟨s9, h9, hr⟩ := Out.bind_eq_ok.1 hr
    obtain ⟨s10, h10, hr⟩ := Out.bind_eq_ok.1 hr
    cases hr
    rw [pre_fresh me (.inl rfl) (by exact hm)] at h1
    cases h1
    have e2 := rec_queued (by exact upd_same _ _ _) h2
    subst e2
    rw [pre_fresh me (.inl rfl) (by exact hm)] at h3
    cases h3
    have e4 := rec_queued (by exact upd_same _ _ _) h4
    subst e4
    dsimp only at h5
    simp only [upd_same] at h5
    have nE : ∀ t e', ¬ NT t → (⟨t, e'⟩ : Marker) ≠ ⟨0, e⟩ := by rintro t e' ht ⟨⟩; exact ht (.inl rfl)
    obtain ⟨k5, t5, q5, g5⟩ := pre_term me (not_NT (by simp)) (by
      refine ⟨ht.leaf, ht.mark, ht.lex, ?_⟩
      intro t e' hnt
      show upd (upd _ _ _) _ _ _ = []
      rw [upd_of _ _ (nE t e' hnt), upd_of _ _ (nE t e' hnt)]
      exact ht.part t e' hnt) h5
    obtain ⟨k6, t6, g6⟩ := rec_term me (not_NT (by simp)) t5 h6
    obtain ⟨k7, t7, q7, g7⟩ := pre_term me (not_NT (by simp)) t6 h7
    obtain ⟨k8, t8, g8⟩ := rec_term me (not_NT (by simp)) t7 h8
    have k := ((k5.trans k6).trans k7).trans k8
    have hm8 : s8.markers ⟨4, e⟩ = [] := by rw [k.markers _ (.inr rfl)]; exact hmP
    rw [pre_fresh me (.inr rfl) hm8] at h9
    cases h9
    have hq8 : ¬ s8.queued ⟨4, e⟩ = true := by
      rw [k.queued _ (.inr rfl)]
      show ¬ upd st.queued ⟨0, e⟩ true ⟨4, e⟩ = true
      rw [upd_of _ _ (by simp)]; exact hqP
    obtain ⟨_, g10, q10, m10, s10⟩ := fresh_P me (by
      refine ⟨t8.leaf, t8.mark, t8.lex, ?_⟩
      intro t e' hnt
      show upd _ _ _ _ = []
      rw [upd_of _ _ (by rintro ⟨⟩; exact hnt (.inr rfl))]
      exact t8.part t e' hnt) (by exact hq8) h10
    have kp : s8.partials = upd st.partials ⟨0, e⟩ (st.partials ⟨0, e⟩ ++ [p 0 e, p 1 e]) := by
      rw [k.partials]
      funext m
      by_cases hc : m = ⟨0, e⟩
      · rw [hc, upd_same]
        dsimp only
        rw [upd_same, List.append_assoc]; rfl
      · rw [upd_of _ _ hc]
        dsimp only
        rw [upd_of _ _ hc, upd_of _ _ hc]
    refine ⟨?_, ?_, ?_, ?_⟩
    · rw [g10]
      dsimp only
      have e4 : s8.partials ⟨4, e⟩ = st.partials ⟨4, e⟩ := by rw [kp]; exact upd_of _ _ (by simp)
      rw [e4, kp]
      rfl
    · intro m hm
      rw [q10 m hm]
      dsimp only
      rw [k.queued m hm]
      dsimp only
      by_cases hc : m = ⟨0, e⟩
      · rw [hc, upd_same]; simp
      · rw [upd_of _ _ hc]; simp [hc]
    · intro k' hk
      rw [m10 k' hk]
      dsimp only
      rw [k.memo k' hk]
    · rw [s10]
      dsimp only
      rw [g8, g7, g6, g5]
      by_cases h5 : env.lex[e]? = some 5
      · refine ⟨_, .par h5, ?_⟩
        rw [h5]; simp
      · by_cases h1 : env.lex[e]? = some 1
        · refine ⟨_, .un h1, ?_⟩
          rw [h1]; simp [aU]
        · by_cases h3 : env.lex[e]? = some 3
          · refine ⟨_, .num h3, ?_⟩
            rw [h3]; simp [aN]
          · refine ⟨_, .none, ?_⟩
            rw [if_neg h5, if_neg h1, if_neg h3]; rfl

/-- Asking for an expression where one was asked for before. -/
theorem again_E {env : Env} {st st' : St} {fuel e tp} (me : MEnv env) (hq : st.queued ⟨0, e⟩ = true)
    (hr : addPartial env fuel st tp ⟨0, e⟩ = .ok st') :
    st'.partials = upd st.partials ⟨0, e⟩ (st.partials ⟨0, e⟩ ++ [tp]) ∧ st'.queued = st.queued ∧ st'.memo = st.memo ∧
      st'.stack = ((st.markers ⟨0, e⟩).map fun td => (tp, td.key)).reverse ++ st.stack := by
  unfold addPartial at hr
  obtain ⟨s1, h1, hr⟩ := Out.bind_eq_ok.1 hr
  unfold addPartialPre at h1
  have hn : env.nonterms 0 = true := by rw [me.nonterms]; rfl
  dsimp only at h1
  rw [hn, if_pos rfl] at h1
  simp only [Out.bind_ok] at h1
  rw [foldl_push'] at h1
  cases h1
  have := rec_queued (by exact hq) hr
  subst this
  exact ⟨rfl, rfl, rfl, rfl⟩

/-- Asking for an expression for the first time. -/
theorem first_E {env : Env} {st st' : St} {fuel e tp} (me : MEnv env) (ht : TermOK env st)
    (hq : ¬ st.queued ⟨0, e⟩ = true) (hqP : ¬ st.queued ⟨4, e⟩ = true)
    (hm : st.markers ⟨0, e⟩ = []) (hmP : st.markers ⟨4, e⟩ = [])
    (hr : addPartial env fuel st tp ⟨0, e⟩ = .ok st') :
    st'.partials = upd (upd st.partials ⟨0, e⟩ (st.partials ⟨0, e⟩ ++ [tp, p 0 e, p 1 e])) ⟨4, e⟩
        (st.partials ⟨4, e⟩ ++ [aP e]) ∧
      (∀ m : Marker, NT m.idx → (st'.queued m = true ↔ st.queued m = true ∨ m = ⟨0, e⟩ ∨ m = ⟨4, e⟩)) ∧
      (∀ k : Key, NT k.idx → st'.memo k = st.memo k) ∧
      ∃ S, Start env.lex e S ∧ st'.stack = S ++ st.stack := by
  unfold addPartial at hr
  obtain ⟨s1, h1, hr⟩ := Out.bind_eq_ok.1 hr
  rw [pre_fresh me (.inl rfl) hm] at h1
  cases h1
  obtain ⟨a1, a2, a3, a4⟩ := fresh_E me (by
    refine ⟨ht.leaf, ht.mark, ht.lex, ?_⟩
    intro t e' hnt
    show upd _ _ _ _ = []
    rw [upd_of _ _ (by rintro ⟨⟩; exact hnt (.inl rfl))]
    exact ht.part t e' hnt) (by exact hq) (by exact hqP) (by exact hm) (by exact hmP) hr
  refine ⟨?_, a2, a3, a4⟩
  rw [a1]
  dsimp only
  have e4 : ∀ x, upd st.partials ⟨0, e⟩ x ⟨4, e⟩ = st.partials ⟨4, e⟩ := fun x => upd_of _ _ (by simp)
  rw [upd_same, e4, List.append_assoc]
  congr 1
  funext m
  by_cases hc : m = ⟨0, e⟩
  · rw [hc, upd_same, upd_same]; rfl
  · rw [upd_of _ _ hc, upd_of _ _ hc, upd_of _ _ hc]

/-! ### Storing -/

theorem memo_new {st st' : St} {fuel td} (hn : st.memo td.key = none) (hr : addToMemo fuel st td = .ok st') :
    st'.memo = upd st.memo td.key (some td) ∧ st'.partials = st.partials ∧ st'.queued = st.queued ∧
      st'.stack = ((st.partials td.key.marker).map fun tp => (tp, td.key)).reverse ++ st.stack := by
  unfold addToMemo at hr
  rw [hn] at hr
  dsimp only at hr
  rw [foldl_push] at hr
  cases hr
  exact ⟨rfl, rfl, rfl, rfl⟩

theorem circ_reach (get : Key → Def) (root : Key) (R : Key → Key → Prop) (hR : ∀ k, ∀ c ∈ (get k).children, R k c) :
    ∀ n d, createsCircularDep get root n d = .ok true → ∃ c ∈ d.children, Relation.ReflTransGen R c root := by
  intro n
  induction n with
  | zero => intro d h; cases h
  | succ n ih =>
    intro d h
    unfold createsCircularDep at h
    revert h
    generalize d.children = ks
    intro h
    induction ks with
    | nil => cases h
    | cons k ks ihk =>
      unfold circKids at h
      split at h
      · rename_i hk; exact ⟨k, by simp, by rw [hk]⟩
      · obtain ⟨b, hb, h⟩ := Out.bind_eq_ok.1 h
        cases b with
        | true =>
          obtain ⟨c, hc, hp⟩ := ih _ hb
          exact ⟨k, by simp, .head (hR k c hc) hp⟩
        | false =>
          obtain ⟨c, hc, hp⟩ := ihk h
          exact ⟨c, by simp [hc], hp⟩

/-- What storing does when there is an entry already. -/
theorem memo_old {st st' : St} {fuel td old} (hn : st.memo td.key = some old) (hr : addToMemo fuel st td = .ok st') :
    st'.partials = st.partials ∧ st'.queued = st.queued ∧ st'.stack = st.stack ∧
      ∃ c, comparePriority st.get fuel td old = .ok c ∧
        ((c ≠ 1 ∧ st'.memo = st.memo) ∨
          (c = 1 ∧ st'.memo = upd st.memo td.key (some td)) ∨
          (c = 1 ∧ st'.memo = st.memo ∧ createsCircularDep st.get td.key fuel td = .ok true)) := by
  unfold addToMemo at hr
  rw [hn] at hr
  dsimp only at hr
  obtain ⟨c, hc, hr⟩ := Out.bind_eq_ok.1 hr
  split at hr
  · rename_i h1
    obtain ⟨b, hb, hr⟩ := Out.bind_eq_ok.1 hr
    cases b with
    | true => cases hr; exact ⟨rfl, rfl, rfl, c, hc, .inr (.inr ⟨h1, rfl, hb⟩)⟩
    | false => cases hr; exact ⟨rfl, rfl, rfl, c, hc, .inr (.inl ⟨h1, rfl⟩)⟩
  · rename_i h1
    cases hr
    exact ⟨rfl, rfl, rfl, c, hc, .inl ⟨h1, rfl⟩⟩

end Verif.PMath
