import Verif.Model.ConcurrentParse
import Verif.Proofs.Concurrent
import Verif.Proofs.Grammar
import Verif.Proofs.Packrat.Lift
/-
Parsers only ask for symbols that the set of the grammar has, so they do not write to it.
-/
namespace Verif.Spec
variable {X S α β : Type}

/-- Run alone, it writes nothing and returns the value. -/
structure Gives (p : Prog X S α) (s : S) (a : α) : Prop where
  quiet : ¬ p.Writes s
  val : (p.run s).1 = a

theorem gives_ret (a : α) (s : S) : Gives (.ret a : Prog X S α) s a := ⟨fun ⟨_, h⟩ => Prog.meets_ret h, rfl⟩

theorem Gives.read {x : X} {k : S → Prog X S α} {s : S} {a : α} (h : Gives (k s) s a) : Gives (.read x k) s a :=
  ⟨fun ⟨y, hy⟩ => h.quiet ⟨y, Prog.meets_read.1 hy⟩, h.val⟩

theorem Gives.bind {p : Prog X S α} {f : α → Prog X S β} {s : S} {a : α} {b : β} (h : Gives p s a) (h' : Gives (f a) s b) :
    Gives (p.bind f) s b := by
  have e := Prog.run_snd p s h.quiet
  have e' := h.val
  refine ⟨fun ⟨y, hy⟩ => ?_, by rw [Prog.run_bind, e, e']; exact h'.val⟩
  rw [Prog.meets_bind, e, e'] at hy
  exact hy.elim (fun hy => h.quiet ⟨y, hy⟩) fun hy => h'.quiet ⟨y, hy⟩

theorem Gives.andThen {p : Prog X S (Out α)} {f : α → Prog X S (Out β)} {s : S} {o : Out α} {h : α → Out β} (hp : Gives p s o)
    (hf : ∀ a, o = .ok a → Gives (f a) s (h a)) : Gives (p.andThen f) s (o.bind h) := by
  refine hp.bind ?_
  cases o with
  | ok a => exact hf a rfl
  | panic => exact gives_ret _ _
  | fuel => exact gives_ret _ _

end Verif.Spec

namespace Verif
open Verif.Spec Verif.SetSymbol Verif.Grammar
variable {τ V : Type} [DecidableEq τ]

omit [DecidableEq τ] in
theorem gives_name {s : SymSet τ} {i : Nat} {x : τ} (h : s.symb2str[i]? = some x) : Gives (nameP i) s (.ok x) := by
  refine Gives.read ?_
  rw [h]
  exact gives_ret _ _

omit [DecidableEq τ] in
theorem Nm.cons_inv {s : SymSet τ} {i : Nat} {p : List Nat} {xs : List τ} (h : Nm s (i :: p) xs) :
    ∃ x ys, xs = x :: ys ∧ s.symb2str[i]? = some x ∧ Nm s p ys := by
  unfold Nm at *
  cases xs with
  | nil => simp at h
  | cons x ys =>
    simp only [List.map_cons, List.cons.injEq] at h
    exact ⟨x, ys, rfl, h.1, h.2⟩

omit [DecidableEq τ] in
theorem Nm.nil_inv {s : SymSet τ} {xs : List τ} (h : Nm s [] xs) : xs = [] := by
  unfold Nm at h
  simpa using h.symm

omit [DecidableEq τ] in
theorem Nm.mem {s : SymSet τ} : ∀ {p : List Nat} {xs : List τ}, Nm s p xs → ∀ x ∈ xs, x ∈ s.symb2str
  | [], xs, h => by rw [Nm.nil_inv h]; simp
  | i :: p, xs, h => by
    obtain ⟨x, ys, rfl, h1, h2⟩ := Nm.cons_inv h
    intro y hy
    rcases List.mem_cons.1 hy with rfl | hy
    · exact List.mem_of_getElem? h1
    · exact Nm.mem h2 y hy

omit [DecidableEq τ] in
theorem PNm.mem {s : SymSet τ} {ps : List (List Nat)} {xss : List (List τ)} (h : PNm s ps xss) :
    ∀ xs ∈ xss, ∀ x ∈ xs, x ∈ s.symb2str := by
  induction h with
  | nil => simp
  | cons h _ ih =>
    intro xs hxs
    rcases List.mem_cons.1 hxs with rfl | hxs
    · exact Nm.mem h
    · exact ih xs hxs

omit [DecidableEq τ] in
theorem PNm.flatten {s : SymSet τ} {ps : List (List Nat)} {xss : List (List τ)} (h : PNm s ps xss) :
    Nm s ps.flatten xss.flatten := by
  induction h with
  | nil => rfl
  | cons h _ ih => exact h.append ih

omit [DecidableEq τ] in
theorem gives_names {s : SymSet τ} : ∀ {p : List Nat} {xs : List τ}, Nm s p xs → Gives (namesP p) s (.ok xs)
  | [], xs, h => by rw [Nm.nil_inv h]; exact gives_ret _ _
  | i :: p, xs, h => by
    obtain ⟨x, ys, rfl, h1, h2⟩ := Nm.cons_inv h
    rw [namesP]
    refine (gives_name h1).andThen (h := fun _ => .ok (x :: ys)) fun a ha => ?_
    cases ha
    refine (gives_names h2).andThen (h := fun _ => .ok (x :: ys)) fun a ha => ?_
    cases ha
    exact gives_ret _ _

omit [DecidableEq τ] in
theorem gives_namess {s : SymSet τ} {ps : List (List Nat)} {xss : List (List τ)} (h : PNm s ps xss) :
    Gives (namessP ps) s (.ok xss) := by
  induction h with
  | nil => exact gives_ret _ _
  | @cons p xs ps xss h _ ih =>
    rw [namessP]
    refine (gives_names h).andThen (h := fun _ => .ok (xs :: xss)) fun a ha => ?_
    cases ha
    refine ih.andThen (h := fun _ => .ok (xs :: xss)) fun a ha => ?_
    cases ha
    exact gives_ret _ _

omit [DecidableEq τ] in
theorem gives_nts {α : Type} {p : GramProg τ α} {s : SymSet τ} {a : α} (h : Gives p s a) : ∀ n, Gives (ntsP p n) s a
  | 0 => h
  | n + 1 => Gives.read (gives_nts h n)

/-- Asking for the productions of a symbol in the set. -/
theorem gives_query {g : Gram τ} {adds} (hr : Rep g adds) {x : τ} (hx : x ∈ g.set.symb2str) :
    ∃ o, Gives (queryP g x) g.set o ∧
      match o, (record adds).prods x with
      | none, none => True
      | some ps, some xss => PNm g.set ps xss
      | _, _ => False := by
  obtain ⟨i, hi⟩ := Option.isSome_iff_exists.1 ((hr.inv.mem x).2 hx)
  have h1 := str_idx hr.inv x
  have e : str g.set x = (g.set, i) := by unfold str; rw [hi]
  rw [e] at h1
  refine ⟨g.productions[i]?.join, ?_, hr.prods x i h1⟩
  refine Gives.bind (a := i) ?_ (gives_ret _ _)
  refine Gives.read ?_
  rw [hi]
  exact gives_ret _ _

theorem gives_load {g : Gram τ} {adds} (hr : Rep g adds) : ∀ {nts : List Nat} {xs : List τ}, Nm g.set nts xs →
    Gives (loadP g nts) g.set (Packrat.grammarSyms (record adds) xs)
  | [], xs, h => by rw [Nm.nil_inv h]; exact gives_ret _ _
  | i :: nts, xs, h => by
    obtain ⟨x, ys, rfl, h1, h2⟩ := Nm.cons_inv h
    rw [loadP, Packrat.grammarSyms]
    refine (gives_name h1).andThen (h := fun _ => _) fun a ha => ?_
    cases ha
    have h3 := hr.prods x i h1
    revert h3
    cases g.productions[i]?.join with
    | none =>
      cases (record adds).prods x with
      | none => exact fun _ => gives_ret _ _
      | some xss => exact fun h => h.elim
    | some ps =>
      cases (record adds).prods x with
      | none => exact fun h => h.elim
      | some xss =>
        intro h3
        refine (gives_names (PNm.flatten h3)).andThen (h := fun _ => _) fun a ha => ?_
        cases ha
        refine (gives_load hr h2).andThen fun a ha => ?_
        exact gives_ret _ _

/-- A symbol of the grammar, in both sets. -/
def Both (g : Gram τ) (os : SymSet τ) (x : τ) : Prop := x ∈ g.set.symb2str ∧ x ∈ os.symb2str

theorem idxProds_both {G : Spec.Grammar τ} {os : SymSet τ} (h : Packrat.SetOK G os) {x : τ} (hx : x ∈ os.symb2str) :
    Packrat.idxProds G os (Packrat.symIdx os x) = (G.prods x).map fun ps => ps.map fun p => p.map (Packrat.symIdx os) := by
  unfold Packrat.idxProds
  rw [Packrat.symIdx_get h.inv hx]

theorem both_prods {g : Gram τ} {adds} {os : SymSet τ} (h : Packrat.SetOK (record adds) os) {x : τ} {ps : List (List Nat)}
    {xss : List (List τ)} (hp : PNm g.set ps xss) (e : (record adds).prods x = some xss) : ∀ xs ∈ xss, ∀ y ∈ xs, Both g os y := by
  intro xs hxs y hy
  obtain ⟨k, hk⟩ := List.mem_iff_getElem?.1 hxs
  exact ⟨PNm.mem hp xs hxs y hy, h.syms x k xs ⟨xss, e, hk⟩ y hy⟩

namespace Topdown

theorem gives_prodLoop {g : Gram τ} {os : SymSet τ}
    {recP : Memo Nat V → Nat → Nat → GramProg τ (Out (Memo Nat V × Option (Resp Nat V)))}
    {rec : Memo Nat V → Nat → Nat → Out (Memo Nat V × Option (Resp Nat V))}
    (hrec : ∀ m x pos, Both g os x → Gives (recP m (Packrat.symIdx os x) pos) g.set (rec m (Packrat.symIdx os x) pos)) :
    ∀ {p : List Nat} {xs : List τ} (m : Memo Nat V) (pos : Nat), Nm g.set p xs → (∀ x ∈ xs, Both g os x) →
      Gives (prodLoopP os recP m p pos) g.set (prodLoop rec m (xs.map (Packrat.symIdx os)) pos)
  | [], xs, m, pos, h, _ => by rw [Nm.nil_inv h]; exact gives_ret _ _
  | i :: p, xs, m, pos, h, hb => by
    obtain ⟨x, ys, rfl, h1, h2⟩ := Nm.cons_inv h
    rw [prodLoopP, List.map_cons, prodLoop]
    refine (gives_name h1).andThen (h := fun _ => _) fun a ha => ?_
    cases ha
    refine (hrec m x pos (hb x List.mem_cons_self)).andThen fun r _ => ?_
    cases r.2 with
    | none => exact gives_ret _ _
    | some a =>
      refine (gives_prodLoop hrec r.1 a.stop h2 fun y hy => hb y (List.mem_cons_of_mem _ hy)).andThen fun q _ => ?_
      cases q.2 with
      | none => exact gives_ret _ _
      | some z => exact gives_ret _ _

theorem gives_prodsLoop {g : Gram τ} {os : SymSet τ} (ev : V)
    {recP : Memo Nat V → Nat → Nat → GramProg τ (Out (Memo Nat V × Option (Resp Nat V)))}
    {rec : Memo Nat V → Nat → Nat → Out (Memo Nat V × Option (Resp Nat V))}
    (hrec : ∀ m x pos, Both g os x → Gives (recP m (Packrat.symIdx os x) pos) g.set (rec m (Packrat.symIdx os x) pos))
    (len s pos : Nat) (all : Bool) {ps : List (List Nat)} {xss : List (List τ)} (hp : PNm g.set ps xss)
    (hb : ∀ xs ∈ xss, ∀ y ∈ xs, Both g os y) (m : Memo Nat V) :
    Gives (prodsLoopP ev os recP len s pos all m ps) g.set
      (prodsLoop ev rec len s pos all m (xss.map fun p => p.map (Packrat.symIdx os))) := by
  induction hp generalizing m with
  | nil => exact gives_ret _ _
  | cons h _ ih =>
    have ih := ih fun xs hxs => hb xs (List.mem_cons_of_mem _ hxs)
    rw [prodsLoopP, List.map_cons, prodsLoop]
    refine (gives_prodLoop hrec m pos h (hb _ List.mem_cons_self)).andThen fun r _ => ?_
    cases r.2 with
    | none => exact ih _
    | some z =>
      dsimp only
      split
      · exact gives_ret _ _
      · exact ih _

theorem gives_accept {g : Gram τ} {adds} (hr : Rep g adds) {os : SymSet τ} (ho : Packrat.SetOK (record adds) os) (ev : V)
    (lxs : List (Lexeme Nat V)) : ∀ (n : Nat) (m : Memo Nat V) (x : τ) (pos : Nat) (all : Bool), Both g os x →
      Gives (acceptP ev g os lxs n m (Packrat.symIdx os x) pos all) g.set
        (accept ev (Packrat.idxProds (record adds) os) lxs n m (Packrat.symIdx os x) pos all)
  | 0, m, x, pos, all, _ => gives_ret _ _
  | n + 1, m, x, pos, all, hx => by
    rw [acceptP, accept]
    cases m (Packrat.symIdx os x, pos) with
    | some r => exact gives_ret _ _
    | none =>
      refine Gives.andThen ?_ fun r _ => gives_ret _ _
      unfold tryAcceptP tryAccept
      rw [Packrat.symIdx_get ho.inv hx.2, idxProds_both ho hx.2]
      obtain ⟨o, h1, h2⟩ := gives_query hr hx.1
      refine h1.bind ?_
      revert h2
      cases o with
      | none =>
        cases (record adds).prods x with
        | none =>
          intro _
          simp only [leaf, Option.map_none]
          cases lxs[pos]? with
          | none => exact gives_ret _ _
          | some l =>
            by_cases hk : Packrat.symIdx os x = l.kind
            · simp only [hk, if_true]; exact gives_ret _ _
            · simp only [hk, if_false]; exact gives_ret _ _
        | some xss => exact fun h => h.elim
      | some ps =>
        cases e : (record adds).prods x with
        | none => exact fun h => h.elim
        | some xss =>
          intro h2
          exact gives_prodsLoop ev (fun m y pos hy => gives_accept hr ho ev lxs n m y pos false hy) _ _ _ _ h2
            (both_prods ho h2 e) m

theorem gives_parse {g : Gram τ} {adds} (hr : Rep g adds) (ev : V) (lexemes : List (Lexeme τ V)) (fuel : Nat) :
    Gives (parseP ev g lexemes fuel) g.set (parse ev (record adds) lexemes fuel) := by
  have hn := hr.order
  unfold parseP parse
  refine gives_nts ?_ _
  cases eo : g.order with
  | nil =>
    rw [eo] at hn
    rw [Nm.nil_inv hn]
    exact gives_ret _ _
  | cons start rest =>
    rw [eo] at hn
    obtain ⟨x, ys, e, h1, h2⟩ := Nm.cons_inv hn
    obtain ⟨os, h3, h4, -, -⟩ := Packrat.loadSet_ok (record adds) (record_wf adds) lexemes
    have hb : Both g os x := ⟨List.mem_of_getElem? h1, h4.order x (by rw [e]; exact List.mem_cons_self)⟩
    rw [e]
    dsimp only
    rw [h3, Out.bind_ok]
    refine gives_nts ?_ _
    unfold Packrat.loadSet at h3
    obtain ⟨syms, h5, h6⟩ := Out.bind_eq_ok.1 h3
    cases h6
    have h7 := gives_load hr hn
    rw [h5] at h7
    refine h7.andThen (h := fun _ => _) fun a ha => ?_
    cases ha
    refine (gives_name h1).andThen (h := fun _ => _) fun a ha => ?_
    cases ha
    refine (gives_accept hr h4 ev _ fuel (fun _ => none) x 0 true hb).andThen fun r _ => ?_
    cases r.2 with
    | none => exact gives_ret _ _
    | some a => exact gives_ret _ _

end Topdown

namespace Packrat

/-- Symbols of partials are good. -/
structure KSt (P : Nat → Prop) (st : St) : Prop where
  partials : ∀ m, ∀ tp ∈ st.partials m, ∀ i ∈ tp.prod, P i
  stack : ∀ x ∈ st.stack, ∀ i ∈ x.1.prod, P i

theorem KSt.init (P : Nat → Prop) : KSt P St.init := ⟨by simp [St.init], by simp [St.init]⟩

theorem KSt.pushes {P : Nat → Prop} : ∀ (l : List (Partial × Key)) {st : St}, KSt P st → (∀ x ∈ l, ∀ i ∈ x.1.prod, P i) →
    KSt P (l.foldl (fun s x => push s x.1 x.2) st)
  | [], _, h, _ => h
  | x :: l, st, h, hl => by
    refine KSt.pushes l ⟨h.partials, ?_⟩ fun y hy => hl y (List.mem_cons_of_mem _ hy)
    intro y hy
    rcases List.mem_cons.1 hy with rfl | hy
    · exact hl _ List.mem_cons_self
    · exact h.stack y hy

theorem KSt.memo {P : Nat → Prop} {fuel : Nat} {st st' : St} {td : Def} (h : KSt P st) (e : addToMemo fuel st td = .ok st') :
    KSt P st' := by
  unfold addToMemo at e
  split at e
  · cases e
    have := KSt.pushes (P := P) ((st.partials td.key.marker).map fun tp => (tp, td.key))
      (st := { st with
        memo := upd st.memo td.key (some td)
        markers := upd st.markers td.key.marker (st.markers td.key.marker ++ [td]) }) ⟨h.partials, h.stack⟩ (by
        intro x hx
        obtain ⟨tp, htp, rfl⟩ := List.mem_map.1 hx
        exact h.partials _ tp htp)
    rw [List.foldl_map] at this
    exact this
  · obtain ⟨c, -, e⟩ := Out.bind_eq_ok.1 e
    split at e
    · obtain ⟨b, -, e⟩ := Out.bind_eq_ok.1 e
      split at e
      · cases e; exact h
      · cases e; exact ⟨h.partials, h.stack⟩
    · cases e; exact h

theorem KSt.check {P : Nat → Prop} {env : Env} {fuel : Nat} {st : St} {m : Marker} {r : St × Option Def} (h : KSt P st)
    (e : checkNonTerminal env fuel st m = .ok r) : KSt P r.1 := by
  unfold checkNonTerminal at e
  split at e
  · obtain ⟨st', e1, e2⟩ := Out.bind_eq_ok.1 e
    cases e2
    exact h.memo e1
  · cases e; exact h

theorem KSt.pre {P : Nat → Prop} {env : Env} {fuel : Nat} {st st' : St} {tp : Partial} {req : Marker} (h : KSt P st)
    (htp : ∀ i ∈ tp.prod, P i) (e : addPartialPre env fuel st tp req = .ok st') : KSt P st' := by
  unfold addPartialPre at e
  obtain ⟨st1, e1, e2⟩ := Out.bind_eq_ok.1 e
  have h1 : KSt P st1 := by
    split at e1
    · cases e1
      refine ⟨fun m tp' hm => ?_, h.stack⟩
      simp only [upd] at hm
      split at hm
      · rcases List.mem_append.1 hm with hm | hm
        · exact h.partials _ tp' hm
        · rw [List.mem_singleton] at hm; subst hm; exact htp
      · exact h.partials _ tp' hm
    · obtain ⟨r, e3, e4⟩ := Out.bind_eq_ok.1 e1
      cases e4
      exact h.check e3
  cases e2
  have := KSt.pushes (P := P) ((st1.markers req).map fun td => (tp, td.key)) h1 (by
    intro x hx
    obtain ⟨td, -, rfl⟩ := List.mem_map.1 hx
    exact htp)
  rw [List.foldl_map] at this
  exact this

theorem bind_assoc' {α β γ : Type} (o : Out α) (f : α → Out β) (h : β → Out γ) :
    (o.bind f).bind h = o.bind fun a => (f a).bind h := by cases o <;> rfl

/-- The environment that the goroutine has. -/
def noProds (env : Env) : Env := ⟨fun _ => none, env.nonterms, env.lex⟩

variable {g : Gram τ} {adds : List (τ × List τ)} {os : SymSet τ}

/-- An index of a symbol of the grammar. -/
def BothI (g : Gram τ) (os : SymSet τ) (i : Nat) : Prop := ∃ x, Both g os x ∧ i = symIdx os x

theorem gives_addProdsLoop (env : Env) (fuel : Nat) {recP : St → Marker → GramProg τ (Out St)} {rec : St → Marker → Out St}
    (hrec : ∀ st m, KSt (BothI g os) st → BothI g os m.idx → Gives (recP st m) g.set (rec st m) ∧
      ∀ st', rec st m = .ok st' → KSt (BothI g os) st') (root : Marker) :
    ∀ (ps : List (List Nat)) (st : St) (k : Nat), (∀ p ∈ ps, ∀ i ∈ p, BothI g os i) → KSt (BothI g os) st →
      Gives (addProdsLoopP (noProds env) fuel recP root st k ps) g.set (addProdsLoop env fuel rec root st k ps) ∧
      ∀ st', addProdsLoop env fuel rec root st k ps = .ok st' → KSt (BothI g os) st'
  | [], st, k, _, h => ⟨gives_ret _ _, fun st' e => by cases e; exact h⟩
  | [] :: ps, st, k, hb, h => by
    have hb' := fun p hp => hb p (List.mem_cons_of_mem _ hp)
    rw [addProdsLoopP, addProdsLoop]
    refine ⟨(gives_ret _ _).andThen fun st' e => (gives_addProdsLoop env fuel hrec root ps st' _ hb' (h.memo e)).1, ?_⟩
    intro st' e
    obtain ⟨st1, e1, e2⟩ := Out.bind_eq_ok.1 e
    exact (gives_addProdsLoop env fuel hrec root ps st1 _ hb' (h.memo e1)).2 st' e2
  | (X :: p) :: ps, st, k, hb, h => by
    have hb' := fun p hp => hb p (List.mem_cons_of_mem _ hp)
    have hX := hb (X :: p) List.mem_cons_self
    have h1 : ∀ st1, addPartialPre env fuel st (initPartial root k (X :: p)) ⟨X, root.start⟩ = .ok st1 →
        KSt (BothI g os) st1 := fun st1 e => h.pre hX e
    rw [addProdsLoopP, addProdsLoop]
    refine ⟨(gives_ret _ _).andThen fun st1 e => ?_, ?_⟩
    · obtain ⟨h2, h3⟩ := hrec st1 ⟨X, root.start⟩ (h1 st1 e) (hX X List.mem_cons_self)
      exact h2.andThen fun st2 e2 => (gives_addProdsLoop env fuel hrec root ps st2 _ hb' (h3 st2 e2)).1
    · intro st' e
      obtain ⟨st1, e1, e2⟩ := Out.bind_eq_ok.1 e
      obtain ⟨st2, e2, e3⟩ := Out.bind_eq_ok.1 e2
      obtain ⟨-, h3⟩ := hrec st1 ⟨X, root.start⟩ (h1 st1 e1) (hX X List.mem_cons_self)
      exact (gives_addProdsLoop env fuel hrec root ps st2 _ hb' (h3 st2 e2)).2 st' e3

theorem gives_addProds (hr : Rep g adds) (ho : SetOK (record adds) os) {env : Env} (he : env.prods = idxProds (record adds) os)
    (fuel : Nat) : ∀ (n : Nat) (st : St) (m : Marker), KSt (BothI g os) st → BothI g os m.idx →
      Gives (addProdsP g os (noProds env) fuel n st m) g.set (addProds env fuel n st m) ∧
      ∀ st', addProds env fuel n st m = .ok st' → KSt (BothI g os) st'
  | 0, st, m, h, _ => ⟨gives_ret _ _, fun st' e => by cases e⟩
  | n + 1, st, ⟨i, pos⟩, h, ⟨x, hx, hi⟩ => by
    replace hi : i = symIdx os x := hi
    subst hi
    rw [addProdsP, addProds]
    by_cases hq : st.queued ⟨symIdx os x, pos⟩ = true
    · rw [if_pos hq, if_pos hq]
      exact ⟨gives_ret _ _, fun st' e => by cases e; exact h⟩
    rw [if_neg hq, if_neg hq]
    dsimp only
    rw [symIdx_get ho.inv hx.2, he, idxProds_both ho hx.2]
    have h1 : KSt (BothI g os) { st with queued := upd st.queued ⟨symIdx os x, pos⟩ true } := ⟨h.partials, h.stack⟩
    obtain ⟨o, h2, h3⟩ := gives_query hr hx.1
    revert h3
    cases o with
    | none =>
      cases (record adds).prods x with
      | none => exact fun _ => ⟨h2.bind (gives_ret _ _), fun st' e => by cases e; exact h1⟩
      | some xss => exact fun h => h.elim
    | some ps =>
      cases e : (record adds).prods x with
      | none => exact fun h => h.elim
      | some xss =>
        intro h3
        have hb : ∀ p ∈ xss.map (fun p => p.map (symIdx os)), ∀ i ∈ p, BothI g os i := by
          intro p hp i hi
          obtain ⟨xs, hxs, rfl⟩ := List.mem_map.1 hp
          obtain ⟨y, hy, rfl⟩ := List.mem_map.1 hi
          exact ⟨y, both_prods ho h3 e xs hxs y hy, rfl⟩
        obtain ⟨h4, h5⟩ := gives_addProdsLoop env fuel (gives_addProds hr ho he fuel n) ⟨symIdx os x, pos⟩ _ _ 0 hb h1
        refine ⟨h2.bind ?_, h5⟩
        refine (gives_namess h3).andThen (h := fun _ => _) fun a ha => ?_
        cases ha
        exact h4

theorem gives_update (hr : Rep g adds) (ho : SetOK (record adds) os) {env : Env} (he : env.prods = idxProds (record adds) os)
    (fuel : Nat) : ∀ (n : Nat) (st : St) (tp : Partial) (k : Key), KSt (BothI g os) st → (∀ i ∈ tp.prod, BothI g os i) →
      Gives (updateP g os (noProds env) fuel n st tp k) g.set (update env fuel n st tp k) ∧
      ∀ st', update env fuel n st tp k = .ok st' → KSt (BothI g os) st'
  | 0, st, tp, k, h, _ => ⟨gives_ret _ _, fun st' e => by cases e⟩
  | n + 1, st, tp, k, h, ht => by
    rw [updateP, update]
    by_cases hl : tp.td.children.length + 1 = (extend tp k).prod.length
    · rw [if_pos hl, if_pos hl]
      exact ⟨gives_ret _ _, fun st' e => h.memo e⟩
    rw [if_neg hl, if_neg hl]
    cases hX : (extend tp k).prod[tp.td.children.length + 1]? with
    | none => exact ⟨gives_ret _ _, fun st' e => by cases e⟩
    | some X =>
      have hX' : BothI g os X := ht X (List.mem_of_getElem? hX)
      have key : ∀ r, checkNonTerminal env fuel st (extend tp k).td.key.marker = .ok r →
          Gives (match r.2 with
            | some td => updateP g os (noProds env) fuel n r.1 (extend tp k) td.key
            | none => Prog.andThen (.ret (addPartialPre (noProds env) fuel r.1 (extend tp k) ⟨X, (extend tp k).td.key.stop⟩)) fun st1 =>
                addProdsP g os (noProds env) fuel fuel st1 ⟨X, (extend tp k).td.key.stop⟩) g.set
            (match r.2 with
            | some td => update env fuel n r.1 (extend tp k) td.key
            | none => addPartial env fuel r.1 (extend tp k) ⟨X, (extend tp k).td.key.stop⟩) ∧
          ∀ st', (match r.2 with
            | some td => update env fuel n r.1 (extend tp k) td.key
            | none => addPartial env fuel r.1 (extend tp k) ⟨X, (extend tp k).td.key.stop⟩) = .ok st' → KSt (BothI g os) st' := by
        intro r e
        have h1 := h.check e
        cases r.2 with
        | some td => exact gives_update hr ho he fuel n r.1 (extend tp k) td.key h1 ht
        | none =>
          refine ⟨(gives_ret _ _).andThen fun st1 e1 => ?_, fun st' e' => ?_⟩
          · exact (gives_addProds hr ho he fuel fuel st1 ⟨X, _⟩ (h1.pre (tp := extend tp k) ht e1) hX').1
          · obtain ⟨st1, e1, e2⟩ := Out.bind_eq_ok.1 e'
            exact (gives_addProds hr ho he fuel fuel st1 ⟨X, _⟩ (h1.pre (tp := extend tp k) ht e1) hX').2 st' e2
      refine ⟨(gives_ret _ _).andThen fun r e => (key r e).1, fun st' e => ?_⟩
      obtain ⟨r, e1, e2⟩ := Out.bind_eq_ok.1 e
      exact (key r e1).2 st' e2

theorem gives_loop (hr : Rep g adds) (ho : SetOK (record adds) os) {env : Env} (he : env.prods = idxProds (record adds) os)
    (fuel : Nat) : ∀ (n : Nat) (st : St), KSt (BothI g os) st →
      Gives (loopP g os (noProds env) fuel n st) g.set (loop env fuel n st)
  | 0, st, _ => gives_ret _ _
  | n + 1, st, h => by
    rw [loopP, loop]
    cases hs : st.stack with
    | nil => exact gives_ret _ _
    | cons x rest =>
      obtain ⟨tp, k⟩ := x
      have h1 : KSt (BothI g os) { st with stack := rest } :=
        ⟨h.partials, fun y hy => h.stack y (by rw [hs]; exact List.mem_cons_of_mem _ hy)⟩
      obtain ⟨h2, h3⟩ := gives_update hr ho he fuel fuel _ tp k h1 (h.stack (tp, k) (by rw [hs]; exact List.mem_cons_self))
      exact h2.andThen fun st' e => gives_loop hr ho he fuel n st' (h3 st' e)

theorem gives_core (hr : Rep g adds) (ho : SetOK (record adds) os) (ev : V) (lexemes : List (Lexeme τ V)) (fuel : Nat) {x : τ}
    (hb : Both g os x) :
    Gives
      ((addProdsP g os (noProds (mkEnv (record adds) os lexemes)) fuel fuel St.init ⟨symIdx os x, 0⟩).andThen fun st0 =>
        (loopP g os (noProds (mkEnv (record adds) os lexemes)) fuel fuel st0).andThen fun st =>
          let lxms := lexemes.map fun l => (⟨symIdx os l.kind, l.val, l.line, l.col⟩ : Lexeme Nat V)
          let accepted := st.get ⟨symIdx os x, 0, lxms.length⟩
          if accepted.key.stop ≠ lxms.length then .ret (.ok none)
          else .ret ((toPN ev lxms st.get fuel accepted).bind fun t => (nameTree os t).bind fun t' => .ok (some t'))) g.set
      ((parseIdx ev (mkEnv (record adds) os lexemes) (symIdx os x)
        (lexemes.map fun l => ⟨symIdx os l.kind, l.val, l.line, l.col⟩) fuel).bind fun
        | none => .ok none
        | some t => (nameTree os t).bind fun t' => .ok (some t')) := by
  obtain ⟨h1, h2⟩ := gives_addProds hr ho (env := mkEnv (record adds) os lexemes) rfl fuel fuel St.init ⟨symIdx os x, 0⟩ (.init _)
    ⟨x, hb, rfl⟩
  unfold parseIdx
  rw [bind_assoc']
  refine h1.andThen fun st0 e => ?_
  rw [bind_assoc']
  refine (gives_loop hr ho rfl fuel fuel st0 (h2 st0 e)).andThen fun st _ => ?_
  dsimp only
  split
  · exact gives_ret _ _
  · rw [bind_assoc']
    exact gives_ret _ _

theorem gives_parse (hr : Rep g adds) (ev : V) (lexemes : List (Lexeme τ V)) (fuel : Nat) :
    Gives (parseP ev g lexemes fuel) g.set (parse ev (record adds) lexemes fuel) := by
  have hn := hr.order
  unfold parseP parse
  refine gives_nts ?_ _
  cases eo : g.order with
  | nil =>
    rw [eo] at hn
    rw [Nm.nil_inv hn]
    exact gives_ret _ _
  | cons start rest =>
    rw [eo] at hn
    obtain ⟨x, ys, e, h1, h2⟩ := Nm.cons_inv hn
    obtain ⟨os, h3, h4, -, -⟩ := loadSet_ok (record adds) (record_wf adds) lexemes
    have hb : Both g os x := ⟨List.mem_of_getElem? h1, h4.order x (by rw [e]; exact List.mem_cons_self)⟩
    rw [e]
    dsimp only
    rw [h3, Out.bind_ok]
    refine gives_nts ?_ _
    unfold loadSet at h3
    obtain ⟨syms, h5, h6⟩ := Out.bind_eq_ok.1 h3
    cases h6
    have h7 := gives_load hr hn
    rw [h5] at h7
    refine h7.andThen (h := fun _ => _) fun a ha => ?_
    cases ha
    refine gives_nts ?_ _
    refine (gives_names hn).andThen (h := fun _ => _) fun a ha => ?_
    cases ha
    refine (gives_name h1).andThen (h := fun _ => _) fun a ha => ?_
    cases ha
    exact gives_core hr h4 ev lexemes fuel hb

end Packrat
end Verif
