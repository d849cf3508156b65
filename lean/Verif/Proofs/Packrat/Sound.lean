import Verif.Proofs.Packrat.Basic
import Verif.Proofs.CFG
/- Soundness of the memo table; circular dependencies need cyclic grammars. -/
namespace Verif.Packrat
open Verif.Spec Verif.Spec.Grammar Relation

theorem Chain.der {env : Env} {cs p i j} (h : Chain cs p i j)
    (hc : ∀ c ∈ cs, env.gram.Der env.lex [c.idx] c.start c.stop) : env.gram.Der env.lex p i j := by
  induction h with
  | nil => exact .nil
  | @cons c cs p j _ ih =>
    exact (hc c (by simp)).append (ih fun c' h' => hc c' (by simp [h']))

/-- Every memo entry stands for a derivation of its span. -/
theorem WF.sound {env nts st} (e : EnvOK env nts) (h : WF env st) {k} (hk : (st.memo k).isSome) :
    env.gram.Der env.lex [k.idx] k.start k.stop := by
  obtain ⟨r, _, hr⟩ := h.exists_rank e
  suffices ∀ n k, r k < n → (st.memo k).isSome → env.gram.Der env.lex [k.idx] k.start k.stop from
    this (r k + 1) k (by omega) hk
  intro n
  induction n with
  | zero => intro k hk; omega
  | succ n ih =>
    intro k hrk hk
    obtain ⟨d, ed⟩ := Option.isSome_iff_exists.1 hk
    have hkey := h.key k d ed
    subst hkey
    rcases h.ok _ d ed with ⟨h1, h2, h3, _⟩ | ⟨p, hp, hch, hm, _⟩
    · rw [h3]; exact .term h1 h2 .nil
    · refine .nonterm hp (hch.der fun c hc => ?_) .nil
      exact ih c (by have := hr _ c ⟨d, ed, hc⟩; omega) (hm c hc)

theorem Chain.span {cs p i j} (h : Chain cs p i j) (hc : ∀ c ∈ cs, c.start ≤ c.stop) :
    i ≤ j ∧ ∀ c ∈ cs, i ≤ c.start ∧ c.stop ≤ j := by
  induction h with
  | nil => simp
  | @cons c cs p j _ ih =>
    obtain ⟨h1, h2⟩ := ih fun c' h' => hc c' (by simp [h'])
    have h0 := hc c (by simp)
    refine ⟨by omega, ?_⟩
    intro c' h'
    rcases List.mem_cons.1 h' with rfl | h'
    · omega
    · have := h2 c' h'; omega

theorem Chain.split {cs p i j} (h : Chain cs p i j) {c} (hc : c ∈ cs) :
    ∃ cs1 cs2 p1 p2, cs = cs1 ++ c :: cs2 ∧ p = p1 ++ c.idx :: p2 ∧ Chain cs1 p1 i c.start ∧
      Chain cs2 p2 c.stop j := by
  induction h with
  | nil => simp at hc
  | @cons c' cs p j h ih =>
    rcases List.mem_cons.1 hc with rfl | hc
    · exact ⟨[], cs, [], p, rfl, rfl, .nil, h⟩
    · obtain ⟨cs1, cs2, p1, p2, e1, e2, h1, h2⟩ := ih hc
      exact ⟨c' :: cs1, cs2, c'.idx :: p1, p2, by simp [e1], by simp [e2], .cons h1, h2⟩

/-- A child with the same span as its parent is a unit step of the grammar. -/
theorem DefOK.unitStep {env nts st d c} (e : EnvOK env nts) (h : WF env st) (hd : DefOK env st d)
    (hc : c ∈ d.children) (hs : c.start = d.key.start) (ht : c.stop = d.key.stop) :
    env.gram.UnitStep d.key.idx c.idx := by
  rcases hd with ⟨_, _, _, h4, _⟩ | ⟨p, hp, hch, hm, _⟩
  · simp [h4] at hc
  · obtain ⟨cs1, cs2, p1, p2, e1, e2, h1, h2⟩ := hch.split hc
    rw [e1] at hm; subst e2
    refine ⟨_, p1, p2, hp, ?_, ?_⟩
    · have := h1.der (env := env) fun c' h' => h.sound e (hm c' (by simp [h']))
      rw [hs] at this
      exact this.eps
    · have := h2.der (env := env) fun c' h' => h.sound e (hm c' (by simp [h']))
      rw [ht] at this
      exact this.eps

theorem DefOK.child_span {env st d c} (h : WF env st) (hd : DefOK env st d)
    (hc : c ∈ d.children) : d.key.start ≤ c.start ∧ c.stop ≤ d.key.stop := by
  rcases hd with ⟨_, _, _, h4, _⟩ | ⟨p, hp, hch, hm, _⟩
  · simp [h4] at hc
  · exact (hch.span fun c hc => (h.span (hm c hc)).1).2 c hc

/-- If the key of a candidate definition is reachable from its children, the grammar is cyclic. -/
theorem WF.circ_cyclic {env nts st td} (e : EnvOK env nts) (h : WF env st) (hd : DefOK env st td)
    {c} (hc : c ∈ td.children) (hr : ReflTransGen (Child st.memo) c td.key) :
    Plus env.gram.UnitStep td.key.idx td.key.idx := by
  have key : ∀ x, ReflTransGen (Child st.memo) x td.key →
      (x.start ≤ td.key.start ∧ td.key.stop ≤ x.stop) ∧
      (td.key.start ≤ x.start → x.stop ≤ td.key.stop → x = td.key ∨
        Plus env.gram.UnitStep x.idx td.key.idx) := by
    intro x hx
    induction hx using ReflTransGen.head_induction_on with
    | refl => exact ⟨by omega, fun _ _ => .inl rfl⟩
    | @head a b hab _ ih =>
      obtain ⟨d, ed, hb⟩ := hab
      have hk := h.key a d ed
      subst hk
      have hok := h.ok _ d ed
      have sp := hok.child_span h hb
      refine ⟨by omega, ?_⟩
      intro h1 h2
      have hu := hok.unitStep e h hb (by omega) (by omega)
      rcases ih.2 (by omega) (by omega) with rfl | hp
      · exact .inr (.one hu)
      · exact .inr (.step hu hp)
  have sp := hd.child_span h hc
  have kc := key c hr
  have hu := hd.unitStep e h hc (by omega) (by omega)
  rcases kc.2 sp.1 sp.2 with rfl | hp
  · exact .one hu
  · exact .step hu hp

/-- Replacing an entry whose key is not reachable from its new children keeps the memo acyclic. -/
theorem acyclic_replace {memo : Key → Option Def} {td : Def}
    (hac : ∀ k, ¬ TransGen (Child memo) k k)
    (hno : ∀ c ∈ td.children, ¬ ReflTransGen (Child memo) c td.key) :
    ∀ k, ¬ TransGen (Child (upd memo td.key (some td))) k k := by
  -- paths to td.key in the new graph exist in the old one
  have old : ∀ x, ReflTransGen (Child (upd memo td.key (some td))) x td.key →
      ReflTransGen (Child memo) x td.key := by
    intro x hx
    induction hx using ReflTransGen.head_induction_on with
    | refl => exact .refl
    | @head a b hab _ ih =>
      by_cases ha : a = td.key
      · rw [ha]
      · obtain ⟨d, ed, hb⟩ := hab
        rw [upd_ne _ _ ha] at ed
        exact ReflTransGen.head ⟨d, ed, hb⟩ ih
  -- no cycle through td.key
  have nokey : ¬ TransGen (Child (upd memo td.key (some td))) td.key td.key := by
    intro hc
    obtain ⟨b, hab, hb⟩ := TransGen.head'_iff.1 hc
    obtain ⟨d, ed, hb'⟩ := hab
    rw [upd_same] at ed
    cases ed
    exact hno b hb' (old b hb)
  intro k hc
  -- a cycle avoiding td.key is old
  have : ∀ x y, TransGen (Child (upd memo td.key (some td))) x y →
      (ReflTransGen (Child (upd memo td.key (some td))) x td.key ∧
        ReflTransGen (Child (upd memo td.key (some td))) td.key y) ∨ TransGen (Child memo) x y := by
    intro x y hxy
    induction hxy with
    | @single b hb =>
      by_cases hx : x = td.key
      · subst hx; exact .inl ⟨.refl, (TransGen.single hb).to_reflTransGen⟩
      · obtain ⟨d, ed, hb⟩ := hb
        rw [upd_ne _ _ hx] at ed
        exact .inr (.single ⟨d, ed, hb⟩)
    | @tail b c hab hbc ih =>
      rcases ih with ⟨h1, h2⟩ | ih
      · exact .inl ⟨h1, h2.tail hbc⟩
      · by_cases hb : b = td.key
        · subst hb
          exact .inl ⟨hab.to_reflTransGen, .single hbc⟩
        · obtain ⟨d, ed, hc'⟩ := hbc
          rw [upd_ne _ _ hb] at ed
          exact .inr (ih.tail ⟨d, ed, hc'⟩)
  rcases this k k hc with ⟨h1, h2⟩ | h
  · rcases ReflTransGen.cases_head h2 with rfl | ⟨b, hb, h2⟩
    · exact nokey hc
    · exact nokey (TransGen.head' hb (h2.trans h1))
  · exact hac k h

end Verif.Packrat
