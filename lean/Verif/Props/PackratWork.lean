import Verif.Props.PackratShape
import Verif.Props.PackratOrder
import Verif.Model.PackratWork
/-
What the packrat parser pays for comparing readings (C102), and trees that are linear in the input (C91).
-/
namespace Verif.Props.PackratWork
open Verif.Spec Verif.Spec.Grammar Verif.Spec.PN Verif.Packrat Verif.SetSymbol Verif.Props.PackratShape Relation

variable {α V : Type} [DecidableEq α]

theorem nodess_le {ks : List (PN α V)} {n : Nat} (h : ∀ c ∈ ks, nodes c ≤ n) : nodess ks ≤ ks.length * n := by
  induction ks with
  | nil => simp [nodess]
  | cons c ks ih =>
    have := h c (by simp)
    have := ih fun c hc => h c (by simp [hc])
    rw [nodess, List.length_cons, Nat.succ_mul]
    omega

theorem nodess_append (a b : List (PN α V)) : nodess (a ++ b) = nodess a + nodess b := by
  induction a with
  | nil => simp [nodess]
  | cons t a ih => simp [nodess, ih, Nat.add_assoc]

theorem width_inner {g : Grammar α} {l : Lexeme α V} {ks : List (PN α V)} {k p} (hr : g.Rule l.kind k p) :
    width g (.node l ks) = (ks.map (width g)).sum := by
  have hn : ¬ ((g.prods l.kind).isNone = true) := by simpa [Grammar.Term] using not_term hr
  unfold width
  rw [fringe, if_neg hn]
  clear hr
  induction ks with
  | nil => rfl
  | cons t ts ih => rw [fringes, List.length_append, List.map_cons, List.sum_cons, ih]

/-- A tree without lexemes: at most `(r + 1)^j` nodes with `j` kinds. -/
theorem nodes_empty {g : Grammar α} {r : Nat} (hr : ∀ A k p, g.Rule A k p → p.length ≤ r) {t : PN α V} (hv : t.Valid g) :
    ∀ F : Finset α, t.NoRepeat g → width g t = 0 → (∀ u, (u = t ∨ Below u t) → u.kind ∈ F) → nodes t ≤ (r + 1) ^ F.card := by
  induction hv with
  | @leaf l ht =>
    intro F _ hw _
    have ht : g.prods l.kind = none := ht
    simp [width, fringe, ht] at hw
  | @inner l ks k p hrule hk hv ih =>
    intro F hn hw hF
    have hself : l.kind ∈ F := hF _ (.inl rfl)
    have hcard := Finset.card_erase_add_one hself
    have hkids : nodess ks ≤ ks.length * (r + 1) ^ (F.erase l.kind).card := by
      refine nodess_le fun c hc => ih c hc _ (noRepeat_kid hn hc) ?_ ?_
      · have := (valid_below (g := g) (.child hc) (Valid.inner hrule hk hv)).2
        omega
      · intro u hu
        have hb : Below u (PN.node l ks) := by
          rcases hu with rfl | hu
          · exact .child hc
          · exact .deeper hc hu
        refine Finset.mem_erase.2 ⟨fun he => ?_, hF u (.inr hb)⟩
        have := (valid_below (g := g) hb (Valid.inner hrule hk hv)).2
        exact hn _ u (.inl rfl) hb he (by omega)
    have hlen : ks.length ≤ r := by
      rw [← List.length_map (f := PN.kind), hk]
      exact hr _ _ _ hrule
    rw [← hcard, Nat.pow_succ, nodes]
    have h1 : ks.length * (r + 1) ^ (F.erase l.kind).card ≤ r * (r + 1) ^ (F.erase l.kind).card := Nat.mul_le_mul_right _ hlen
    have h2 : 0 < (r + 1) ^ (F.erase l.kind).card := Nat.pow_pos (by omega)
    have h3 : (r + 1) ^ (F.erase l.kind).card * (r + 1) = r * (r + 1) ^ (F.erase l.kind).card + (r + 1) ^ (F.erase l.kind).card := by ring
    omega

theorem odd_sum (xs : List Nat) : (xs.map fun x => 2 * x - 1).sum ≤ 2 * xs.sum - 1 := by
  induction xs with
  | nil => simp
  | cons x xs ih => simp only [List.map_cons, List.sum_cons]; omega

theorem odd_sum2 {xs : List Nat} (h : ∀ x ∈ xs, x < xs.sum) : (xs.map fun x => 2 * x - 1).sum ≤ 2 * xs.sum - 2 := by
  induction xs with
  | nil => simp
  | cons x xs ih =>
    simp only [List.map_cons, List.sum_cons] at *
    have h0 := h x (by simp)
    rcases Nat.eq_zero_or_pos x with rfl | hx
    · have := ih fun y hy => by have := h y (by simp [hy]); omega
      omega
    · have := odd_sum xs
      omega

theorem sum_le {ks : List (PN α V)} {g : Grammar α} {e b : Nat} (h : ∀ c ∈ ks, nodes c ≤ e + b * (2 * width g c - 1)) :
    nodess ks ≤ ks.length * e + b * (ks.map fun c => 2 * width g c - 1).sum := by
  induction ks with
  | nil => simp [nodess]
  | cons c ks ih =>
    have := h c (by simp)
    have := ih fun c hc => h c (by simp [hc])
    rw [nodess, List.length_cons, List.map_cons, List.sum_cons, Nat.succ_mul, Nat.mul_add]
    omega

/-- The factor in the bound. -/
def factor (r N : Nat) : Nat := 1 + r * ((r + 1) ^ N + 1)

/-- With lexemes: linear in their number. -/
theorem nodes_lin {g : Grammar α} {r : Nat} (hr : ∀ A k p, g.Rule A k p → p.length ≤ r) (A : Finset α) {t : PN α V} (hv : t.Valid g) :
    ∀ F : Finset α, t.NoRepeat g → (∀ u, (u = t ∨ Below u t) → ¬ g.Term u.kind → u.kind ∈ A) →
      (∀ u, (u = t ∨ Below u t) → ¬ g.Term u.kind → width g u = width g t → u.kind ∈ F) → 1 ≤ width g t →
      nodes t ≤ factor r A.card * (F.card + A.card * (2 * width g t - 2)) + 1 := by
  induction hv with
  | @leaf l ht =>
    intro F _ _ _ _
    simp [nodes, nodess]
  | @inner l ks k p hrule hk hv ih =>
    intro F hn hA hF hw
    have hV := Valid.inner hrule hk hv
    have hself : l.kind ∈ F := hF _ (.inl rfl) (not_term hrule) rfl
    have hcard := Finset.card_erase_add_one hself
    have hlen : ks.length ≤ r := by
      rw [← List.length_map (f := PN.kind), hk]
      exact hr _ _ _ hrule
    have hb : ∀ {c u : PN α V}, c ∈ ks → (u = c ∨ Below u c) → Below u (PN.node l ks) := by
      rintro c u hc (rfl | hu)
      · exact .child hc
      · exact .deeper hc hu
    have hsum := width_inner (ks := ks) hrule
    have hE : ∀ c ∈ ks, width g c = 0 → nodes c ≤ (r + 1) ^ A.card := by
      intro c hc h0
      refine nodes_empty hr (hv c hc) A (noRepeat_kid hn hc) h0 fun u hu => hA u (.inr (hb hc hu)) fun ht => ?_
      have hu0 : width g u = 0 := by
        rcases hu with rfl | hu
        · exact h0
        · have := (valid_below (g := g) hu (hv c hc)).2
          omega
      have hvu := (valid_below (g := g) (hb hc hu) hV).1
      cases hvu with
      | leaf h =>
        have h : g.prods _ = none := h
        simp [width, fringe, h] at hu0
      | inner h => exact not_term h ht
    rw [nodes]
    by_cases hc : ∃ c ∈ ks, width g c = width g (.node l ks)
    · obtain ⟨c, hc, he⟩ := hc
      obtain ⟨as, bs, rfl⟩ := List.append_of_mem hc
      have hc1 := ih c hc (F.erase l.kind) (noRepeat_kid hn hc) (fun u hu => hA u (.inr (hb hc hu))) (fun u hu hT hwu => by
        refine Finset.mem_erase.2 ⟨fun hh => ?_, hF u (.inr (hb hc hu)) hT (by omega)⟩
        exact hn _ u (.inl rfl) (hb hc hu) hh (by omega)) (by omega)
      have hz : ∀ x ∈ as ++ bs, width g x = 0 := by
        intro x hx
        have h1 : ((as ++ bs).map (width g)).sum = 0 := by
          simp only [List.map_append, List.map_cons, List.sum_append, List.sum_cons] at hsum ⊢
          omega
        exact List.sum_eq_zero_iff.1 h1 _ (List.mem_map_of_mem hx)
      have h1 := nodess_le (ks := as ++ bs) (n := (r + 1) ^ A.card) fun x hx =>
        hE x (by simp only [List.mem_append, List.mem_cons] at hx ⊢; tauto) (hz x hx)
      rw [nodess_append] at h1 ⊢
      rw [nodess]
      have h2 : (as ++ bs).length * (r + 1) ^ A.card ≤ r * ((r + 1) ^ A.card + 1) :=
        Nat.mul_le_mul (by simp only [List.length_append, List.length_cons] at hlen ⊢; omega) (by omega)
      rw [← hcard, Nat.add_right_comm, Nat.mul_add _ _ 1, ← he]
      have : factor r A.card = 1 + r * ((r + 1) ^ A.card + 1) := rfl
      omega
    · have hlt : ∀ c ∈ ks, width g c < width g (.node l ks) := by
        intro c hc'
        have := (valid_below (g := g) (.child hc') hV).2
        rcases Nat.lt_or_ge (width g c) (width g (.node l ks)) with h | h
        · exact h
        · exact absurd ⟨c, hc', by omega⟩ hc
      have h1 := sum_le (ks := ks) (g := g) (e := (r + 1) ^ A.card + 1) (b := factor r A.card * A.card) fun c hc' => by
        rcases Nat.eq_zero_or_pos (width g c) with h0 | h0
        · have := hE c hc' h0
          omega
        · have := ih c hc' A (noRepeat_kid hn hc') (fun u hu => hA u (.inr (hb hc' hu))) (fun u hu hT _ => hA u (.inr (hb hc' hu)) hT) h0
          have e : A.card + A.card * (2 * width g c - 2) = A.card * (2 * width g c - 1) := by
            obtain ⟨x, hx⟩ : ∃ x, 2 * width g c - 1 = x + 1 := ⟨2 * width g c - 2, by omega⟩
            have : 2 * width g c - 2 = x := by omega
            rw [this, hx]
            ring
          rw [e, ← Nat.mul_assoc] at this
          omega
      have h2 := odd_sum2 (xs := ks.map (width g)) (by
        intro x hx
        obtain ⟨c, hc', rfl⟩ := List.mem_map.1 hx
        rw [← hsum]
        exact hlt c hc')
      rw [← hsum, List.map_map] at h2
      have h2 : (ks.map fun c => 2 * width g c - 1).sum ≤ 2 * width g (.node l ks) - 2 := h2
      have h3 := Nat.mul_le_mul_left (factor r A.card * A.card) h2
      have h4 := Nat.mul_le_mul_right ((r + 1) ^ A.card + 1) hlen
      have h5 : factor r A.card * 1 ≤ factor r A.card * F.card := Nat.mul_le_mul_left _ (Finset.card_pos.2 ⟨_, hself⟩)
      rw [Nat.mul_add, ← Nat.mul_assoc]
      have : factor r A.card = 1 + r * ((r + 1) ^ A.card + 1) := rfl
      omega

/-- Both together. -/
theorem nodes_all {g : Grammar α} {r N : Nat} (hr : ∀ A k p, g.Rule A k p → p.length ≤ r) {A : Finset α} (hA0 : 0 < A.card) (hN : A.card ≤ N)
    {t : PN α V} (hv : t.Valid g) (hn : t.NoRepeat g) (hA : ∀ u, (u = t ∨ Below u t) → ¬ g.Term u.kind → u.kind ∈ A) :
    nodes t ≤ (1 + r * ((r + 1) ^ N + 1)) * N * (2 * width g t + 1) + 1 := by
  have hF : factor r A.card ≤ 1 + r * ((r + 1) ^ N + 1) := by
    unfold factor
    have : (r + 1) ^ A.card ≤ (r + 1) ^ N := Nat.pow_le_pow_right (by omega) hN
    have := Nat.mul_le_mul_left r (Nat.add_le_add_right this 1)
    omega
  have hFN := Nat.mul_le_mul hF hN
  rcases Nat.eq_zero_or_pos (width g t) with h0 | h0
  · have := nodes_empty hr hv A hn h0 fun u hu => hA u hu fun ht => by
      have hvu : u.Valid g ∧ width g u = 0 := by
        rcases hu with rfl | hu
        · exact ⟨hv, h0⟩
        · have := valid_below (g := g) hu hv
          exact ⟨this.1, by omega⟩
      obtain ⟨hvu, hu0⟩ := hvu
      cases hvu with
      | leaf h =>
        have h : g.prods _ = none := h
        simp [width, fringe, h] at hu0
      | inner h => exact not_term h ht
    rw [h0]
    have h1 : factor r A.card * 1 ≤ factor r A.card * A.card := Nat.mul_le_mul_left _ hA0
    have h2 : (r + 1) ^ A.card ≤ factor r A.card := by
      unfold factor
      rcases Nat.eq_zero_or_pos r with rfl | hr0
      · simp
      · have := Nat.mul_le_mul_right ((r + 1) ^ A.card + 1) hr0
        omega
    omega
  · have h1 := nodes_lin hr A hv A hn hA (fun u hu hT _ => hA u hu hT) h0
    have e : A.card + A.card * (2 * width g t - 2) ≤ A.card * (2 * width g t + 1) := by
      obtain ⟨x, hx⟩ : ∃ x, width g t = x + 1 := ⟨width g t - 1, by omega⟩
      rw [hx, show 2 * (x + 1) - 2 = 2 * x by omega]
      have : A.card * (2 * (x + 1) + 1) = A.card + A.card * (2 * x) + 2 * A.card := by ring
      omega
    have h2 := Nat.mul_le_mul_left (factor r A.card) e
    rw [← Nat.mul_assoc] at h2
    have h3 := Nat.mul_le_mul_right (2 * width g t + 1) hFN
    omega

/-- C91: for every grammar the number of nodes is at most linear in the number of lexemes: with `N` nonterminals and productions of at most
`r` symbols, at most `(1 + r ((r + 1)^N + 1)) N (2 n + 1) + 1`. -/
theorem C91_nodes_linear (ev : V) (g : Grammar α) (hg : g.WF) {r : Nat} (hr : ∀ A k p, g.Rule A k p → p.length ≤ r)
    (ls : List (Lexeme α V)) (hl : ∀ l ∈ ls, g.Term l.kind) {n t} (h : parse ev g ls n = .ok (some t)) :
    nodes t ≤ (1 + r * ((r + 1) ^ g.order.length + 1)) * g.order.length * (2 * ls.length + 1) + 1 := by
  have hrep := C91_no_repeat ev g hg ls hl h
  rcases Verif.Props.Packrat.parse_spec ev g hg ls hl with ⟨t', h', ⟨hS, hv, hf⟩, _⟩ | ⟨_, ⟨_, h'⟩ | ⟨_, S, hS, h'⟩⟩
  · have := h'.eq_of (parse_mono ev g ls) h
    cases this
    have hw : width g t = ls.length := by unfold width; rw [hf]
    have hk : t.kind ∈ g.order := List.mem_of_mem_head? hS
    rw [← hw]
    exact nodes_all hr (Finset.card_pos.2 ⟨_, List.mem_toFinset.2 hk⟩) (List.toFinset_card_le _) hv hrep fun u _ hT =>
      List.mem_toFinset.2 ((hg _).1 (by
        cases hp : g.prods u.kind with
        | none => exact absurd hp hT
        | some _ => rfl))
  · have := h'.eq_of (parse_mono ev g ls) h
    cases this
  · have := h'.eq_of (parse_mono ev g ls) h
    cases this
    simp [nodes, nodess]

/-! ### The calls of the two checks -/

theorem circKidsC_forget {r1 : Def → Out Bool} {r2 : Def → Out (Bool × Nat)} (h : ∀ d, forget (r2 d) = r1 d) (get root) : ∀ ks,
    forget (circKidsC r2 get root ks) = circKids r1 get root ks
  | [] => rfl
  | k :: ks => by
    unfold circKidsC circKids
    split
    · rfl
    · rw [← h (get k)]
      cases r2 (get k) with
      | panic => rfl
      | fuel => rfl
      | ok r =>
        obtain ⟨b, c⟩ := r
        have ih := circKidsC_forget h get root ks
        cases b with
        | true => rfl
        | false =>
          simp only [Out.bind_ok, forget, Bool.false_eq_true, if_false] at ih ⊢
          rw [← ih]
          cases circKidsC r2 get root ks <;> rfl

theorem circC_forget (get root) : ∀ n d, forget (circC get root n d) = createsCircularDep get root n d
  | 0, _ => rfl
  | n + 1, d => by
    unfold circC createsCircularDep
    rw [← circKidsC_forget (circC_forget get root n) get root d.children]
    cases circKidsC (circC get root n) get root d.children <;> rfl

theorem compareKidsC_forget {r1 : Def → Def → Out Int} {r2 : Def → Def → Out (Int × Nat)} (h : ∀ a b, forget (r2 a b) = r1 a b) (get) :
    ∀ ks ls, forget (compareKidsC r2 get ks ls) = compareKids r1 get ks ls
  | [], _ => rfl
  | _ :: _, [] => rfl
  | k :: ks, l :: ls => by
    unfold compareKidsC compareKids
    have ih := compareKidsC_forget h get ks ls
    split
    · exact ih
    · rw [← h (get k) (get l)]
      cases r2 (get k) (get l) with
      | panic => rfl
      | fuel => rfl
      | ok r =>
        obtain ⟨b, c⟩ := r
        simp only [Out.bind_ok, forget] at ih ⊢
        split
        · rfl
        · rw [← ih]
          cases compareKidsC r2 get ks ls <;> rfl

theorem compareC_forget (get) : ∀ n a b, forget (compareC get n a b) = comparePriority get n a b
  | 0, _, _ => rfl
  | n + 1, a, b => by
    unfold compareC comparePriority
    split
    · split <;> rfl
    · rw [← compareKidsC_forget (compareC_forget get n) get a.children b.children]
      cases compareKidsC (compareC get n) get a.children b.children <;> rfl

/-- C102: counting the calls changes nothing. -/
theorem C102_same (get : Key → Def) (root : Key) (n : Nat) (a b : Def) :
    forget (circC get root n a) = createsCircularDep get root n a ∧ forget (compareC get n a b) = comparePriority get n a b :=
  ⟨circC_forget get root n a, compareC_forget get n a b⟩

section
variable {β : Type} {env : Env} {st : St} {nm : Nat → β → Prop}

theorem circ_nodes (h : WF env st) (root : Key) : ∀ n d (ts : List (PN β V)) b c, List.Forall₂ (TreeFor st.memo nm) d.children ts →
    circC st.get root n d = .ok (b, c) → c ≤ 1 + nodess ts ∧ (b = false → c = 1 + nodess ts) := by
  intro n
  induction n with
  | zero => intro _ _ _ _ _ e; cases e
  | succ n ih =>
    intro d ts b c hts e
    unfold circC at e
    obtain ⟨⟨b', c'⟩, e1, e2⟩ := Out.bind_eq_ok.1 e
    cases e2
    suffices c' ≤ nodess ts ∧ (b' = false → c' = nodess ts) by
      dsimp only
      refine ⟨by omega, fun h => by have := this.2 h; omega⟩
    clear e
    generalize d.children = ks0 at hts e1
    induction hts generalizing b' c' with
    | nil => cases e1; simp [nodess]
    | @cons k t ks ts hk hks ihk =>
      unfold circKidsC at e1
      split at e1
      · cases e1
        exact ⟨Nat.zero_le _, by simp⟩
      · obtain ⟨⟨b1, c1⟩, e2, e1⟩ := Out.bind_eq_ok.1 e1
        obtain ⟨hm, _, hkt⟩ := hk
        rw [h.get hm] at e2
        have h1 := ih _ _ _ _ hkt e2
        have hn : nodes t = 1 + nodess t.kids := by cases t; rfl
        rw [nodess, hn]
        cases b1 with
        | true => cases e1; exact ⟨by omega, by simp⟩
        | false =>
          obtain ⟨⟨b2, c2⟩, e3, e1⟩ := Out.bind_eq_ok.1 e1
          cases e1
          have h2 := ihk _ _ e3
          have := h1.2 rfl
          dsimp only
          exact ⟨by omega, fun hb => by have := h2.2 hb; omega⟩

theorem compare_nodes (h : WF env st) : ∀ n d d' (ts us : List (PN β V)) b c, List.Forall₂ (TreeFor st.memo nm) d.children ts →
    List.Forall₂ (TreeFor st.memo nm) d'.children us → compareC st.get n d d' = .ok (b, c) → c ≤ 1 + nodess ts ∧ c ≤ 1 + nodess us := by
  intro n
  induction n with
  | zero => intro _ _ _ _ _ _ _ _ e; cases e
  | succ n ih =>
    intro d d' ts us b c hts hus e
    unfold compareC at e
    split at e
    · split at e <;> cases e <;> omega
    obtain ⟨⟨b', c'⟩, e1, e2⟩ := Out.bind_eq_ok.1 e
    cases e2
    suffices c' ≤ nodess ts ∧ c' ≤ nodess us by
      dsimp only
      omega
    clear e
    generalize d'.children = ks' at hus e1
    generalize d.children = ks0 at hts e1
    induction hts generalizing b' c' us ks' with
    | nil => cases e1; simp
    | @cons k t ks ts hk hks ihk =>
      cases hus with
      | nil => cases e1
      | @cons k2 u ks2 us hk2 hks2 =>
        unfold compareKidsC at e1
        rw [nodess, nodess]
        split at e1
        · have := ihk _ _ _ _ hks2 e1
          omega
        · obtain ⟨⟨b1, c1⟩, e2, e1⟩ := Out.bind_eq_ok.1 e1
          obtain ⟨hm, _, hkt⟩ := hk
          obtain ⟨hm2, _, hkt2⟩ := hk2
          rw [h.get hm, h.get hm2] at e2
          have h1 := ih _ _ _ _ _ _ hkt hkt2 e2
          have hn : nodes t = 1 + nodess t.kids := by cases t; rfl
          have hn2 : nodes u = 1 + nodess u.kids := by cases u; rfl
          split at e1
          · cases e1; omega
          · obtain ⟨⟨b2, c2⟩, e3, e1⟩ := Out.bind_eq_ok.1 e1
            cases e1
            have h2 := ihk _ _ _ _ hks2 e3
            dsimp only at *
            omega
end

section
variable {env : Env} {nts : Finset Nat} {st : St}

/-- The memo holds a derivation tree for each of its keys. -/
theorem exists_tree (e : EnvOK env nts) (h : WF env st) {k : Key} (hk : (st.memo k).isSome) :
    ∃ t : PN Nat Unit, TreeFor st.memo (fun i x => i = x) k t ∧ t.Valid env.gram := by
  obtain ⟨r, _, hr⟩ := h.exists_rank e
  have key : ∀ n k, r k < n → (st.memo k).isSome → ∃ t : PN Nat Unit, TreeFor st.memo (fun i x => i = x) k t ∧ t.Valid env.gram := by
    intro n
    induction n with
    | zero => intro k h; omega
    | succ n ih =>
      intro k hn hk
      obtain ⟨d, hd⟩ := Option.isSome_iff_exists.1 hk
      have hkey := h.key _ _ hd
      have kids : ∀ cs : List Key, (∀ c ∈ cs, (st.memo c).isSome ∧ r c < n) → ∃ ts : List (PN Nat Unit),
          List.Forall₂ (TreeFor st.memo fun i x => i = x) cs ts ∧ ts.map PN.kind = cs.map (·.idx) ∧ ∀ t ∈ ts, t.Valid env.gram := by
        intro cs
        induction cs with
        | nil => intro _; exact ⟨[], .nil, rfl, by simp⟩
        | cons c cs ihc =>
          intro hcs
          obtain ⟨hm, hrk⟩ := hcs c (by simp)
          obtain ⟨t, ht, hv⟩ := ih c hrk hm
          obtain ⟨ts, hts, hks, hvs⟩ := ihc fun c' h' => hcs c' (by simp [h'])
          refine ⟨t :: ts, .cons ht hts, ?_, ?_⟩
          · have : c.idx = t.kind := by cases ht; assumption
            simp [hks, this]
          · intro t' ht'
            rcases List.mem_cons.1 ht' with rfl | ht'
            · exact hv
            · exact hvs _ ht'
      obtain ⟨ts, hts, hks, hvs⟩ := kids d.children fun c hc =>
        ⟨(h.ok _ _ hd).kids c hc, by have := hr k c ⟨d, hd, hc⟩; omega⟩
      refine ⟨.node ⟨k.idx, (), 0, 0⟩ ts, .mk hd rfl hts, ?_⟩
      rcases h.ok _ _ hd with ⟨h1, _, _, h4, _⟩ | ⟨p, hr', hch, _⟩
      · rw [h4] at hts
        cases hts
        rw [hkey] at h1
        exact .leaf h1
      · rw [hkey] at hr'
        exact .inner hr' (by rw [hks]; exact hch.map_idx) hvs
  exact key _ k (Nat.lt_succ_self _) hk

mutual
theorem width_idx (h : WF env st) : ∀ (t : PN Nat V) k, TreeFor st.memo (fun i x => i = x) k t → k.start + width env.gram t = k.stop
  | .node l ks, k, .mk (d := d) h1 h2 h3 => by
    have h2 : k.idx = l.kind := h2
    have hkey := h.key _ _ h1
    subst hkey
    unfold width fringe
    rcases h.ok _ _ h1 with ⟨a, _, b, _⟩ | ⟨p, ⟨ps, a, _⟩, hch, _⟩
    · rw [h2] at a
      have a : env.gram.prods l.kind = none := a
      simp [a, b]
    · rw [h2] at a
      rw [a]
      exact widths_idx h ks _ h3 hch
theorem widths_idx (h : WF env st) : ∀ (ts : List (PN Nat V)) ks {p i j}, List.Forall₂ (TreeFor st.memo fun i x => i = x) ks ts →
    Chain ks p i j → i + (fringes (fun s => (env.gram.prods s).isNone) ts).length = j
  | [], _, p, i, j, hf, hc => by
    cases hf
    cases hc
    rfl
  | t :: ts, _, p, i, j, hf, hc => by
    cases hf with
    | @cons k _ ks _ h1 h2 =>
      generalize hi : i = i' at hc
      cases hc with
      | cons hc =>
        have e1 := width_idx h t k h1
        have e2 := widths_idx h ts ks h2 hc
        simp only [fringes, List.length_append]
        unfold width at e1
        omega
end

theorem norepeat_idx (h : WF env st) {k : Key} {t : PN Nat V} (ht : TreeFor st.memo (fun i x => i = x) k t) : t.NoRepeat env.gram := by
  intro u v hu hv hkind hw
  have hu' : ∃ k', TreeFor st.memo (fun i x => i = x) k' u := by
    rcases hu with rfl | hu
    · exact ⟨k, ht⟩
    · obtain ⟨k', _, h⟩ := below hu ht
      exact ⟨k', h⟩
  obtain ⟨ku, tu⟩ := hu'
  obtain ⟨kv, hr, tv⟩ := below hv tu
  have e1 := width_idx h _ _ tu
  have e2 := width_idx h _ _ tv
  have := nested h hr
  have n1 : ku.idx = u.kind := by cases tu; assumption
  have n2 : kv.idx = v.kind := by cases tv; assumption
  have : ku = kv := by
    obtain ⟨a, b, c⟩ := ku
    obtain ⟨a', b', c'⟩ := kv
    simp only [Key.mk.injEq] at *
    exact ⟨by omega, by omega, by omega⟩
  rw [this] at hr
  exact h.acyc _ hr

/-- The bound on the trees of the memo. -/
def TreeBound (r N n : Nat) : Nat := (1 + r * ((r + 1) ^ N + 1)) * N * (2 * n + 1) + 1

theorem tree_bound (e : EnvOK env nts) (h : WF env st) {r : Nat} (hr : ∀ A k p, env.gram.Rule A k p → p.length ≤ r) {k : Key}
    (hk : (st.memo k).isSome) : ∃ t : PN Nat Unit, TreeFor st.memo (fun i x => i = x) k t ∧ nodes t ≤ TreeBound r nts.card env.lex.length := by
  obtain ⟨t, ht, hv⟩ := exists_tree e h hk
  refine ⟨t, ht, ?_⟩
  by_cases hT : env.gram.Term t.kind
  · have : nodes t = 1 := by
      cases hv with
      | leaf _ => rfl
      | inner h => exact absurd hT (not_term h)
    unfold TreeBound
    omega
  · have hA : ∀ u : PN Nat Unit, (u = t ∨ Below u t) → ¬ env.gram.Term u.kind → u.kind ∈ nts := fun u _ hT => e.fin _ (by
      cases hp : env.prods u.kind with
      | none => exact absurd hp hT
      | some _ => rfl)
    have hw : width env.gram t ≤ env.lex.length := by
      have := width_idx h _ _ ht
      have := h.span hk
      omega
    have := nodes_all hr (Finset.card_pos.2 ⟨_, hA t (.inl rfl) hT⟩) (Nat.le_refl _) hv (norepeat_idx h ht) hA
    have h2 := Nat.mul_le_mul_left ((1 + r * ((r + 1) ^ nts.card + 1)) * nts.card) (show 2 * width env.gram t + 1 ≤ 2 * env.lex.length + 1 by omega)
    unfold TreeBound
    omega

theorem kids_bound (e : EnvOK env nts) (h : WF env st) {r : Nat} (hr : ∀ A k p, env.gram.Rule A k p → p.length ≤ r) {d : Def} (hd : DefOK env st d) :
    ∃ ts : List (PN Nat Unit), List.Forall₂ (TreeFor st.memo fun i x => i = x) d.children ts ∧
      nodess ts ≤ r * TreeBound r nts.card env.lex.length := by
  have hlen : d.children.length ≤ r := by
    rcases hd with ⟨_, _, _, h4, _⟩ | ⟨p, hp, hch, _⟩
    · simp [h4]
    · rw [hch.length]
      exact hr _ _ _ hp
  have key : ∀ cs : List Key, (∀ c ∈ cs, (st.memo c).isSome) → ∃ ts : List (PN Nat Unit),
      List.Forall₂ (TreeFor st.memo fun i x => i = x) cs ts ∧ nodess ts ≤ cs.length * TreeBound r nts.card env.lex.length := by
    intro cs
    induction cs with
    | nil => intro _; exact ⟨[], .nil, by simp [nodess]⟩
    | cons c cs ih =>
      intro hm
      obtain ⟨t, ht, hb⟩ := tree_bound e h hr (hm c (by simp))
      obtain ⟨ts, hts, hbs⟩ := ih fun c hc => hm c (by simp [hc])
      refine ⟨t :: ts, .cons ht hts, ?_⟩
      rw [nodess, List.length_cons, Nat.succ_mul]
      omega
  obtain ⟨ts, h1, h2⟩ := key _ hd.kids
  exact ⟨ts, h1, Nat.le_trans h2 (Nat.mul_le_mul_right _ hlen)⟩
end

section
open Verif.Props.PackratOrder
variable {env : Env} {nts : Finset Nat} {st : St} {fuel s : Nat}

/-- C102: checking a reading for cycles takes as many calls as the trees of its parts have nodes, and one, if there is no cycle; otherwise at
most as many. -/
theorem C102_check (e : EnvOK env nts) (hf : bound env nts ≤ fuel) (h : Reached env fuel s st) {d : Def} (hd : DefOK env st d) (root : Key) :
    ∃ b c, circC st.get root fuel d = .ok (b, c) ∧ ∃ ts : List (PN Nat Unit), List.Forall₂ (TreeFor st.memo fun i x => i = x) d.children ts ∧
      c ≤ 1 + nodess ts ∧ (b = false → c = 1 + nodess ts) := by
  obtain ⟨P, inv⟩ := h.inv e hf
  obtain ⟨r, rb, hr⟩ := inv.wf.exists_rank e
  unfold bound at hf
  obtain ⟨f, rfl⟩ : ∃ f, fuel = f + 1 := ⟨fuel - 1, by omega⟩
  obtain ⟨b, eb, _⟩ := circ_ok inv.wf root r hr f d hd.kids (fun c _ => by have := rb c; omega)
  rw [← circC_forget] at eb
  obtain ⟨⟨b', c⟩, ec, _⟩ := Out.bind_eq_ok.1 eb
  have key : ∀ cs : List Key, (∀ c ∈ cs, (st.memo c).isSome) → ∃ ts : List (PN Nat Unit), List.Forall₂ (TreeFor st.memo fun i x => i = x) cs ts := by
    intro cs
    induction cs with
    | nil => intro _; exact ⟨[], .nil⟩
    | cons c cs ih =>
      intro hm
      obtain ⟨t, ht, _⟩ := exists_tree e inv.wf (hm c (by simp))
      obtain ⟨ts, hts⟩ := ih fun c hc => hm c (by simp [hc])
      exact ⟨t :: ts, .cons ht hts⟩
  obtain ⟨ts, hts⟩ := key _ hd.kids
  exact ⟨b', c, ec, ts, hts, circ_nodes inv.wf root _ _ _ _ _ hts ec⟩

/-- C102: for every grammar both checks take a number of calls that is at most linear in the number `n` of lexemes: with `N` nonterminals and
productions of at most `r` symbols, at most `1 + r ((1 + r ((r + 1)^N + 1)) N (2 n + 1) + 1)`. -/
theorem C102_linear (e : EnvOK env nts) (hf : bound env nts ≤ fuel) (h : Reached env fuel s st) {r : Nat}
    (hr : ∀ A k p, env.gram.Rule A k p → p.length ≤ r) {a b : Def} (ha : DefOK env st a) (hb : DefOK env st b) (hi : a.key.idx = b.key.idx)
    (root : Key) :
    (∃ x c, circC st.get root fuel a = .ok (x, c) ∧ c ≤ 1 + r * ((1 + r * ((r + 1) ^ nts.card + 1)) * nts.card * (2 * env.lex.length + 1) + 1)) ∧
    (∃ x c, compareC st.get fuel a b = .ok (x, c) ∧ c ≤ 1 + r * ((1 + r * ((r + 1) ^ nts.card + 1)) * nts.card * (2 * env.lex.length + 1) + 1)) := by
  obtain ⟨P, inv⟩ := h.inv e hf
  obtain ⟨rk, rb, hrk⟩ := inv.wf.exists_rank e
  obtain ⟨ts, hts, hn⟩ := kids_bound e inv.wf hr ha
  obtain ⟨us, hus, _⟩ := kids_bound e inv.wf hr hb
  unfold TreeBound at hn
  obtain ⟨f, rfl⟩ : ∃ f, fuel = f + 1 := ⟨fuel - 1, by unfold bound at hf; omega⟩
  constructor
  · obtain ⟨x, ex, _⟩ := circ_ok inv.wf root rk hrk f a ha.kids (fun c _ => by have := rb c; unfold bound at hf; omega)
    rw [← circC_forget] at ex
    obtain ⟨⟨x', c⟩, ec, _⟩ := Out.bind_eq_ok.1 ex
    have := circ_nodes inv.wf root _ _ _ _ _ hts ec
    exact ⟨x', c, ec, by omega⟩
  · obtain ⟨x, ex, _⟩ := comparePriority_ok inv.wf rk hrk f a b ha hb hi (fun c _ => by have := rb c; unfold bound at hf; omega)
    rw [← compareC_forget] at ex
    obtain ⟨⟨x', c⟩, ec, _⟩ := Out.bind_eq_ok.1 ex
    have := compare_nodes inv.wf _ _ _ _ _ _ _ hts hus ec
    exact ⟨x', c, ec, by omega⟩
end

/-! ### Exponentially many calls -/

/-- The memo has a reading without parts for the key. -/
def Bare (k : Key) (st : St) : Prop := ∃ d, st.memo k = some d ∧ d.children = []

section
variable {env : Env} {fuel : Nat} {k0 : Key}

theorem addToMemo_keeps {Q : (Key → Option Def) → Prop} (hQ : ∀ memo d, d.children = [] → Q memo → Q (upd memo d.key (some d)))
    {st st' : St} {td : Def} (ht : td.children = []) (h : addToMemo fuel st td = .ok st') (q : Q st.memo) : Q st'.memo := by
  unfold addToMemo at h
  split at h
  · cases h
    dsimp only
    rw [foldl_push]
    exact hQ _ _ ht q
  · obtain ⟨c, _, h⟩ := Out.bind_eq_ok.1 h
    split at h
    · obtain ⟨b, _, h⟩ := Out.bind_eq_ok.1 h
      split at h
      · cases h; exact q
      · cases h; exact hQ _ _ ht q
    · cases h; exact q

theorem checkNonTerminal_keeps {Q : (Key → Option Def) → Prop} (hQ : ∀ memo d, d.children = [] → Q memo → Q (upd memo d.key (some d)))
    {st : St} {m r} (h : checkNonTerminal env fuel st m = .ok r) (q : Q st.memo) : Q r.1.memo := by
  unfold checkNonTerminal at h
  split at h
  · obtain ⟨st', h1, h⟩ := Out.bind_eq_ok.1 h
    cases h
    exact addToMemo_keeps hQ rfl h1 q
  · cases h; exact q

theorem addPartialPre_keeps {Q : (Key → Option Def) → Prop} (hQ : ∀ memo d, d.children = [] → Q memo → Q (upd memo d.key (some d)))
    {st st' : St} {tp m} (h : addPartialPre env fuel st tp m = .ok st') (q : Q st.memo) : Q st'.memo := by
  unfold addPartialPre at h
  obtain ⟨st1, h1, h⟩ := Out.bind_eq_ok.1 h
  cases h
  have hp : ∀ (ds : List Def) (s : St), (ds.foldl (fun s td => push s tp td.key) s).memo = s.memo := by
    intro ds
    induction ds with
    | nil => intro s; rfl
    | cons d ds ih => intro s; rw [List.foldl_cons, ih]; rfl
  rw [hp]
  split at h1
  · cases h1; exact q
  · obtain ⟨r, h2, h1⟩ := Out.bind_eq_ok.1 h1
    cases h1
    exact checkNonTerminal_keeps hQ h2 q

theorem addProds_keeps {Q : (Key → Option Def) → Prop} (hQ : ∀ memo d, d.children = [] → Q memo → Q (upd memo d.key (some d))) :
    ∀ depth {st st' : St} {m}, addProds env fuel depth st m = .ok st' → Q st.memo → Q st'.memo := by
  intro depth
  induction depth with
  | zero => intro _ _ _ h; cases h
  | succ depth ih =>
    intro st st' m h q
    unfold addProds at h
    split at h
    · cases h; exact q
    · dsimp only at h
      split at h
      · cases h; exact q
      · rename_i ps _
        have key : ∀ (ps : List (List Nat)) (st : St) k, addProdsLoop env fuel (addProds env fuel depth) m st k ps = .ok st' → Q st.memo → Q st'.memo := by
          intro ps
          induction ps with
          | nil => intro st k h q; cases h; exact q
          | cons p ps ihp =>
            intro st k h q
            cases p with
            | nil =>
              unfold addProdsLoop at h
              obtain ⟨st1, h1, h⟩ := Out.bind_eq_ok.1 h
              exact ihp _ _ h (addToMemo_keeps hQ rfl h1 q)
            | cons X p =>
              unfold addProdsLoop at h
              obtain ⟨st1, h1, h⟩ := Out.bind_eq_ok.1 h
              obtain ⟨st2, h2, h⟩ := Out.bind_eq_ok.1 h
              exact ihp _ _ h (ih h2 (addPartialPre_keeps hQ h1 q))
        exact key _ _ _ h q

theorem bare_upd (memo : Key → Option Def) (d : Def) (hd : d.children = []) (q : ∃ x, memo k0 = some x ∧ x.children = []) :
    ∃ x, upd memo d.key (some d) k0 = some x ∧ x.children = [] := by
  unfold upd
  split
  · exact ⟨d, rfl, hd⟩
  · exact q

/-- A round without lexemes after which a key has a reading with parts for the first time. -/
theorem round_change (hl : env.lex = []) {st st' : St} {tp : Partial} {k : Key} {n : Nat} (h : update env fuel n st tp k = .ok st')
    (q : Bare k0 st) (nq : ¬ Bare k0 st') : tp.td.children.length + 1 = tp.prod.length ∧ (extend tp k).td.key = k0 ∧
      ∃ old, st.memo k0 = some old ∧ old.children = [] ∧ comparePriority st.get fuel (extend tp k).td old = .ok 1 ∧
        createsCircularDep st.get k0 fuel (extend tp k).td = .ok false := by
  cases n with
  | zero => cases h
  | succ n =>
    unfold update at h
    dsimp only at h
    split at h
    · rename_i hc
      refine ⟨hc, ?_⟩
      unfold addToMemo at h
      split at h
      · rename_i hm
        cases h
        exfalso
        refine nq ?_
        obtain ⟨d, h1, h2⟩ := q
        dsimp only
        unfold Bare
        rw [foldl_push]
        dsimp only
        refine ⟨d, ?_, h2⟩
        unfold upd
        split
        · rename_i he
          rw [he, hm] at h1
          cases h1
        · exact h1
      · rename_i old hm
        obtain ⟨c, hcmp, h⟩ := Out.bind_eq_ok.1 h
        split at h
        · rename_i h1
          subst h1
          obtain ⟨b, hb, h⟩ := Out.bind_eq_ok.1 h
          split at h
          · cases h; exact absurd q nq
          · rename_i hbf
            cases h
            have hk : (extend tp k).td.key = k0 := by
              by_contra hne
              refine nq ?_
              obtain ⟨d, h1, h2⟩ := q
              refine ⟨d, ?_, h2⟩
              show upd st.memo _ _ k0 = _
              unfold upd
              rw [if_neg (fun h => hne h.symm)]
              exact h1
            rw [hk] at hm hb
            obtain ⟨d, h1, h2⟩ := q
            rw [hm] at h1
            cases h1
            have : b = false := by simpa using hbf
            subst this
            exact ⟨hk, old, hm, h2, hcmp, hb⟩
        · cases h; exact absurd q nq
    · split at h
      · cases h
      · obtain ⟨r, h1, h⟩ := Out.bind_eq_ok.1 h
        have hr : r = (st, none) := by
          unfold checkNonTerminal at h1
          rw [hl] at h1
          simp only [List.getElem?_nil, reduceCtorEq, if_false, Out.ok.injEq] at h1
          exact h1.symm
        subst hr
        dsimp only at h
        unfold addPartial at h
        obtain ⟨st1, h2, h⟩ := Out.bind_eq_ok.1 h
        exact absurd (addProds_keeps (Q := fun memo => ∃ x, memo k0 = some x ∧ x.children = []) bare_upd _ h
          (addPartialPre_keeps bare_upd h2 q)) nq

open Verif.Props.PackratOrder in
theorem crossing {s : Nat} {Q : St → Prop} {st : St} : ∀ n a, Reached env fuel s a → loop env fuel n a = .ok st → Q a → ¬ Q st →
    ∃ b tp k rest b', Reached env fuel s b ∧ b.stack = (tp, k) :: rest ∧ update env fuel fuel { b with stack := rest } tp k = .ok b' ∧
      Q b ∧ ¬ Q b' := by
  intro n
  induction n with
  | zero => intro a _ h; cases h
  | succ n ih =>
    intro a ra h q nq
    unfold loop at h
    cases hst : a.stack with
    | nil => rw [hst] at h; cases h; exact absurd q nq
    | cons u rest =>
      obtain ⟨tp, k⟩ := u
      rw [hst] at h
      obtain ⟨a', h1, h⟩ := Out.bind_eq_ok.1 h
      by_cases q' : Q a'
      · exact ih a' (.round ra hst h1) h q' nq
      · exact ⟨a, tp, k, rest, a', ra, hst, h1, q, q'⟩
end

/-- `A0 → A1 | ε`, `A1 → A2 A2`, …, `Am → A(m+1) A(m+1)`, `A(m+1) → ε`. -/
def gx (m : Nat) : Grammar Nat where
  order := List.range (m + 2)
  prods := fun x => if x = 0 then some [[1], []] else if x ≤ m then some [[x + 1, x + 1]] else if x = m + 1 then some [[]] else none

theorem gx_wf (m : Nat) : (gx m).WF := by
  intro x
  simp only [gx, List.mem_range]
  by_cases h0 : x = 0
  · simp [h0]
  · by_cases h1 : x ≤ m
    · simp [h0, h1]; omega
    · by_cases h2 : x = m + 1
      · simp [h2]
      · simp [h0, h1, h2]; omega

theorem gx_rule {m i k p} (h : (gx m).Rule i k p) : (i = 0 ∧ (k = 0 ∧ p = [1] ∨ k = 1 ∧ p = [])) ∨ (0 < i ∧ i ≤ m ∧ k = 0 ∧ p = [i + 1, i + 1]) ∨
    (i = m + 1 ∧ k = 0 ∧ p = []) := by
  obtain ⟨ps, h1, h2⟩ := h
  simp only [gx] at h1
  by_cases h0 : i = 0
  · rw [if_pos h0] at h1
    cases h1
    match k with
    | 0 => exact .inl ⟨h0, .inl ⟨rfl, by simpa using h2.symm⟩⟩
    | 1 => exact .inl ⟨h0, .inr ⟨rfl, by simpa using h2.symm⟩⟩
    | k + 2 => simp at h2
  · rw [if_neg h0] at h1
    by_cases hi : i ≤ m
    · rw [if_pos hi] at h1
      cases h1
      match k with
      | 0 => exact .inr (.inl ⟨by omega, hi, rfl, by simpa using h2.symm⟩)
      | k + 1 => simp at h2
    · rw [if_neg hi] at h1
      by_cases hm : i = m + 1
      · rw [if_pos hm] at h1
        cases h1
        match k with
        | 0 => exact .inr (.inr ⟨hm, rfl, by simpa using h2.symm⟩)
        | k + 1 => simp at h2
      · rw [if_neg hm] at h1
        cases h1

theorem gx_derives (m : Nat) : ∀ d, d ≤ m → (gx m).Derives [m + 1 - d] [] := by
  intro d
  induction d with
  | zero => intro _; exact .nonterm (k := 0) (p := []) ⟨[[]], by simp [gx], rfl⟩ .nil .nil
  | succ d ih =>
    intro hd
    have h := ih (by omega)
    have h2 : (gx m).Derives [m + 1 - d, m + 1 - d] [] := Derives.append h h
    refine .nonterm (k := 0) (p := [m + 1 - d, m + 1 - d]) (u := []) (v := []) ⟨[[m + 1 - (d + 1) + 1, m + 1 - (d + 1) + 1]], ?_, ?_⟩ h2 .nil
    · simp only [gx]; rw [if_neg (by omega), if_pos (by omega)]
    · simp; omega

theorem gx_cycleFree (m : Nat) : (gx m).CycleFree := by
  have one : ∀ {A B}, (gx m).UnitStep A B → A < B := by
    rintro A B ⟨k, pre, post, hr, _, _⟩
    have hB : B ∈ pre ++ B :: post := by simp
    rcases gx_rule hr with ⟨h, ⟨_, hp⟩ | ⟨_, hp⟩⟩ | ⟨_, _, _, hp⟩ | ⟨_, _, hp⟩ <;> rw [hp] at hB <;> simp at hB <;> omega
  have many : ∀ {A B}, Plus (gx m).UnitStep A B → A < B := by
    intro A B h
    induction h with
    | one h => exact one h
    | step h _ ih => exact Nat.lt_trans (one h) ih
  exact fun A h => Nat.lt_irrefl _ (many h)

section
variable {m : Nat} {s : SymSet Nat} {st : St}

/-- The calls for the key of a symbol double from symbol to symbol. -/
theorem gx_calls (hs : SetOK (gx m) s) (h : WF (mkEnv (gx m) s ([] : List (Lexeme Nat Nat))) st) (root : Key) : ∀ n k d x c, st.memo k = some d →
    s.symb2str[k.idx]? = some x → ∀ j, 1 ≤ x → x + j = m + 1 → circC st.get root n d = .ok (false, c) → c + 1 = 2 ^ (j + 1) := by
  intro n
  induction n with
  | zero => intro _ _ _ _ _ _ _ _ _ e; cases e
  | succ n ih =>
    intro k d x c hk hx j h1 hj e
    unfold circC at e
    obtain ⟨⟨b', c'⟩, e1, e2⟩ := Out.bind_eq_ok.1 e
    simp only [Out.ok.injEq, Prod.mk.injEq] at e2
    obtain ⟨rfl, rfl⟩ := e2
    rcases h.ok _ _ hk with ⟨_, h2, _⟩ | ⟨p, hr, hch, hm, _⟩
    · simp [mkEnv] at h2
    · obtain ⟨A, q, hA, hrule, hp, _, _⟩ := rule_down hs hr 0
      rw [h.key _ _ hk, hx] at hA
      cases hA
      have hcs := hch.map_idx
      rw [hp] at hcs
      rcases gx_rule hrule with ⟨h0, _⟩ | ⟨_, hle, _, rfl⟩ | ⟨hx', _, rfl⟩
      · omega
      · obtain ⟨j, rfl⟩ : ∃ j', j = j' + 1 := ⟨j - 1, by omega⟩
        have hsym := symIdx_get hs.inv (hs.syms _ _ _ hrule (x + 1) (by simp))
        obtain ⟨a, b, hd, hcs⟩ : ∃ a b, d.children = [a, b] ∧ a.idx = symIdx s (x + 1) ∧ b.idx = symIdx s (x + 1) := by
          obtain ⟨a, l, hd, ha, hl⟩ := List.map_eq_cons_iff.1 hcs
          obtain ⟨b, l', rfl, hb, hl'⟩ := List.map_eq_cons_iff.1 hl
          rw [List.map_eq_nil_iff.1 hl'] at hd
          exact ⟨a, b, hd, ha, hb⟩
        · rw [hd] at e1 hm
          unfold circKidsC at e1
          split at e1
          · cases e1
          obtain ⟨⟨b1, c1⟩, e2, e1⟩ := Out.bind_eq_ok.1 e1
          cases b1 with
          | true => cases e1
          | false =>
            obtain ⟨⟨b2, c2⟩, e3, e1⟩ := Out.bind_eq_ok.1 e1
            simp only [Out.ok.injEq, Prod.mk.injEq] at e1
            obtain ⟨rfl, rfl⟩ := e1
            unfold circKidsC at e3
            split at e3
            · cases e3
            obtain ⟨⟨b3, c3⟩, e4, e3⟩ := Out.bind_eq_ok.1 e3
            cases b3 with
            | true => cases e3
            | false =>
              simp only [circKidsC, Out.bind_ok, Bool.false_eq_true, if_false, Out.ok.injEq, Prod.mk.injEq, true_and, Nat.add_zero] at e3
              subst e3
              obtain ⟨da, ha⟩ := Option.isSome_iff_exists.1 (hm a (by simp))
              obtain ⟨db, hb⟩ := Option.isSome_iff_exists.1 (hm b (by simp))
              rw [h.get ha] at e2
              rw [h.get hb] at e4
              have g1 := ih a da (x + 1) _ ha (by rw [hcs.1]; exact hsym) j (by omega) (by omega) e2
              have g2 := ih b db (x + 1) _ hb (by rw [hcs.2]; exact hsym) j (by omega) (by omega) e4
              rw [Nat.pow_succ]
              omega
      · have : j = 0 := by omega
        subst this
        rw [List.map_nil, List.map_eq_nil_iff] at hcs
        rw [hcs] at e1
        cases e1
        rfl
end

open Verif.Props.PackratOrder in
/-- C102: in the grammar the number of calls is not bounded like that: for every `m` there is a grammar with `m + 2` nonterminals, at most two
productions for each and at most two symbols in each, whose memo has at most one entry for each nonterminal on no lexemes at all, and on the way
the parser comes to a check of `2^(m+1)` calls: it takes a reading for the next round that completes a production, finds that it comes
before the reading in the memo, and checks it for cycles, in vain. -/
theorem C102_refuted (m : Nat) : ∃ g : Grammar Nat, g.WF ∧ g.order.length = m + 2 ∧ (∀ A k p, g.Rule A k p → p.length ≤ 2) ∧
    (∀ A ps, g.prods A = some ps → ps.length ≤ 2) ∧ ∃ s N, loadSet g ([] : List (Lexeme Nat Nat)) = .ok s ∧ ∀ fuel, N ≤ fuel →
      ∃ st tp k rest old, Reached (mkEnv g s ([] : List (Lexeme Nat Nat))) fuel (symIdx s 0) st ∧ st.stack = (tp, k) :: rest ∧
        tp.td.children.length + 1 = tp.prod.length ∧ st.memo (extend tp k).td.key = some old ∧
        comparePriority st.get fuel (extend tp k).td old = .ok 1 ∧
        circC st.get (extend tp k).td.key fuel (extend tp k).td = .ok (false, 2 ^ (m + 1)) := by
  refine ⟨gx m, gx_wf m, by simp [gx], fun A k p hr => ?_, fun A ps hp => ?_, ?_⟩
  · rcases gx_rule hr with ⟨_, ⟨_, rfl⟩ | ⟨_, rfl⟩⟩ | ⟨_, _, _, rfl⟩ | ⟨_, _, rfl⟩ <;> simp
  · simp only [gx] at hp
    split at hp
    · cases hp; simp
    · split at hp
      · cases hp; simp
      · split at hp
        · cases hp; simp
        · cases hp
  obtain ⟨s, es, hs, hls, _⟩ := loadSet_ok (gx m) (gx_wf m) ([] : List (Lexeme Nat Nat))
  have e := Verif.Props.PackratCount.envOK (gx m) (gx_wf m) ([] : List (Lexeme Nat Nat)) (by simp) hs hls
  refine ⟨s, bound (mkEnv (gx m) s ([] : List (Lexeme Nat Nat))) ((gx m).order.map (symIdx s)).toFinset, es, fun fuel hf => ?_⟩
  obtain ⟨st0, st, P, e0, e1, inv, hst, hq⟩ := engine e (symIdx s 0) hf
  have hl : (mkEnv (gx m) s ([] : List (Lexeme Nat Nat))).lex = [] := rfl
  have r0 : (gx m).Rule 0 0 [1] := ⟨[[1], []], by simp [gx], rfl⟩
  have r1 : (gx m).Rule 0 1 [] := ⟨[[1], []], by simp [gx], rfl⟩
  have R0 := Reached.start (env := mkEnv (gx m) s ([] : List (Lexeme Nat Nat))) e0
  obtain ⟨P0, inv0⟩ := R0.inv e hf
  have q0 : Bare ⟨symIdx s 0, 0, 0⟩ st0 := by
    have hq0 : st0.queued ⟨symIdx s 0, 0⟩ = true := by
      have hu : unq (mkEnv (gx m) s ([] : List (Lexeme Nat Nat))) ((gx m).order.map (symIdx s)).toFinset St.init < fuel := by
        have : unq (mkEnv (gx m) s ([] : List (Lexeme Nat Nat))) ((gx m).order.map (symIdx s)).toFinset St.init ≤ (allM _ _).card := Finset.card_filter_le _ _
        unfold bound at hf
        omega
      obtain ⟨st0', e0', p0, c30, hq0⟩ := addProds_spec (P := fun _ => False) (nts := ((gx m).order.map (symIdx s)).toFinset) e (fuel := fuel)
        (by unfold bound at hf; omega) fuel St.init ⟨symIdx s 0, 0⟩ (WF_init _) (by intro m tp h; simp [St.init] at h) (Nat.zero_le _) hu
      rw [e0] at e0'
      cases e0'
      exact hq0
    obtain ⟨d, hd, _⟩ : Done _ st0 _ := inv0.c3 ⟨symIdx s 0, 0⟩ hq0 (by simp) 1 [] (rule_up hs (gx_wf m) r1)
    refine ⟨d, hd, ?_⟩
    exact addProds_keeps (Q := fun memo => ∀ k d, memo k = some d → d.children = []) (fun memo d hd h k x hx => by
      unfold upd at hx
      split at hx
      · cases hx; exact hd
      · exact h _ _ hx) _ e0 (by intro k d h; cases h) _ _ hd
  have q1 : ¬ Bare ⟨symIdx s 0, 0, 0⟩ st := by
    rintro ⟨d, hd, hc⟩
    have hder : (mkEnv (gx m) s ([] : List (Lexeme Nat Nat))).gram.Der [] [symIdx s 1] 0 0 := by
      have := derives_up hs (gx_wf m) (o := []) (gx_derives m m (Nat.le_refl _)) (by
        intro x hx
        rw [List.mem_singleton, Nat.add_sub_cancel_left] at hx
        subst hx
        exact hs.syms _ _ _ r0 1 (by simp))
      rw [Nat.add_sub_cancel_left] at this
      exact der_iff_derives.2 this
    obtain ⟨d', hd', hcf⟩ := offered e inv hst (A := symIdx s 0) (i := 0) (k := 0) (p := [symIdx s 1]) (j := 0) (cs := [⟨symIdx s 1, 0, 0⟩]) hq
      (rule_up hs (gx_wf m) r0) (.cons (c := ⟨symIdx s 1, 0, 0⟩) .nil) (by
      intro c hc
      rw [List.mem_singleton] at hc
      subst hc
      exact hder)
    rw [hd] at hd'
    cases hd'
    have hp := (hcf (cycleFree_up hs (gx_cycleFree m))).1
    rcases inv.wf.ok _ _ hd with ⟨_, h2, _⟩ | ⟨p, hr, hch, _⟩
    · simp [mkEnv] at h2
    · obtain ⟨A, q, hA, hrule, hpq, _, _⟩ := rule_down hs hr 0
      rw [inv.wf.key _ _ hd, symIdx_get hs.inv (hs.order 0 (by simp [gx]))] at hA
      cases hA
      have hlen := hch.length
      rw [hc, hpq, List.length_map] at hlen
      have hp : d.priority ≤ 0 := hp
      rcases gx_rule hrule with ⟨_, ⟨_, rfl⟩ | ⟨hk, _⟩⟩ | ⟨h, _⟩ | ⟨h, _⟩
      · simp at hlen
      · omega
      · omega
      · omega
  obtain ⟨b, tp, k, rest, b', hb, hbs, hu, qb, qb'⟩ := crossing fuel st0 R0 e1 q0 q1
  obtain ⟨h1, h2, old, h3, h4, h5, h6⟩ := round_change (st := { b with stack := rest }) hl hu qb qb'
  refine ⟨b, tp, k, rest, old, hb, hbs, h1, by rw [h2]; exact h3, h5, ?_⟩
  rw [h2]
  have h6 : createsCircularDep b.get ⟨symIdx s 0, 0, 0⟩ fuel (extend tp k).td = .ok false := h6
  rw [← circC_forget] at h6
  obtain ⟨⟨x, c⟩, h7, h8⟩ := Out.bind_eq_ok.1 h6
  simp only [Out.ok.injEq] at h8
  subst h8
  rw [h7]
  obtain ⟨Pb, invb⟩ := hb.inv e hf
  have hstk := invb.wf.stk (tp, k) (by simp [hbs])
  have hD := extend_DefOK invb.wf hstk.1 hstk.2 h1
  rcases hD with ⟨_, hh, _⟩ | ⟨p, hr, hch, hm, _⟩
  · simp [mkEnv] at hh
  · obtain ⟨A, q, hA, hrule, hpq, _, _⟩ := rule_down hs hr 0
    rw [h2, symIdx_get hs.inv (hs.order 0 (by simp [gx]))] at hA
    cases hA
    have hcs := hch.map_idx
    rw [hpq] at hcs
    rcases gx_rule hrule with ⟨_, ⟨_, rfl⟩ | ⟨_, rfl⟩⟩ | ⟨h, _⟩ | ⟨h, _⟩
    · obtain ⟨a, hd, hcs⟩ : ∃ a, (extend tp k).td.children = [a] ∧ a.idx = symIdx s 1 := by
        obtain ⟨a, l, hd, ha, hl⟩ := List.map_eq_cons_iff.1 hcs
        rw [List.map_eq_nil_iff.1 hl] at hd
        exact ⟨a, hd, ha⟩
      · rw [hd] at hm
        obtain ⟨da, ha⟩ := Option.isSome_iff_exists.1 (hm a (by simp))
        cases fuel with
        | zero => cases h7
        | succ fuel =>
          unfold circC at h7
          obtain ⟨⟨b1, c1⟩, e2, h7⟩ := Out.bind_eq_ok.1 h7
          simp only [Out.ok.injEq, Prod.mk.injEq] at h7
          obtain ⟨rfl, rfl⟩ := h7
          rw [hd] at e2
          unfold circKidsC at e2
          split at e2
          · cases e2
          obtain ⟨⟨b3, c3⟩, e4, e3⟩ := Out.bind_eq_ok.1 e2
          cases b3 with
          | true => cases e3
          | false =>
            simp only [circKidsC, Out.bind_ok, Bool.false_eq_true, if_false, Out.ok.injEq, Prod.mk.injEq, true_and, Nat.add_zero] at e3
            subst e3
            rw [invb.wf.get ha] at e4
            have := gx_calls hs invb.wf _ _ a da 1 _ ha (by rw [hcs]; exact symIdx_get hs.inv (hs.syms _ _ _ r0 1 (by simp))) m (Nat.le_refl _) (by omega) e4
            rw [this]
    · simp [extend] at hcs
    · omega
    · omega

/-! ### Concrete cases -/

/-- The calls of the checks for cycles that are made round by round, for readings that complete a production and come before the one in the
memo. -/
def checks (env : Env) (fuel : Nat) : Nat → St → List Nat
  | 0, _ => []
  | n + 1, st =>
    match st.stack with
    | [] => []
    | (tp, k) :: rest =>
      let d := (extend tp k).td
      let here := match st.memo d.key with
        | none => []
        | some old => if tp.td.children.length + 1 ≠ tp.prod.length then [] else
          match comparePriority st.get fuel d old, circC st.get d.key fuel d with
          | .ok 1, .ok r => [r.2]
          | _, _ => []
      match update env fuel fuel { st with stack := rest } tp k with
      | .ok st' => here ++ checks env fuel n st'
      | _ => here

/-- All of them, without lexemes. -/
def allChecks (g : Grammar Nat) (fuel : Nat) : Option (List Nat) :=
  match loadSet g ([] : List (Lexeme Nat Nat)) with
  | .ok s =>
    let env := mkEnv g s ([] : List (Lexeme Nat Nat))
    match addProds env fuel fuel St.init ⟨symIdx s 0, 0⟩ with
    | .ok st => some (checks env fuel fuel st)
    | _ => none
  | _ => none

theorem C102_said : ((allChecks (gx 1) 40, allChecks (gx 2) 40, allChecks (gx 4) 40) : Option (List Nat) × _ × _) = (some [4], some [8], some [32]) := by
  decide +kernel

open Verif.Props.PackratOrder in
-- `A → A A | a` on `a a a`: `N = 1`, `r = 2`, `n = 3`
example : ∃ st, Reached envA (bound envA {0}) 0 st ∧ ∀ a b, DefOK envA st a → DefOK envA st b → a.key.idx = b.key.idx →
    ∃ x c, compareC st.get (bound envA {0}) a b = .ok (x, c) ∧ c ≤ 129 := by
  obtain ⟨st0, _, h, _⟩ := C90_reaches envA_ok (Nat.le_refl _) 0
  refine ⟨st0, h, fun a b ha hb hi => ?_⟩
  obtain ⟨x, c, h1, h2⟩ := (C102_linear (r := 2) envA_ok (Nat.le_refl _) h (by
    rintro A k p ⟨ps, h1, h2⟩
    have h1 : (if A = 0 then some [[0, 0], [1]] else none) = some ps := h1
    split at h1
    · cases h1
      match k with
      | 0 => cases h2; simp
      | 1 => cases h2; simp
      | k + 2 => simp at h2
    · cases h1) ha hb hi ⟨0, 0, 3⟩).2
  exact ⟨x, c, h1, by simpa [envA] using h2⟩

open Verif.Props.Packrat in
-- `S → S S | S | a | ε` on `a a`: at most 46 nodes
example : ∃ t, Out.Returns (parse 0 gS (lexs [1, 1])) (some t) ∧ nodes t ≤ 46 := by
  have hl : ∀ l ∈ lexs [1, 1], gS.Term l.kind := by decide
  have a : gS.Derives [0] [1] := .nonterm (k := 2) (p := [1]) (v := []) ⟨_, rfl, rfl⟩ (.term (by decide) .nil) .nil
  obtain ⟨t, ⟨N, h⟩, _⟩ := C20_complete 0 gS (table_wf _) (lexs [1, 1]) hl
    ⟨0, rfl, .nonterm (k := 0) (p := [0, 0]) (u := [1, 1]) (v := []) ⟨_, rfl, rfl⟩ (Derives.append a a) .nil⟩
  refine ⟨t, ⟨N, h⟩, ?_⟩
  refine C91_nodes_linear (r := 2) 0 gS (table_wf _) ?_ _ hl (h N (Nat.le_refl _))
  rintro A k p ⟨ps, h1, h2⟩
  match A, h1 with
  | 0, h1 =>
    cases h1
    match k with
    | 0 => cases h2; simp
    | 1 => cases h2; simp
    | 2 => cases h2; simp
    | 3 => cases h2; simp
    | k + 4 => simp at h2
  | A + 1, h1 => cases h1

end Verif.Props.PackratWork
