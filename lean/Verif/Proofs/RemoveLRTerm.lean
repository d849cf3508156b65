import Verif.Proofs.RemoveLRLang
/- When replacing leading nonterminals has an end. -/
namespace Verif.Spec.RemoveLR
open Verif.Spec Verif.Spec.Grammar Verif.LeftRecursion

variable {g : Grammar Str} {dn : List Str}

/-- The production expands. -/
def Settles (g : Grammar Str) (dn : List Str) (p : List Str) : Prop := ∃ qs, Expands g dn [p] qs

theorem settles_all : ∀ {ps : List (List Str)}, (∀ p ∈ ps, Settles g dn p) → ∃ qs, Expands g dn ps qs := by
  intro ps
  induction ps with
  | nil => intro _; exact ⟨[], .nil⟩
  | cons p ps ih =>
    intro h
    obtain ⟨q1, h1⟩ := h p (by simp)
    obtain ⟨q2, h2⟩ := ih fun p hp => h p (by simp [hp])
    exact ⟨q1 ++ q2, h1.append h2⟩

theorem filter_lt {V : List Str} {F : Str} (hF : F ∈ dn) (hV : F ∉ V) :
    (dn.filter (· ∉ F :: V)).length < (dn.filter (· ∉ V)).length := by
  have : dn.filter (· ∉ F :: V) = (dn.filter (· ∉ V)).filter (· ≠ F) := by
    rw [List.filter_filter]
    congr 1
    funext x
    by_cases h1 : x = F <;> by_cases h2 : x ∈ V <;> simp [h1, h2]
  rw [this]
  have hm : F ∈ dn.filter (· ∉ V) := List.mem_filter.2 ⟨hF, by simpa using hV⟩
  generalize dn.filter (· ∉ V) = l at hm
  induction l with
  | nil => simp at hm
  | cons x l ih =>
    by_cases hx : x = F
    · subst hx
      rw [List.filter_cons_of_neg (by simp)]
      have := List.length_filter_le (· ≠ x) l
      simp only [List.length_cons]
      omega
    · rw [List.filter_cons_of_pos (by simpa using hx)]
      have := ih ((List.mem_cons.1 hm).resolve_left (Ne.symm hx))
      simp only [List.length_cons]
      omega

theorem lead_settles (hdn : ∀ F ∈ dn, ∃ rs, g.prods F = some rs) : ∀ (k : Nat) (V : List Str) (F : Str),
    (dn.filter (· ∉ V)).length ≤ k → F ∈ dn → (∀ v ∈ V, Plus (LeadStep g dn) v F) →
    (∀ F', F' = F ∨ Plus (LeadStep g dn) F F' → ¬ Plus (LeadStep g dn) F' F') →
    ∀ t, (Vanishes g dn F → Settles g dn t) → Settles g dn (F :: t) := by
  intro k
  induction k with
  | zero =>
    intro V F hk hF hV hac
    exfalso
    by_cases h : F ∈ V
    · exact hac F (.inl rfl) (hV F h)
    · have := filter_lt hF h
      omega
  | succ k ih =>
    intro V F hk hF hV hac t ht
    have hFV : F ∉ V := fun h => hac F (.inl rfl) (hV F h)
    have hlt := filter_lt hF hFV
    obtain ⟨rs, hrs⟩ := hdn F hF
    have key : ∀ r ∈ rs, ∀ s pre, r = pre ++ s → (∀ X ∈ pre, Vanishes g dn X) → Settles g dn (s ++ t) := by
      intro r hr s
      obtain ⟨kk, hk'⟩ := mem_rule hrs hr
      induction s with
      | nil =>
        intro pre e hp
        simp only [List.append_nil] at e
        subst e
        exact ht (.mk hF hk' hp)
      | cons Y s ihs =>
        intro pre e hp
        by_cases hY : Y ∈ dn
        · have hl : LeadStep g dn F Y := ⟨hY, kk, pre, s, e ▸ hk', hp⟩
          apply ih (F :: V) Y (by omega) hY
          · intro v hv
            rcases List.mem_cons.1 hv with rfl | hv
            · exact .one hl
            · exact (hV v hv).trans (.one hl)
          · intro F' hF'
            apply hac
            right
            rcases hF' with rfl | h
            · exact .one hl
            · exact .step hl h
          · intro hvY
            apply ihs (pre ++ [Y]) (by simp [e])
            intro X hX
            rcases List.mem_append.1 hX with hX | hX
            · exact hp X hX
            · rw [List.mem_singleton.1 hX]; exact hvY
        · exact ⟨_, .keep (by simpa using hY) .nil⟩
    obtain ⟨qs, hq⟩ := settles_all (ps := rs.map (· ++ t)) (by
      intro p hp
      obtain ⟨r, hr, rfl⟩ := List.mem_map.1 hp
      exact key r hr r [] rfl (by simp))
    exact ⟨qs, .subst hF hrs (by simpa using hq)⟩

/-! ### The other direction -/

/-- `Expands` with the number of replacements. -/
inductive ExpN (g : Grammar Str) (done : List Str) : Nat → List (List Str) → Prop
  | nil : ExpN g done 0 []
  | keep {n p ps} : (∀ F, p.head? = some F → F ∉ done) → ExpN g done n ps → ExpN g done n (p :: ps)
  | subst {n F t rs ps} : F ∈ done → g.prods F = some rs →
      ExpN g done n (rs.map (· ++ t) ++ ps) → ExpN g done (n + 1) ((F :: t) :: ps)

theorem expN_of {ps qs} (h : Expands g dn ps qs) : ∃ n, ExpN g dn n ps := by
  induction h with
  | nil => exact ⟨0, .nil⟩
  | keep h _ ih => obtain ⟨n, hn⟩ := ih; exact ⟨n, .keep h hn⟩
  | subst h1 h2 _ ih => obtain ⟨n, hn⟩ := ih; exact ⟨n + 1, .subst h1 h2 hn⟩

theorem ExpN.split {n ps} (h : ExpN g dn n ps) : ∀ a b, ps = a ++ b →
    ∃ i j, ExpN g dn i a ∧ ExpN g dn j b ∧ n = i + j := by
  induction h with
  | nil =>
    intro a b e
    obtain ⟨rfl, rfl⟩ := List.append_eq_nil_iff.1 e.symm
    exact ⟨0, 0, .nil, .nil, rfl⟩
  | @keep n p ps h hx ih =>
    intro a b e
    cases a with
    | nil => cases e; exact ⟨0, n, .nil, .keep h hx, by omega⟩
    | cons x a =>
      cases e
      obtain ⟨i, j, h1, h2, rfl⟩ := ih a b rfl
      exact ⟨i, j, .keep h h1, h2, rfl⟩
  | @subst n F t rs ps h1 h2 hx ih =>
    intro a b e
    cases a with
    | nil => cases e; exact ⟨0, n + 1, .nil, .subst h1 h2 hx, by omega⟩
    | cons x a =>
      cases e
      obtain ⟨i, j, h3, h4, rfl⟩ := ih (rs.map (· ++ t) ++ a) b (by simp)
      exact ⟨i + 1, j, .subst h1 h2 h3, h4, by omega⟩

theorem ExpN.item {n ps} (h : ExpN g dn n ps) {p} (hp : p ∈ ps) : ∃ m, m ≤ n ∧ ExpN g dn m [p] := by
  obtain ⟨a, b, rfl⟩ := List.append_of_mem hp
  obtain ⟨i, j, _, h2, rfl⟩ := h.split a (p :: b) rfl
  obtain ⟨i', j', h3, _, rfl⟩ := h2.split [p] b rfl
  exact ⟨i', by omega, h3⟩

/-- One replacement of a leading symbol. -/
theorem ExpN.unfold {n F t} (h : ExpN g dn n [F :: t]) (hF : F ∈ dn) {k p} (hr : g.Rule F k p) :
    ∃ m, m < n ∧ ExpN g dn m [p ++ t] := by
  cases h with
  | keep hk => exact absurd hF (hk F rfl)
  | @subst n _ _ rs _ _ hrs h =>
    obtain ⟨m, hm, h'⟩ := h.item (p := p ++ t)
      (List.mem_append_left _ (List.mem_map_of_mem (rule_mem hrs hr)))
    exact ⟨m, by omega, h'⟩

theorem ExpN.vanish {X} (hv : Vanishes g dn X) : ∀ n s, ExpN g dn n [X :: s] →
    ∃ m, m < n ∧ ExpN g dn m [s] := by
  induction hv with
  | @mk F k p hF hr _ ih =>
    intro n s h
    obtain ⟨m, hm, h⟩ := h.unfold hF hr
    have key : ∀ q : List Str, (∀ X ∈ q, X ∈ p) → ∀ m, ExpN g dn m [q ++ s] → ∃ m', m' ≤ m ∧ ExpN g dn m' [s] := by
      intro q
      induction q with
      | nil => intro _ m h; exact ⟨m, Nat.le_refl _, h⟩
      | cons Y q ihq =>
        intro hq m h
        obtain ⟨m1, h1, h'⟩ := ih Y (hq Y (by simp)) m (q ++ s) h
        obtain ⟨m2, h2, h''⟩ := ihq (fun X hX => hq X (by simp [hX])) m1 h'
        exact ⟨m2, by omega, h''⟩
    obtain ⟨m', hm', h'⟩ := key p (fun _ h => h) m h
    exact ⟨m', by omega, h'⟩

theorem ExpN.vanishes {pre : List Str} (hv : ∀ X ∈ pre, Vanishes g dn X) {n s} (h : ExpN g dn n [pre ++ s]) :
    ∃ m, m ≤ n ∧ ExpN g dn m [s] := by
  induction pre generalizing n with
  | nil => exact ⟨n, Nat.le_refl _, h⟩
  | cons X pre ih =>
    obtain ⟨m, hm, h'⟩ := ExpN.vanish (hv X (by simp)) n (pre ++ s) h
    obtain ⟨m', hm', h''⟩ := ih (fun X hX => hv X (by simp [hX])) h'
    exact ⟨m', by omega, h''⟩

theorem ExpN.plus {F G} (hp : Plus (LeadStep g dn) F G) : F ∈ dn → ∀ {n t}, ExpN g dn n [F :: t] →
    ∃ m, m < n ∧ ∃ t', ExpN g dn m [G :: t'] := by
  have one : ∀ F G, LeadStep g dn F G → F ∈ dn → ∀ {n t}, ExpN g dn n [F :: t] →
      ∃ m, m < n ∧ ∃ t', ExpN g dn m [G :: t'] := by
    rintro F G ⟨_, k, pre, post, hr, hv⟩ hF n t h
    obtain ⟨m, hm, h'⟩ := h.unfold hF hr
    obtain ⟨m', hm', h''⟩ := ExpN.vanishes hv (s := G :: (post ++ t)) (by simpa using h')
    exact ⟨m', by omega, _, h''⟩
  induction hp with
  | one h => intro hF n t hx; exact one _ _ h hF hx
  | @step a b c h _ ih =>
    intro hF n t hx
    obtain ⟨m, hm, t', h'⟩ := one a b h hF hx
    obtain ⟨m', hm', t'', h''⟩ := ih h.1 h'
    exact ⟨m', by omega, t'', h''⟩

theorem no_cycle {F} (hp : Plus (LeadStep g dn) F F) (hF : F ∈ dn) : ∀ n t, ¬ ExpN g dn n [F :: t] := by
  intro n
  induction n using Nat.strongRecOn with
  | ind n ih =>
    intro t h
    obtain ⟨m, hm, t', h'⟩ := ExpN.plus hp hF h
    exact ih m hm t' h'

theorem plus_target {F G} (hp : Plus (LeadStep g dn) F G) : G ∈ dn := by
  induction hp with
  | one h => exact h.1
  | step _ _ ih => exact ih

/-- The productions of `A` expand exactly if no earlier nonterminal reached from `A` comes back to
itself. -/
theorem expands_iff (hdn : ∀ F ∈ dn, ∃ rs, g.prods F = some rs) {A : Str} {ps : List (List Str)}
    (hps : g.prods A = some ps) : (∃ qs, Expands g dn ps qs) ↔
      ∀ F, Plus (LeadStep g dn) A F → ¬ Plus (LeadStep g dn) F F := by
  constructor
  · rintro ⟨qs, h⟩ F hAF hFF
    obtain ⟨n, hn⟩ := expN_of h
    have first : ∀ G, LeadStep g dn A G → ∃ m t, ExpN g dn m [G :: t] := by
      rintro G ⟨_, k, pre, post, hr, hv⟩
      obtain ⟨m, _, h'⟩ := hn.item (rule_mem hps hr)
      obtain ⟨m', _, h''⟩ := ExpN.vanishes hv h'
      exact ⟨m', _, h''⟩
    have hF : F ∈ dn := plus_target hAF
    cases hAF with
    | one h =>
      obtain ⟨m, t, h'⟩ := first F h
      exact no_cycle hFF hF m t h'
    | @step _ G _ h h2 =>
      obtain ⟨m, t, h'⟩ := first G h
      obtain ⟨m', _, t', h''⟩ := ExpN.plus h2 h.1 h'
      exact no_cycle hFF hF m' t' h''
  · intro hac
    apply settles_all
    intro p hp
    obtain ⟨k, hk⟩ := mem_rule hps hp
    have key : ∀ s pre, p = pre ++ s → (∀ X ∈ pre, Vanishes g dn X) → Settles g dn s := by
      intro s
      induction s with
      | nil => intro _ _ _; exact ⟨[[]], .keep (by simp) .nil⟩
      | cons Y s ih =>
        intro pre e hv
        by_cases hY : Y ∈ dn
        · have hl : LeadStep g dn A Y := ⟨hY, k, pre, s, e ▸ hk, hv⟩
          apply lead_settles hdn _ [] Y (Nat.le_refl _) hY (by simp)
          · intro F' hF'
            apply hac
            rcases hF' with rfl | h
            · exact .one hl
            · exact .step hl h
          · intro hvY
            apply ih (pre ++ [Y]) (by simp [e])
            intro X hX
            rcases List.mem_append.1 hX with hX | hX
            · exact hv X hX
            · rw [List.mem_singleton.1 hX]; exact hvY
        · exact ⟨_, .keep (by simpa using hY) .nil⟩
    exact key p [] rfl (by simp)

open Classical in
/-- What the productions of each nonterminal expand to, empty where that has no end. -/
noncomputable def canon (g : Grammar Str) (A : Str) : List (List Str) :=
  if h : ∃ qs, Expands g (before g A) ((g.prods A).getD []) qs then h.choose else []

theorem canon_eq {A ps qs} (hps : g.prods A = some ps) (h : Expands g (before g A) ps qs) : canon g A = qs := by
  have hx : ∃ qs, Expands g (before g A) ((g.prods A).getD []) qs := ⟨qs, by rw [hps]; exact h⟩
  unfold canon
  rw [dif_pos hx]
  have key : ∀ qs', Expands g (before g A) ((g.prods A).getD []) qs' → qs' = qs := by
    intro qs' h'
    rw [hps] at h'
    exact h'.unique h
  exact key _ hx.choose_spec

theorem before_sub {A F : Str} (h : F ∈ before g A) : F ∈ g.order := (List.takeWhile_sublist _).subset h

/-- All productions expand exactly if leading symbols never come back. -/
theorem expanded_iff (hw : g.WF) : (∃ M, Expanded g M) ↔ LeadsEnd g := by
  have hdn : ∀ A, ∀ F ∈ before g A, ∃ rs, g.prods F = some rs := fun A F hF =>
    Option.isSome_iff_exists.1 ((hw F).2 (before_sub hF))
  constructor
  · rintro ⟨M, hM⟩ A hA
    obtain ⟨ps, hps⟩ := Option.isSome_iff_exists.1 ((hw A).2 hA)
    exact (expands_iff (hdn A) hps).1 ⟨M A, hM A ps hA hps⟩
  · intro h
    refine ⟨canon g, fun A ps hA hps => ?_⟩
    obtain ⟨qs, hq⟩ := (expands_iff (hdn A) hps).2 (h A hA)
    rw [canon_eq hps hq]
    exact hq

/-! ### Grammars without left recursion -/

theorem Vanishes.derives {X} (h : Vanishes g dn X) : g.Derives [X] [] := by
  induction h with
  | mk _ hr _ ih => exact Derives.nonterm (u := []) (v := []) hr (derives_nil_of ih) .nil

theorem LeadStep.left {F G} (h : LeadStep g dn F G) : g.LeftStep F G := by
  obtain ⟨_, k, pre, post, hr, hv⟩ := h
  exact ⟨k, pre, post, hr, derives_nil_of fun X hX => (hv X hX).derives⟩

theorem leadsEnd_of (h : ¬ g.LeftRecursive) : LeadsEnd g := fun _ _ F _ hF =>
  h ⟨F, Plus.mono (fun _ _ => LeadStep.left) hF⟩

theorem Expands.yields {ps qs} (h : Expands g dn ps qs) : ∀ q ∈ qs, ∃ p ∈ ps, g.Yields p q := by
  induction h with
  | nil => simp
  | @keep p ps qs _ _ ih =>
    intro q hq
    rcases List.mem_cons.1 hq with rfl | hq
    · exact ⟨q, by simp, .refl⟩
    · obtain ⟨p, hp, h⟩ := ih q hq
      exact ⟨p, by simp [hp], h⟩
  | @subst F t rs ps qs _ hrs _ ih =>
    intro q hq
    obtain ⟨p, hp, h⟩ := ih q hq
    rcases List.mem_append.1 hp with hp | hp
    · obtain ⟨r, hr, rfl⟩ := List.mem_map.1 hp
      obtain ⟨k, hk⟩ := mem_rule hrs hr
      exact ⟨F :: t, by simp, .step (Step.mk [] t hk) h⟩
    · exact ⟨p, by simp [hp], h⟩

/-- Leading symbols of expanded productions are reached by leftmost steps. -/
theorem expands_left {A : Str} {ps qs} (hps : g.prods A = some ps) (h : Expands g dn ps qs) {pre B post}
    (hq : pre ++ B :: post ∈ qs) (hn : g.Derives pre []) : Plus g.LeftStep A B := by
  obtain ⟨p, hp, hy⟩ := h.yields _ hq
  obtain ⟨k, hk⟩ := mem_rule hps hp
  have h2 := hn.yields.context [] (B :: post)
  simp only [List.nil_append] at h2
  obtain ⟨pre', X, post', e, hn', hX⟩ := (hy.trans h2).head B post rfl
  have hl : g.LeftStep A X := ⟨k, pre', post', e ▸ hk, hn'⟩
  rcases hX with rfl | hX
  · exact .one hl
  · exact .step hl hX

theorem head_split {q : List Str} {B : Str} (h : q.head? = some B) : ∃ post, q = [] ++ B :: post := by
  cases q with
  | nil => cases h
  | cons X q => cases h; exact ⟨q, rfl⟩

theorem not_direct (hlr : ¬ g.LeftRecursive) {A : Str} {ps qs} (hps : g.prods A = some ps)
    (h : Expands g dn ps qs) : ∀ q ∈ qs, q.head? ≠ some A := by
  intro q hq e
  obtain ⟨post, rfl⟩ := head_split e
  exact hlr ⟨A, expands_left hps h hq .nil⟩

theorem grounded_of (hlr : ¬ g.LeftRecursive) : Grounded g := by
  rintro A ps qs _ hps h ⟨q, hq, e⟩
  exact absurd e (not_direct hlr hps h q hq)

theorem noDouble_of (hw : g.WF) (hlr : ¬ g.LeftRecursive) {M} (hM : Expanded g M) : NoDouble M g.order := by
  intro A hA t ht
  obtain ⟨ps, hps⟩ := Option.isSome_iff_exists.1 ((hw A).2 hA)
  exact not_direct hlr hps (hM A ps hA hps) _ ht rfl

theorem removed_keeps_noLR (hw : g.WF) (hf : Fresh g) (hlr : ¬ g.LeftRecursive) {M} (hM : Expanded g M) :
    ¬ (removed g.order M).LeftRecursive := by
  have hnd : ∀ A ∈ g.order, ¬ Direct M A := by
    rintro A hA ⟨q, hq, e⟩
    obtain ⟨ps, hps⟩ := Option.isSome_iff_exists.1 ((hw A).2 hA)
    exact not_direct hlr hps (hM A ps hA hps) q hq e
  have key : ∀ A B, (removed g.order M).LeftStep A B → Plus g.LeftStep A B := by
    rintro A B ⟨k, pre, post, ⟨ps', hp', hk⟩, hn⟩
    by_cases hA : A ∈ g.order
    · rw [removed_mem hA, if_neg (hnd A hA)] at hp'
      cases hp'
      obtain ⟨ps, hps⟩ := Option.isSome_iff_exists.1 ((hw A).2 hA)
      have hq := List.mem_of_getElem? hk
      refine expands_left hps (hM A ps hA hps) hq ?_
      refine (removed_lang hw hf hM (noDouble_of hw hlr hM) ?_ []).1 hn
      intro x hx
      exact old_of_fresh hf (expanded_symbols hw hM hA hq (by simp [hx]))
    · simp only [removed, hA, if_false, Option.map_eq_some_iff] at hp'
      obtain ⟨B, hB, _⟩ := hp'
      have h1 := List.mem_of_find?_eq_some hB
      have h2 := List.find?_some hB
      simp [hnd B h1] at h2
  rintro ⟨A, hA⟩
  refine hlr ⟨A, ?_⟩
  generalize hB : A = B at hA
  have : ∀ A B, Plus (removed g.order M).LeftStep A B → Plus g.LeftStep A B := by
    intro A B h
    induction h with
    | one h => exact key _ _ h
    | step h _ ih => exact (key _ _ h).trans ih
  subst hB
  exact this _ _ hA

/-! ### Grammars in which no production begins with an earlier nonterminal -/

theorem leadsEnd_of_heads (h : ∀ A k F p, g.Rule A k (F :: p) → F ∉ before g A) : LeadsEnd g := by
  intro A hA F hAF
  exfalso
  have first : ∀ G, ¬ LeadStep g (before g A) A G := by
    rintro G ⟨hG, k, pre, post, hr, hv⟩
    cases pre with
    | nil => exact h A k G post hr hG
    | cons X pre =>
      cases hv X (by simp) with
      | mk hX _ _ => exact h A k X _ hr hX
  cases hAF with
  | one h => exact first _ h
  | step h _ => exact first _ h

theorem expands_self {ps : List (List Str)} (h : ∀ p ∈ ps, ∀ F, p.head? = some F → F ∉ dn) :
    Expands g dn ps ps := by
  induction ps with
  | nil => exact .nil
  | cons p ps ih => exact .keep (h p (by simp)) (ih fun p hp => h p (by simp [hp]))

/-! ### Well-formedness of the result -/

theorem removed_wf {M} : (removed g.order M).WF := by
  intro x
  by_cases hx : x ∈ g.order
  · simp only [removed_mem hx, Option.isSome_some, true_iff]
    simp only [removed, List.mem_flatMap]
    exact ⟨x, hx, by split <;> simp⟩
  · simp only [removed, hx, if_false, Option.isSome_map, List.find?_isSome, List.mem_flatMap]
    constructor
    · rintro ⟨A, hA, h⟩
      simp only [Bool.and_eq_true, decide_eq_true_eq] at h
      exact ⟨A, hA, by rw [if_pos h.1]; simp [h.2]⟩
    · rintro ⟨A, hA, h⟩
      refine ⟨A, hA, ?_⟩
      split at h
      · rename_i hd
        rcases List.mem_cons.1 h with rfl | h
        · exact absurd hA hx
        · simp only [List.mem_singleton] at h
          simp [hd, h]
      · rw [List.mem_singleton] at h
        subst h
        exact absurd hA hx

theorem removed_start {M} : (removed g.order M).order.head? = g.order.head? := by
  cases h : g.order with
  | nil => simp [removed]
  | cons A l => simp only [removed, List.flatMap_cons]; split <;> simp

end Verif.Spec.RemoveLR
