import Verif.Proofs.RegexGram
/-
The grammar made of a regex grammar derives the words the regex grammar stands for.
-/
namespace Verif.RegexGram
open Verif Verif.Spec Verif.Grammar

/-- `r` is made of one alternative of each of the expressions. -/
inductive Sel : List Rx → List Str → Prop
  | nil : Sel [] []
  | cons {x : Rx} {xs : List Rx} {r1 r2 : List Str} : r1 ∈ expand x → Sel xs r2 → Sel (x :: xs) (r1 ++ r2)

theorem mem_mergeRules {a b : List (List Str)} {r : List Str} :
    r ∈ mergeRules a b ↔ ∃ ra ∈ a, ∃ rb ∈ b, r = ra ++ rb := by
  simp only [mergeRules, List.mem_flatMap, List.mem_map]
  constructor
  · rintro ⟨ra, h1, rb, h2, rfl⟩; exact ⟨ra, h1, rb, h2, rfl⟩
  · rintro ⟨ra, h1, rb, h2, rfl⟩; exact ⟨ra, h1, rb, h2, rfl⟩

theorem mem_foldl_merge : ∀ (xs : List Rx) (a : List (List Str)) (r : List Str),
    r ∈ (expands xs).foldl mergeRules a ↔ ∃ r0 ∈ a, ∃ r1, Sel xs r1 ∧ r = r0 ++ r1
  | [], a, r => by
    simp only [expands, List.foldl_nil]
    constructor
    · intro h; exact ⟨r, h, [], .nil, by simp⟩
    · rintro ⟨r0, h0, r1, h1, rfl⟩
      cases h1; simpa using h0
  | x :: xs, a, r => by
    simp only [expands, List.foldl_cons]
    rw [mem_foldl_merge xs]
    constructor
    · rintro ⟨r0, h0, r1, h1, rfl⟩
      obtain ⟨ra, h2, rb, h3, rfl⟩ := mem_mergeRules.1 h0
      exact ⟨ra, h2, rb ++ r1, .cons h3 h1, by simp⟩
    · rintro ⟨r0, h0, r1, h1, rfl⟩
      cases h1 with
      | cons h2 h3 =>
        rename_i rb r2
        exact ⟨r0 ++ rb, mem_mergeRules.2 ⟨r0, h0, rb, h2, rfl⟩, r2, h3, by simp⟩

theorem mem_expand_group {xs : List Rx} (h : xs ≠ []) (r : List Str) : r ∈ expand (.group xs) ↔ Sel xs r := by
  cases xs with
  | nil => exact absurd rfl h
  | cons x xs =>
    rw [expand, expands]
    simp only [reduce]
    rw [mem_foldl_merge]
    constructor
    · rintro ⟨r0, h0, r1, h1, rfl⟩; exact .cons h0 h1
    · intro h
      cases h with
      | cons h2 h3 => exact ⟨_, h2, _, h3, rfl⟩

theorem mem_expands_flatten : ∀ (xs : List Rx) (r : List Str), r ∈ (expands xs).flatten ↔ ∃ x ∈ xs, r ∈ expand x
  | [], r => by simp [expands]
  | x :: xs, r => by
    simp only [expands, List.flatten_cons, List.mem_append, List.mem_cons, mem_expands_flatten xs]
    constructor
    · rintro (h | ⟨y, h1, h2⟩)
      · exact ⟨x, .inl rfl, h⟩
      · exact ⟨y, .inr h1, h2⟩
    · rintro ⟨y, rfl | h1, h2⟩
      · exact .inl h2
      · exact .inr ⟨y, h1, h2⟩

theorem mem_rulesOf {q : Str × List Rx} {A : Str} {r : List Str} : (A, r) ∈ rulesOf q ↔ A = q.1 ∧ Sel q.2 r := by
  unfold rulesOf
  simp only [List.mem_map, Prod.mk.injEq]
  constructor
  · rintro ⟨r', h1, rfl, rfl⟩
    obtain ⟨r0, h0, r1, h2, e⟩ := (mem_foldl_merge _ _ _).1 h1
    rw [List.mem_singleton] at h0
    subst h0
    rw [List.nil_append] at e
    subst e
    exact ⟨rfl, h2⟩
  · rintro ⟨rfl, h⟩
    exact ⟨r, (mem_foldl_merge _ _ _).2 ⟨[], by simp, r, h, by simp⟩, rfl, rfl⟩

theorem Sel.append : ∀ {xs ys : List Rx} {r s : List Str}, Sel xs r → Sel ys s → Sel (xs ++ ys) (r ++ s) := by
  intro xs ys r s h1 h2
  induction h1 with
  | nil => exact h2
  | cons h3 _ ih => rw [List.append_assoc]; exact .cons h3 ih

theorem Sel.split : ∀ (xs : List Rx) {ys : List Rx} {r : List Str}, Sel (xs ++ ys) r →
    ∃ r1 r2, r = r1 ++ r2 ∧ Sel xs r1 ∧ Sel ys r2
  | [], ys, r, h => ⟨[], r, rfl, .nil, h⟩
  | x :: xs, ys, r, h => by
    cases h with
    | cons h1 h2 =>
      obtain ⟨r1, r2, e, h3, h4⟩ := Sel.split xs h2
      subst e
      exact ⟨_, r2, (List.append_assoc _ _ _).symm, .cons h1 h3, h4⟩

mutual
theorem expand_nonempty : ∀ x : Rx, .group [] ∉ x.parts → .or [] ∉ x.parts → ∃ r, r ∈ expand x
  | .sym s, _, _ => ⟨[s], by simp [expand]⟩
  | .opt x, _, _ => ⟨[], by simp [expand]⟩
  | .or xs, h1, h2 => by
    cases xs with
    | nil => simp [Rx.parts] at h2
    | cons x xs =>
      rw [Rx.parts, Rx.partss] at h1 h2
      obtain ⟨r, h⟩ := expand_nonempty x (fun h => h1 (by simp [h])) (fun h => h2 (by simp [h]))
      exact ⟨r, by rw [expand, mem_expands_flatten]; exact ⟨x, by simp, h⟩⟩
  | .group xs, h1, h2 => by
    by_cases hx : xs = []
    · subst hx; simp [Rx.parts] at h1
    · rw [Rx.parts] at h1 h2
      obtain ⟨r, h⟩ := sel_nonempty xs (fun h => h1 (by simp [h])) (fun h => h2 (by simp [h]))
      exact ⟨r, (mem_expand_group hx r).2 h⟩
  | .rep x, _, _ => ⟨[nm x], by simp [expand]⟩
theorem sel_nonempty : ∀ xs : List Rx, .group [] ∉ Rx.partss xs → .or [] ∉ Rx.partss xs → ∃ r, Sel xs r
  | [], _, _ => ⟨[], .nil⟩
  | x :: xs, h1, h2 => by
    rw [Rx.partss] at h1 h2
    obtain ⟨r, h⟩ := expand_nonempty x (fun h => h1 (by simp [h])) (fun h => h2 (by simp [h]))
    obtain ⟨s, h'⟩ := sel_nonempty xs (fun h => h1 (by simp [h])) (fun h => h2 (by simp [h]))
    exact ⟨r ++ s, .cons h h'⟩
end

theorem words_append {R : RxRules} {xs ys : List Rx} {u v : List Str} (h1 : RxWords R xs u) (h2 : RxWords R ys v) :
    RxWords R (xs ++ ys) (u ++ v) := by
  induction h1 with
  | nil => exact h2
  | term h _ ih => exact .term h ih
  | nonterm h h3 _ _ ih => rw [List.append_assoc]; exact .nonterm h h3 ih
  | optNone _ ih => exact .optNone ih
  | optSome _ ih => exact .optSome ih
  | or h _ ih => exact .or h ih
  | group _ ih => exact .group (by simpa using ih)
  | repNone _ ih => exact .repNone ih
  | repMore _ ih => exact .repMore ih

theorem words_split {R : RxRules} {zs : List Rx} {w : List Str} (h : RxWords R zs w) :
    ∀ xs ys, zs = xs ++ ys → ∃ u v, w = u ++ v ∧ RxWords R xs u ∧ RxWords R ys v := by
  induction h with
  | nil =>
    intro xs ys e
    obtain ⟨rfl, rfl⟩ := List.append_eq_nil_iff.1 e.symm
    exact ⟨[], [], rfl, .nil, .nil⟩
  | @term s zs w hn h ih =>
    intro xs ys e
    cases xs with
    | nil => exact ⟨[], _, rfl, .nil, by rw [List.nil_append] at e; subst e; exact .term hn h⟩
    | cons x xs =>
      simp only [List.cons_append, List.cons.injEq] at e
      obtain ⟨rfl, e⟩ := e
      obtain ⟨u, v, rfl, h1, h2⟩ := ih xs ys e
      exact ⟨s :: u, v, rfl, .term hn h1, h2⟩
  | @nonterm s r zs u0 v0 hm h0 h ih1 ih =>
    intro xs ys e
    cases xs with
    | nil => exact ⟨[], _, rfl, .nil, by rw [List.nil_append] at e; subst e; exact .nonterm hm h0 h⟩
    | cons x xs =>
      simp only [List.cons_append, List.cons.injEq] at e
      obtain ⟨rfl, e⟩ := e
      obtain ⟨u, v, rfl, h1, h2⟩ := ih xs ys e
      exact ⟨u0 ++ u, v, by simp, .nonterm hm h0 h1, h2⟩
  | @optNone x0 zs w h ih =>
    intro xs ys e
    cases xs with
    | nil => exact ⟨[], _, rfl, .nil, by rw [List.nil_append] at e; subst e; exact .optNone h⟩
    | cons x xs =>
      simp only [List.cons_append, List.cons.injEq] at e
      obtain ⟨rfl, e⟩ := e
      obtain ⟨u, v, rfl, h1, h2⟩ := ih xs ys e
      exact ⟨u, v, rfl, .optNone h1, h2⟩
  | @optSome x0 zs w h ih =>
    intro xs ys e
    cases xs with
    | nil => exact ⟨[], _, rfl, .nil, by rw [List.nil_append] at e; subst e; exact .optSome h⟩
    | cons x xs =>
      simp only [List.cons_append, List.cons.injEq] at e
      obtain ⟨rfl, e⟩ := e
      obtain ⟨u, v, rfl, h1, h2⟩ := ih (x0 :: xs) ys (by rw [e]; rfl)
      exact ⟨u, v, rfl, .optSome h1, h2⟩
  | @or x0 ys0 zs w hm h ih =>
    intro xs ys e
    cases xs with
    | nil => exact ⟨[], _, rfl, .nil, by rw [List.nil_append] at e; subst e; exact .or hm h⟩
    | cons x xs =>
      simp only [List.cons_append, List.cons.injEq] at e
      obtain ⟨rfl, e⟩ := e
      obtain ⟨u, v, rfl, h1, h2⟩ := ih (x0 :: xs) ys (by rw [e]; rfl)
      exact ⟨u, v, rfl, .or hm h1, h2⟩
  | @group ys0 zs w h ih =>
    intro xs ys e
    cases xs with
    | nil => exact ⟨[], _, rfl, .nil, by rw [List.nil_append] at e; subst e; exact .group h⟩
    | cons x xs =>
      simp only [List.cons_append, List.cons.injEq] at e
      obtain ⟨rfl, e⟩ := e
      obtain ⟨u, v, rfl, h1, h2⟩ := ih (ys0 ++ xs) ys (by rw [e]; simp)
      exact ⟨u, v, rfl, .group h1, h2⟩
  | @repNone x0 zs w h ih =>
    intro xs ys e
    cases xs with
    | nil => exact ⟨[], _, rfl, .nil, by rw [List.nil_append] at e; subst e; exact .repNone h⟩
    | cons x xs =>
      simp only [List.cons_append, List.cons.injEq] at e
      obtain ⟨rfl, e⟩ := e
      obtain ⟨u, v, rfl, h1, h2⟩ := ih xs ys e
      exact ⟨u, v, rfl, .repNone h1, h2⟩
  | @repMore x0 zs w h ih =>
    intro xs ys e
    cases xs with
    | nil => exact ⟨[], _, rfl, .nil, by rw [List.nil_append] at e; subst e; exact .repMore h⟩
    | cons x xs =>
      simp only [List.cons_append, List.cons.injEq] at e
      obtain ⟨rfl, e⟩ := e
      obtain ⟨u, v, rfl, h1, h2⟩ := ih (x0 :: .rep x0 :: xs) ys (by rw [e]; rfl)
      exact ⟨u, v, rfl, .repMore h1, h2⟩

theorem derives_append {α : Type} {g : Spec.Grammar α} {s t u v : List α} (h1 : g.Derives s u) (h2 : g.Derives t v) :
    g.Derives (s ++ t) (u ++ v) := by
  induction h1 with
  | nil => exact h2
  | term h _ ih => exact .term h ih
  | nonterm h h3 _ _ ih => rw [List.append_assoc]; exact .nonterm h h3 ih

theorem derives_split {α : Type} {g : Spec.Grammar α} : ∀ (s : List α) {t w : List α}, g.Derives (s ++ t) w →
    ∃ u v, w = u ++ v ∧ g.Derives s u ∧ g.Derives t v
  | [], t, w, h => ⟨[], w, rfl, .nil, h⟩
  | a :: s, t, w, h => by
    cases h with
    | term h1 h2 =>
      obtain ⟨u, v, e, h3, h4⟩ := derives_split s h2
      subst e
      exact ⟨_ :: u, v, rfl, .term h1 h3, h4⟩
    | nonterm h1 h2 h3 =>
      obtain ⟨u, v, e, h4, h5⟩ := derives_split s h3
      subst e
      exact ⟨_, v, (List.append_assoc _ _ _).symm, .nonterm h1 h2 h4, h5⟩

/-- The rules of a recorded grammar. -/
theorem record_rule {adds : List (Str × List Str)} {A : Str} {p : List Str} :
    (∃ k, (record adds).Rule A k p) ↔ (A, p) ∈ adds := by
  unfold Spec.Grammar.Rule record
  simp only
  by_cases h : A ∈ adds.map (·.1)
  · simp only [h, if_true, Option.some.injEq, exists_eq_left']
    rw [← List.mem_iff_getElem?]
    simp only [List.mem_map, List.mem_filter, decide_eq_true_eq]
    constructor
    · rintro ⟨⟨a, b⟩, ⟨h1, h2⟩, rfl⟩; simp only at h2; subst h2; exact h1
    · intro h; exact ⟨(A, p), ⟨h, rfl⟩, rfl⟩
  · simp only [h, if_false, reduceCtorEq, false_and, exists_false, false_iff]
    intro h2; exact h (List.mem_map.2 ⟨_, h2, rfl⟩)

theorem record_term {adds : List (Str × List Str)} {A : Str} :
    (record adds).Term A ↔ ∀ p, (A, p) ∉ adds := by
  unfold Spec.Grammar.Term record
  simp only [ite_eq_right_iff, reduceCtorEq, imp_false, List.mem_map, not_exists, not_and]
  constructor
  · intro h p hp; exact h _ hp rfl
  · rintro h ⟨a, b⟩ hp rfl; exact h b hp

/-- The productions found by evaluating `R`. -/
structure Prods (R : RxRules) (tail : List (Str × List Rx)) : Prop where
  helper : ∀ q ∈ tail, Helper R q
  covered : ∀ q ∈ R ++ tail, ∀ x ∈ topRepss q.2, ∃ y, nm y = nm x ∧ .rep y ∈ R.parts ∧
        (nm x, [y, Rx.sym (nm x)]) ∈ R ++ tail ∧ (nm x, []) ∈ R ++ tail

mutual
/-- A property of the repeated expressions met at the top of an expression holds for those inside too
if it passes on to those met at the top of a repeated expression. -/
theorem topReps_closed (P : Rx → Prop) (hp : ∀ y, P y → ∀ x ∈ topReps y, P x) :
    ∀ (y z : Rx), (∀ x ∈ topReps y, P x) → .rep z ∈ y.parts → P z
  | .sym s, z, h, hz => by simp [Rx.parts] at hz
  | .opt y, z, h, hz => by
    simp only [Rx.parts, List.mem_cons, reduceCtorEq, false_or] at hz
    rw [topReps] at h
    exact topReps_closed P hp y z h hz
  | .or ys, z, h, hz => by
    simp only [Rx.parts, List.mem_cons, reduceCtorEq, false_or] at hz
    rw [topReps] at h
    exact topRepss_closed P hp ys z h hz
  | .group ys, z, h, hz => by
    simp only [Rx.parts, List.mem_cons, reduceCtorEq, false_or] at hz
    rw [topReps] at h
    exact topRepss_closed P hp ys z h hz
  | .rep y, z, h, hz => by
    simp only [Rx.parts, List.mem_cons, Rx.rep.injEq] at hz
    rw [topReps] at h
    have hy := h y (by simp)
    rcases hz with rfl | hz
    · exact hy
    · exact topReps_closed P hp y z (hp y hy) hz
/-- The same for a list of expressions. -/
theorem topRepss_closed (P : Rx → Prop) (hp : ∀ y, P y → ∀ x ∈ topReps y, P x) :
    ∀ (ys : List Rx) (z : Rx), (∀ x ∈ topRepss ys, P x) → .rep z ∈ Rx.partss ys → P z
  | [], z, h, hz => by simp [Rx.partss] at hz
  | y :: ys, z, h, hz => by
    rw [topRepss] at h
    rw [Rx.partss, List.mem_append] at hz
    rcases hz with hz | hz
    · exact topReps_closed P hp y z (fun x hx => h x (by simp [hx])) hz
    · exact topRepss_closed P hp ys z (fun x hx => h x (by simp [hx])) hz
end

section
variable {R : RxRules} {tail : List (Str × List Rx)}

theorem rep_parts_of_top (hp : ∀ q ∈ tail, Helper R q) {q : Str × List Rx} (hq : q ∈ R ++ tail) {x : Rx}
    (hx : x ∈ topRepss q.2) : .rep x ∈ R.parts := by
  have hx := topRepss_parts _ _ hx
  rw [List.mem_append] at hq
  rcases hq with hq | hq
  · exact List.mem_flatMap.2 ⟨q, hq, hx⟩
  · obtain ⟨y, hy, rfl | rfl⟩ := hp q hq
    · simp only [Rx.partss, Rx.parts, List.append_nil, List.mem_append, List.mem_singleton, reduceCtorEq, or_false] at hx
      exact rules_parts_trans hy (by rw [Rx.parts]; exact List.mem_cons_of_mem _ hx)
    · simp [Rx.partss] at hx

/-- Every repetition has its two productions. -/
theorem Prods.all (h : Prods R tail) (hd : R.Distinct) {x : Rx} (hx : .rep x ∈ R.parts) :
    (nm x, [x, Rx.sym (nm x)]) ∈ R ++ tail ∧ (nm x, []) ∈ R ++ tail := by
  have hp : ∀ q ∈ R ++ tail, ∀ x ∈ topRepss q.2, (nm x, [x, Rx.sym (nm x)]) ∈ R ++ tail ∧ (nm x, []) ∈ R ++ tail := by
    intro q hq x hx
    obtain ⟨y, e, hy, h1, h2⟩ := h.covered q hq x hx
    rw [hd.inj y x hy (rep_parts_of_top h.helper hq hx) e] at h1
    exact ⟨h1, h2⟩
  obtain ⟨q, hq, hx⟩ := List.mem_flatMap.1 hx
  refine topRepss_closed (fun x => (nm x, [x, Rx.sym (nm x)]) ∈ R ++ tail ∧ (nm x, []) ∈ R ++ tail) ?_ q.2 x
    (hp q (by simp [hq])) hx
  intro y hy z hz
  exact hp _ hy.1 z (by simp [topRepss, hz])

theorem mem_parts {q : Str × List Rx} (hq : q ∈ R) {y x : Rx} (hy : y ∈ q.2) (hx : x ∈ y.parts) : x ∈ R.parts := by
  refine List.mem_flatMap.2 ⟨q, hq, ?_⟩
  obtain ⟨q1, q2⟩ := q
  simp only at hy ⊢
  clear hq
  induction q2 with
  | nil => simp at hy
  | cons z zs ih =>
    rw [Rx.partss, List.mem_append]
    rw [List.mem_cons] at hy
    rcases hy with rfl | hy
    · exact .inl hx
    · exact .inr (ih hy)

theorem partss_of_mem : ∀ {ys : List Rx} {y : Rx}, y ∈ ys → y ∈ Rx.partss ys
  | z :: zs, y, hy => by
    rw [Rx.partss, List.mem_append]
    rw [List.mem_cons] at hy
    rcases hy with rfl | hy
    · exact .inl (self_parts _)
    · exact .inr (partss_of_mem hy)

/-- The grammar made of the productions. -/
def gram (R : RxRules) (tail : List (Str × List Rx)) : Spec.Grammar Str := record ((R ++ tail).flatMap rulesOf)

theorem gram_rule {A : Str} {p : List Str} :
    (∃ k, (gram R tail).Rule A k p) ↔ ∃ q ∈ R ++ tail, A = q.1 ∧ Sel q.2 p := by
  unfold gram
  rw [record_rule, List.mem_flatMap]
  simp only [mem_rulesOf]

theorem gram_term (hs : R.Solid) (hd : R.Distinct) (h : Prods R tail) {s : Str} :
    (gram R tail).Term s ↔ (∀ r, (s, r) ∉ R) ∧ ∀ x, .rep x ∈ R.parts → s ≠ nm x := by
  unfold gram
  rw [record_term]
  constructor
  · intro ht
    refine ⟨?_, ?_⟩
    · intro r hr
      obtain ⟨p, hp⟩ := sel_nonempty r
        (fun h => hs.group (List.mem_flatMap.2 ⟨_, hr, h⟩)) (fun h => hs.or (List.mem_flatMap.2 ⟨_, hr, h⟩))
      exact ht p (List.mem_flatMap.2 ⟨(s, r), by simp [hr], mem_rulesOf.2 ⟨rfl, hp⟩⟩)
    · rintro x hx rfl
      exact ht [] (List.mem_flatMap.2 ⟨_, (h.all hd hx).2, mem_rulesOf.2 ⟨rfl, .nil⟩⟩)
  · rintro ⟨h1, h2⟩ p hp
    obtain ⟨q, hq, hp⟩ := List.mem_flatMap.1 hp
    obtain ⟨rfl, hp⟩ := mem_rulesOf.1 hp
    rw [List.mem_append] at hq
    rcases hq with hq | hq
    · exact h1 _ hq
    · obtain ⟨x, hx, rfl | rfl⟩ := h.helper q hq
      · exact h2 x hx rfl
      · exact h2 x hx rfl

/-- From words to derivations. -/
theorem derives_of_words (hs : R.Solid) (hd : R.Distinct) (h : Prods R tail) {xs : List Rx} {w : List Str}
    (hw : RxWords R xs w) : (∀ x ∈ xs, x ∈ R.parts ∨ ∃ s, x = .sym s ∧ ∀ y, .rep y ∈ R.parts → s ≠ nm y) →
    ∃ r, Sel xs r ∧ (gram R tail).Derives r w := by
  induction hw with
  | nil => intro _; exact ⟨[], .nil, .nil⟩
  | @term s xs w hn _ ih =>
    intro hx
    obtain ⟨r, h1, h2⟩ := ih (fun x hm => hx x (by simp [hm]))
    refine ⟨[s] ++ r, .cons (by simp [expand]) h1, .term ?_ h2⟩
    rw [gram_term hs hd h]
    refine ⟨hn, ?_⟩
    intro y hy
    rcases hx (.sym s) (by simp) with h3 | ⟨s', e, h3⟩
    · exact hd.fresh y hy s h3
    · cases e; exact h3 y hy
  | @nonterm s p xs u v hm _ _ ih1 ih2 =>
    intro hx
    obtain ⟨r1, h1, h2⟩ := ih1 (fun x hm' => .inl (mem_parts hm hm' (self_parts x)))
    obtain ⟨r2, h3, h4⟩ := ih2 (fun x hm => hx x (by simp [hm]))
    obtain ⟨k, hk⟩ := (gram_rule (R := R) (tail := tail)).2 ⟨(s, p), by simp [hm], rfl, h1⟩
    exact ⟨[s] ++ r2, .cons (by simp [expand]) h3, .nonterm hk h2 h4⟩
  | @optNone x xs w _ ih =>
    intro hx
    obtain ⟨r, h1, h2⟩ := ih (fun x hm => hx x (by simp [hm]))
    exact ⟨[] ++ r, .cons (by simp [expand]) h1, h2⟩
  | @optSome x xs w _ ih =>
    intro hx
    have hx0 : x ∈ R.parts := by
      rcases hx _ (List.mem_cons_self) with h3 | ⟨s', e, h3⟩
      · exact rules_parts_trans h3 (by rw [Rx.parts]; exact List.mem_cons_of_mem _ (self_parts x))
      · cases e
    obtain ⟨r, h1, h2⟩ := ih (by
      intro y hy
      rw [List.mem_cons] at hy
      rcases hy with rfl | hy
      · exact .inl hx0
      · exact hx y (by simp [hy]))
    cases h1 with
    | cons h3 h4 => exact ⟨_, .cons (by rw [expand]; simp [h3]) h4, h2⟩
  | @or x ys xs w hm _ ih =>
    intro hx
    have hx0 : x ∈ R.parts := by
      rcases hx _ (List.mem_cons_self) with h3 | ⟨s', e, h3⟩
      · exact rules_parts_trans h3 (by rw [Rx.parts]; exact List.mem_cons_of_mem _ (partss_of_mem hm))
      · cases e
    obtain ⟨r, h1, h2⟩ := ih (by
      intro y hy
      rw [List.mem_cons] at hy
      rcases hy with rfl | hy
      · exact .inl hx0
      · exact hx y (by simp [hy]))
    cases h1 with
    | cons h3 h4 => exact ⟨_, .cons (by rw [expand, mem_expands_flatten]; exact ⟨x, hm, h3⟩) h4, h2⟩
  | @group ys xs w _ ih =>
    intro hx
    have hg : .group ys ∈ R.parts := by
      rcases hx _ (List.mem_cons_self) with h3 | ⟨s', e, h3⟩
      · exact h3
      · cases e
    obtain ⟨r, h1, h2⟩ := ih (by
      intro y hy
      rw [List.mem_append] at hy
      rcases hy with hy | hy
      · exact .inl (rules_parts_trans hg (by rw [Rx.parts]; exact List.mem_cons_of_mem _ (partss_of_mem hy)))
      · exact hx y (by simp [hy]))
    obtain ⟨r1, r2, rfl, h3, h4⟩ := Sel.split _ h1
    refine ⟨_, .cons ((mem_expand_group ?_ r1).2 h3) h4, h2⟩
    rintro rfl
    exact hs.group hg
  | @repNone x xs w _ ih =>
    intro hx
    have hg : .rep x ∈ R.parts := by
      rcases hx _ (List.mem_cons_self) with h3 | ⟨s', e, h3⟩
      · exact h3
      · cases e
    obtain ⟨r, h1, h2⟩ := ih (fun x hm => hx x (by simp [hm]))
    obtain ⟨k, hk⟩ := (gram_rule (R := R) (tail := tail)).2 ⟨_, (h.all hd hg).2, rfl, .nil⟩
    exact ⟨[nm x] ++ r, .cons (by simp [expand]) h1, .nonterm (u := []) hk .nil h2⟩
  | @repMore x xs w _ ih =>
    intro hx
    have hg : .rep x ∈ R.parts := by
      rcases hx _ (List.mem_cons_self) with h3 | ⟨s', e, h3⟩
      · exact h3
      · cases e
    obtain ⟨r, h1, h2⟩ := ih (by
      intro y hy
      simp only [List.mem_cons] at hy
      rcases hy with rfl | rfl | hy
      · exact .inl (rules_parts_trans hg (by rw [Rx.parts]; exact List.mem_cons_of_mem _ (self_parts _)))
      · exact .inl hg
      · exact hx y (by simp [hy]))
    cases h1 with
    | @cons _ _ r1 r2 h3 h4 =>
      cases h4 with
      | @cons _ _ r3 r4 h5 h6 =>
        rw [expand, List.mem_singleton] at h5
        subst h5
        obtain ⟨u, v, rfl, h7, h8⟩ := derives_split r1 h2
        have h8' : (gram R tail).Derives ([nm x] ++ r4) v := h8
        obtain ⟨v1, v2, rfl, h9, h10⟩ := derives_split [nm x] h8'
        obtain ⟨k, hk⟩ := (gram_rule (R := R) (tail := tail)).2 ⟨_, (h.all hd hg).1, rfl,
          Sel.cons h3 (Sel.cons (x := .sym (nm x)) (r1 := [nm x]) (by simp [expand]) .nil)⟩
        refine ⟨[nm x] ++ r4, .cons (by simp [expand]) h6, ?_⟩
        rw [← List.append_assoc]
        refine .nonterm hk ?_ h10
        exact derives_append h7 (by simpa using h9)

open Classical in
/-- What a symbol of the grammar stands for: the repetition of which it is the helper, or itself. -/
noncomputable def meaning (R : RxRules) (s : Str) : Rx :=
  if h : ∃ x, .rep x ∈ R.parts ∧ nm x = s then .rep h.choose else .sym s

theorem meaning_helper (hd : R.Distinct) {x : Rx} (hx : .rep x ∈ R.parts) : meaning R (nm x) = .rep x := by
  have h : ∃ y, .rep y ∈ R.parts ∧ nm y = nm x := ⟨x, hx, rfl⟩
  unfold meaning
  rw [dif_pos h]
  rw [hd.inj _ _ h.choose_spec.1 hx h.choose_spec.2]

theorem meaning_plain {s : Str} (h : ∀ x, .rep x ∈ R.parts → s ≠ nm x) : meaning R s = .sym s := by
  unfold meaning
  rw [dif_neg]
  rintro ⟨x, hx, e⟩
  exact h x hx e.symm

mutual
theorem words_of_expand (hd : R.Distinct) : ∀ (x : Rx), (∀ z ∈ x.parts, z ∈ R.parts) → ∀ {r : List Str} {ys : List Rx} {w : List Str},
    r ∈ expand x → RxWords R (r.map (meaning R) ++ ys) w → RxWords R (x :: ys) w
  | .sym s, hp, r, ys, w, hr, hw => by
    rw [expand, List.mem_singleton] at hr
    subst hr
    have : meaning R s = .sym s := meaning_plain (fun x hx => hd.fresh x hx s (hp _ (self_parts _)))
    simpa [this] using hw
  | .opt x, hp, r, ys, w, hr, hw => by
    rw [expand, List.mem_append, List.mem_singleton] at hr
    rcases hr with hr | rfl
    · exact .optSome (words_of_expand hd x (fun z hz => hp z (by rw [Rx.parts]; exact List.mem_cons_of_mem _ hz)) hr hw)
    · exact .optNone hw
  | .or xs, hp, r, ys, w, hr, hw => by
    rw [expand] at hr
    obtain ⟨x, hx, h⟩ := words_of_flatten hd xs
      (fun z hz => hp z (by rw [Rx.parts]; exact List.mem_cons_of_mem _ hz)) hr hw
    exact .or hx h
  | .group xs, hp, r, ys, w, hr, hw => by
    have hne : xs ≠ [] := by
      rintro rfl
      simp [expand, expands, reduce] at hr
    exact .group (words_of_sel hd xs (fun z hz => hp z (by rw [Rx.parts]; exact List.mem_cons_of_mem _ hz))
      ((mem_expand_group hne r).1 hr) hw)
  | .rep x, hp, r, ys, w, hr, hw => by
    rw [expand, List.mem_singleton] at hr
    subst hr
    have := meaning_helper hd (hp _ (self_parts _))
    simpa [this] using hw
theorem words_of_flatten (hd : R.Distinct) : ∀ (xs : List Rx), (∀ z ∈ Rx.partss xs, z ∈ R.parts) → ∀ {r : List Str} {ys : List Rx} {w : List Str},
    r ∈ (expands xs).flatten → RxWords R (r.map (meaning R) ++ ys) w → ∃ x ∈ xs, RxWords R (x :: ys) w
  | [], hp, r, ys, w, hr, hw => by simp [expands] at hr
  | x :: xs, hp, r, ys, w, hr, hw => by
    rw [Rx.partss] at hp
    rw [expands, List.flatten_cons, List.mem_append] at hr
    rcases hr with hr | hr
    · exact ⟨x, by simp, words_of_expand hd x (fun z hz => hp z (by simp [hz])) hr hw⟩
    · obtain ⟨y, hy, h⟩ := words_of_flatten hd xs (fun z hz => hp z (by simp [hz])) hr hw
      exact ⟨y, by simp [hy], h⟩
theorem words_of_sel (hd : R.Distinct) : ∀ (xs : List Rx), (∀ z ∈ Rx.partss xs, z ∈ R.parts) → ∀ {r : List Str} {ys : List Rx} {w : List Str},
    Sel xs r → RxWords R (r.map (meaning R) ++ ys) w → RxWords R (xs ++ ys) w
  | [], hp, r, ys, w, hr, hw => by cases hr; exact hw
  | x :: xs, hp, r, ys, w, hr, hw => by
    rw [Rx.partss] at hp
    cases hr with
    | @cons _ _ r1 r2 h1 h2 =>
      rw [List.map_append, List.append_assoc] at hw
      obtain ⟨u, v, rfl, h3, h4⟩ := words_split hw _ _ rfl
      have h5 := words_of_expand hd x (fun z hz => hp z (by simp [hz])) (ys := []) h1 (by simpa using h3)
      have h6 := words_of_sel hd xs (fun z hz => hp z (by simp [hz])) h2 h4
      exact words_append (xs := [x]) h5 h6
end

/-- From derivations to words. -/
theorem words_of_derives (hs : R.Solid) (hd : R.Distinct) (h : Prods R tail) {ss w : List Str}
    (hw : (gram R tail).Derives ss w) : RxWords R (ss.map (meaning R)) w := by
  induction hw with
  | nil => exact .nil
  | @term t ss w ht _ ih =>
    obtain ⟨h1, h2⟩ := (gram_term hs hd h).1 ht
    rw [List.map_cons, meaning_plain h2]
    exact .term h1 ih
  | @nonterm A k p ss u v hr _ _ ih1 ih2 =>
    obtain ⟨q, hq, rfl, hp⟩ := gram_rule.1 ⟨k, hr⟩
    rw [List.map_cons]
    rw [List.mem_append] at hq
    rcases hq with hq | hq
    · rw [meaning_plain (fun x hx => hd.undeclared x hx q hq)]
      refine .nonterm hq ?_ ih2
      have := words_of_sel hd q.2 (fun z hz => List.mem_flatMap.2 ⟨q, hq, hz⟩) hp (ys := []) (by simpa using ih1)
      simpa using this
    · obtain ⟨x, hx, rfl | rfl⟩ := h.helper q hq
      · simp only at hp
        rw [meaning_helper hd hx]
        refine words_append (xs := [_]) ?_ ih2
        cases hp with
        | @cons _ _ r1 r2 h1 h2 =>
          cases h2 with
          | @cons _ _ r3 r4 h3 h4 =>
            cases h4
            rw [expand, List.mem_singleton] at h3
            subst h3
            rw [List.map_append, List.append_nil, List.map_cons, List.map_nil, meaning_helper hd hx] at ih1
            refine .repMore (words_of_expand hd x ?_ h1 ih1)
            intro z hz
            exact rules_parts_trans hx (by rw [Rx.parts]; exact List.mem_cons_of_mem _ hz)
      · simp only at hp
        cases hp
        rw [meaning_helper hd hx]
        cases ih1
        exact .repNone ih2

theorem language (hs : R.Solid) (hd : R.Distinct) (h : Prods R tail) {s : Str} (hn : ∀ x, .rep x ∈ R.parts → s ≠ nm x)
    (w : List Str) : (gram R tail).Derives [s] w ↔ RxWords R [.sym s] w := by
  constructor
  · intro hw
    have := words_of_derives hs hd h hw
    simpa [meaning_plain hn] using this
  · intro hw
    obtain ⟨r, h1, h2⟩ := derives_of_words hs hd h hw (by
      intro x hx
      rw [List.mem_singleton] at hx
      exact .inr ⟨s, hx, hn⟩)
    cases h1 with
    | cons h3 h4 =>
      cases h4
      rw [expand, List.mem_singleton] at h3
      subst h3
      simpa using h2

end

end Verif.RegexGram
