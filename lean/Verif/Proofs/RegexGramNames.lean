import Verif.Proofs.RegexGramLang
/-
The texts of the expressions that can be written as text are unambiguous, if the symbols have no
underscore.
-/
namespace Verif.RegexGram
open Verif Verif.Spec Verif.Grammar

/-- The next character, if any, is one of the given. -/
def Next (cs : List Char) (u : Str) : Prop := ∀ c, u.head? = some c → c ∈ cs

theorem word_split {s s' u v : Str} (hs : ∀ c ∈ s, c ∉ Rx.special) (hs' : ∀ c ∈ s', c ∉ Rx.special)
    (hu : Next Rx.special u) (hv : Next Rx.special v) (e : s ++ u = s' ++ v) : s = s' ∧ u = v := by
  induction s generalizing s' with
  | nil =>
    cases s' with
    | nil => exact ⟨rfl, e⟩
    | cons c s' =>
      rw [List.nil_append] at e
      exact absurd (hu c (by rw [e]; rfl)) (hs' c (by simp))
  | cons c s ih =>
    cases s' with
    | nil =>
      rw [List.nil_append] at e
      exact absurd (hv c (by rw [← e]; rfl)) (hs c (by simp))
    | cons c' s' =>
      simp only [List.cons_append, List.cons.injEq] at e
      obtain ⟨rfl, e⟩ := e
      obtain ⟨rfl, rfl⟩ := ih (fun c h => hs c (by simp [h])) (fun c h => hs' c (by simp [h])) e
      exact ⟨rfl, rfl⟩

theorem Next.mono {cs ds : List Char} (h : ∀ c ∈ cs, c ∈ ds) {u : Str} (hu : Next cs u) : Next ds u :=
  fun c hc => h c (hu c hc)

theorem next_cons {cs : List Char} {c : Char} (h : c ∈ cs) (u : Str) : Next cs (c :: u) := by
  intro d hd
  simp only [List.head?_cons, Option.some.injEq] at hd
  subst hd; exact h

theorem texts_length : ∀ xs, (Rx.texts xs).length = xs.length
  | [] => rfl
  | x :: xs => by simp [Rx.texts, texts_length xs]

/-- Every symbol in the expression is plain. -/
abbrev Plains (ps : List Rx) : Prop := ∀ s, .sym s ∈ ps → Rx.Plain s

theorem sepBy_cons_cons (sep s t : Str) (ss : List Str) : Rx.sepBy sep (s :: t :: ss) = s ++ sep ++ Rx.sepBy sep (t :: ss) := rfl

/-- The first character of a text. -/
theorem unit_head (x : Rx) (hx : x.unit = true) (hp : Plains x.parts) : ∃ c r, x.text = c :: r ∧ (c ∉ Rx.special ∨ c = '(') := by
  cases x with
  | sym s =>
    obtain ⟨h1, h2⟩ := hp s (self_parts _)
    cases s with
    | nil => exact absurd rfl h1
    | cons c r => exact ⟨c, r, rfl, .inl (h2 c (by simp))⟩
  | group xs => exact ⟨'(', _, rfl, .inr rfl⟩
  | opt _ => simp [Rx.unit] at hx
  | or _ => simp [Rx.unit] at hx
  | rep _ => simp [Rx.unit] at hx

theorem factor_head (x : Rx) (hx : x.factor = true) (hp : Plains x.parts) : ∃ c r, x.text = c :: r ∧ (c ∉ Rx.special ∨ c = '(') := by
  cases x with
  | sym s => exact unit_head _ rfl hp
  | group xs => exact ⟨'(', _, rfl, .inr rfl⟩
  | opt x =>
    rw [Rx.factor] at hx
    obtain ⟨c, r, e, h⟩ := unit_head x hx (fun s hs => hp s (by rw [Rx.parts]; exact List.mem_cons_of_mem _ hs))
    exact ⟨c, r ++ ['?'], by simp [Rx.text, e], h⟩
  | or _ => simp [Rx.factor] at hx
  | rep x =>
    rw [Rx.factor] at hx
    obtain ⟨c, r, e, h⟩ := unit_head x hx (fun s hs => hp s (by rw [Rx.parts]; exact List.mem_cons_of_mem _ hs))
    exact ⟨c, r ++ ['*'], by simp [Rx.text, e], h⟩

theorem sepBy_head {sep s : Str} {ss : List Str} {c : Char} {r : Str} (e : s = c :: r) : ∃ r', Rx.sepBy sep (s :: ss) = c :: r' := by
  cases ss with
  | nil => exact ⟨r, e⟩
  | cons t ss => exact ⟨r ++ sep ++ Rx.sepBy sep (t :: ss), by rw [sepBy_cons_cons, e]; simp⟩

theorem writable_head (x : Rx) (hx : x.writable = true) (hp : Plains x.parts) :
    ∃ c r, x.text = c :: r ∧ (c ∉ Rx.special ∨ c = '(') := by
  cases x with
  | sym s => exact factor_head _ rfl hp
  | group xs => exact ⟨'(', _, rfl, .inr rfl⟩
  | opt x => exact factor_head (.opt x) hx hp
  | rep x => exact factor_head (.rep x) hx hp
  | or xs =>
    rw [Rx.writable, Bool.and_eq_true] at hx
    obtain ⟨h1, h2⟩ := hx
    cases xs with
    | nil => simp at h1
    | cons x xs =>
      rw [Rx.factors, Bool.and_eq_true] at h2
      obtain ⟨c, r, e, h⟩ := factor_head x h2.1 (fun s hs => hp s (by rw [Rx.parts, Rx.partss]; simp [hs]))
      obtain ⟨r', e'⟩ := sepBy_head (sep := ['|']) (ss := Rx.texts xs) e
      exact ⟨c, r', by rw [Rx.text, Rx.texts]; exact e', h⟩

theorem cont_special : ∀ c ∈ ['_', ')', '|'], c ∈ Rx.special := by decide
theorem cont_factor : ∀ c ∈ ['_', ')'], c ∈ ['_', ')', '|'] := by decide

/-- A factor that is a unit, or a unit and a mark. -/
theorem factor_cases {x : Rx} (h : x.factor = true) :
    (x.unit = true) ∨ (∃ y, x = .opt y ∧ y.unit = true) ∨ ∃ y, x = .rep y ∧ y.unit = true := by
  cases x with
  | sym s => exact .inl rfl
  | group xs => exact .inl h
  | opt y => exact .inr (.inl ⟨y, rfl, h⟩)
  | rep y => exact .inr (.inr ⟨y, rfl, h⟩)
  | or _ => simp [Rx.factor] at h

theorem writable_cases {x : Rx} (h : x.writable = true) :
    (x.factor = true) ∨ ∃ a b xs, x = .or (a :: b :: xs) ∧ Rx.factors (a :: b :: xs) = true := by
  cases x with
  | sym s => exact .inl rfl
  | group xs => exact .inl h
  | opt y => exact .inl h
  | rep y => exact .inl h
  | or xs =>
    rw [Rx.writable, Bool.and_eq_true] at h
    match xs, h with
    | a :: b :: xs, h => exact .inr ⟨a, b, xs, rfl, h.2⟩
    | [a], h => simp at h
    | [], h => simp at h

/-- Splitting after a unit determines splitting after a factor. -/
theorem factor_step (x : Rx) (hx : x.factor = true)
    (ih : ∀ z : Rx, sizeOf z ≤ sizeOf x → z.unit = true → Plains z.parts → ∀ {y : Rx} {u v : Str}, y.unit = true → Plains y.parts →
      Next Rx.special u → Next Rx.special v → z.text ++ u = y.text ++ v → z = y ∧ u = v)
    (hp : Plains x.parts) {y : Rx} {u v : Str} (hy : y.factor = true) (hq : Plains y.parts)
    (hu : Next ['_', ')', '|'] u) (hv : Next ['_', ')', '|'] v) (e : x.text ++ u = y.text ++ v) : x = y ∧ u = v := by
  have hu' := hu.mono cont_special
  have hv' := hv.mono cont_special
  have sub : ∀ {z : Rx}, Plains (Rx.opt z).parts → Plains z.parts :=
    fun h s hs => h s (by rw [Rx.parts]; exact List.mem_cons_of_mem _ hs)
  have sub' : ∀ {z : Rx}, Plains (Rx.rep z).parts → Plains z.parts :=
    fun h s hs => h s (by rw [Rx.parts]; exact List.mem_cons_of_mem _ hs)
  have q1 : '?' ∉ ['_', ')', '|'] := by decide
  have q2 : '*' ∉ ['_', ')', '|'] := by decide
  rcases factor_cases hx with h | ⟨a, rfl, h⟩ | ⟨a, rfl, h⟩ <;>
    rcases factor_cases hy with h' | ⟨b, rfl, h'⟩ | ⟨b, rfl, h'⟩
  · exact ih x (Nat.le_refl _) h hp h' hq hu' hv' e
  · rw [Rx.text, List.append_assoc] at e
    obtain ⟨_, e2⟩ := ih x (Nat.le_refl _) h hp h' (sub hq) hu' (next_cons (by decide) _) e
    subst e2
    exact absurd (hu '?' rfl) q1
  · rw [Rx.text, List.append_assoc] at e
    obtain ⟨_, e2⟩ := ih x (Nat.le_refl _) h hp h' (sub' hq) hu' (next_cons (by decide) _) e
    subst e2
    exact absurd (hu '*' rfl) q2
  · rw [Rx.text, List.append_assoc] at e
    obtain ⟨_, e2⟩ := ih a (by simp) h (sub hp) h' hq (next_cons (by decide) _) hv' e
    subst e2
    exact absurd (hv '?' rfl) q1
  · rw [Rx.text, Rx.text, List.append_assoc, List.append_assoc] at e
    obtain ⟨rfl, e2⟩ := ih a (by simp) h (sub hp) h' (sub hq) (next_cons (by decide) _) (next_cons (by decide) _) e
    simp at e2
    exact ⟨rfl, e2⟩
  · rw [Rx.text, Rx.text, List.append_assoc, List.append_assoc] at e
    obtain ⟨_, e2⟩ := ih a (by simp) h (sub hp) h' (sub' hq) (next_cons (by decide) _) (next_cons (by decide) _) e
    simp at e2
  · rw [Rx.text, List.append_assoc] at e
    obtain ⟨_, e2⟩ := ih a (by simp) h (sub' hp) h' hq (next_cons (by decide) _) hv' e
    subst e2
    exact absurd (hv '*' rfl) q2
  · rw [Rx.text, Rx.text, List.append_assoc, List.append_assoc] at e
    obtain ⟨_, e2⟩ := ih a (by simp) h (sub' hp) h' (sub hq) (next_cons (by decide) _) (next_cons (by decide) _) e
    simp at e2
  · rw [Rx.text, Rx.text, List.append_assoc, List.append_assoc] at e
    obtain ⟨rfl, e2⟩ := ih a (by simp) h (sub' hp) h' (sub' hq) (next_cons (by decide) _) (next_cons (by decide) _) e
    simp at e2
    exact ⟨rfl, e2⟩

mutual
theorem unit_inj (x : Rx) (hx : x.unit = true) (hp : Plains x.parts) {y : Rx} {u v : Str} (hy : y.unit = true)
    (hq : Plains y.parts) (hu : Next Rx.special u) (hv : Next Rx.special v) (e : x.text ++ u = y.text ++ v) :
    x = y ∧ u = v := by
  match x, hx, hp, y, hy, hq with
  | .sym s, hx, hp, .sym s', hy, hq =>
    obtain ⟨rfl, rfl⟩ := word_split (hp s (self_parts _)).2 (hq s' (self_parts _)).2 hu hv e
    exact ⟨rfl, rfl⟩
  | .sym s, hx, hp, .group ys, hy, hq =>
    obtain ⟨h1, h2⟩ := hp s (self_parts _)
    cases s with
    | nil => exact absurd rfl h1
    | cons c s =>
      rw [Rx.text, Rx.text] at e
      simp only [List.cons_append, List.append_assoc] at e
      have : c = '(' := by
        have := congrArg List.head? e
        simpa using this
      exact absurd (by rw [this]; decide) (h2 c (by simp))
  | .group xs, hx, hp, .sym s, hy, hq =>
    obtain ⟨h1, h2⟩ := hq s (self_parts _)
    cases s with
    | nil => exact absurd rfl h1
    | cons c s =>
      rw [Rx.text, Rx.text] at e
      have : c = '(' := by
        have := congrArg List.head? e
        simpa using this.symm
      exact absurd (by rw [this]; decide) (h2 c (by simp))
  | .group xs, hx, hp, .group ys, hy, hq =>
    rw [Rx.text, Rx.text] at e
    have e' : Rx.sepBy ['_'] (Rx.texts xs) ++ ')' :: u = Rx.sepBy ['_'] (Rx.texts ys) ++ ')' :: v := by
      simpa using e
    obtain ⟨rfl, rfl⟩ := seq_inj xs hx (fun s hs => hp s (by rw [Rx.parts]; exact List.mem_cons_of_mem _ hs)) hy
      (fun s hs => hq s (by rw [Rx.parts]; exact List.mem_cons_of_mem _ hs)) e'
    exact ⟨rfl, rfl⟩
termination_by 2 * sizeOf x
theorem writable_inj (x : Rx) (hx : x.writable = true) (hp : Plains x.parts) {y : Rx} {u v : Str} (hy : y.writable = true)
    (hq : Plains y.parts) (hu : Next ['_', ')'] u) (hv : Next ['_', ')'] v) (e : x.text ++ u = y.text ++ v) :
    x = y ∧ u = v := by
  have step : ∀ (z : Rx), sizeOf z ≤ sizeOf x → z.factor = true → Plains z.parts → ∀ {y : Rx} {u v : Str}, y.factor = true →
      Plains y.parts → Next ['_', ')', '|'] u → Next ['_', ')', '|'] v → z.text ++ u = y.text ++ v → z = y ∧ u = v :=
    fun z hz h1 h2 _ _ _ h3 h4 h5 h6 e => factor_step z h1
      (fun z' hz' h1 h2 _ _ _ h3 h4 h5 h6 e => unit_inj z' h1 h2 h3 h4 h5 h6 e) h2 h3 h4 h5 h6 e
  have q : '|' ∉ ['_', ')'] := by decide
  have orParts : ∀ {a b : Rx} {xs : List Rx}, Plains (Rx.or (a :: b :: xs)).parts → Plains (Rx.partss (a :: b :: xs)) :=
    fun h s hs => h s (by rw [Rx.parts]; exact List.mem_cons_of_mem _ hs)
  rcases writable_cases hx with h | ⟨a, b, xs, hx', h⟩ <;>
    rcases writable_cases hy with h' | ⟨a', b', ys, hy', h'⟩
  · exact step x (Nat.le_refl _) h hp h' hq (hu.mono cont_factor) (hv.mono cont_factor) e
  · subst hy'
    rw [Rx.factors, Bool.and_eq_true] at h'
    have hq' := orParts hq
    rw [Rx.text, Rx.texts, Rx.texts, sepBy_cons_cons, List.append_assoc, List.append_assoc] at e
    obtain ⟨_, e2⟩ := step x (Nat.le_refl _) h hp h'.1 (fun s hs => hq' s (by rw [Rx.partss]; simp [hs]))
      (hu.mono cont_factor) (next_cons (by decide) _) e
    subst e2
    exact absurd (hu '|' rfl) q
  · subst hx'
    rw [Rx.factors, Bool.and_eq_true] at h
    have hp' := orParts hp
    rw [Rx.text, Rx.texts, Rx.texts, sepBy_cons_cons, List.append_assoc, List.append_assoc] at e
    obtain ⟨_, e2⟩ := step a (by simp; omega) h.1 (fun s hs => hp' s (by rw [Rx.partss]; simp [hs])) h' hq
      (next_cons (by decide) _) (hv.mono cont_factor) e
    subst e2
    exact absurd (hv '|' rfl) q
  · subst hx' hy'
    rw [Rx.text, Rx.text] at e
    obtain ⟨e1, rfl⟩ := alts_inj (a :: b :: xs) h (orParts hp) (by simp) h' (orParts hq) (by simp) hu hv e
    rw [e1]
    exact ⟨rfl, rfl⟩
termination_by 2 * sizeOf x + 1
theorem alts_inj (xs : List Rx) (hx : Rx.factors xs = true) (hp : Plains (Rx.partss xs)) (hxn : xs ≠ []) {ys : List Rx} {u v : Str}
    (hy : Rx.factors ys = true) (hq : Plains (Rx.partss ys)) (hyn : ys ≠ []) (hu : Next ['_', ')'] u) (hv : Next ['_', ')'] v)
    (e : Rx.sepBy ['|'] (Rx.texts xs) ++ u = Rx.sepBy ['|'] (Rx.texts ys) ++ v) : xs = ys ∧ u = v := by
  have step : ∀ (z : Rx), sizeOf z < sizeOf xs → z.factor = true → Plains z.parts → ∀ {y : Rx} {u v : Str}, y.factor = true →
      Plains y.parts → Next ['_', ')', '|'] u → Next ['_', ')', '|'] v → z.text ++ u = y.text ++ v → z = y ∧ u = v :=
    fun z hz h1 h2 _ _ _ h3 h4 h5 h6 e => factor_step z h1
      (fun z' hz' h1 h2 _ _ _ h3 h4 h5 h6 e => unit_inj z' h1 h2 h3 h4 h5 h6 e) h2 h3 h4 h5 h6 e
  have q : '|' ∉ ['_', ')'] := by decide
  match xs, hx, hp, hxn, ys, hy, hq, hyn with
  | [x], hx, hp, _, [y], hy, hq, _ =>
    simp only [Rx.factors, Bool.and_true] at hx hy
    obtain ⟨rfl, rfl⟩ := step x (by simp; omega) hx (fun s hs => hp s (by simp [Rx.partss, hs])) hy
      (fun s hs => hq s (by simp [Rx.partss, hs])) (hu.mono cont_factor) (hv.mono cont_factor) e
    exact ⟨rfl, rfl⟩
  | [x], hx, hp, _, y :: y2 :: ys, hy, hq, _ =>
    simp only [Rx.factors, Bool.and_true, Bool.and_eq_true] at hx hy
    rw [Rx.texts, Rx.texts, Rx.texts, Rx.texts, sepBy_cons_cons, List.append_assoc, List.append_assoc] at e
    obtain ⟨_, e2⟩ := step x (by simp; omega) hx (fun s hs => hp s (by simp [Rx.partss, hs])) hy.1
      (fun s hs => hq s (by simp [Rx.partss, hs])) (hu.mono cont_factor) (next_cons (by decide) _) e
    subst e2
    exact absurd (hu '|' rfl) q
  | x :: x2 :: xs, hx, hp, _, [y], hy, hq, _ =>
    simp only [Rx.factors, Bool.and_true, Bool.and_eq_true] at hx hy
    rw [Rx.texts, Rx.texts, Rx.texts, Rx.texts, sepBy_cons_cons, List.append_assoc, List.append_assoc] at e
    obtain ⟨_, e2⟩ := step x (by simp; omega) hx.1 (fun s hs => hp s (by simp [Rx.partss, hs])) hy
      (fun s hs => hq s (by simp [Rx.partss, hs])) (next_cons (by decide) _) (hv.mono cont_factor) e
    subst e2
    exact absurd (hv '|' rfl) q
  | x :: x2 :: xs, hx, hp, _, y :: y2 :: ys, hy, hq, _ =>
    have hx0 := hx
    have hy0 := hy
    rw [Rx.factors, Bool.and_eq_true] at hx hy
    rw [Rx.texts, Rx.texts, Rx.texts, Rx.texts, sepBy_cons_cons, sepBy_cons_cons, List.append_assoc, List.append_assoc,
      List.append_assoc, List.append_assoc] at e
    obtain ⟨rfl, e2⟩ := step x (by simp; omega) hx.1 (fun s hs => hp s (by rw [Rx.partss]; simp [hs])) hy.1
      (fun s hs => hq s (by rw [Rx.partss]; simp [hs])) (next_cons (by decide) _) (next_cons (by decide) _) e
    simp only [List.cons_append, List.nil_append, List.cons.injEq, true_and] at e2
    obtain ⟨e3, rfl⟩ := alts_inj (x2 :: xs) hx.2 (fun s hs => hp s (by rw [Rx.partss]; simp [hs])) (by simp) hy.2
      (fun s hs => hq s (by rw [Rx.partss]; simp [hs])) (by simp) hu hv e2
    rw [e3]
    exact ⟨rfl, rfl⟩
termination_by 2 * sizeOf xs
theorem seq_inj (xs : List Rx) (hx : Rx.writables xs = true) (hp : Plains (Rx.partss xs)) {ys : List Rx} {u v : Str}
    (hy : Rx.writables ys = true) (hq : Plains (Rx.partss ys))
    (e : Rx.sepBy ['_'] (Rx.texts xs) ++ ')' :: u = Rx.sepBy ['_'] (Rx.texts ys) ++ ')' :: v) :
    xs = ys ∧ u = v := by
  have hno : ∀ {c : Char}, c = ')' → c ∉ Rx.special ∨ c = '(' → False := by
    rintro c rfl h; revert h; decide
  match xs, hx, hp, ys, hy, hq with
  | [], _, _, [], _, _ => simpa [Rx.texts, Rx.sepBy] using e
  | [], _, _, y :: ys, hy, hq =>
    rw [Rx.writables, Bool.and_eq_true] at hy
    obtain ⟨c, r, e1, h1⟩ := writable_head y hy.1 (fun s hs => hq s (by rw [Rx.partss]; simp [hs]))
    obtain ⟨r', e2⟩ := sepBy_head (sep := ['_']) (ss := Rx.texts ys) e1
    rw [Rx.texts, Rx.texts, Rx.sepBy, e2] at e
    simp only [List.nil_append, List.cons_append, List.cons.injEq] at e
    exact (hno e.1.symm h1).elim
  | x :: xs, hx, hp, [], _, _ =>
    rw [Rx.writables, Bool.and_eq_true] at hx
    obtain ⟨c, r, e1, h1⟩ := writable_head x hx.1 (fun s hs => hp s (by rw [Rx.partss]; simp [hs]))
    obtain ⟨r', e2⟩ := sepBy_head (sep := ['_']) (ss := Rx.texts xs) e1
    rw [Rx.texts.eq_2, e2] at e
    simp only [Rx.texts, Rx.sepBy, List.nil_append, List.cons_append, List.cons.injEq] at e
    exact (hno e.1 h1).elim
  | [x], hx, hp, [y], hy, hq =>
    simp only [Rx.writables, Bool.and_true] at hx hy
    obtain ⟨rfl, e2⟩ := writable_inj x hx (fun s hs => hp s (by simp [Rx.partss, hs])) hy
      (fun s hs => hq s (by simp [Rx.partss, hs])) (next_cons (by decide) _) (next_cons (by decide) _) e
    simp at e2
    exact ⟨rfl, e2⟩
  | [x], hx, hp, y :: y2 :: ys, hy, hq =>
    simp only [Rx.writables, Bool.and_true, Bool.and_eq_true] at hx hy
    rw [Rx.texts, Rx.texts, Rx.texts, Rx.texts, sepBy_cons_cons, List.append_assoc, List.append_assoc] at e
    obtain ⟨_, e2⟩ := writable_inj x hx (fun s hs => hp s (by simp [Rx.partss, hs])) hy.1
      (fun s hs => hq s (by simp [Rx.partss, hs])) (next_cons (by decide) _) (next_cons (by decide) _) e
    simp at e2
  | x :: x2 :: xs, hx, hp, [y], hy, hq =>
    simp only [Rx.writables, Bool.and_true, Bool.and_eq_true] at hx hy
    rw [Rx.texts, Rx.texts, Rx.texts, Rx.texts, sepBy_cons_cons, List.append_assoc, List.append_assoc] at e
    obtain ⟨_, e2⟩ := writable_inj x hx.1 (fun s hs => hp s (by simp [Rx.partss, hs])) hy
      (fun s hs => hq s (by simp [Rx.partss, hs])) (next_cons (by decide) _) (next_cons (by decide) _) e
    simp at e2
  | x :: x2 :: xs, hx, hp, y :: y2 :: ys, hy, hq =>
    rw [Rx.writables, Bool.and_eq_true] at hx hy
    rw [Rx.texts, Rx.texts, Rx.texts, Rx.texts, sepBy_cons_cons, sepBy_cons_cons, List.append_assoc, List.append_assoc,
      List.append_assoc, List.append_assoc] at e
    obtain ⟨rfl, e2⟩ := writable_inj x hx.1 (fun s hs => hp s (by rw [Rx.partss]; simp [hs])) hy.1
      (fun s hs => hq s (by rw [Rx.partss]; simp [hs])) (next_cons (by decide) _) (next_cons (by decide) _) e
    simp only [List.cons_append, List.nil_append, List.cons.injEq, true_and] at e2
    obtain ⟨e3, rfl⟩ := seq_inj (x2 :: xs) hx.2 (fun s hs => hp s (by rw [Rx.partss]; simp [hs])) hy.2
      (fun s hs => hq s (by rw [Rx.partss]; simp [hs])) e2
    rw [e3]
    exact ⟨rfl, rfl⟩
termination_by 2 * sizeOf xs
end

mutual
theorem parts_sub (x : Rx) : ∀ z ∈ x.parts, ∀ w ∈ z.parts, w ∈ x.parts := by
  intro z hz w hw
  cases x with
  | sym s => simp only [Rx.parts, List.mem_singleton] at hz; subst hz; exact hw
  | opt x =>
    rw [Rx.parts, List.mem_cons] at hz
    rcases hz with rfl | hz
    · exact hw
    · rw [Rx.parts]; exact List.mem_cons_of_mem _ (parts_sub x z hz w hw)
  | rep x =>
    rw [Rx.parts, List.mem_cons] at hz
    rcases hz with rfl | hz
    · exact hw
    · rw [Rx.parts]; exact List.mem_cons_of_mem _ (parts_sub x z hz w hw)
  | or xs =>
    rw [Rx.parts, List.mem_cons] at hz
    rcases hz with rfl | hz
    · exact hw
    · rw [Rx.parts]; exact List.mem_cons_of_mem _ (partss_sub xs z hz w hw)
  | group xs =>
    rw [Rx.parts, List.mem_cons] at hz
    rcases hz with rfl | hz
    · exact hw
    · rw [Rx.parts]; exact List.mem_cons_of_mem _ (partss_sub xs z hz w hw)
theorem partss_sub (xs : List Rx) : ∀ z ∈ Rx.partss xs, ∀ w ∈ z.parts, w ∈ Rx.partss xs := by
  intro z hz w hw
  cases xs with
  | nil => simp [Rx.partss] at hz
  | cons x xs =>
    rw [Rx.partss, List.mem_append] at hz ⊢
    exact hz.imp (fun h => parts_sub x z h w hw) (fun h => partss_sub xs z h w hw)
end

theorem self_part (x : Rx) : x ∈ x.parts := by cases x <;> simp [Rx.parts]

theorem unit_factor {x : Rx} (h : x.unit = true) : x.factor = true := by
  cases x <;> simp_all [Rx.unit, Rx.factor]

theorem factor_writable {x : Rx} (h : x.factor = true) : x.writable = true := by
  cases x <;> simp_all [Rx.factor, Rx.writable]

theorem factors_writables : ∀ {xs : List Rx}, Rx.factors xs = true → Rx.writables xs = true
  | [], _ => rfl
  | x :: xs, h => by
    rw [Rx.factors, Bool.and_eq_true] at h
    rw [Rx.writables, factor_writable h.1, factors_writables h.2]; rfl

mutual
theorem parts_writable (x : Rx) (h : x.writable = true) : ∀ z ∈ x.parts, z.writable = true := by
  intro z hz
  cases x with
  | sym s => simp only [Rx.parts, List.mem_singleton] at hz; subst hz; exact h
  | opt x =>
    rw [Rx.parts, List.mem_cons] at hz
    rcases hz with rfl | hz
    · exact h
    · exact parts_writable x (factor_writable (unit_factor h)) z hz
  | rep x =>
    rw [Rx.parts, List.mem_cons] at hz
    rcases hz with rfl | hz
    · exact h
    · exact parts_writable x (factor_writable (unit_factor h)) z hz
  | or xs =>
    rw [Rx.parts, List.mem_cons] at hz
    rcases hz with rfl | hz
    · exact h
    · rw [Rx.writable, Bool.and_eq_true] at h
      exact partss_writable xs (factors_writables h.2) z hz
  | group xs =>
    rw [Rx.parts, List.mem_cons] at hz
    rcases hz with rfl | hz
    · exact h
    · exact partss_writable xs h z hz
theorem partss_writable (xs : List Rx) (h : Rx.writables xs = true) : ∀ z ∈ Rx.partss xs, z.writable = true := by
  intro z hz
  cases xs with
  | nil => simp [Rx.partss] at hz
  | cons x xs =>
    rw [Rx.partss, List.mem_append] at hz
    rw [Rx.writables, Bool.and_eq_true] at h
    exact hz.elim (parts_writable x h.1 z) (partss_writable xs h.2 z)
end

theorem writable_part {R : RxRules} (h : R.Writable) {z : Rx} (hz : z ∈ R.parts) : z.writable = true := by
  obtain ⟨r, hr, hz⟩ := List.mem_flatMap.1 hz
  exact partss_writable _ (h.right r hr) z hz

theorem part_part {R : RxRules} {z w : Rx} (hz : z ∈ R.parts) (hw : w ∈ z.parts) : w ∈ R.parts := by
  obtain ⟨r, hr, hz⟩ := List.mem_flatMap.1 hz
  exact List.mem_flatMap.2 ⟨r, hr, partss_sub _ z hz w hw⟩

/-- **Rules that can be written have distinct names for their repetitions.** -/
theorem distinct_of_writable {R : RxRules} (h : R.Writable) : R.Distinct where
  inj x y hx hy e := by
    have plain : ∀ z, Rx.rep z ∈ R.parts → Plains z.parts := fun z hz s hs =>
      h.names s (part_part hz (by rw [Rx.parts]; exact List.mem_cons_of_mem _ hs))
    rw [Rx.text, Rx.text] at e
    exact (unit_inj x (writable_part h hx) (plain x hx) (y := y) (writable_part h hy) (plain y hy)
      (next_cons (by decide) []) (next_cons (by decide) []) e).1
  fresh x _ s hs e := by
    refine (h.names s hs).2 '*' ?_ (by decide)
    rw [e, Rx.text]; simp
  undeclared x _ r hr e := by
    refine (h.left r hr).2 '*' ?_ (by decide)
    rw [e, Rx.text]; simp

theorem solid_of_writable {R : RxRules} (h : R.Writable) : R.Solid where
  group := h.group
  or hz := by
    have := writable_part h hz
    simp [Rx.writable] at this

end Verif.RegexGram
