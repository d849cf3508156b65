import Verif.Proofs.Grammar
/- String functions of the grammar reader against their specifications. -/
namespace Verif.Grammar
open Verif.SetSymbol Verif.Spec

/-! ### Pieces -/

theorem split_ne_nil (c : Char) (s : Str) : split c s ≠ [] := by
  cases s with
  | nil => simp [split]
  | cons x xs =>
    simp only [split]
    split
    · simp
    · split <;> simp

theorem pieces_cons_of {c x : Char} (hx : x ≠ c) {s p ps} (h : Pieces c s (p :: ps)) :
    Pieces c (x :: s) ((x :: p) :: ps) := by
  cases ps with
  | nil =>
    obtain ⟨rfl, h2⟩ := h
    exact ⟨rfl, by simp [h2, Ne.symm hx]⟩
  | cons q qs =>
    obtain ⟨rest, rfl, h2, h3⟩ := h
    exact ⟨rest, rfl, by simp [h2, Ne.symm hx], h3⟩

theorem split_pieces (c : Char) (s : Str) : Pieces c s (split c s) := by
  induction s with
  | nil => exact ⟨rfl, by simp⟩
  | cons x xs ih =>
    simp only [split]
    split
    · rename_i h; subst h
      cases e : split x xs with
      | nil => exact absurd e (split_ne_nil x xs)
      | cons p ps => rw [e] at ih; exact ⟨xs, rfl, by simp, ih⟩
    · rename_i h
      cases e : split c xs with
      | nil => exact absurd e (split_ne_nil c xs)
      | cons p ps => rw [e] at ih; exact pieces_cons_of h ih

theorem split_append {c : Char} {p : Str} (h : c ∉ p) (rest : Str) :
    split c (p ++ c :: rest) = p :: split c rest := by
  induction p with
  | nil => simp [split]
  | cons x p ih =>
    have hx : x ≠ c := fun e => h (by simp [e])
    have := ih (fun hm => h (by simp [hm]))
    simp [split, hx, this]

theorem split_none {c : Char} {p : Str} (h : c ∉ p) : split c p = [p] := by
  induction p with
  | nil => simp [split]
  | cons x p ih =>
    have hx : x ≠ c := fun e => h (by simp [e])
    have := ih (fun hm => h (by simp [hm]))
    simp [split, hx, this]

theorem pieces_unique {c : Char} {ps : List Str} : ∀ {s}, Pieces c s ps → ps = split c s := by
  induction ps with
  | nil => intro s h; exact h.elim
  | cons p ps ih =>
    intro s h
    cases ps with
    | nil => obtain ⟨rfl, h2⟩ := h; rw [split_none h2]
    | cons q qs =>
      obtain ⟨rest, rfl, h2, h3⟩ := h
      rw [split_append h2, ← ih h3]

theorem pieces_mem {c : Char} {ps : List Str} : ∀ {s}, Pieces c s ps → ∀ p ∈ ps, c ∉ p ∧ p <:+: s := by
  induction ps with
  | nil => intro s h; exact h.elim
  | cons p ps ih =>
    intro s h q hq
    cases ps with
    | nil =>
      obtain ⟨rfl, h2⟩ := h
      simp at hq; subst hq
      exact ⟨h2, List.infix_refl _⟩
    | cons r rs =>
      obtain ⟨rest, rfl, h2, h3⟩ := h
      rcases List.mem_cons.1 hq with rfl | hq
      · exact ⟨h2, [], c :: rest, by simp⟩
      · obtain ⟨h4, a, b, e⟩ := ih h3 q hq
        exact ⟨h4, p ++ c :: a, b, by rw [← e]; simp⟩

/-! ### Trimming -/

theorem dropWhile_all {l : Str} {a : Str} (ha : ∀ c ∈ a, isSpace c = true) :
    (a ++ l).dropWhile isSpace = l.dropWhile isSpace := by
  induction a with
  | nil => rfl
  | cons x a ih =>
    simp [List.dropWhile_cons, ha x (by simp), ih fun c hc => ha c (by simp [hc])]

theorem dropWhile_head {l : Str} (h : ∀ c, l.head? = some c → isSpace c = false) :
    l.dropWhile isSpace = l := by
  cases l with
  | nil => rfl
  | cons x l => simp [List.dropWhile_cons, h x rfl]

theorem dropWhile_split (l : Str) : ∃ a, l = a ++ l.dropWhile isSpace ∧ (∀ c ∈ a, isSpace c = true) ∧
    ∀ c, (l.dropWhile isSpace).head? = some c → isSpace c = false := by
  induction l with
  | nil => exact ⟨[], rfl, by simp, by simp⟩
  | cons x l ih =>
    by_cases hx : isSpace x = true
    · obtain ⟨a, e, h1, h2⟩ := ih
      refine ⟨x :: a, ?_, ?_, ?_⟩
      · rw [List.dropWhile_cons, if_pos hx, List.cons_append, ← e]
      · intro c hc
        rcases List.mem_cons.1 hc with rfl | hc
        · exact hx
        · exact h1 c hc
      · rw [List.dropWhile_cons, if_pos hx]; exact h2
    · refine ⟨[], ?_, by simp, ?_⟩
      · rw [List.dropWhile_cons, if_neg hx]; rfl
      · rw [List.dropWhile_cons, if_neg hx]
        intro c hc
        cases hc
        simpa using hx

theorem trimSpace_spec (s : Str) : TrimsTo s (trimSpace s) := by
  obtain ⟨a, e, h1, h2⟩ := dropWhile_split s
  obtain ⟨b, e2, h3, h4⟩ := dropWhile_split (s.dropWhile isSpace).reverse
  have e3 : s.dropWhile isSpace = trimSpace s ++ b.reverse := by
    have := congrArg List.reverse e2
    rw [List.reverse_reverse, List.reverse_append] at this
    exact this
  refine ⟨⟨?_, ?_⟩, a, b.reverse, ?_, h1, ?_⟩
  · intro c hc
    apply h2
    rw [e3]
    cases ht : trimSpace s with
    | nil => rw [ht] at hc; cases hc
    | cons x t => rw [ht] at hc; simpa using hc
  · intro c hc
    apply h4
    unfold trimSpace at hc
    rwa [List.getLast?_reverse] at hc
  · rw [List.append_assoc, ← e3]; exact e
  · intro c hc; exact h3 c (by simpa using hc)

theorem trimsTo_unique {s t : Str} (h : TrimsTo s t) : t = trimSpace s := by
  obtain ⟨⟨h1, h2⟩, a, b, rfl, ha, hb⟩ := h
  unfold trimSpace
  rw [List.append_assoc, dropWhile_all ha]
  by_cases ht : t = []
  · subst ht
    have : b.dropWhile isSpace = [] := by
      have := dropWhile_all (l := []) hb
      simpa using this
    simp [this]
  · have : (t ++ b).dropWhile isSpace = t ++ b := dropWhile_head (by
      intro c hc
      apply h1
      cases t with
      | nil => exact absurd rfl ht
      | cons x t => simpa using hc)
    rw [this, List.reverse_append, dropWhile_all (by intro c hc; exact hb c (by simpa using hc)),
      dropWhile_head (by
        intro c hc
        apply h2
        rwa [List.head?_reverse] at hc), List.reverse_reverse]

theorem trimSpace_cons {x : Char} (hx : isSpace x = true) (s : Str) : trimSpace (x :: s) = trimSpace s := by
  unfold trimSpace; simp [List.dropWhile_cons, hx]

theorem trimSpace_snoc {x : Char} (hx : isSpace x = true) (s : Str) : trimSpace (s ++ [x]) = trimSpace s := by
  obtain ⟨h, a, b, e, ha, hb⟩ := trimSpace_spec s
  refine (trimsTo_unique ⟨h, a, b ++ [x], ?_, ha, ?_⟩).symm
  · conv => lhs; rw [e]
    simp
  · intro c hc
    rcases List.mem_append.1 hc with hc | hc
    · exact hb c hc
    · simp at hc; subst hc; exact hx

theorem trimSpace_nil_iff (s : Str) : trimSpace s = [] ↔ ∀ c ∈ s, isSpace c = true := by
  constructor
  · intro h
    obtain ⟨_, a, b, e, ha, hb⟩ := trimSpace_spec s
    rw [h] at e
    intro c hc
    rw [e] at hc
    simp at hc
    rcases hc with hc | hc
    · exact ha c hc
    · exact hb c hc
  · intro h
    refine (trimsTo_unique ⟨⟨by simp, by simp⟩, s, [], by simp, h, by simp⟩).symm

theorem trimsTo_infix {s t : Str} (h : TrimsTo s t) : t <:+: s := by
  obtain ⟨_, a, b, e, _⟩ := h
  exact ⟨a, b, e.symm⟩

/-! ### Tokens -/

/-- Tokens without trimming first. -/
def toks0 (s : Str) : List Str := ((split ' ' s).map trimSpace).filter (· ≠ [])

theorem isSpace_blank : isSpace ' ' = true := by decide

theorem toks0_cons {x : Char} (hx : isSpace x = true) (s : Str) : toks0 (x :: s) = toks0 s := by
  unfold toks0
  simp only [split]
  split
  · simp [trimSpace]
  · cases e : split ' ' s with
    | nil => exact absurd e (split_ne_nil _ _)
    | cons p ps => simp [trimSpace_cons hx]

theorem split_snoc (c x : Char) (s : Str) : ∃ init last, split c s = init ++ [last] ∧
    split c (s ++ [x]) = if x = c then init ++ [last, []] else init ++ [last ++ [x]] := by
  induction s with
  | nil =>
    refine ⟨[], [], by simp [split], ?_⟩
    by_cases h : x = c <;> simp [h, split]
  | cons y s ih =>
    obtain ⟨init, last, e1, e2⟩ := ih
    by_cases hy : y = c
    · refine ⟨[] :: init, last, by simp [split, hy, e1], ?_⟩
      simp only [List.cons_append, split, hy, if_true, e2]
      split <;> rfl
    · cases init with
      | nil =>
        refine ⟨[], y :: last, by simp [split, hy, e1], ?_⟩
        simp only [List.cons_append, split, hy, if_false, e2]
        by_cases hx : x = c <;> simp [hx]
      | cons p ps =>
        refine ⟨(y :: p) :: ps, last, by simp [split, hy, e1], ?_⟩
        simp only [List.cons_append, split, hy, if_false, e2]
        by_cases hx : x = c <;> simp [hx]

theorem toks0_snoc {x : Char} (hx : isSpace x = true) (s : Str) : toks0 (s ++ [x]) = toks0 s := by
  unfold toks0
  obtain ⟨init, last, e1, e2⟩ := split_snoc ' ' x s
  rw [e1, e2]
  split
  · simp [trimSpace, List.filter_cons]
  · simp [trimSpace_snoc hx]

theorem toks0_pre {a : Str} (ha : ∀ c ∈ a, isSpace c = true) (s : Str) : toks0 (a ++ s) = toks0 s := by
  induction a with
  | nil => rfl
  | cons x a ih =>
    rw [List.cons_append, toks0_cons (ha x (by simp)), ih fun c hc => ha c (by simp [hc])]

theorem toks0_post {b : Str} (hb : ∀ c ∈ b, isSpace c = true) (s : Str) : toks0 (s ++ b) = toks0 s := by
  induction b generalizing s with
  | nil => simp
  | cons x b ih =>
    have := ih (fun c hc => hb c (by simp [hc])) (s ++ [x])
    rw [List.append_assoc] at this
    rw [show s ++ x :: b = s ++ ([x] ++ b) from rfl, this, toks0_snoc (hb x (by simp))]

theorem toks_eq (s : Str) : toks s = toks0 s := by
  obtain ⟨_, a, b, e, ha, hb⟩ := trimSpace_spec s
  have : toks0 s = toks0 (trimSpace s) := by
    conv => lhs; rw [e]
    rw [toks0_post hb, toks0_pre ha]
  rw [this]; rfl

theorem zip_map_self {f : Str → Str} (l : List Str) : ∀ x ∈ l.zip (l.map f), x.2 = f x.1 := by
  induction l with
  | nil => simp
  | cons a l ih =>
    intro x hx
    simp only [List.map_cons, List.zip_cons_cons, List.mem_cons] at hx
    rcases hx with rfl | hx
    · rfl
    · exact ih x hx

theorem toks_spec (s : Str) : Tokens s (toks s) := by
  refine ⟨split ' ' s, (split ' ' s).map trimSpace, split_pieces _ _, by simp, ?_, by rw [toks_eq]; rfl⟩
  intro x hx
  rw [zip_map_self _ x hx]
  exact trimSpace_spec _

theorem tokens_unique {s : Str} {ts} (h : Tokens s ts) : ts = toks s := by
  obtain ⟨ps, qs, h1, h2, h3, rfl⟩ := h
  rw [toks_eq, toks0, ← pieces_unique h1]
  congr 1
  clear h1
  induction ps generalizing qs with
  | nil => cases qs with
    | nil => rfl
    | cons => cases h2
  | cons p ps ih =>
    cases qs with
    | nil => cases h2
    | cons q qs =>
      simp only [List.zip_cons_cons, List.mem_cons] at h3
      rw [List.map_cons, ← trimsTo_unique (h3 (p, q) (.inl rfl)),
        ← ih qs (by simpa using h2) fun x hx => h3 x (.inr hx)]

theorem tokens_mem {s : Str} {ts} (h : Tokens s ts) : ∀ t ∈ ts, t ≠ [] ∧ Trim t ∧ ' ' ∉ t ∧ t <:+: s := by
  obtain ⟨ps, qs, h1, h2, h3, rfl⟩ := h
  intro t ht
  obtain ⟨hq, hne⟩ := List.mem_filter.1 ht
  obtain ⟨i, hi⟩ := List.mem_iff_getElem?.1 hq
  have hlt : i < ps.length := by rw [h2]; exact (List.getElem?_eq_some_iff.1 hi).1
  have hz : (ps[i], t) ∈ ps.zip qs := by
    rw [List.mem_iff_getElem?]
    refine ⟨i, ?_⟩
    rw [List.getElem?_zip_eq_some]
    exact ⟨List.getElem?_eq_getElem hlt, hi⟩
  have ht := h3 _ hz
  obtain ⟨hb, hin⟩ := pieces_mem h1 ps[i] (List.getElem_mem hlt)
  have htin := trimsTo_infix ht
  exact ⟨by simpa using hne, ht.1, fun hm => hb (htin.subset hm), htin.trans hin⟩

/-! ### Arrows -/

theorem arrow_prefix (c : Char) (l : Str) : arrow <+: c :: l ↔ c = '-' ∧ l.head? = some '>' := by
  unfold arrow
  constructor
  · rintro ⟨t, e⟩
    simp only [List.cons_append, List.nil_append, List.cons.injEq] at e
    obtain ⟨rfl, rfl⟩ := e
    exact ⟨rfl, rfl⟩
  · rintro ⟨rfl, h⟩
    cases l with
    | nil => cases h
    | cons x l => cases h; exact ⟨l, rfl⟩

theorem arrow_cons (c : Char) (l : Str) :
    arrow <:+: c :: l ↔ (c = '-' ∧ l.head? = some '>') ∨ arrow <:+: l := by
  rw [List.infix_cons_iff, arrow_prefix]

theorem not_space_dash : isSpace '-' = false := by decide
theorem not_space_gt : isSpace '>' = false := by decide

theorem free_pre {a l : Str} (ha : ∀ c ∈ a, isSpace c = true) (h : ¬ arrow <:+: l) : ¬ arrow <:+: a ++ l := by
  induction a with
  | nil => exact h
  | cons x a ih =>
    rw [List.cons_append, arrow_cons]
    rintro (⟨rfl, _⟩ | h')
    · have := ha '-' (by simp); rw [not_space_dash] at this; cases this
    · exact ih (fun c hc => ha c (by simp [hc])) h'

theorem free_nil : ¬ arrow <:+: ([] : Str) := by
  intro h
  have := h.length_le
  simp [arrow] at this

theorem free_spaces {a : Str} (ha : ∀ c ∈ a, isSpace c = true) : ¬ arrow <:+: a := by
  have := free_pre ha free_nil
  simpa using this

theorem free_mid {l r : Str} {x : Char} (hx : isSpace x = true) (h1 : ¬ arrow <:+: l) (h2 : ¬ arrow <:+: r) :
    ¬ arrow <:+: l ++ x :: r := by
  induction l with
  | nil =>
    rw [List.nil_append, arrow_cons]
    rintro (⟨rfl, _⟩ | h')
    · rw [not_space_dash] at hx; cases hx
    · exact h2 h'
  | cons y l ih =>
    rw [arrow_cons] at h1
    rw [List.cons_append, arrow_cons]
    rintro (⟨rfl, h'⟩ | h')
    · cases l with
      | nil => simp at h'; subst h'; rw [not_space_gt] at hx; cases hx
      | cons z l => exact h1 (.inl ⟨rfl, by simpa using h'⟩)
    · exact ih (fun h => h1 (.inr h)) h'

theorem free_post {l b : Str} (hb : ∀ c ∈ b, isSpace c = true) (h : ¬ arrow <:+: l) : ¬ arrow <:+: l ++ b := by
  cases b with
  | nil => simpa using h
  | cons x b => exact free_mid (hb x (by simp)) h (free_spaces fun c hc => hb c (by simp [hc]))

theorem free_of_infix {l r : Str} (h : ¬ arrow <:+: r) (hi : l <:+: r) : ¬ arrow <:+: l :=
  fun h' => h (h'.trans hi)

theorem splitArrow_ne_nil (s : Str) : splitArrow s ≠ [] := by
  fun_induction splitArrow s <;> simp_all

/-- Splitting at the first arrow. -/
theorem splitArrow_append (b : Str) : ∀ a : Str, ¬ arrow <:+: a → splitArrow (a ++ arrow ++ b) = a :: splitArrow b := by
  intro a
  induction a with
  | nil => intro _; simp [arrow, splitArrow]
  | cons x a ih =>
    intro h
    rw [arrow_cons] at h
    have ih := ih fun h' => h (.inr h')
    cases a with
    | nil =>
      simp only [arrow, List.cons_append, List.nil_append] at ih ⊢
      rw [splitArrow, if_neg (by simp), ih]
    | cons y a =>
      simp only [List.cons_append] at ih ⊢
      rw [splitArrow, if_neg (by rintro ⟨rfl, rfl⟩; exact h (.inl ⟨rfl, rfl⟩)), ih]

theorem splitArrow_free : ∀ a : Str, ¬ arrow <:+: a → splitArrow a = [a] := by
  intro a
  induction a with
  | nil => intro _; simp [splitArrow]
  | cons x a ih =>
    intro h
    rw [arrow_cons] at h
    have ih := ih fun h' => h (.inr h')
    cases a with
    | nil => simp [splitArrow]
    | cons y a => rw [splitArrow, if_neg (by rintro ⟨rfl, rfl⟩; exact h (.inl ⟨rfl, rfl⟩)), ih]

/-- Every text is free of arrows or has a first one. -/
theorem arrow_cases (s : Str) : ¬ arrow <:+: s ∨ ∃ a b, s = a ++ arrow ++ b ∧ ¬ arrow <:+: a := by
  induction s with
  | nil => exact .inl free_nil
  | cons x s ih =>
    by_cases h : arrow <+: x :: s
    · obtain ⟨b, e⟩ := h
      exact .inr ⟨[], b, by simpa using e.symm, free_nil⟩
    · have hx : ¬ (x = '-' ∧ s.head? = some '>') := fun h' => h ((arrow_prefix x s).2 h')
      rcases ih with ih | ⟨a, b, rfl, ha⟩
      · exact .inl fun h' => ((arrow_cons x s).1 h').elim hx ih
      · refine .inr ⟨x :: a, b, rfl, ?_⟩
        rw [arrow_cons]
        rintro (⟨rfl, h'⟩ | h')
        · apply hx
          refine ⟨rfl, ?_⟩
          cases a with
          | nil => cases h'
          | cons y a => simpa using h'
        · exact ha h'

/-- A line has no arrow, exactly one, or is bad. -/
theorem line_cases (s : Str) : ¬ arrow <:+: s ∨
    (∃ a b, s = a ++ arrow ++ b ∧ ¬ arrow <:+: a ∧ ¬ arrow <:+: b) ∨
    ∃ a b c, s = a ++ arrow ++ b ++ arrow ++ c ∧ ¬ arrow <:+: a ∧ ¬ arrow <:+: b := by
  rcases arrow_cases s with h | ⟨a, b, rfl, ha⟩
  · exact .inl h
  · rcases arrow_cases b with h | ⟨b, c, rfl, hb⟩
    · exact .inr (.inl ⟨a, b, rfl, ha, h⟩)
    · exact .inr (.inr ⟨a, b, c, by simp, ha, hb⟩)

theorem splitArrow_bad {s : Str} (h : BadLine s) : ∃ p q r rs, splitArrow s = p :: q :: r :: rs := by
  have bad_len : ∀ s : Str, arrow <:+: s → ∃ p q rs, splitArrow s = p :: q :: rs := by
    intro s h
    rcases arrow_cases s with h' | ⟨a, b, rfl, ha⟩
    · exact absurd h h'
    · rw [splitArrow_append _ _ ha]
      cases e : splitArrow b with
      | nil => exact absurd e (splitArrow_ne_nil b)
      | cons q rs => exact ⟨a, q, rs, rfl⟩
  obtain ⟨a, b, c, rfl⟩ := h
  rcases arrow_cases a with ha | ⟨a1, a2, rfl, ha⟩
  · rw [List.append_assoc, List.append_assoc (bs := b), splitArrow_append _ _ ha]
    obtain ⟨p, q, rs, e⟩ := bad_len (b ++ (arrow ++ c)) ⟨b, c, by simp⟩
    exact ⟨a, p, q, rs, by rw [← e]⟩
  · rw [List.append_assoc, List.append_assoc, List.append_assoc, List.append_assoc (as := a1 ++ arrow),
      splitArrow_append _ _ ha]
    obtain ⟨p, q, rs, e⟩ := bad_len (a2 ++ (arrow ++ (b ++ (arrow ++ c)))) ⟨a2, b ++ (arrow ++ c), by simp⟩
    exact ⟨a1, p, q, rs, by rw [← e]⟩

/-! ### Lines -/

/-- What the code reads from a line, with names instead of indices. -/
def readLine (line : Str) : Option (Option Str × Option (List Str)) :=
  let line := trimSpace line
  if line.length = 0 then some (none, none)
  else
    match splitArrow line with
    | [] => some (none, none)
    | [p0] => some (none, some (toks p0))
    | [p0, p1] => some (if trimSpace p0 ≠ [] then some (trimSpace p0) else none, some (toks p1))
    | _ => none

theorem readLine_good {s : Str} (h : ¬ BadLine s) : ∃ nt p, readLine s = some (nt, p) ∧ Line s nt p := by
  obtain ⟨htr, x, y, e, hx, hy⟩ := trimSpace_spec s
  by_cases hb : trimSpace s = []
  · exact ⟨none, none, by simp [readLine, hb], .blank ((trimSpace_nil_iff s).1 hb)⟩
  · have hlen : ¬ (trimSpace s).length = 0 := by simpa using hb
    have hne : ∃ c ∈ s, isSpace c = false := by
      by_cases h' : ∃ c ∈ s, isSpace c = false
      · exact h'
      · exfalso
        apply hb
        rw [trimSpace_nil_iff]
        intro c hc
        cases hc' : isSpace c with
        | true => rfl
        | false => exact absurd ⟨c, hc, hc'⟩ h'
    simp only [readLine, hlen, if_false]
    rcases line_cases (trimSpace s) with hf | ⟨a, b, e2, ha, hb'⟩ | ⟨a, b, c, e2, ha, hb'⟩
    · rw [splitArrow_free _ hf]
      refine ⟨none, some (toks (trimSpace s)), rfl, .plain hne ?_ ?_⟩
      · rw [e]; exact free_post hy (free_pre hx hf)
      · have : toks (trimSpace s) = toks s := by
          rw [toks_eq, toks_eq]
          conv => rhs; rw [e]
          rw [toks0_post hy, toks0_pre hx]
        rw [this]; exact toks_spec s
    · rw [e2, splitArrow_append _ _ ha, splitArrow_free _ hb']
      have e3 : s = (x ++ a) ++ arrow ++ (b ++ y) := by
        conv => lhs; rw [e, e2]
        simp
      have htk : Tokens (b ++ y) (toks b) := by
        have : toks b = toks (b ++ y) := by rw [toks_eq, toks_eq, toks0_post hy]
        rw [this]; exact toks_spec _
      have htrim : TrimsTo (x ++ a) (trimSpace a) := by
        obtain ⟨h1, u, v, e4, hu, hv⟩ := trimSpace_spec a
        refine ⟨h1, x ++ u, v, ?_, ?_, hv⟩
        · conv => lhs; rw [e4]
          simp
        · intro c hc
          rcases List.mem_append.1 hc with hc | hc
          · exact hx c hc
          · exact hu c hc
      by_cases hA : trimSpace a = []
      · refine ⟨none, some (toks b), by simp [hA], .right e3 (free_pre hx ha) (free_post hy hb') ?_ htk⟩
        have := (trimSpace_nil_iff a).1 hA
        intro c hc
        rcases List.mem_append.1 hc with hc | hc
        · exact hx c hc
        · exact this c hc
      · exact ⟨some (trimSpace a), some (toks b), by simp [hA],
          .rule e3 (free_pre hx ha) (free_post hy hb') htrim hA htk⟩
    · exfalso
      apply h
      refine ⟨x ++ a, b, c ++ y, ?_⟩
      conv => lhs; rw [e, e2]
      simp

theorem badLine_trim {s : Str} (h : BadLine s) : BadLine (trimSpace s) := by
  obtain ⟨a, b, c, e⟩ := h
  have ht := trimSpace_spec a
  have hc := trimSpace_spec c
  -- drop the white space of `a` in front and that of `c` behind
  obtain ⟨u, hu, hu1, hu2⟩ := dropWhile_split a
  obtain ⟨v, hv, hv1, hv2⟩ := dropWhile_split c.reverse
  refine ⟨a.dropWhile isSpace, b, (c.reverse.dropWhile isSpace).reverse, ?_⟩
  refine (trimsTo_unique ⟨⟨?_, ?_⟩, u, v.reverse, ?_, hu1, fun x hx => hv1 x (by simpa using hx)⟩).symm
  · intro x hx
    cases e1 : a.dropWhile isSpace with
    | nil =>
      rw [e1] at hx
      simp [arrow] at hx
      subst hx; exact not_space_dash
    | cons y l =>
      rw [e1] at hx hu2
      simp at hx
      subst hx; exact hu2 y rfl
  · intro x hx
    cases e1 : c.reverse.dropWhile isSpace with
    | nil =>
      rw [e1, List.reverse_nil, List.append_nil, List.getLast?_append] at hx
      simp [arrow] at hx
      subst hx; exact not_space_gt
    | cons y l =>
      rw [e1] at hx hv2
      simp [List.getLast?_append] at hx
      subst hx; exact hv2 y rfl
  · have hc' : c = (c.reverse.dropWhile isSpace).reverse ++ v.reverse := by
      have := congrArg List.reverse hv
      rwa [List.reverse_reverse, List.reverse_append] at this
    calc s = a ++ arrow ++ b ++ arrow ++ c := e
      _ = (u ++ a.dropWhile isSpace) ++ arrow ++ b ++ arrow ++ ((c.reverse.dropWhile isSpace).reverse ++ v.reverse) := by
        rw [← hu, ← hc']
      _ = _ := by simp

theorem readLine_bad {s : Str} (h : BadLine s) : readLine s = none := by
  have hb := badLine_trim h
  obtain ⟨p, q, r, rs, e⟩ := splitArrow_bad hb
  have hne : ¬ (trimSpace s).length = 0 := by
    intro h0
    obtain ⟨a, b, c, e⟩ := hb
    rw [e] at h0
    simp [arrow] at h0
  simp only [readLine, hne, if_false, e]

theorem line_not_bad {s nt p} (h : Line s nt p) : ¬ BadLine s := by
  have key : ∀ {a b : Str}, ¬ arrow <:+: a → ¬ arrow <:+: b → ¬ BadLine (a ++ arrow ++ b) := by
    intro a b ha hb hbad
    obtain ⟨p, q, r, rs, e⟩ := splitArrow_bad hbad
    rw [splitArrow_append _ _ ha, splitArrow_free _ hb] at e
    simp at e
  cases h with
  | blank h =>
    rintro ⟨a, b, c, rfl⟩
    have := h '-' (by simp [arrow])
    rw [not_space_dash] at this; cases this
  | plain _ h =>
    rintro ⟨a, b, c, rfl⟩
    exact h ⟨a, b ++ arrow ++ c, by simp⟩
  | right e h1 h2 => subst e; exact key h1 h2
  | rule e h1 h2 => subst e; exact key h1 h2

theorem split_at_arrow {a b a' b' : Str} (ha : ¬ arrow <:+: a) (hb : ¬ arrow <:+: b) (ha' : ¬ arrow <:+: a')
    (hb' : ¬ arrow <:+: b') (e : a ++ arrow ++ b = a' ++ arrow ++ b') : a = a' ∧ b = b' := by
  have h := congrArg splitArrow e
  rw [splitArrow_append _ _ ha, splitArrow_append _ _ ha', splitArrow_free _ hb, splitArrow_free _ hb'] at h
  simpa using h

theorem line_unique {s nt p nt' p'} (h : Line s nt p) (h' : Line s nt' p') : nt = nt' ∧ p = p' := by
  have tok : ∀ {s ts ts'}, Tokens s ts → Tokens s ts' → ts = ts' := fun h1 h2 =>
    (tokens_unique h1).trans (tokens_unique h2).symm
  cases h with
  | blank h =>
    have hd : ∀ c, c ∈ s → isSpace c = false → False := fun c hc hf => by rw [h c hc] at hf; cases hf
    cases h' with
    | blank => exact ⟨rfl, rfl⟩
    | plain h1 => obtain ⟨c, hc, hf⟩ := h1; exact (hd c hc hf).elim
    | right e => exact (hd '-' (by rw [e]; simp [arrow]) not_space_dash).elim
    | rule e => exact (hd '-' (by rw [e]; simp [arrow]) not_space_dash).elim
  | plain h1 h2 h3 =>
    cases h' with
    | blank h => obtain ⟨c, hc, hf⟩ := h1; rw [h c hc] at hf; cases hf
    | plain _ _ h3' => exact ⟨rfl, by rw [tok h3 h3']⟩
    | right e => exact absurd ⟨_, _, e.symm⟩ h2
    | rule e => exact absurd ⟨_, _, e.symm⟩ h2
  | @right a b ts e h1 h2 h3 h4 =>
    cases h' with
    | blank h => have := h '-' (by rw [e]; simp [arrow]); rw [not_space_dash] at this; cases this
    | plain _ h2' => exact absurd ⟨a, b, e.symm⟩ h2'
    | right e' h1' h2' _ h4' =>
      obtain ⟨rfl, rfl⟩ := split_at_arrow h1 h2 h1' h2' (e.symm.trans e')
      exact ⟨rfl, by rw [tok h4 h4']⟩
    | rule e' h1' h2' h3' hA _ =>
      obtain ⟨rfl, rfl⟩ := split_at_arrow h1 h2 h1' h2' (e.symm.trans e')
      exact absurd ((trimsTo_unique h3').trans ((trimSpace_nil_iff _).2 h3)) hA
  | @rule a b A ts e h1 h2 h3 hA h4 =>
    cases h' with
    | blank h => have := h '-' (by rw [e]; simp [arrow]); rw [not_space_dash] at this; cases this
    | plain _ h2' => exact absurd ⟨a, b, e.symm⟩ h2'
    | right e' h1' h2' h3' _ =>
      obtain ⟨rfl, rfl⟩ := split_at_arrow h1 h2 h1' h2' (e.symm.trans e')
      exact absurd ((trimsTo_unique h3).trans ((trimSpace_nil_iff _).2 h3')) hA
    | rule e' h1' h2' h3' _ h4' =>
      obtain ⟨rfl, rfl⟩ := split_at_arrow h1 h2 h1' h2' (e.symm.trans e')
      exact ⟨by rw [trimsTo_unique h3, trimsTo_unique h3'], by rw [tok h4 h4']⟩

theorem rules_unique {cur ls r r'} (h : Rules cur ls r) : Rules cur ls r' → r = r' := by
  induction h generalizing r' with
  | nil => intro h'; cases h'; rfl
  | blank hl _ ih =>
    intro h'
    cases h' with
    | blank _ h => exact ih h
    | rule hl' _ => cases (line_unique hl hl').2
    | more hl' _ => cases (line_unique hl hl').2
    | start hl' _ => cases (line_unique hl hl').2
  | rule hl _ ih =>
    intro h'
    cases h' with
    | blank hl' => cases (line_unique hl hl').2
    | rule hl' h =>
      obtain ⟨e1, e2⟩ := line_unique hl hl'
      cases e1; cases e2; rw [ih h]
    | more hl' => cases (line_unique hl hl').1
    | start hl' => cases (line_unique hl hl').1
  | more hl _ ih =>
    intro h'
    cases h' with
    | blank hl' => cases (line_unique hl hl').2
    | rule hl' => cases (line_unique hl hl').1
    | more hl' h => obtain ⟨_, e2⟩ := line_unique hl hl'; cases e2; rw [ih h]
  | start hl _ ih =>
    intro h'
    cases h' with
    | blank hl' => cases (line_unique hl hl').2
    | rule hl' => cases (line_unique hl hl').1
    | start hl' h => obtain ⟨_, e2⟩ := line_unique hl hl'; cases e2; rw [ih h]

/-! ### New -/

theorem castSyms_nm {s : SymSet Str} (h : Inv s) (p : List Str) : Nm (castSyms s p).1 (castSyms s p).2 p :=
  castSyms_get h p

/-- `productionFromLine` reads what `readLine` says. -/
theorem productionFromLine_eq {s : SymSet Str} (hs : Inv s) (line : Str) :
    match readLine line with
    | none => productionFromLine s line = none
    | some (nt, p) => ∃ s' i q, productionFromLine s line = some (s', i, q) ∧ Inv s' ∧
        s.symb2str <+: s'.symb2str ∧
        (match nt, i with
          | none, none => True
          | some A, some i => s'.symb2str[i]? = some A
          | _, _ => False) ∧
        (match p, q with
          | none, none => True
          | some p, some q => Nm s' q p
          | _, _ => False) := by
  unfold readLine productionFromLine
  simp only
  split
  · rename_i e
    split at e
    · cases e
    · rename_i hlen
      split at e <;> simp at e
      rename_i h1 h2 h3
      rw [if_neg hlen]
      split
      · rename_i h; exact absurd h h1
      · rename_i h; exact absurd h (h2 _)
      · rename_i h; exact absurd h (h3 _ _)
      · rfl
  · rename_i nt p e
    split at e
    · rename_i hlen
      cases e
      exact ⟨s, none, none, by rw [if_pos hlen], hs, List.prefix_refl _, trivial, trivial⟩
    · rename_i hlen
      rw [if_neg hlen]
      split at e
      · rename_i h; cases e
        exact ⟨s, none, none, by rw [h], hs, List.prefix_refl _, trivial, trivial⟩
      · rename_i p0 h; cases e
        exact ⟨_, none, _, by rw [h], castSyms_inv hs _, castSyms_prefix _ _, trivial, castSyms_nm hs _⟩
      · rename_i p0 p1 h
        rw [h]
        by_cases hn : trimSpace p0 = []
        · simp only [hn, ne_eq, not_true_eq_false, if_false] at e ⊢
          cases e
          exact ⟨_, none, _, rfl, castSyms_inv hs _, castSyms_prefix _ _, trivial, castSyms_nm hs _⟩
        · simp only [hn, ne_eq, not_false_eq_true, if_true] at e ⊢
          cases e
          refine ⟨_, some _, _, rfl, castSyms_inv (inv_str hs _) _, (str_prefix _ _).trans (castSyms_prefix _ _),
            ?_, castSyms_nm (inv_str hs _) _⟩
          exact prefix_getElem? (castSyms_prefix _ _) (str_idx hs _)
      · cases e

/-- The current nonterminal's index and name belong together. -/
def CurOK (g : Gram Str) : Option Nat → Option Str → Prop
  | none, none => True
  | some i, some A => g.set.symb2str[i]? = some A
  | _, _ => False

theorem newLoop_spec : ∀ (lines : List Str) (g : Gram Str) adds cur curA, Rep g adds →
    CurOK g cur curA →
    ((∃ l ∈ lines, BadLine l) ∧ newLoop g cur lines = none) ∨
    (∃ g' r, newLoop g cur lines = some g' ∧ Rules curA lines r ∧ Rep g' (adds ++ r)) := by
  intro lines
  induction lines with
  | nil =>
    intro g adds cur curA h hc
    exact .inr ⟨g, [], rfl, .nil, by simpa using h⟩
  | cons line lines ih =>
    intro g adds cur curA h hc
    have hp := productionFromLine_eq h.inv line
    by_cases hbad : BadLine line
    · rw [readLine_bad hbad] at hp
      refine .inl ⟨⟨line, by simp, hbad⟩, ?_⟩
      simp only at hp
      simp only [newLoop, hp]
    · obtain ⟨nt, p, e, hl⟩ := readLine_good hbad
      rw [e] at hp
      obtain ⟨s', i, q, ep, hs', hpre, hnt, hpq⟩ := hp
      have hr := h.intern hs' hpre
      have fin : ∀ (g1 : Gram Str) (i1 : Nat) A P, Rep g1 (adds ++ [(A, P)]) → g1.set.symb2str[i1]? = some A →
          (∀ r, Rules (some A) lines r → Rules curA (line :: lines) ((A, P) :: r)) →
          newLoop g cur (line :: lines) = newLoop g1 (some i1) lines →
          ((∃ l ∈ line :: lines, BadLine l) ∧ newLoop g cur (line :: lines) = none) ∨
          (∃ g' r, newLoop g cur (line :: lines) = some g' ∧ Rules curA (line :: lines) r ∧ Rep g' (adds ++ r)) := by
        intro g1 i1 A P hrep hi hrules en
        rw [en]
        rcases ih g1 _ (some i1) (some A) hrep hi with ⟨⟨l, hm, hb⟩, e1⟩ | ⟨g', r, e1, h1, h2⟩
        · exact .inl ⟨⟨l, by simp [hm], hb⟩, e1⟩
        · exact .inr ⟨g', (A, P) :: r, e1, hrules r h1, by simpa using h2⟩
      cases p with
      | none =>
        cases q with
        | some => exact hpq.elim
        | none =>
          have en : newLoop g cur (line :: lines) = newLoop { g with set := s' } cur lines := by
            simp only [newLoop, ep]
          rw [en]
          have hc' : CurOK { g with set := s' } cur curA := by
            revert hc
            cases cur <;> cases curA <;> simp only [CurOK, imp_self]
            exact fun h => prefix_getElem? hpre h
          rcases ih _ adds cur curA hr hc' with ⟨⟨l, hm, hb⟩, e1⟩ | ⟨g', r, e1, h1, h2⟩
          · exact .inl ⟨⟨l, by simp [hm], hb⟩, e1⟩
          · exact .inr ⟨g', r, e1, .blank hl h1, h2⟩
      | some p =>
        cases q with
        | none => exact hpq.elim
        | some q =>
          have hpq : Nm s' q p := hpq
          cases nt with
          | some A =>
            cases i with
            | none => exact hnt.elim
            | some i =>
              have hnt : s'.symb2str[i]? = some A := hnt
              refine fin _ i A p (hr.addIdx hnt hpq) (by rw [addIdx_set]; exact hnt) (fun r h => .rule hl h) ?_
              simp only [newLoop, ep]
          | none =>
            cases i with
            | some => exact hnt.elim
            | none =>
              cases cur with
              | some c =>
                cases curA with
                | none => exact hc.elim
                | some A =>
                  have hc : g.set.symb2str[c]? = some A := hc
                  have hc' := prefix_getElem? hpre hc
                  refine fin _ c A p (hr.addIdx hc' hpq) (by rw [addIdx_set]; exact hc') (fun r h => .more hl h) ?_
                  simp only [newLoop, ep]
              | none =>
                cases curA with
                | some => exact hc.elim
                | none =>
                  have hr2 := hr.intern (inv_str hs' "START".toList) (str_prefix s' "START".toList)
                  have hi := str_idx hs' "START".toList
                  refine fin _ _ _ p (hr2.addIdx hi (hpq.mono (str_prefix _ _))) (by rw [addIdx_set]; exact hi)
                    (fun r h => .start hl h) ?_
                  simp only [newLoop, ep]

/-- New on a text. -/
theorem new_spec (text : Str) :
    ((∃ l ∈ split '\n' text, BadLine l) ∧ new text = none) ∨
    ∃ g r, new text = some g ∧ Rules none (split '\n' text) r ∧ Rep g r := by
  rcases newLoop_spec (split '\n' text) empty [] none none rep_empty trivial with h | ⟨g, r, h1, h2, h3⟩
  · exact .inl h
  · exact .inr ⟨g, r, h1, h2, by simpa using h3⟩

theorem rules_not_bad {cur ls r} (h : Rules cur ls r) : ∀ l ∈ ls, ¬ BadLine l := by
  induction h with
  | nil => intro l hl; cases hl
  | blank h _ ih | rule h _ ih | more h _ ih | start h _ ih =>
    intro l hl
    rcases List.mem_cons.1 hl with rfl | hl
    · exact line_not_bad h
    · exact ih l hl

/-- The rules in lines, as a function (to evaluate concrete texts). -/
def readRules : Option Str → List Str → Option (List (Str × List Str))
  | _, [] => some []
  | cur, l :: ls =>
    match readLine l with
    | none => none
    | some (_, none) => readRules cur ls
    | some (some A, some ts) => (readRules (some A) ls).map ((A, ts) :: ·)
    | some (none, some ts) => (readRules (some (cur.getD "START".toList)) ls).map ((cur.getD "START".toList, ts) :: ·)

theorem readLine_of {s nt p} (h : Line s nt p) : readLine s = some (nt, p) := by
  obtain ⟨nt', p', e, h'⟩ := readLine_good (line_not_bad h)
  obtain ⟨rfl, rfl⟩ := line_unique h h'
  exact e

theorem readRules_of {cur ls r} (h : Rules cur ls r) : readRules cur ls = some r := by
  induction h with
  | nil => rfl
  | @blank _ _ _ _ nt h _ ih =>
    cases nt <;> simp only [readRules, readLine_of h, ih]
  | rule h _ ih => simp only [readRules, readLine_of h, ih, Option.map_some]
  | more h _ ih => simp only [readRules, readLine_of h, Option.getD_some, ih, Option.map_some]
  | start h _ ih => simp only [readRules, readLine_of h, Option.getD_none, ih, Option.map_some]

/-- A text that was read by evaluation. -/
theorem new_of_readRules {text : Str} {r} (h : readRules none (split '\n' text) = some r) : ∃ g, new text = some g ∧ Rep g r := by
  rcases new_spec text with ⟨⟨l, hl, hb⟩, _⟩ | ⟨g, r', e, h1, h2⟩
  · exfalso
    have : ∀ (ls : List Str) cur, l ∈ ls → readRules cur ls = none := by
      intro ls
      induction ls with
      | nil => intro _ h; cases h
      | cons x ls ih =>
        intro cur h
        rcases List.mem_cons.1 h with rfl | h
        · simp only [readRules, readLine_bad hb]
        · simp only [readRules]
          split
          · rfl
          · exact ih _ h
          · rw [ih _ h]; rfl
          · rw [ih _ h]; rfl
    rw [this _ none hl] at h
    cases h
  · rw [readRules_of h1] at h
    cases h
    exact ⟨g, e, h2⟩

end Verif.Grammar
