import Verif.Proofs.Lexeme
import Verif.Proofs.GrammarRound
/-
C82: what is printed of a lexeme; C83: lists of lexemes.
-/
namespace Verif.Props.Lexeme
open Verif.Spec Verif.Lexeme
open Verif.TreeText (quote)

variable {isPrint : Char → Bool}

/-- A kind that can be told from what is printed after it. -/
def Plain (k : Str) : Prop := ∀ c ∈ k, c ≠ ':' ∧ c ≠ ' '

instance (k : Str) : Decidable (Plain k) := inferInstanceAs (Decidable (∀ c ∈ k, _))

theorem kindText_some (k : Str) : kindText (some k) = k := rfl

theorem pos_cut {i j i' j' : Int} {r r' : Str} (h : posText i j ++ r = posText i' j' ++ r') : i = i' ∧ j = j' ∧ r = r' := by
  have h : ' ' :: '(' :: (dec i ++ ',' :: ' ' :: (dec j ++ ')' :: r)) = ' ' :: '(' :: (dec i' ++ ',' :: ' ' :: (dec j' ++ ')' :: r')) := by
    simpa [posText] using h
  have hn : ∀ c ∈ [',', ')'], ¬ NumChar c := by
    intro c hc
    rintro (rfl | ⟨d, hd⟩)
    · simp at hc
    · revert hd
      simp only [List.mem_cons, List.not_mem_nil, or_false] at hc
      rcases hc with rfl | rfl
      · rw [show charNumerals.digit ',' = none by decide]; simp
      · rw [show charNumerals.digit ')' = none by decide]; simp
  simp only [List.cons.injEq, true_and] at h
  obtain ⟨h1, -, h2⟩ := dec_cut (hn ',' (by simp)) (hn ',' (by simp)) h
  simp only [List.cons.injEq, true_and] at h2
  obtain ⟨h3, -, h4⟩ := dec_cut (hn ')' (by simp)) (hn ')' (by simp)) h2
  exact ⟨h1, h3, h4⟩

/-- The end of what is printed. -/
theorem tail_cut {l l' : Lx} (h : (if l.line ≠ -1 then posText l.line l.col else []) ++ ['}'] = (if l'.line ≠ -1 then posText l'.line l'.col else []) ++ ['}']) :
    l.line = l'.line ∧ (l.line ≠ -1 → l.col = l'.col) := by
  by_cases h1 : l.line = -1
  · by_cases h2 : l'.line = -1
    · exact ⟨by rw [h1, h2], fun h => absurd h1 h⟩
    · simp [h1, h2, posText] at h
  · by_cases h2 : l'.line = -1
    · simp [h1, h2, posText] at h
    · simp only [ne_eq, h1, h2, not_false_eq_true, if_true] at h
      obtain ⟨e1, e2, -⟩ := pos_cut h
      exact ⟨e1, fun _ => e2⟩

/-- C82, the part that holds: for kinds without colons and blanks, what String returns tells kind, value, line and, if the line is
not -1, the column. Missing: other kinds, and columns of lexemes whose line is -1. -/
theorem C82_string_partial {l l' : Lx} {k k' : Str} (hk : l.kind = some k) (hk' : l'.kind = some k') (hp : Plain k) (hp' : Plain k')
    (h : string isPrint l = string isPrint l') : k = k' ∧ l.val = l'.val ∧ l.line = l'.line ∧ (l.line ≠ -1 → l.col = l'.col) := by
  -- what follows the kind, with the brace counted to the kind if nothing else follows
  have split : ∀ {l : Lx} {k : Str}, l.kind = some k → Plain k → ∃ a s, string isPrint l = "Lexeme{".toList ++ (a ++ s) ∧ (∀ c ∈ a, c ≠ ':' ∧ c ≠ ' ') ∧
      (∀ c ∈ s.head?, ¬ (c ≠ ':' ∧ c ≠ ' ')) ∧
      (l.val = [] ∧ l.line = -1 ∧ a = k ++ ['}'] ∧ s = [] ∨
       l.val = [] ∧ l.line ≠ -1 ∧ a = k ∧ s = posText l.line l.col ++ ['}'] ∨
       l.val ≠ [] ∧ a = k ∧ s = ':' :: (quote isPrint l.val ++ ((if l.line ≠ -1 then posText l.line l.col else []) ++ ['}']))) := by
    intro l k hk hp
    by_cases hv : l.val = []
    · by_cases hl : l.line = -1
      · have e : string isPrint l = "Lexeme{".toList ++ (k ++ ['}'] ++ []) := by
          have e1 : (if l.line ≠ -1 then posText l.line l.col else []) = [] := if_neg fun h => h hl
          unfold string
          rw [e1]
          simp only [hv, hk, kindText_some, if_true, List.append_assoc, List.append_nil, List.nil_append]
          congr 1
        refine ⟨k ++ ['}'], [], e, ?_, by simp, .inl ⟨hv, hl, rfl, rfl⟩⟩
        intro c hc
        rcases List.mem_append.1 hc with hc | hc
        · exact hp c hc
        · cases List.mem_singleton.1 hc; decide
      · exact ⟨k, posText l.line l.col ++ ['}'], by simp only [string, hk, kindText_some, hv, hl, ne_eq, not_false_eq_true, if_true, List.append_assoc]; rfl, hp, by simp [posText], .inr (.inl ⟨hv, hl, rfl, rfl⟩)⟩
    · exact ⟨k, _, by simp only [string, hk, kindText_some, hv, if_false, List.append_assoc]; rfl, hp, by simp, .inr (.inr ⟨hv, rfl, rfl⟩)⟩
  obtain ⟨a, s, e1, e2, e3, e4⟩ := split hk hp
  obtain ⟨a', s', f1, f2, f3, f4⟩ := split hk' hp'
  rw [e1, f1] at h
  obtain ⟨rfl, rfl⟩ := cut (P := fun c => c ≠ ':' ∧ c ≠ ' ') e2 f2 e3 f3 (List.append_cancel_left h)
  have hpos : ∀ i j, posText i j ++ ['}'] = ' ' :: '(' :: (dec i ++ (", ".toList ++ (dec j ++ ([')'] ++ ['}'])))) := by
    intro i j
    simp [posText]
  rcases e4 with ⟨v1, l1, a1, s1⟩ | ⟨v1, l1, a1, s1⟩ | ⟨v1, a1, s1⟩ <;> rcases f4 with ⟨v2, l2, a2, s2⟩ | ⟨v2, l2, a2, s2⟩ | ⟨v2, a2, s2⟩
  · rw [a1] at a2
    exact ⟨List.append_cancel_right a2, by rw [v1, v2], by rw [l1, l2], fun h => absurd l1 h⟩
  · rw [s1, hpos] at s2; cases s2
  · rw [s1] at s2; cases s2
  · rw [s2, hpos] at s1; cases s1
  · rw [s1] at s2
    obtain ⟨p1, p2, -⟩ := pos_cut s2
    exact ⟨a1.symm.trans a2, by rw [v1, v2], p1, fun _ => p2⟩
  · rw [s1, hpos] at s2
    cases s2
  · rw [s2] at s1; cases s1
  · rw [s2, hpos] at s1
    cases s1
  · rw [s1] at s2
    obtain ⟨q1, q2⟩ := quote_inj isPrint (List.cons.inj s2).2
    obtain ⟨p1, p2⟩ := tail_cut q2
    exact ⟨a1.symm.trans a2, q1, p1, p2⟩

/-- A case of C82, by evaluation: what is printed. -/
example : string (fun c => c.toNat ≥ 32) ⟨some "int".toList, "1\"2\n".toList, 3, -4⟩ = "Lexeme{int:\"1\\\"2\\n\" (3, -4)}".toList := by decide +kernel

/-- C82 is false: a kind may look like a kind with a value or with a position. -/
theorem C82_kind_refuted : ¬ ∀ l l' : Lx, l.line = -1 → l'.line = -1 → string (fun _ => true) l = string (fun _ => true) l' → l.kind = l'.kind := by
  intro h
  have := h ⟨some "a:\"b\"".toList, [], -1, 0⟩ ⟨some "a".toList, "b".toList, -1, 0⟩ rfl rfl (by decide +kernel)
  revert this
  decide

/-- C82 is false: the column is not shown when the line is -1. -/
theorem C82_column_refuted : ¬ ∀ l l' : Lx, (∀ k, l.kind = some k → Plain k) → (∀ k, l'.kind = some k → Plain k) →
    string (fun _ => true) l = string (fun _ => true) l' → l = l' := by
  intro h
  have := h ⟨some "a".toList, [], -1, 0⟩ ⟨some "a".toList, [], -1, 1⟩ (by rintro k hk; cases hk; decide) (by rintro k hk; cases hk; decide) (by decide +kernel)
  revert this
  decide

/-! ### Lists -/

/-- One line of LexemeList. -/
def Line (isPrint : Char → Bool) (k : Str) (l : Lx) : Str :=
  k ++ ": ".toList ++ quote isPrint l.val ++ if l.line > 0 ∨ l.col > 0 then posText l.line l.col else []

/-- The lines of a list of lexemes. -/
inductive Lines (isPrint : Char → Bool) : List Lx → List Str → Prop
  | nil : Lines isPrint [] []
  | cons {l ls k ss} : l.kind = some k → Lines isPrint ls ss → Lines isPrint (l :: ls) (Line isPrint k l :: ss)

theorem texts_lines {f : Str → Lx → Str} (hf : ∀ k l, f k l = Line isPrint k l) : ∀ {ls : List Lx}, (∀ l ∈ ls, l.kind ≠ none) → ∃ ss, texts f ls = .ok ss ∧ Lines isPrint ls ss
  | [], _ => ⟨[], rfl, .nil⟩
  | l :: ls, h => by
    obtain ⟨ss, e1, e2⟩ := texts_lines (ls := ls) hf fun l hl => h l (by simp [hl])
    cases hk : l.kind with
    | none => exact absurd hk (h l (by simp))
    | some k => exact ⟨Line isPrint k l :: ss, by simp [texts, kindOf, hk, e1, Out.bind, hf], .cons hk e2⟩

theorem texts_nil {f : Str → Lx → Str} : ∀ {ls : List Lx}, (∃ l ∈ ls, l.kind = none) → texts f ls = .panic
  | [], h => by obtain ⟨l, hl, _⟩ := h; cases hl
  | l :: ls, h => by
    cases hk : l.kind with
    | none => simp [texts, kindOf, hk, Out.bind]
    | some k =>
      obtain ⟨l', hl', e⟩ := h
      rcases List.mem_cons.1 hl' with rfl | hl'
      · rw [hk] at e; cases e
      · simp [texts, kindOf, hk, Out.bind, texts_nil ⟨l', hl', e⟩]

theorem line_eq (k : Str) (l : Lx) : (if l.line > 0 ∨ l.col > 0 then k ++ ": ".toList ++ quote isPrint l.val ++ posText l.line l.col
      else k ++ ": ".toList ++ quote isPrint l.val) = Line isPrint k l := by
  unfold Line
  split <;> simp

theorem dec_nl (i : Int) : '\n' ∉ dec i := fun h => by
  rcases dec_chars i _ h with e | ⟨d, hd⟩
  · cases e
  · revert hd
    rw [show charNumerals.digit '\n' = none by decide]; simp

theorem line_nl (hnl : isPrint '\n' = false) {k : Str} (hk : '\n' ∉ k) (l : Lx) : '\n' ∉ Line isPrint k l := by
  intro h
  simp only [Line, List.mem_append] at h
  rcases h with ((h | h) | h) | h
  · exact hk h
  · revert h; decide
  · exact quote_line hnl _ h
  · split at h
    · simp only [posText, List.mem_append] at h
      rcases h with (((h | h) | h) | h) | h
      · revert h; decide
      · exact dec_nl _ h
      · revert h; decide
      · exact dec_nl _ h
      · revert h; decide
    · cases h

theorem lines_mem {ls : List Lx} {ss : List Str} (h : Lines isPrint ls ss) : ∀ s ∈ ss, ∃ l ∈ ls, ∃ k, l.kind = some k ∧ s = Line isPrint k l := by
  induction h with
  | nil => intro s hs; cases hs
  | @cons l ls k ss hk _ ih =>
    intro s hs
    rcases List.mem_cons.1 hs with rfl | hs
    · exact ⟨l, by simp, k, hk, rfl⟩
    · obtain ⟨l', h1, h2⟩ := ih s hs
      exact ⟨l', by simp [h1], h2⟩

theorem list_eq {ls : List Lx} (hne : ls ≠ []) (hk : ∀ l ∈ ls, l.kind ≠ none) :
    ∃ ss, ss ≠ [] ∧ lexemeList isPrint ls = .ok (Grammar.join "\n".toList ss) ∧ Lines isPrint ls ss := by
  obtain ⟨ss, e1, e2⟩ := texts_lines (isPrint := isPrint) (f := fun k l => if l.line > 0 ∨ l.col > 0 then k ++ ": ".toList ++ quote isPrint l.val ++ posText l.line l.col
      else k ++ ": ".toList ++ quote isPrint l.val) line_eq hk
  refine ⟨ss, ?_, ?_, e2⟩
  · rintro rfl
    cases e2
    exact hne rfl
  · rw [lexemeList, if_neg (by simpa using hne), e1]
    rfl

/-- C83, the part that holds: LexemeList gives one line for each lexeme, with kind, value quoted, and the position if a part of it is
positive, if the kinds are not nil and have no line ends. -/
theorem C83_lines_partial (hnl : isPrint '\n' = false) {ls : List Lx} (hne : ls ≠ []) (hk : ∀ l ∈ ls, ∃ k, l.kind = some k ∧ '\n' ∉ k) :
    ∃ s ss, lexemeList isPrint ls = .ok s ∧ Pieces '\n' s ss ∧ Lines isPrint ls ss := by
  obtain ⟨ss, h1, h2, h3⟩ := list_eq (isPrint := isPrint) hne fun l hl => by
    obtain ⟨k, e, _⟩ := hk l hl
    simp [e]
  refine ⟨_, ss, h2, Grammar.pieces_join ss h1 fun s hs => ?_, h3⟩
  obtain ⟨l, hl, k, e, rfl⟩ := lines_mem h3 s hs
  obtain ⟨k', e', hn⟩ := hk l hl
  rw [e] at e'
  cases e'
  exact line_nl hnl hn l

/-- What the lines tell of two lists of lexemes: the same number, kinds, values and positions as far as they are shown. -/
inductive Alike : List Lx → List Lx → Prop
  | nil : Alike [] []
  | cons {l l' ls ls'} : l.kind = l'.kind → l.val = l'.val → (l.line > 0 ∨ l.col > 0 ↔ l'.line > 0 ∨ l'.col > 0) →
      (l.line > 0 ∨ l.col > 0 → l.line = l'.line ∧ l.col = l'.col) → Alike ls ls' → Alike (l :: ls) (l' :: ls')

theorem line_inj {k k' : Str} {l l' : Lx} (hk : ':' ∉ k) (hk' : ':' ∉ k') (h : Line isPrint k l = Line isPrint k' l') :
    k = k' ∧ l.val = l'.val ∧ (l.line > 0 ∨ l.col > 0 ↔ l'.line > 0 ∨ l'.col > 0) ∧ (l.line > 0 ∨ l.col > 0 → l.line = l'.line ∧ l.col = l'.col) := by
  have h : k ++ ':' :: (' ' :: (quote isPrint l.val ++ if l.line > 0 ∨ l.col > 0 then posText l.line l.col else [])) =
      k' ++ ':' :: (' ' :: (quote isPrint l'.val ++ if l'.line > 0 ∨ l'.col > 0 then posText l'.line l'.col else [])) := by
    simpa [Line] using h
  obtain ⟨e1, e2⟩ := cut (P := fun c => c ≠ ':') (fun c hc e => hk (e ▸ hc)) (fun c hc e => hk' (e ▸ hc)) (by simp) (by simp) h
  simp only [List.cons.injEq, true_and] at e2
  obtain ⟨e3, e4⟩ := quote_inj isPrint e2
  refine ⟨e1, e3, ?_⟩
  by_cases h1 : l.line > 0 ∨ l.col > 0
  · by_cases h2 : l'.line > 0 ∨ l'.col > 0
    · rw [if_pos h1, if_pos h2] at e4
      obtain ⟨p1, p2, -⟩ := pos_cut (i' := l'.line) (j' := l'.col) (r := []) (r' := []) (by rw [e4])
      exact ⟨⟨fun _ => h2, fun _ => h1⟩, fun _ => ⟨p1, p2⟩⟩
    · rw [if_pos h1, if_neg h2] at e4
      simp [posText] at e4
  · by_cases h2 : l'.line > 0 ∨ l'.col > 0
    · rw [if_neg h1, if_pos h2] at e4
      simp [posText] at e4
    · exact ⟨⟨fun h => absurd h h1, fun h => absurd h h2⟩, fun h => absurd h h1⟩

theorem lines_alike {ls : List Lx} {ss : List Str} (h : Lines isPrint ls ss) : ∀ {ls'}, Lines isPrint ls' ss → (∀ l ∈ ls, ∀ k, l.kind = some k → ':' ∉ k) →
    (∀ l ∈ ls', ∀ k, l.kind = some k → ':' ∉ k) → Alike ls ls' := by
  induction h with
  | nil => intro ls' h' _ _; cases h'; exact .nil
  | @cons l ls k ss hk _ ih =>
    intro ls' h' hc hc'
    generalize hz : Line isPrint k l = z at h'
    cases h' with
    | @cons l' ls' k' _ hk' h' =>
      obtain ⟨e1, e2, e3, e4⟩ := line_inj (hc l (by simp) k hk) (hc' l' (by simp) k' hk') hz
      exact .cons (by rw [hk, hk', e1]) e2 e3 e4 (ih h' (fun l hl => hc l (by simp [hl])) (fun l hl => hc' l (by simp [hl])))

/-- C83: what LexemeList returns tells how many lexemes there are, their kinds and values, and positions as far as they are shown; for kinds without
line ends and colons. -/
theorem C83_tells_partial (hnl : isPrint '\n' = false) {ls ls' : List Lx} (hk : ∀ l ∈ ls, ∃ k, l.kind = some k ∧ '\n' ∉ k ∧ ':' ∉ k)
    (hk' : ∀ l ∈ ls', ∃ k, l.kind = some k ∧ '\n' ∉ k ∧ ':' ∉ k) (h : lexemeList isPrint ls = lexemeList isPrint ls') : Alike ls ls' := by
  have hcol : ∀ {ls : List Lx}, (∀ l ∈ ls, ∃ k, l.kind = some k ∧ '\n' ∉ k ∧ ':' ∉ k) → ∀ l ∈ ls, ∀ k, l.kind = some k → ':' ∉ k := by
    intro ls hk l hl k e
    obtain ⟨k', e', _, h⟩ := hk l hl
    rw [e] at e'
    cases e'
    exact h
  have hlen : ∀ {ls : List Lx} (hne : ls ≠ []), (∀ l ∈ ls, ∃ k, l.kind = some k ∧ '\n' ∉ k ∧ ':' ∉ k) → lexemeList isPrint ls ≠ .ok [] := by
    intro ls hne hk e
    obtain ⟨s, ss, h1, h2, h3⟩ := C83_lines_partial hnl hne fun l hl => by
      obtain ⟨k, a, b, _⟩ := hk l hl
      exact ⟨k, a, b⟩
    rw [e] at h1
    cases h1
    have := Grammar.pieces_unique h2
    rw [this] at h3
    have : Grammar.split '\n' [] = [[]] := rfl
    rw [this] at h3
    generalize hz : ([] : Str) = z at h3
    cases h3 with
    | cons _ _ => simp [Line] at hz
  by_cases hne : ls = []
  · by_cases hne' : ls' = []
    · subst hne hne'
      exact .nil
    · subst hne
      exact absurd h.symm (hlen hne' hk')
  · by_cases hne' : ls' = []
    · subst hne'
      exact absurd h (hlen hne hk)
    · obtain ⟨s, ss, h1, h2, h3⟩ := C83_lines_partial hnl hne fun l hl => by
        obtain ⟨k, a, b, _⟩ := hk l hl
        exact ⟨k, a, b⟩
      obtain ⟨s', ss', e1, e2, e3⟩ := C83_lines_partial hnl hne' fun l hl => by
        obtain ⟨k, a, b, _⟩ := hk' l hl
        exact ⟨k, a, b⟩
      rw [h1, e1] at h
      cases h
      have := (Grammar.pieces_unique h2).trans (Grammar.pieces_unique e2).symm
      subst this
      exact lines_alike h3 e3 (hcol hk) (hcol hk')

/-- C83, by evaluation: two lexemes, the second without a position. -/
example : lexemeList (fun c => c.toNat ≥ 32) [⟨some "int".toList, "1\n".toList, 1, 1⟩, ⟨some "E".toList, [], -1, 0⟩] = .ok "int: \"1\\n\" (1, 1)\nE: \"\"".toList := by decide +kernel

/-- C83 is false: a kind may have line ends and colons. -/
theorem C83_kind_refuted : ¬ ∀ ls ls' : List Lx, (∀ l ∈ ls, l.kind ≠ none) → (∀ l ∈ ls', l.kind ≠ none) →
    lexemeList (fun c => c.toNat ≥ 32) ls = lexemeList (fun c => c.toNat ≥ 32) ls' → ls.length = ls'.length := by
  intro h
  have := h [⟨some "a".toList, [], -1, 0⟩, ⟨some "b".toList, [], -1, 0⟩] [⟨some "a: \"\"\nb".toList, [], -1, 0⟩] (by decide) (by decide) (by decide +kernel)
  revert this
  decide

/-- C83 is false: on the first line as the simple lexers count, the error lexemes and those of inner nodes have no position shown, and neither has a
lexeme at line 0 and column 0. -/
theorem C83_position_refuted : ¬ ∀ l l' : Lx, l.kind ≠ none → lexemeList (fun c => c.toNat ≥ 32) [l] = lexemeList (fun c => c.toNat ≥ 32) [l'] → l = l' := by
  intro h
  have := h ⟨some "a".toList, [], -1, 0⟩ ⟨some "a".toList, [], 0, 0⟩ (by decide) (by decide +kernel)
  revert this
  decide

/-- A nil kind makes both printing functions panic, while String prints it. -/
theorem C83_nil {ls : List Lx} (h : ∃ l ∈ ls, l.kind = none) : lexemeList isPrint ls = .panic ∧ lexemeString ls = .panic := by
  have hne : ¬ ls.length = 0 := by
    obtain ⟨l, hl, _⟩ := h
    intro e
    rw [List.length_eq_zero_iff.1 e] at hl
    cases hl
  rw [lexemeList, lexemeString, if_neg hne, if_neg hne, texts_nil h, texts_nil h]
  exact ⟨rfl, rfl⟩

example : lexemeString [⟨some "int".toList, "1".toList, 1, 1⟩, ⟨none, "x".toList, 1, 2⟩] = .panic :=
  (C83_nil (isPrint := fun _ => true) ⟨⟨none, "x".toList, 1, 2⟩, by simp, rfl⟩).2

/-- What LexemeString returns does not tell how many lexemes there are. -/
theorem C83_string_refuted : ¬ ∀ ls ls' : List Lx, (∀ l ∈ ls, ∀ k, l.kind = some k → Plain k) → (∀ l ∈ ls', ∀ k, l.kind = some k → Plain k) →
    lexemeString ls = lexemeString ls' → ls.length = ls'.length := by
  intro h
  have := h [⟨some "a".toList, "x".toList, -1, 0⟩, ⟨some "b".toList, [], -1, 0⟩, ⟨some "c".toList, [], -1, 0⟩] [⟨some "a".toList, "x, b".toList, -1, 0⟩, ⟨some "c".toList, [], -1, 0⟩]
    (by
      intro l hl k hk
      simp only [List.mem_cons, List.not_mem_nil, or_false] at hl
      rcases hl with rfl | rfl | rfl <;> cases hk <;> decide)
    (by
      intro l hl k hk
      simp only [List.mem_cons, List.not_mem_nil, or_false] at hl
      rcases hl with rfl | rfl <;> cases hk <;> decide) (by decide +kernel)
  revert this
  decide

end Verif.Props.Lexeme
