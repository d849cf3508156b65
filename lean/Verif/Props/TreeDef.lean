import Verif.Model.TreeRex
import Verif.Proofs.TreeLine
import Verif.Proofs.TreeDef
import Verif.Proofs.Lit
/-
C80: texts of trees are read as written. Also C59, exactly when reading a text panics.
-/
namespace Verif.Props.TreeDef
open Verif Verif.Spec Verif.Spec.TreeDef Verif.TreeText Verif.TreeDef

/-! ### The expression -/

set_option maxRecDepth 100000 in
theorem compiled : Regexp.compile TreeRex.reText = some TreeLine.rTree := by
  unfold TreeRex.reText
  simp only [litToList]
  decide +kernel

theorem loop_eq : ∀ (ls : List Str) (cur : Cur), TreeRex.newLoop TreeLine.rTree cur ls = newLoop cur ls
  | [], cur => rfl
  | l :: ls, cur => by
    rw [TreeRex.newLoop, newLoop]
    obtain ⟨m, h1, h2⟩ := TreeLine.treeLine_find l
    rw [h1, h2]
    simp only
    split
    · rfl
    · simp only [TreeLine.caps, decide_eq_true_eq, loop_eq ls]
      rfl

/-- `New` with the expression compiled is `New` with the matcher of Model/TreeText, so that what is proved
of the latter (C33, C59) holds of the expression in the source. -/
theorem C80_expression (text : Str) : TreeRex.new text = TreeText.new text := by
  unfold TreeRex.new TreeText.new
  rw [compiled]
  simp only [loop_eq]
  rfl

/-! ### What tokens do -/

/-- One token. -/
def step : Tok → Cur → Out Cur
  | .close, cur => up cur
  | .leaf k v, none => .panic
  | .leaf k v, some (ks, ups) => .ok (some (ks ++ [.node ⟨k, v, -1, 0⟩ []], ups))
  | .start k v, none => .panic
  | .start k v, some (ks, ups) => .ok (some ([], (⟨k, v, -1, 0⟩, ks) :: ups))

/-- Tokens. -/
def run : List Tok → Cur → Out Cur
  | [], cur => .ok cur
  | t :: ts, cur => (step t cur).bind (run ts)

theorem run_append : ∀ (a b : List Tok) (cur : Cur), run (a ++ b) cur = (run a cur).bind (run b)
  | [], b, cur => rfl
  | t :: a, b, cur => by
    show (step t cur).bind (run (a ++ b)) = ((step t cur).bind (run a)).bind (run b)
    cases step t cur with
    | ok c => exact run_append a b c
    | panic => rfl
    | fuel => rfl

theorem step_line {l : Str} {q : Bool × Str × Str × Bool} (h : treeLine l = some q) (ls : List Str) (cur : Cur) :
    newLoop cur (l :: ls) = (run (says q) cur).bind fun cur => newLoop cur ls := by
  obtain ⟨c, k, v, o⟩ := q
  rw [newLoop, h]
  simp only [says]
  rw [run_append]
  have e1 : (if c = true then up cur else Out.ok cur) = run (closing c) cur := by
    cases c with
    | false => rfl
    | true =>
      show up cur = (up cur).bind .ok
      cases up cur <;> rfl
  rw [e1]
  cases run (closing c) cur with
  | panic => rfl
  | fuel => rfl
  | ok cur =>
    show ((if k ≠ [] then addNode k v o cur else Out.ok cur).bind fun cur => newLoop cur ls) = _
    by_cases hk : k = []
    · rw [if_neg (by simp [hk]), if_neg (by simp [hk])]
      rfl
    · rw [if_pos hk, if_pos hk]
      cases o <;> cases cur <;> rfl

theorem loop_lines {ls : List Str} {ts : List Tok} (h : Lines ls ts) : ∀ (cur : Cur) (rest : List Str),
    newLoop cur (ls ++ rest) = (run ts cur).bind fun cur => newLoop cur rest := by
  induction h with
  | nil => intro cur rest; rfl
  | @cons l ls t ts hl _ ih =>
    intro cur rest
    obtain ⟨q, h1, rfl⟩ := line_iff.mp hl
    rw [List.cons_append, step_line h1, run_append]
    cases run (says q) cur with
    | ok c => exact ih c rest
    | panic => rfl
    | fuel => rfl

/-- All lines can be read, or there is a first one that cannot. -/
theorem lines_or (ls : List Str) : (∃ ts, Lines ls ts) ∨ ∃ pre bad post ts, ls = pre ++ bad :: post ∧ Lines pre ts ∧ ∀ t, ¬ Line bad t := by
  induction ls with
  | nil => exact .inl ⟨_, .nil⟩
  | cons l ls ih =>
    cases h : treeLine l with
    | none =>
      refine .inr ⟨[], l, ls, [], rfl, .nil, fun t ht => ?_⟩
      obtain ⟨q, hq, _⟩ := line_iff.mp ht
      rw [h] at hq
      cases hq
    | some q =>
      have hl : Line l (says q) := line_iff.mpr ⟨q, h, rfl⟩
      rcases ih with ⟨ts, hts⟩ | ⟨pre, bad, post, ts, e, h1, h2⟩
      · exact .inl ⟨_, .cons hl hts⟩
      · exact .inr ⟨l :: pre, bad, post, _, by rw [e]; rfl, .cons hl h1, h2⟩

theorem line_bad {l : Str} (h : ∀ t, ¬ Line l t) : treeLine l = none := by
  cases e : treeLine l with
  | none => rfl
  | some q => exact absurd (line_iff.mpr ⟨q, e, rfl⟩) (h _)

theorem lines_unique {ls : List Str} {ts us : List Tok} (h : Lines ls ts) (h' : Lines ls us) : ts = us := by
  induction h generalizing us with
  | nil => cases h'; rfl
  | cons hl _ ih =>
    cases h' with
    | cons hl' h' =>
      rw [ih h']
      obtain ⟨q, h1, rfl⟩ := line_iff.mp hl
      obtain ⟨q', h1', rfl⟩ := line_iff.mp hl'
      rw [h1] at h1'
      cases h1'
      rfl

theorem lines_bad_unique {pre pre' post post' : List Str} {bad bad' : Str} {ts ts' : List Tok} (e : pre ++ bad :: post = pre' ++ bad' :: post')
    (h : Lines pre ts) (hb : ∀ t, ¬ Line bad t) (h' : Lines pre' ts') (hb' : ∀ t, ¬ Line bad' t) : ts = ts' := by
  induction h generalizing pre' ts' with
  | nil =>
    cases h' with
    | nil => rfl
    | cons hl _ =>
      cases e
      exact absurd hl (hb _)
  | cons hl hs ih =>
    cases h' with
    | nil =>
      cases e
      exact absurd hl (hb' _)
    | cons hl' hs' =>
      injection e with e1 e2
      subst e1
      obtain ⟨q, h1, rfl⟩ := line_iff.mp hl
      obtain ⟨q', h1', rfl⟩ := line_iff.mp hl'
      rw [h1] at h1'
      cases h1'
      rw [ih e2 hs']

theorem lines_all_bad {pre post : List Str} {bad : Str} {ts : List Tok} (h : Lines (pre ++ bad :: post) ts) (hb : ∀ t, ¬ Line bad t) : False := by
  induction pre generalizing ts with
  | nil =>
    cases h with
    | cons hl _ => exact hb _ hl
  | cons l pre ih =>
    cases h with
    | cons _ h => exact ih h

/-! ### Forests -/

theorem nodesOf_append : ∀ (a b : List Tree), nodesOf (a ++ b) = nodesOf a ++ nodesOf b
  | [], b => rfl
  | t :: a, b => by
    rw [List.cons_append, nodesOf, nodesOf, nodesOf_append a b]
    rfl

theorem run_forest {ts : List Tok} {f : List Tree} (h : Forest ts f) : ∀ ks ups, run ts (some (ks, ups)) = .ok (some (ks ++ nodesOf f, ups)) := by
  induction h with
  | nil =>
    intro ks ups
    rw [nodesOf, List.append_nil]
    rfl
  | leaf _ ih =>
    intro ks ups
    rw [run, step, Out.bind_ok, ih, nodesOf, Tree.nodes, nodesOf]
    simp
  | tree _ _ ih1 ih2 =>
    intro ks ups
    rw [List.cons_append, run, step, Out.bind_ok, run_append, ih1, Out.bind_ok, run, step, up, Out.bind_ok, ih2, nodesOf, Tree.nodes]
    simp

theorem run_open {ts : List Tok} {n : Nat} {f : List Tree} (h : Open ts n f) : ∀ ks ups, ∃ ups' : List (Lexeme Str Str × List (PN Str Str)), ups'.length = ups.length + n ∧
    run ts (some (ks, ups)) = .ok (some ((if n = 0 then ks else []) ++ nodesOf f, ups')) := by
  induction h with
  | none h => exact fun ks ups => ⟨ups, rfl, run_forest h ks ups⟩
  | @some ts us k v n f g h _ ih =>
    intro ks ups
    obtain ⟨ups', h1, h2⟩ := ih [] ((⟨k, v, -1, 0⟩, ks ++ nodesOf f) :: ups)
    refine ⟨ups', by rw [h1, List.length_cons]; omega, ?_⟩
    rw [run_append, run_forest h, Out.bind_ok, run, step, Out.bind_ok, h2, if_neg (Nat.succ_ne_zero n)]
    simp

theorem forest_append {ts us : List Tok} {f g : List Tree} (h : Forest ts f) (h' : Forest us g) : Forest (ts ++ us) (f ++ g) := by
  induction h with
  | nil => exact h'
  | leaf _ ih => exact .leaf ih
  | @tree k v ts us f g h1 _ _ ih =>
    have := Forest.tree (k := k) (v := v) h1 ih
    simpa using this

theorem open_leaf {ts : List Tok} {n : Nat} {f : List Tree} (h : Open ts n f) (k v : Str) : ∃ f', Open (ts ++ [.leaf k v]) n f' := by
  induction h with
  | none h => exact ⟨_, .none (forest_append h (.leaf .nil))⟩
  | some h _ ih =>
    obtain ⟨f', ih⟩ := ih
    refine ⟨f', ?_⟩
    rw [List.append_assoc]
    exact .some h ih

theorem open_start {ts : List Tok} {n : Nat} {f : List Tree} (h : Open ts n f) (k v : Str) : ∃ f', Open (ts ++ [.start k v]) (n + 1) f' := by
  induction h with
  | none h => exact ⟨_, .some h (.none .nil)⟩
  | some h _ ih =>
    obtain ⟨f', ih⟩ := ih
    refine ⟨f', ?_⟩
    rw [List.append_assoc]
    exact .some h ih

theorem open_close {ts : List Tok} {m : Nat} {f : List Tree} (h : Open ts m f) : ∀ n, m = n + 1 → ∃ f', Open (ts ++ [.close]) n f' := by
  induction h with
  | none h => intro n e; cases e
  | @some ts us k v n f g h h' ih =>
    intro n' e
    injection e with e
    subst e
    cases h' with
    | none h' =>
      refine ⟨f ++ [.node k v g], .none ?_⟩
      have := forest_append h (Forest.tree (k := k) (v := v) h' .nil)
      simpa using this
    | some =>
      obtain ⟨f', h2⟩ := ih _ rfl
      refine ⟨f', ?_⟩
      rw [List.append_assoc]
      exact .some h h2

/-- Induction from the end of a list. -/
theorem snoc {α : Type} {P : List α → Prop} (nil : P []) (snoc : ∀ l x, P l → P (l ++ [x])) (l : List α) : P l := by
  have : ∀ r : List α, P r.reverse := by
    intro r
    induction r with
    | nil => exact nil
    | cons x r ih =>
      rw [List.reverse_cons]
      exact snoc _ _ ih
  rw [← List.reverse_reverse l]
  exact this _

theorem opens_append (a b : List Tok) : opens (a ++ b) = opens a + opens b := by simp [opens]
theorem closes_append (a b : List Tok) : closes (a ++ b) = closes a + closes b := by simp [closes]

theorem run_none : ∀ (ts : List Tok), ts ≠ [] → run ts none = .panic
  | t :: ts, _ => by cases t <;> rfl

/-- Every list of tokens: fine all along, or it closes once too often at the end, or it goes on after that. -/
theorem tokens_cases (ts : List Tok) : (∃ n f, opens ts = closes ts + n ∧ Open ts n f) ∨
    (∃ p q f, ts = p ++ .close :: q ∧ opens p = closes p ∧ Open p 0 f) := by
  induction ts using snoc with
  | nil => exact .inl ⟨0, [], rfl, .none .nil⟩
  | snoc ts t ih =>
    rcases ih with ⟨n, f, e, h⟩ | ⟨p, q, f, e, h1, h2⟩
    · cases t with
      | leaf k v =>
        obtain ⟨f', h'⟩ := open_leaf h k v
        exact .inl ⟨n, f', by rw [opens_append, closes_append]; simp [opens, closes] at *; omega, h'⟩
      | start k v =>
        obtain ⟨f', h'⟩ := open_start h k v
        exact .inl ⟨n + 1, f', by rw [opens_append, closes_append]; simp [opens, closes] at *; omega, h'⟩
      | close =>
        cases n with
        | zero => exact .inr ⟨ts, [], f, rfl, by omega, h⟩
        | succ n =>
          obtain ⟨f', h'⟩ := open_close h n rfl
          exact .inl ⟨n, f', by rw [opens_append, closes_append]; simp [opens, closes] at *; omega, h'⟩
    · exact .inr ⟨p, q ++ [t], f, by rw [e]; simp, h1, h2⟩

theorem run_close {p q : List Tok} {f : List Tree} (h : Open p 0 f) : run (p ++ .close :: q) (some ([], [])) = if q = [] then .ok none else .panic := by
  obtain ⟨ups, h1, h2⟩ := run_open h [] []
  have : ups = [] := List.eq_nil_of_length_eq_zero h1
  subst this
  rw [run_append, h2, Out.bind_ok]
  show run q none = _
  split
  · rename_i e
    subst e
    rfl
  · rename_i e
    exact run_none q e

theorem open_fine {ts : List Tok} {n : Nat} {f : List Tree} (h : Open ts n f) : ∀ p q, ts = p ++ q → closes p ≤ opens p := by
  have hf : ∀ {ts f}, Forest ts f → opens ts = closes ts ∧ ∀ p q, ts = p ++ q → closes p ≤ opens p := by
    intro ts f h
    induction h with
    | nil =>
      refine ⟨rfl, fun p q e => ?_⟩
      have := (List.append_eq_nil_iff.mp e.symm).1
      subst this
      exact Nat.le_refl _
    | @leaf k v ts f _ ih =>
      refine ⟨by simpa [opens, closes] using ih.1, fun p q e => ?_⟩
      cases p with
      | nil => exact Nat.le_refl _
      | cons x p =>
        injection e with e1 e2
        subst e1
        simpa [opens, closes] using ih.2 p q e2
    | @tree k v ts us f g _ _ ih1 ih2 =>
      refine ⟨?_, fun p q e => ?_⟩
      · rw [opens_append, closes_append]
        have := ih1.1
        have := ih2.1
        simp [opens, closes] at *
        omega
      · cases p with
        | nil => exact Nat.le_refl _
        | cons x p =>
          injection e with e1 e2
          subst e1
          have e2 : ts ++ (Tok.close :: us) = p ++ q := e2
          rcases List.append_eq_append_iff.mp e2 with ⟨r, e3, e4⟩ | ⟨r, e3, e4⟩
          · subst e3
            cases r with
            | nil =>
              have := ih1.1
              simp [opens, closes] at *
              omega
            | cons y r =>
              injection e4 with e5 e6
              subst e5
              have a := ih2.2 r q e6
              have b := ih1.1
              simp [opens, closes] at *
              omega
          · have := ih1.2 p r e3
            simp [opens, closes] at *
            omega
  induction h with
  | none h => exact (hf h).2
  | @some ts us k v n f g h _ ih =>
    intro p q e
    rcases List.append_eq_append_iff.mp e with ⟨r, e3, e4⟩ | ⟨r, e3, e4⟩
    · subst e3
      rw [opens_append, closes_append, (hf h).1]
      cases r with
      | nil => exact Nat.le_refl _
      | cons y r =>
        injection e4 with e5 e6
        subst e5
        have := ih r q e6
        simp [opens, closes] at *
        omega
    · exact (hf h).2 p r e3

theorem steady_iff {ts : List Tok} : Steady ts ↔ (∃ n f, Open ts n f) ∨ ∃ p f, ts = p ++ [.close] ∧ Open p 0 f := by
  constructor
  · intro hs
    rcases tokens_cases ts with ⟨n, f, _, h⟩ | ⟨p, q, f, e, h1, h2⟩
    · exact .inl ⟨n, f, h⟩
    · cases q with
      | nil => exact .inr ⟨p, f, e, h2⟩
      | cons x q =>
        have := hs (p ++ [.close]) x q (by rw [e]; simp)
        rw [opens_append, closes_append] at this
        simp [opens, closes] at *
        omega
  · rintro (⟨n, f, h⟩ | ⟨p, f, e, h⟩)
    · exact fun p x q e => open_fine h p (x :: q) e
    · intro a x q e'
      rw [e] at e'
      rcases List.append_eq_append_iff.mp e' with ⟨r, e3, e4⟩ | ⟨r, e3, e4⟩
      · cases r with
        | nil =>
          rw [List.append_nil] at e3
          subst e3
          exact open_fine h _ [] (by simp)
        | cons y r =>
          injection e4 with _ e5
          simp at e5
      · exact open_fine h a r e3

/-- The run of tokens from the beginning. -/
theorem run_steady {ts : List Tok} : Steady ts ↔ ∃ cur, run ts (some ([], [])) = .ok cur := by
  rw [steady_iff]
  constructor
  · rintro (⟨n, f, h⟩ | ⟨p, f, e, h⟩)
    · obtain ⟨ups, _, h2⟩ := run_open h [] []
      exact ⟨_, h2⟩
    · exact ⟨none, by rw [e, run_close h]; rfl⟩
  · rintro ⟨cur, h⟩
    rcases tokens_cases ts with ⟨n, f, _, h⟩ | ⟨p, q, f, e, h1, h2⟩
    · exact .inl ⟨n, f, h⟩
    · rw [e, run_close h2] at h
      split at h
      · rename_i hq
        exact .inr ⟨p, f, by rw [e, hq], h2⟩
      · cases h

/-! ### The claims -/

theorem new_lines {text : Str} {ls : List Str} (hl : Pieces '\n' text ls) : TreeRex.new text = (newLoop (some ([], [])) ls).bind fun r =>
    match r with
    | none => .ok none
    | some none => .panic
    | some (some ([], _)) => .panic
    | some (some (k :: _, _)) => .ok (some k) := by
  rw [C80_expression, Grammar.pieces_unique hl]
  rfl

theorem new_open {text : Str} {ls : List Str} {ts : List Tok} {n : Nat} {f : List Tree} (hl : Pieces '\n' text ls) (h : Lines ls ts) (ho : Open ts n f) :
    TreeRex.new text = match f with | [] => .panic | t :: _ => .ok (some t.nodes) := by
  obtain ⟨ups, _, h2⟩ := run_open ho [] []
  have := loop_lines h (some ([], [])) []
  rw [List.append_nil, h2] at this
  rw [new_lines hl, this]
  cases f with
  | nil => cases n <;> rfl
  | cons t f => cases n <;> rfl

theorem new_bad {text : Str} {pre post : List Str} {bad : Str} {ts : List Tok} (hl : Pieces '\n' text (pre ++ bad :: post)) (h : Lines pre ts)
    (hb : ∀ t, ¬ Line bad t) : TreeRex.new text = (run ts (some ([], []))).bind fun _ => .ok none := by
  rw [new_lines hl, loop_lines h]
  cases run ts (some ([], [])) with
  | panic => rfl
  | fuel => rfl
  | ok cur =>
    show (newLoop cur (bad :: post)).bind _ = _
    rw [newLoop, line_bad hb]
    rfl

theorem new_closed {text : Str} {ls : List Str} {p q : List Tok} {f : List Tree} (hl : Pieces '\n' text ls) (h : Lines ls (p ++ .close :: q)) (ho : Open p 0 f) :
    TreeRex.new text = .panic := by
  have := loop_lines h (some ([], [])) []
  rw [List.append_nil, run_close ho] at this
  rw [new_lines hl, this]
  split <;> rfl

theorem run_fuel : ∀ (ts : List Tok) (cur : Cur), run ts cur ≠ .fuel
  | [], cur, h => by cases h
  | t :: ts, cur, h => by
    have hs : step t cur ≠ .fuel := by
      cases t with
      | leaf k v => cases cur <;> exact fun h => by cases h
      | start k v => cases cur <;> exact fun h => by cases h
      | close =>
        cases cur with
        | none => exact fun h => by cases h
        | some c =>
          obtain ⟨ks, ups⟩ := c
          cases ups <;> exact fun h => by cases h
    rw [run] at h
    cases e : step t cur with
    | ok c =>
      rw [e] at h
      exact run_fuel ts c h
    | panic =>
      rw [e] at h
      cases h
    | fuel => exact hs e

/-- **C80**, what is returned: a tree is returned exactly if all lines can be read and never close what is
not open, and it is the first tree after the last brace that is not closed. -/
theorem C80_trees {text : Str} {ls : List Str} (hl : Pieces '\n' text ls) (x : PN Str Str) : TreeRex.new text = .ok (some x) ↔
    ∃ ts n t f, Lines ls ts ∧ Open ts n (t :: f) ∧ x = t.nodes := by
  constructor
  · intro h
    rcases lines_or ls with ⟨ts, hts⟩ | ⟨pre, bad, post, ts, e, h1, h2⟩
    · rcases tokens_cases ts with ⟨n, f, _, ho⟩ | ⟨p, q, f, e, _, ho⟩
      · rw [new_open hl hts ho] at h
        cases f with
        | nil => cases h
        | cons t f =>
          cases h
          exact ⟨ts, n, t, f, hts, ho, rfl⟩
      · subst e
        rw [new_closed hl hts ho] at h
        cases h
    · subst e
      rw [new_bad hl h1 h2] at h
      cases e : run ts (some ([], [])) with
      | ok c => rw [e] at h; cases h
      | panic => rw [e] at h; cases h
      | fuel => rw [e] at h; cases h
  · rintro ⟨ts, n, t, f, h1, h2, rfl⟩
    exact new_open hl h1 h2

/-- **C80**, errors: the error is returned exactly if some line cannot be read and nothing before it follows
a brace that closes nothing. -/
theorem C80_errors {text : Str} {ls : List Str} (hl : Pieces '\n' text ls) : TreeRex.new text = .ok none ↔
    ∃ pre bad post ts, ls = pre ++ bad :: post ∧ Lines pre ts ∧ (∀ t, ¬ Line bad t) ∧ Steady ts := by
  constructor
  · intro h
    rcases lines_or ls with ⟨ts, hts⟩ | ⟨pre, bad, post, ts, e, h1, h2⟩
    · rcases tokens_cases ts with ⟨n, f, _, ho⟩ | ⟨p, q, f, e, _, ho⟩
      · rw [new_open hl hts ho] at h
        cases f <;> cases h
      · subst e
        rw [new_closed hl hts ho] at h
        cases h
    · refine ⟨pre, bad, post, ts, e, h1, h2, run_steady.mpr ?_⟩
      subst e
      rw [new_bad hl h1 h2] at h
      cases e : run ts (some ([], [])) with
      | ok c => exact ⟨c, rfl⟩
      | panic => rw [e] at h; cases h
      | fuel => rw [e] at h; cases h
  · rintro ⟨pre, bad, post, ts, rfl, h1, h2, h3⟩
    obtain ⟨c, e⟩ := run_steady.mp h3
    rw [new_bad hl h1 h2, e]
    rfl

/-- **C59**, exactly when `New` panics: something follows a brace that closes nothing, or all lines can be
read and there is such a brace at the end, or no tree after the last brace that is not closed. -/
theorem C59_exact {text : Str} {ls : List Str} (hl : Pieces '\n' text ls) : TreeRex.new text = .panic ↔
    (∃ pre post ts, ls = pre ++ post ∧ Lines pre ts ∧ ¬ Steady ts) ∨
    (∃ ts, Lines ls ts ∧ opens ts < closes ts) ∨ ∃ ts n, Lines ls ts ∧ Open ts n [] := by
  have close_lt : ∀ {p q : List Tok} {f : List Tree}, opens p = closes p → Open p 0 f → ¬ Steady (p ++ .close :: q) ∨ q = [] := by
    intro p q f e _
    cases q with
    | nil => exact .inr rfl
    | cons x q =>
      refine .inl fun hs => ?_
      have := hs (p ++ [.close]) x q (by simp)
      rw [opens_append, closes_append] at this
      simp [opens, closes] at *
      omega
  constructor
  · intro h
    rcases lines_or ls with ⟨ts, hts⟩ | ⟨pre, bad, post, ts, e, h1, h2⟩
    · rcases tokens_cases ts with ⟨n, f, _, ho⟩ | ⟨p, q, f, e, hb, ho⟩
      · rw [new_open hl hts ho] at h
        cases f with
        | nil => exact .inr (.inr ⟨ts, n, hts, ho⟩)
        | cons t f => cases h
      · rcases close_lt (q := q) hb ho with hs | hq
        · exact .inl ⟨ls, [], ts, by simp, hts, by rw [e]; exact hs⟩
        · subst hq
          refine .inr (.inl ⟨ts, hts, ?_⟩)
          rw [e, opens_append, closes_append]
          simp [opens, closes] at *
          omega
    · refine .inl ⟨pre, bad :: post, ts, e, h1, fun hs => ?_⟩
      obtain ⟨c, hc⟩ := run_steady.mp hs
      subst e
      rw [new_bad hl h1 h2, hc] at h
      cases h
  · rintro (⟨pre, post, ts, rfl, h1, h2⟩ | ⟨ts, h1, h2⟩ | ⟨ts, n, h1, h2⟩)
    · have hp : run ts (some ([], [])) = .panic := by
        cases e : run ts (some ([], [])) with
        | ok c => exact absurd (run_steady.mpr ⟨c, e⟩) h2
        | panic => rfl
        | fuel => exact absurd e (run_fuel _ _)
      rw [new_lines hl, loop_lines h1, hp]
      rfl
    · rcases tokens_cases ts with ⟨n, f, e, ho⟩ | ⟨p, q, f, e, hb, ho⟩
      · omega
      · subst e
        exact new_closed hl h1 ho
    · exact new_open hl h1 h2

/-- **C80** for a text that is a tree: it is returned, whatever the white space, with what else stands
beside it dropped. -/
theorem C80_tree {text : Str} {ls : List Str} (hl : Pieces '\n' text ls) {ts : List Tok} {t : Tree} {f : List Tree} (h : Lines ls ts) (hf : Forest ts (t :: f)) :
    TreeRex.new text = .ok (some t.nodes) := (C80_trees hl _).mpr ⟨ts, 0, t, f, h, .none hf, rfl⟩

/-- **C80** is false for texts that are not exactly one tree: without the closing brace the child is
returned instead of the tree, of two trees the second is dropped, both without an error. -/
theorem C80_refuted : TreeRex.new "a {\nb".toList = .ok (some (.node ⟨"b".toList, [], -1, 0⟩ [])) ∧
    TreeRex.new "a\nb".toList = .ok (some (.node ⟨"a".toList, [], -1, 0⟩ [])) := by
  rw [C80_expression, C80_expression]
  exact ⟨rfl, rfl⟩

/-- A text with white space in odd places, a closing brace before a node, escapes and a tree beside it. -/
def exText : Str := " a:\t\"x\\n\\\"\\q\"{\nb {\n c\n} d\n\n}\ne".toList

def exLines : List Str := [" a:\t\"x\\n\\\"\\q\"{".toList, "b {".toList, " c".toList, "} d".toList, [], "}".toList, "e".toList]

theorem ex_pieces : Pieces '\n' exText exLines := by
  refine ⟨_, rfl, by decide, _, rfl, by decide, _, rfl, by decide, _, rfl, by decide, _, rfl, by decide, _, rfl, by decide, rfl, by decide⟩

theorem ex_lines : Lines exLines [.start ['a'] ['x', '\n', '"', '\\', 'q'], .start ['b'] [], .leaf ['c'] [], .close, .leaf ['d'] [], .close, .leaf ['e'] []] := by
  have w0 : White [] := by simp [White]
  have w1 : White [' '] := by simp [White]
  have w2 : White ['\t'] := by simp [White]
  refine .cons (t := [_]) ?_ (.cons (t := [_]) ?_ (.cons (t := [_]) ?_ (.cons (t := [_, _]) ?_ (.cons (t := []) ?_ (.cons (t := [_]) ?_ (.cons (t := [_]) ?_ .nil))))))
  · exact Line.node (a := [' ']) (b := []) (k := ['a']) (d := []) (c := false) (o := true) w1 w0 (by simp [IsKind]) w0
      (.some (a := ['\t']) (b := []) w2 (.char (by decide) (by decide) (.line (.quote (.other (by decide) .nil)))) w0)
  · exact Line.node (a := []) (b := []) (k := ['b']) (d := [' ']) (c := false) (o := true) w0 w0 (by simp [IsKind]) w1 .none
  · exact Line.node (a := [' ']) (b := []) (k := ['c']) (d := []) (c := false) (o := false) w1 w0 (by simp [IsKind]) w0 .none
  · exact Line.node (a := []) (b := [' ']) (k := ['d']) (d := []) (c := true) (o := false) w0 w1 (by simp [IsKind]) w0 .none
  · exact Line.blank (a := []) (b := []) (c := false) w0 w0
  · exact Line.blank (a := []) (b := []) (c := true) w0 w0
  · exact Line.node (a := []) (b := []) (k := ['e']) (d := []) (c := false) (o := false) w0 w0 (by simp [IsKind]) w0 .none

/-- Concrete case of C80. -/
example : TreeRex.new exText = .ok (some (Tree.nodes (.node ['a'] ['x', '\n', '"', '\\', 'q'] [.node ['b'] [] [.node ['c'] [] []], .node ['d'] [] []]))) :=
  C80_tree ex_pieces ex_lines (.tree (ts := [_, _, _, _]) (.tree (ts := [_]) (.leaf .nil) (.leaf .nil)) (.leaf .nil))

/-- Concrete cases of C59: an error before the panic, and texts that panic. -/
example : TreeRex.new "}\n:".toList = .ok none ∧ TreeRex.new "}\na\n:".toList = .panic ∧ TreeRex.new "a {".toList = .panic := by
  rw [C80_expression, C80_expression, C80_expression]
  exact ⟨rfl, rfl, rfl⟩

end Verif.Props.TreeDef
