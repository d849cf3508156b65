import Verif.Proofs.SimpleLexerHist
import Verif.Spec.Regex
/-
C35–C42: lexer/simplelexer. A rule table without gaps is `rs.map some`; every table built by `Add`
calls is of this form (`C41_table`), so is every table reached as described in `C40_no_panic_partial`.
Regular expressions are arbitrary functions with in-bounds results (C35, C37, C38, C42), or leftmost
searches of an arbitrary context-independent matcher (C36).
-/
namespace Verif.Props.SimpleLexer
open Verif Verif.SetSymbol Verif.SimpleLexer Verif.Spec

/-! ### Specification -/

/-- What a client sees of a lexeme apart from its position. -/
def seen (x : Lx) : Kind × Bytes × Bool := (x.kind, x.val, x.err)

/-- What should be seen for a piece: nothing for a discarded match. `ek` is the error kind. -/
def emitted (ek : Nat) : Seg Rule → Option (Kind × Bytes × Bool)
  | .tok r v => if r.discard then none else some (.idx r.kind, v, false)
  | .err v => some (.idx ek, v, true)

/-- The inserted lexeme for a setting of `InsertStart`/`InsertEnd` (none when the kind is ""). -/
def inserted (kind val : Bytes) : List Lx := if kind = [] then [] else [⟨.plain kind, val, -1, 0, false⟩]

/-- Pieces with the positions where they start. -/
def placed : Nat → List (Seg Rule) → List (Nat × Seg Rule)
  | _, [] => []
  | p, s :: segs => (p, s) :: placed (p + s.val.length) segs

/-- Number of newlines before a position. -/
def lineOf (b : Bytes) (p : Nat) : Nat := (b.take p).count 10

/-- One plus the number of bytes since the last newline (or the beginning). -/
def colOf (b : Bytes) (p : Nat) : Nat := ((b.take p).reverse.takeWhile (· != 10)).length + 1

/-- Lexeme with position that should be seen for a placed piece; error lexemes carry no position. -/
def shown (b : Bytes) (ek : Nat) : Nat × Seg Rule → Option Lx
  | (p, .tok r v) => if r.discard then none else some ⟨.idx r.kind, v, lineOf b p, colOf b p, false⟩
  | (_, .err v) => some ⟨.idx ek, v, -1, 0, true⟩

/-- No two neighbouring pieces are errors. -/
def NoAdjacentErrors (segs : List (Seg Rule)) : Prop :=
  List.IsChain (fun a b : Seg Rule => ¬ (a.isErr = true ∧ b.isErr = true)) segs

/-! ### Auxiliary facts -/

theorem lexes_cover {takes : Nat → κ → Nat → Prop} {dead : Nat → Prop} {b : Bytes} {p : Nat}
    {segs : List (Seg κ)} (h : Lexes takes dead b p segs) : cover segs = b.drop p := by
  induction h with
  | done => simp [cover]
  | @tok p k n segs h pos le rest ih =>
    unfold cover at ih ⊢
    rw [List.flatMap_cons, ih, Seg.val, ← List.drop_drop, List.take_append_drop]
  | @err p q segs pos le h stop rest ih =>
    unfold cover at ih ⊢
    rw [List.flatMap_cons, ih, Seg.val]
    have e : b.drop q = (b.drop p).drop (q - p) := by
      rw [List.drop_drop]; congr 1; omega
    rw [e, List.take_append_drop]

theorem lexes_mono {takes takes' : Nat → κ → Nat → Prop} {dead dead' : Nat → Prop} {b : Bytes}
    {p : Nat} {segs : List (Seg κ)} (h : Lexes takes dead b p segs)
    (ht : ∀ p k n, p ≤ b.length → 0 < n → takes p k n → takes' p k n)
    (hd : ∀ p, p < b.length → dead p → dead' p) : Lexes takes' dead' b p segs := by
  induction h with
  | done => exact .done
  | tok h pos le rest ih => exact .tok (ht _ _ _ (by omega) pos h) pos le ih
  | err pos le h stop rest ih =>
    refine .err pos le (fun i h1 h2 => hd i (by omega) (h i h1 h2)) ?_ ih
    rcases stop with h | ⟨k, n, h1, h2⟩
    · exact .inl h
    · exact .inr ⟨k, n, h1, ht _ _ _ le h1 h2⟩

/-- A cutting into pieces is unique when at most one rule takes over at a position and none does
where it is dead. -/
theorem lexes_unique {takes : Nat → κ → Nat → Prop} {dead : Nat → Prop} {b : Bytes}
    (hF : ∀ p k n k' n', takes p k n → takes p k' n' → k = k' ∧ n = n')
    (hX : ∀ p k n, dead p → takes p k n → ¬ 0 < n) {p : Nat} {segs segs' : List (Seg κ)}
    (h : Lexes takes dead b p segs) (h' : Lexes takes dead b p segs') : segs = segs' := by
  induction h generalizing segs' with
  | done =>
    cases h' with
    | done => rfl
    | tok _ _ _ _ => omega
    | err _ _ _ _ _ => omega
  | @tok p k n segs h pos le rest ih =>
    cases h' with
    | done => omega
    | tok h2 pos2 le2 rest2 =>
      obtain ⟨rfl, rfl⟩ := hF _ _ _ _ _ h h2
      rw [ih rest2]
    | err pos2 le2 hd stop rest2 => exact absurd pos (hX _ _ _ (hd p (Nat.le_refl _) pos2) h)
  | @err p q segs pos le hd stop rest ih =>
    cases h' with
    | done => omega
    | tok h2 pos2 le2 rest2 => exact absurd pos2 (hX _ _ _ (hd p (Nat.le_refl _) pos) h2)
    | @err _ q' _ pos2 le2 hd2 stop2 rest2 =>
      have : q = q' := by
        rcases Nat.lt_trichotomy q q' with hlt | heq | hgt
        · rcases stop with h | ⟨k, n, h1, h2⟩
          · omega
          · exact absurd h1 (hX _ _ _ (hd2 q (by omega) hlt) h2)
        · exact heq
        · rcases stop2 with h | ⟨k, n, h1, h2⟩
          · omega
          · exact absurd h1 (hX _ _ _ (hd q' (by omega) hgt) h2)
      subst this
      rw [ih rest2]

theorem pre_eq (l : Lexer) : pre l = inserted l.startKind l.startVal := by
  unfold pre inserted insertLx
  by_cases h : l.startKind = [] <;> simp [h]

theorem post_eq (l : Lexer) : post l = inserted l.endKind l.endVal := by
  unfold post inserted insertLx
  by_cases h : l.endKind = [] <;> simp [h]

theorem render_seen (b : Bytes) (ek p ln : Nat) (segs : List (Seg Rule)) :
    (render b ek p ln segs).map seen = segs.filterMap (emitted ek) := by
  induction segs generalizing p ln with
  | nil => rfl
  | cons s segs ih =>
    cases s with
    | tok r v =>
      by_cases hd : r.discard = true <;> simp [render, emitted, hd, ih, seen]
    | err v => simp [render, emitted, ih, seen]

/-! ### C35, C37 -/

/-- C35, C37: for every gap-free rule table with arbitrary regexps, in the default mode, and every
input, `Lex` returns, and the input is cut into consecutive non-empty pieces such that: the lexemes
are, in order, those of the pieces (none for a discarded match) between the inserted ones; a piece
of a rule is where a search for the rule's regexp found it; no two error pieces are neighbours. -/
theorem C35_lossless (l : Lexer) (rs : List Rule) (hrs : l.rules = rs.map some)
    (hc : l.compare = lengthThenPriority) (b : Bytes) :
    ∃ segs lxs l', Out.Returns (fun n => lex n l b) (lxs, l') ∧ cover segs = b ∧
      lxs.map seen = (inserted l.startKind l.startVal).map seen ++
        segs.filterMap (emitted (str l.set l.error).2) ++ (inserted l.endKind l.endVal).map seen ∧
      Lexes (Claims rs b) (fun _ => True) b 0 segs ∧ NoAdjacentErrors segs := by
  obtain ⟨segs, h1, h2, h3⟩ := lex_any l.error rs b
  refine ⟨segs, _, _, ⟨_, h3 l hrs hc rfl⟩, by simpa using lexes_cover h1, ?_, h1, h2⟩
  rw [List.map_append, List.map_append, render_seen, pre_eq, post_eq]

/-- C35: without discarding rules and inserted lexemes the values of the lexemes concatenate to the
input. -/
theorem C35_values (l : Lexer) (rs : List Rule) (hrs : l.rules = rs.map some)
    (hc : l.compare = lengthThenPriority) (hd : ∀ r ∈ rs, r.discard = false)
    (hs : l.startKind = []) (he : l.endKind = []) (b : Bytes) :
    ∃ lxs l', Out.Returns (fun n => lex n l b) (lxs, l') ∧ lxs.flatMap Lx.val = b := by
  obtain ⟨segs, lxs, l', h1, h2, h3, h4, -⟩ := C35_lossless l rs hrs hc b
  refine ⟨lxs, l', h1, ?_⟩
  have hv : lxs.flatMap Lx.val = (lxs.map seen).flatMap fun x => x.2.1 := by
    rw [List.flatMap_map]; rfl
  rw [hv, h3]
  simp only [inserted, hs, he, if_true, List.map_nil, List.nil_append, List.append_nil]
  have hall : ∀ s ∈ segs, ∀ r v, s = .tok r v → r.discard = false := by
    intro s hs r v e
    subst e
    have : ∀ p, Lexes (Claims rs b) (fun _ => True) b p segs → r ∈ rs := by
      intro p h
      clear h4 h3 h2
      induction h with
      | done => cases hs
      | tok h pos le rest ih =>
        rcases List.mem_cons.1 hs with e | hs
        · cases e; exact h.1
        · exact ih hs
      | err pos le h stop rest ih =>
        rcases List.mem_cons.1 hs with e | hs
        · cases e
        · exact ih hs
    exact hd r (this 0 h4)
  rw [← h2]
  clear h2 h3 h4 hv
  induction segs with
  | nil => rfl
  | cons s segs ih =>
    have ih := ih fun s' hs' => hall s' (List.mem_cons_of_mem _ hs')
    cases s with
    | tok r v =>
      have hr := hall (.tok r v) (List.mem_cons_self ..) r v rfl
      simp only [List.filterMap_cons, emitted, hr, Bool.false_eq_true, if_false, List.flatMap_cons, ih,
        cover, Seg.val]
    | err v =>
      simp only [List.filterMap_cons, emitted, List.flatMap_cons, ih, cover, Seg.val]

/-- C37: `Lex` returns for every gap-free table in either mode, every input. -/
theorem C37_simple_terminates (l : Lexer) (hT : Tab l) (hF : Full l) (b : Bytes) :
    ∃ lxs l', Out.Returns (fun n => lex n l b) (lxs, l') := by
  obtain ⟨segs, h⟩ := lex_full hT hF b
  exact ⟨_, _, _, fun n hn => (h l rfl rfl rfl n hn).1⟩

/-! ### C36 -/

/-- C36: for rules that search leftmost for context-independent matchers `m r`, in the default mode:
every piece of a rule that starts at a rune start is the longest match there, the first declared
among the longest, and at no rune start inside an error piece does any rule match a non-empty text.
(At a position inside a multi-byte rune a piece of a rule is still a match of that rule.) -/
theorem C36_maximal_munch (l : Lexer) (rs : List Rule) (hrs : l.rules = rs.map some)
    (hc : l.compare = lengthThenPriority) (m : Rule → Bytes → Option Nat)
    (hm : ∀ r ∈ rs, Leftmost runeLen (m r) r.re.find) (b : Bytes) :
    ∃ segs lxs l', Out.Returns (fun n => lex n l b) (lxs, l') ∧
      lxs.map seen = (inserted l.startKind l.startVal).map seen ++
        segs.filterMap (emitted (str l.set l.error).2) ++ (inserted l.endKind l.endVal).map seen ∧
      Lexes
        (fun p r n => r ∈ rs ∧ m r (b.drop p) = some n ∧
          (Bd runeLen b p → Wins (· ∈ rs) m (fun r => r.priority) (b.drop p) r n))
        (fun p => Bd runeLen b p → ∀ r ∈ rs, ∀ n, m r (b.drop p) = some n → n = 0) b 0 segs := by
  obtain ⟨segs, h1, h2, h3⟩ := lex_ctx l.error sync_runeLen hm b
  refine ⟨segs, _, _, ⟨_, h3 l hrs hc rfl⟩, ?_, h1⟩
  rw [List.map_append, List.map_append, render_seen, pre_eq, post_eq]

/-- C36, ASCII input: the lexer computes the maximal-munch cutting of the input, which exists and is
unique: every rule piece wins at its position, error pieces contain only positions where no rule
has a non-empty match. -/
theorem C36_ascii (l : Lexer) (rs : List Rule) (hrs : l.rules = rs.map some)
    (hc : l.compare = lengthThenPriority) (m : Rule → Bytes → Option Nat)
    (hm : ∀ r ∈ rs, Leftmost runeLen (m r) r.re.find)
    (hp : ∀ r ∈ rs, ∀ r' ∈ rs, r.priority = r'.priority → r = r') (b : Bytes)
    (ha : ∀ x ∈ b, x.toNat < 0x80) :
    ∃! segs, Lexes (fun p => Wins (· ∈ rs) m (fun r => r.priority) (b.drop p))
        (fun p => ∀ r ∈ rs, ∀ n, m r (b.drop p) = some n → n = 0) b 0 segs ∧
      ∃ lxs l', Out.Returns (fun n => lex n l b) (lxs, l') ∧
      lxs.map seen = (inserted l.startKind l.startVal).map seen ++
        segs.filterMap (emitted (str l.set l.error).2) ++ (inserted l.endKind l.endVal).map seen := by
  obtain ⟨segs, lxs, l', h1, h2, h3⟩ := C36_maximal_munch l rs hrs hc m hm b
  refine ⟨segs, ⟨lexes_mono h3 ?_ ?_, lxs, l', h1, h2⟩, ?_⟩
  · intro p r n hpb _ h
    exact h.2.2 (bd_ascii ha hpb)
  · intro p hpb h
    exact h (bd_ascii ha (by omega))
  · rintro segs' ⟨h', -⟩
    refine lexes_unique ?_ ?_ h' (lexes_mono h3 (fun p r n hpb _ h => h.2.2 (bd_ascii ha hpb))
      (fun p hpb h => h (bd_ascii ha (by omega))))
    · rintro p k n k' n' ⟨w1, w2, w3, w4⟩ ⟨u1, u2, u3, u4⟩
      have x := w4 k' n' u1 u2
      have y := u4 k n w1 w2
      have : n = n' := by omega
      subst this
      refine ⟨hp k w1 k' u1 ?_, rfl⟩
      have x : k.priority ≤ k'.priority := by rcases x with h | h; omega; exact h.2
      have y : k'.priority ≤ k.priority := by rcases y with h | h; omega; exact h.2
      omega
    · rintro p k n hd ⟨w1, w2, w3, w4⟩ _
      have := hd k w1 n w2
      omega

/-! ### C38 -/

/-- Pieces with their positions and the number of newlines in earlier error pieces. -/
def placedE : Nat → Nat → List (Seg Rule) → List (Nat × Nat × Seg Rule)
  | _, _, [] => []
  | p, e, .tok r v :: segs => (p, e, .tok r v) :: placedE (p + v.length) e segs
  | p, e, .err v :: segs => (p, e, .err v) :: placedE (p + v.length) (e + v.count 10) segs

theorem col_eq (s : Bytes) :
    (s.length : Int) - lastNl s = (s.reverse.takeWhile (· != 10)).length + 1 := by
  have key : ∀ t : Bytes, match t.findIdx? (· == nl) with
      | some i => i = (t.takeWhile (· != 10)).length
      | none => t.length = (t.takeWhile (· != 10)).length := by
    intro t
    induction t with
    | nil => simp
    | cons x t ih =>
      by_cases hx : x = 10
      · subst hx; simp [List.findIdx?_cons, nl]
      · have h1 : (x == nl) = false := by simpa [nl] using hx
        have h2 : (x != 10) = true := by simpa using hx
        rw [List.findIdx?_cons, h1, List.takeWhile_cons, h2]
        simp only [Bool.false_eq_true, if_false, if_true, List.length_cons]
        cases hf : t.findIdx? (· == nl) with
        | none => rw [hf] at ih; simp only [Option.map_none] at ih ⊢; omega
        | some i => rw [hf] at ih; simp only [Option.map_some] at ih ⊢; omega
  unfold lastNl
  have := key s.reverse
  cases hf : s.reverse.findIdx? (· == nl) with
  | none => rw [hf] at this; simp only at this ⊢; rw [← this]; simp
  | some i => rw [hf] at this; simp only at this ⊢; rw [← this]; omega

private theorem render_pos {takes : Nat → Rule → Nat → Prop} {dead : Nat → Prop} {b : Bytes} {p : Nat}
    {segs : List (Seg Rule)} (h : Lexes takes dead b p segs) (ek e : Nat) (he : e ≤ lineOf b p) :
    render b ek p (lineOf b p - e) segs = (placedE p e segs).filterMap fun x =>
      match x with
      | (p, e, .tok r v) =>
        if r.discard then none else
          some ⟨.idx r.kind, v, ((lineOf b p - e : Nat) : Int), colOf b p, false⟩
      | (_, _, .err v) => some ⟨.idx ek, v, -1, 0, true⟩ := by
  have hline : ∀ p n, p + n ≤ b.length → lineOf b (p + n) = lineOf b p + ((b.drop p).take n).count 10 := by
    intro p n _
    unfold lineOf
    rw [List.take_add, List.count_append]
  induction h generalizing e with
  | done => rfl
  | @tok p k n segs h pos le rest ih =>
    have hl : ((b.drop p).take n).length = n := by simp only [List.length_take, List.length_drop]; omega
    have hcol : (p : Int) - lastNl (b.take p) = (colOf b p : Nat) := by
      have := col_eq (b.take p)
      rw [List.length_take, Nat.min_eq_left (by omega)] at this
      rw [this]; rfl
    have h2 := hline p n le
    have h3 : lineOf b p - e + countNl ((b.drop p).take n) = lineOf b (p + n) - e := by
      rw [h2]; unfold countNl; show _ - _ + List.count 10 _ = _; omega
    simp only [render, placedE, List.filterMap_cons, hl, h3, ih e (by omega), hcol]
    by_cases hd : k.discard = true <;> simp [hd]
  | @err p q segs pos le h stop rest ih =>
    have hl : ((b.drop p).take (q - p)).length = q - p := by
      simp only [List.length_take, List.length_drop]; omega
    have h2 := hline p (q - p) (by omega)
    rw [show p + (q - p) = q by omega] at h2
    have h3 : lineOf b p - e = lineOf b q - (e + ((b.drop p).take (q - p)).count 10) := by omega
    simp only [render, placedE, List.filterMap_cons, hl, show p + (q - p) = q by omega]
    rw [h3, ih (e + ((b.drop p).take (q - p)).count 10) (by omega)]

/-- C38, what the positions are: a lexeme of a rule carries its true column (1-based), and as line
the number of newlines before it minus those that lie in error pieces; an error lexeme carries no
position (line -1). -/
theorem C38_exact (l : Lexer) (rs : List Rule) (hrs : l.rules = rs.map some)
    (hc : l.compare = lengthThenPriority) (b : Bytes) :
    ∃ segs lxs l', Out.Returns (fun n => lex n l b) (lxs, l') ∧
      Lexes (Claims rs b) (fun _ => True) b 0 segs ∧
      lxs = inserted l.startKind l.startVal ++ ((placedE 0 0 segs).filterMap fun x =>
        match x with
        | (p, e, .tok r v) => if r.discard then none else
            some ⟨.idx r.kind, v, ((lineOf b p - e : Nat) : Int), colOf b p, false⟩
        | (_, _, .err v) => some ⟨.idx (str l.set l.error).2, v, -1, 0, true⟩) ++
        inserted l.endKind l.endVal := by
  obtain ⟨segs, h1, h2, h3⟩ := lex_any l.error rs b
  refine ⟨segs, _, _, ⟨_, h3 l hrs hc rfl⟩, h1, ?_⟩
  have := render_pos h1 (str l.set l.error).2 0 (Nat.zero_le _)
  simp only [lineOf, List.take_zero, List.count_nil, Nat.sub_zero] at this
  rw [this, pre_eq, post_eq]
  rfl

private theorem placedE_zero (segs : List (Seg Rule)) (p : Nat)
    (h : ∀ v, Seg.err v ∈ segs → (10 : UInt8) ∉ v) :
    placedE p 0 segs = (placed p segs).map fun x => (x.1, 0, x.2) := by
  induction segs generalizing p with
  | nil => rfl
  | cons s segs ih =>
    have ih := fun p => ih p fun v hv => h v (List.mem_cons_of_mem _ hv)
    cases s with
    | tok r v => simp [placedE, placed, Seg.val, ih]
    | err v =>
      have := h v (List.mem_cons_self ..)
      simp [placedE, placed, Seg.val, ih, List.count_eq_zero.2 this]

/-- C38, the part that holds: when no error piece contains a newline, every lexeme of a rule carries
the number of newlines before it and its column. (Error lexemes never carry a position; with a newline
in an error piece the lines are too small, `C38_refuted`.) -/
theorem C38_positions_partial (l : Lexer) (rs : List Rule) (hrs : l.rules = rs.map some)
    (hc : l.compare = lengthThenPriority) (b : Bytes) :
    ∃ segs lxs l', Out.Returns (fun n => lex n l b) (lxs, l') ∧
      Lexes (Claims rs b) (fun _ => True) b 0 segs ∧
      ((∀ v, Seg.err v ∈ segs → (10 : UInt8) ∉ v) →
        lxs = inserted l.startKind l.startVal ++
          (placed 0 segs).filterMap (shown b (str l.set l.error).2) ++
          inserted l.endKind l.endVal) := by
  obtain ⟨segs, lxs, l', h1, h2, h3⟩ := C38_exact l rs hrs hc b
  refine ⟨segs, lxs, l', h1, h2, ?_⟩
  intro hn
  rw [h3, placedE_zero segs 0 hn, List.filterMap_map]
  congr 3
  funext ⟨p, s⟩
  cases s <;> simp [shown]

/-! ### C39 -/

/-- C39 fails on every non-empty input: in priority mode no rule is ever chosen, the whole input
becomes one error lexeme, whatever the rules match. -/
theorem C39_refuted (l : Lexer) (hT : Tab l) (hF : Full l) (b : Bytes) (hb : b ≠ []) :
    ∃ l', Out.Returns (fun n => lex n (byPriority l) b)
      (inserted l.startKind l.startVal ++ [⟨.idx (str l.set l.error).2, b, -1, 0, true⟩] ++
        inserted l.endKind l.endVal, l') := by
  obtain ⟨rs, hrs⟩ := full_map hF
  have hp : ∀ r ∈ rs, 0 ≤ r.priority := by
    intro r hr
    obtain ⟨i, hi⟩ := List.mem_iff_getElem?.1 hr
    have h1 : l.rules[i]? = some (some r) := by rw [hrs, List.getElem?_map, hi]; rfl
    exact (hT.kind i r h1).2
  obtain ⟨segs, h1, -, h3⟩ := lex_priority l.error rs hp b
  have hs : segs = [.err b] := by
    generalize h0 : 0 = p at h1
    cases h1 with
    | done => exact absurd (List.length_eq_zero_iff.1 h0.symm) hb
    | tok h _ _ _ => exact h.elim
    | @err _ q _ pos le h stop rest =>
      have : q = b.length := by
        rcases stop with h | ⟨_, _, _, h⟩
        · exact h
        · exact h.elim
      subst this
      subst h0
      cases rest with
      | done => simp
      | tok h _ _ _ => exact h.elim
      | err pos le _ _ _ => omega
  subst hs
  have := h3 (byPriority l) hrs rfl rfl
  rw [pre_eq, post_eq] at this
  exact ⟨_, _, this⟩

/-! ### C41 -/

/-- The `Add` calls that should succeed: the first one for each kind. -/
def accepted (h : List (Bytes × Re × Bool)) : List (Bytes × Re × Bool) :=
  h.foldl (fun acc x => if x.1 ∈ acc.map Prod.fst then acc else acc ++ [x]) []

/-- A history of `Add` calls on a new lexer. -/
def addAll (h : List (Bytes × Re × Bool)) : Lexer :=
  h.foldl (fun l x => (add l x.1 x.2.1 x.2.2).1) empty

/-- The lexer after the calls `a` succeeded, in that order. -/
structure Is (l : Lexer) (a : List (Bytes × Re × Bool)) : Prop where
  tab : Tab l
  set : l.set.symb2str = a.map Prod.fst
  rules : l.rules = a.mapIdx fun i x => some ⟨i, x.2.1, x.2.2, i⟩
  counter : l.priorityCounter = a.length
  order : l.order = List.range a.length
  compare : l.compare = lengthThenPriority

theorem is_add {l : Lexer} {a : List (Bytes × Re × Bool)} (h : Is l a) (x : Bytes × Re × Bool) :
    Is (add l x.1 x.2.1 x.2.2).1 (if x.1 ∈ a.map Prod.fst then a else a ++ [x]) ∧
    ((add l x.1 x.2.1 x.2.2).2 = true ↔ x.1 ∉ a.map Prod.fst) := by
  obtain ⟨k, re, d⟩ := x
  have hget : ∀ i, i < a.length → ∃ r, l.rules[i]? = some (some r) := by
    intro i hi
    rw [h.rules, List.getElem?_mapIdx]
    obtain ⟨y, hy⟩ := List.getElem?_eq_some_iff.2 ⟨hi, rfl⟩ |> fun e => (⟨_, e⟩ : ∃ y, a[i]? = some y)
    exact ⟨_, by rw [hy]; rfl⟩
  have hlen : l.rules.length = a.length := by rw [h.rules, List.length_mapIdx]
  have hT := tab_add h.tab k re d
  rcases add_cases h.tab k re d with ⟨i, r, h1, h2, e⟩ | ⟨i, hi, hne, e⟩
  · have hm : k ∈ a.map Prod.fst := by rw [← h.set]; exact List.mem_of_getElem? h1
    simp only [if_pos hm, e]
    exact ⟨h, by simp [hm]⟩
  · have hm : k ∉ a.map Prod.fst := by
      intro hm
      rw [← h.set] at hm
      have h1 := str_present h.tab.inv hm
      have h2 := str_idx_lt h.tab.inv k
      rw [h1, hi, h.set, List.length_map] at h2
      obtain ⟨r, hr⟩ := hget i h2
      exact hne r hr
    have hi' : i = a.length := by
      rw [← hi]
      have : k ∉ l.set.symb2str := by rw [h.set]; exact hm
      unfold str
      rw [(h.tab.inv.none k).2 this]
      simp [h.set]
    have hst : (str l.set k).1.symb2str = (a ++ [(k, re, d)]).map Prod.fst := by
      rw [str_table _ h.tab.inv, h.set, if_neg hm]
      simp
    simp only [if_neg hm]
    rw [e] at hT ⊢
    refine ⟨⟨hT, hst, ?_, ?_, ?_, h.compare⟩, by simp [hm]⟩
    · show (l.rules ++ _).set i _ = _
      rw [hi', hlen, show 1 + a.length - a.length = 1 by omega, List.replicate_one,
        List.set_append_right _ _ (by omega), hlen, Nat.sub_self, List.set_cons_zero,
        List.mapIdx_append, h.rules, h.counter]
      simp
    · show l.priorityCounter + 1 = _
      rw [h.counter]; simp
    · show l.order ++ [i] = _
      rw [h.order, hi', List.length_append, List.length_singleton, List.range_succ]

theorem is_empty : Is empty [] := ⟨tab_empty, rfl, rfl, rfl, rfl, rfl⟩

theorem is_all (h : List (Bytes × Re × Bool)) : Is (addAll h) (accepted h) := by
  unfold addAll accepted
  have : ∀ l a, Is l a → Is (h.foldl (fun l x => (add l x.1 x.2.1 x.2.2).1) l)
      (h.foldl (fun acc x => if x.1 ∈ acc.map Prod.fst then acc else acc ++ [x]) a) := by
    induction h with
    | nil => intro l a hl; exact hl
    | cons x h ih => intro l a hl; exact ih _ _ (is_add hl x).1
  exact this _ _ is_empty

theorem mem_accepted (h : List (Bytes × Re × Bool)) (k : Bytes) :
    k ∈ (accepted h).map Prod.fst ↔ k ∈ h.map Prod.fst := by
  unfold accepted
  have : ∀ a : List (Bytes × Re × Bool),
      k ∈ (h.foldl (fun acc x => if x.1 ∈ acc.map Prod.fst then acc else acc ++ [x]) a).map Prod.fst ↔
        k ∈ a.map Prod.fst ∨ k ∈ h.map Prod.fst := by
    induction h with
    | nil => simp
    | cons x h ih =>
      intro a
      rw [List.foldl_cons, ih]
      by_cases hx : x.1 ∈ a.map Prod.fst
      · rw [if_pos hx, List.map_cons, List.mem_cons]
        constructor
        · rintro (h1 | h1)
          · exact .inl h1
          · exact .inr (.inr h1)
        · rintro (h1 | h1 | h1)
          · exact .inl h1
          · subst h1; exact .inl hx
          · exact .inr h1
      · rw [if_neg hx, List.map_append, List.mem_append, List.map_cons, List.mem_cons]
        simp [or_assoc]
  simpa using this []

/-- C41: after any history of `Add` calls the table holds exactly the first call for each kind, in
call order, with priorities 0, 1, 2, …; there are no gaps. -/
theorem C41_table (h : List (Bytes × Re × Bool)) :
    (addAll h).set.symb2str = (accepted h).map Prod.fst ∧
    (addAll h).rules = ((accepted h).mapIdx fun i x => (⟨i, x.2.1, x.2.2, i⟩ : Rule)).map some ∧
    (addAll h).order = List.range (accepted h).length ∧
    (addAll h).compare = lengthThenPriority ∧
    (∀ r ∈ (accepted h).mapIdx (fun i x => (⟨i, x.2.1, x.2.2, i⟩ : Rule)),
      ∀ r' ∈ (accepted h).mapIdx (fun i x => (⟨i, x.2.1, x.2.2, i⟩ : Rule)),
        r.priority = r'.priority → r = r') := by
  have hi := is_all h
  refine ⟨hi.set, ?_, hi.order, hi.compare, ?_⟩
  · rw [hi.rules]
    apply List.ext_getElem?
    intro i
    simp only [List.getElem?_mapIdx, List.getElem?_map, Option.map_map]
    rfl
  · intro r hr r' hr' e
    rw [List.mem_mapIdx] at hr hr'
    obtain ⟨i, hi, rfl⟩ := hr
    obtain ⟨j, hj, rfl⟩ := hr'
    simp only [Int.natCast_inj] at e
    subst e; rfl

/-- C41: adding a kind that was added before is an error and changes nothing; any other `Add`
succeeds. -/
theorem C41_duplicate (h : List (Bytes × Re × Bool)) (k : Bytes) (re : Re) (d : Bool) :
    ((add (addAll h) k re d).2 = false ↔ k ∈ h.map Prod.fst) ∧
    (k ∈ h.map Prod.fst → (add (addAll h) k re d).1 = addAll h) := by
  have hi := (is_add (is_all h) (k, re, d)).2
  simp only at hi
  have h1 : (add (addAll h) k re d).2 = false ↔ k ∈ h.map Prod.fst := by
    rw [← mem_accepted]
    cases hb : (add (addAll h) k re d).2 with
    | true => simp [hi.1 hb]
    | false =>
      simp only [true_iff]
      by_contra hc
      rw [hi.2 hc] at hb; cases hb
  exact ⟨h1, fun hk => add_dup (is_all h).tab k re d (h1.2 hk)⟩

/-! ### C42 -/

/-- C42: for every gap-free table and input, in either mode: with `InsertStart(k, v)` the result is
that of the plain lexer with the inserted lexeme in front; likewise `InsertEnd` at the back. -/
theorem C42_insert (l : Lexer) (hT : Tab l) (hF : Full l) (hs : l.startKind = []) (he : l.endKind = [])
    (k v k' v' : Bytes) (hk : k ≠ []) (hk' : k' ≠ []) (b : Bytes) :
    ∃ lxs l1 l2 l3 l4, Out.Returns (fun n => lex n l b) (lxs, l1) ∧
      Out.Returns (fun n => lex n (insertStart l k v) b) (⟨.plain k, v, -1, 0, false⟩ :: lxs, l2) ∧
      Out.Returns (fun n => lex n (insertEnd l k' v') b) (lxs ++ [⟨.plain k', v', -1, 0, false⟩], l3) ∧
      Out.Returns (fun n => lex n (insertEnd (insertStart l k v) k' v') b)
        (⟨.plain k, v, -1, 0, false⟩ :: lxs ++ [⟨.plain k', v', -1, 0, false⟩], l4) := by
  obtain ⟨segs, h⟩ := lex_full hT hF b
  have R : ∀ l' : Lexer, l'.rules = l.rules → l'.compare = l.compare → l'.error = l.error →
      l'.set = l.set → ∀ lxs, lxs = inserted l'.startKind l'.startVal ++
        render b (str l.set l.error).2 0 0 segs ++ inserted l'.endKind l'.endVal →
      ∃ l'', Out.Returns (fun n => lex n l' b) (lxs, l'') := by
    rintro l' e1 e2 e3 e4 lxs rfl
    have := fun n hn => (h l' e1 e2 e3 n hn).1
    rw [pre_eq, post_eq, e4] at this
    exact ⟨_, _, this⟩
  obtain ⟨l1, h1⟩ := R l rfl rfl rfl rfl (render b (str l.set l.error).2 0 0 segs) (by
    simp [hs, he, inserted])
  obtain ⟨l2, h2⟩ := R (insertStart l k v) rfl rfl rfl rfl
    (⟨.plain k, v, -1, 0, false⟩ :: render b (str l.set l.error).2 0 0 segs) (by
    simp [insertStart, he, hk, inserted])
  obtain ⟨l3, h3⟩ := R (insertEnd l k' v') rfl rfl rfl rfl
    (render b (str l.set l.error).2 0 0 segs ++ [⟨.plain k', v', -1, 0, false⟩]) (by
    simp [insertEnd, hs, hk', inserted])
  obtain ⟨l4, h4⟩ := R (insertEnd (insertStart l k v) k' v') rfl rfl rfl rfl
    (⟨.plain k, v, -1, 0, false⟩ :: render b (str l.set l.error).2 0 0 segs ++
      [⟨.plain k', v', -1, 0, false⟩]) (by
    simp [insertEnd, insertStart, hk, hk', inserted])
  exact ⟨_, l1, l2, l3, l4, h1, h2, h3, h4⟩

/-! ### C40 -/

/-- What a client sees of a lexeme, the kind by its string. -/
structure Named where
  kind : Option Bytes
  val : Bytes
  line : Int
  col : Int
  err : Bool
  deriving DecidableEq

/-- A lexeme as a client sees it. -/
def named (l : Lexer) (x : Lx) : Named :=
  ⟨match x.kind with | .idx i => l.set.symb2str[i]? | .plain s => some s, x.val, x.line, x.col, x.err⟩

private theorem named_render {l1 l2 : Lexer} (b : Bytes) (ek1 ek2 p ln : Nat) (segs : List (Seg Rule))
    (hk : ∀ r v, Seg.tok r v ∈ segs → l1.set.symb2str[r.kind]? = l2.set.symb2str[r.kind]?)
    (he : segs.any Seg.isErr = true → l1.set.symb2str[ek1]? = l2.set.symb2str[ek2]?) :
    (render b ek1 p ln segs).map (named l1) = (render b ek2 p ln segs).map (named l2) := by
  induction segs generalizing p ln with
  | nil => rfl
  | cons s segs ih =>
    have hk' : ∀ r v, Seg.tok r v ∈ segs → l1.set.symb2str[r.kind]? = l2.set.symb2str[r.kind]? :=
      fun r v h => hk r v (List.mem_cons_of_mem _ h)
    have he' : segs.any Seg.isErr = true → l1.set.symb2str[ek1]? = l2.set.symb2str[ek2]? := by
      intro h; apply he; simp [h]
    cases s with
    | tok r v =>
      have := hk r v (List.mem_cons_self ..)
      by_cases hd : r.discard = true <;> simp [render, hd, ih _ _ hk' he', named, this]
    | err v =>
      have := he (by simp [Seg.isErr])
      simp [render, ih _ _ hk' he', named, this]

theorem calls_lex {l l' : Lexer} (hT : Tab l) (hF : Full l) (h : List Call)
    (hl : ∀ c ∈ h, c.isLex = true) (e : calls l h = .ok l') :
    ∃ s, l' = { l with set := s } ∧ Inv s ∧ l.set.symb2str <+: s.symb2str := by
  induction h generalizing l with
  | nil =>
    have e : l = l' := Out.ok.inj e
    subst e
    exact ⟨l.set, rfl, hT.inv, List.prefix_refl _⟩
  | cons c cs ih =>
    cases c with
    | lex b =>
      obtain ⟨lxs, s, h1, h2⟩ := lex_state hT hF b
      simp only [calls, call, h1 _ (Nat.le_refl _), Out.bind_ok] at e
      have hT' : Tab { l with set := s } := by
        rcases h2 with rfl | rfl
        · exact hT
        · exact tab_set hT _
      obtain ⟨s', e1, e2, e3⟩ := ih hT' hF (fun c hc => hl c (List.mem_cons_of_mem _ hc)) e
      refine ⟨s', e1, e2, List.IsPrefix.trans ?_ e3⟩
      rcases h2 with rfl | rfl
      · exact List.prefix_refl _
      · exact str_prefix _ _
    | _ => exact absurd (hl _ (List.mem_cons_self ..)) (by simp [Call.isLex])

/-- C40(a): for every gap-free lexer, lexing an input gives the same lexemes whatever was lexed
before. -/
theorem C40_same_result (l : Lexer) (hT : Tab l) (hF : Full l) (h : List Call)
    (hl : ∀ c ∈ h, c.isLex = true) (l' : Lexer) (e : calls l h = .ok l') (b : Bytes) :
    ∃ lxs m lxs' m', Out.Returns (fun n => lex n l b) (lxs, m) ∧
      Out.Returns (fun n => lex n l' b) (lxs', m') ∧
      lxs.map (named m) = lxs'.map (named m') := by
  obtain ⟨segs, H⟩ := lex_full hT hF b
  obtain ⟨s, rfl, hi, hpre⟩ := calls_lex hT hF h hl e
  obtain ⟨-, hk, -⟩ := H l rfl rfl rfl _ (Nat.le_refl _)
  refine ⟨_, _, _, _, ⟨_, fun n hn => (H l rfl rfl rfl n hn).1⟩,
    ⟨_, fun n hn => (H { l with set := s } rfl rfl rfl n hn).1⟩, ?_⟩
  have e1 : ∀ (m m' : Lexer) k v, (inserted k v).map (named m) = (inserted k v).map (named m') := by
    intro m m' k v
    unfold inserted
    split <;> simp [named]
  have hp1 : l.set.symb2str <+: (if segs.any Seg.isErr = true then (str l.set l.error).1 else l.set).symb2str := by
    split
    · exact str_prefix _ _
    · exact List.prefix_refl _
  have hp2 : s.symb2str <+: (if segs.any Seg.isErr = true then (str s l.error).1 else s).symb2str := by
    split
    · exact str_prefix _ _
    · exact List.prefix_refl _
  simp only [List.map_append, pre_eq, post_eq]
  refine congrArg₂ (· ++ ·) (congrArg₂ (· ++ ·) (e1 _ _ _ _) ?_) (e1 _ _ _ _)
  apply named_render
  · intro r v hm
    have h1 : r.kind < l.set.symb2str.length := Nat.lt_of_lt_of_le (hk r v hm) hT.le
    have h2 := List.getElem?_eq_getElem h1
    rw [prefix_getElem? hp1 h2, prefix_getElem? (hpre.trans hp2) h2]
  · intro hany
    simp only [if_pos hany]
    rw [str_idx hT.inv, str_idx hi]

/-- C40(b), the part that holds: no history in which all `Add` calls come before all `Lex` calls
panics (and all calls return). A history violating this can panic, `C40_refuted`. -/
theorem C40_no_panic_partial (h1 h2 : List Call) (hl : ∀ c ∈ h1, c.isLex = false)
    (ha : ∀ c ∈ h2, c.isAdd = false) : ∃ l, calls empty (h1 ++ h2) = .ok l ∧ Tab l ∧ Full l := by
  obtain ⟨l1, e1, hT, hD⟩ := dense_calls tab_empty ⟨by simp [Full, empty], rfl⟩ h1 hl
  obtain ⟨l2, e2, hT2, hF2⟩ := full_calls hT hD.1 h2 ha
  exact ⟨l2, by rw [calls_append, e1, Out.bind_ok, e2], hT2, hF2⟩

/-- C40(b), another part that holds: when the error kind has a rule before the first `Lex` and the
`Error` field is not changed afterwards, no history panics. -/
theorem C40_error_rule_partial (h1 h2 : List Call) (hl : ∀ c ∈ h1, c.isLex = false)
    (he : ∀ l, calls empty h1 = .ok l → l.error ∈ l.set.symb2str)
    (hs : ∀ c ∈ h2, c.isSetError = false) : ∃ l, calls empty (h1 ++ h2) = .ok l ∧ Tab l ∧ Full l := by
  obtain ⟨l1, e1, hT, hD⟩ := dense_calls tab_empty ⟨by simp [Full, empty], rfl⟩ h1 hl
  obtain ⟨l2, e2, hT2, hF2⟩ := dense_calls_error hT hD (he l1 e1) h2 hs
  exact ⟨l2, by rw [calls_append, e1, Out.bind_ok, e2], hT2, hF2.1⟩

/-! ### Concrete lexers -/

/-- A regexp from a prefix matcher. -/
def ofMatch (m : Bytes → Option Nat) (hm : ∀ s n, m s = some n → n ≤ s.length) : Re :=
  ⟨fun s => search m s.length s, fun s a e h => search_bound hm s.length s a e h⟩

/-- `\w+` (ASCII). -/
def isWord (x : UInt8) : Bool :=
  (48 ≤ x && x ≤ 57) || (65 ≤ x && x ≤ 90) || (97 ≤ x && x ≤ 122) || x == 95

/-- `\s+` (ASCII). -/
def isSpace (x : UInt8) : Bool := x == 32 || x == 9 || x == 10 || x == 13 || x == 12

def reWord : Re := ofMatch (plusM isWord) (plusM_bound _)
def reSpace : Re := ofMatch (plusM isSpace) (plusM_bound _)
def reTest : Re := ofMatch (litM [116, 101, 115, 116]) (litM_bound _)

/-- The lexer of lexer_test.go:75-81: `test`, `word /\w+/`, `space /\s+/ -`. -/
def testCalls : List (Bytes × Re × Bool) :=
  [([116, 101, 115, 116], reTest, false), ([119], reWord, false), ([115], reSpace, true)]

def testLexer : Lexer := addAll testCalls

/-- The rules of the table, for the hypotheses of the theorems. -/
def testRules : List Rule := (accepted testCalls).mapIdx fun i x => ⟨i, x.2.1, x.2.2, i⟩

/-- The kinds, values and positions of a result. -/
def result (o : Out (List Lx × Lexer)) : Option (List Named) :=
  match o with
  | .ok r => some (r.1.map (named r.2))
  | _ => none

/-- Hypotheses of C35, C36, C38 are met by the test lexer, with `m` the three matchers. -/
example : testLexer.rules = testRules.map some ∧ testLexer.compare = lengthThenPriority :=
  ⟨(C41_table testCalls).2.1, (C41_table testCalls).2.2.2.1⟩

def testM (r : Rule) : Bytes → Option Nat :=
  if r.kind = 0 then litM [116, 101, 115, 116] else if r.kind = 1 then plusM isWord else plusM isSpace

theorem testRules_eq : testRules =
    [⟨0, reTest, false, 0⟩, ⟨1, reWord, false, 1⟩, ⟨2, reSpace, true, 2⟩] := by
  simp [testRules, accepted, testCalls]

example : ∀ r ∈ testRules, Leftmost runeLen (testM r) r.re.find := by
  rw [testRules_eq]
  intro r hr
  simp only [List.mem_cons, List.not_mem_nil, or_false] at hr
  rcases hr with rfl | rfl | rfl <;> exact search_leftmost _

/-- "tests test": the longer `word` wins on `tests`, the earlier `test` on the tie. -/
example : result (lex 20 testLexer [116, 101, 115, 116, 115, 32, 116, 101, 115, 116]) =
    some [⟨some [119], [116, 101, 115, 116, 115], 0, 1, false⟩,
          ⟨some [116, 101, 115, 116], [116, 101, 115, 116], 0, 7, false⟩] := by decide +kernel

/-- The lexemes of a result. -/
def lxsOf (o : Out (List Lx × Lexer)) : Option (List Lx) :=
  match o with
  | .ok r => some r.1
  | _ => none

/-- C38 fails: in ":\nw", with the rule `word` only, the newline is in an error piece and `w`, at
offset 2 on line 1, is reported on line 0. -/
theorem C38_refuted :
    lxsOf (lex 20 (addAll [([119], reWord, false)]) [58, 10, 119]) =
      some [⟨.idx 1, [58, 10], -1, 0, true⟩, ⟨.idx 0, [119], 0, 1, false⟩] ∧
    lineOf [58, 10, 119] 2 = 1 := by decide +kernel

/-- C39: a concrete case: with the single rule `word`, "w" is lexed by default but not by priority. -/
example : result (lex 20 (addAll [([119], reWord, false)]) [119]) = some [⟨some [119], [119], 0, 1, false⟩] ∧
    result (lex 20 (byPriority (addAll [([119], reWord, false)])) [119]) =
      some [⟨some defaultErrorString, [119], -1, 0, true⟩] := by decide +kernel

/-- Whether a history panics. -/
def panics (o : Out Lexer) : Bool :=
  match o with
  | .panic => true
  | _ => false

/-- C40 fails: `Add` a kind, `Lex` an input with an error, `Add` another kind, `Lex`: the error kind
has taken the next index, the rule table gets a gap, and the second `Lex` panics. -/
theorem C40_refuted : panics (calls empty
    [.add [119] reWord false, .lex [58], .add [115] reSpace false, .lex [119]]) = true := by
  decide +kernel

/-- The same calls with the second `Add` first do not panic. -/
example : ∃ l, calls empty [.add [119] reWord false, .add [115] reSpace false, .lex [58], .lex [119]] =
    .ok l ∧ Tab l ∧ Full l :=
  C40_no_panic_partial [.add [119] reWord false, .add [115] reSpace false] [.lex [58], .lex [119]]
    (by simp [Call.isLex]) (by simp [Call.isAdd])

/-- And with a rule for the kind "Error" the interleaving is harmless. -/
example : ∃ l, calls empty ([.add [119] reWord false, .add defaultErrorString reTest false] ++
    [.lex [58], .add [115] reSpace false, .lex [119]]) = .ok l ∧ Tab l ∧ Full l :=
  C40_error_rule_partial _ _ (by simp [Call.isLex])
    (by
      intro l h
      simp only [calls, call, Out.bind_ok, Out.ok.injEq] at h
      subst h
      decide +kernel)
    (by simp [Call.isSetError])

/-- C42: with inserted lexemes, also for the empty input. -/
example : result (lex 20 (insertEnd (insertStart testLexer [65] [66]) [67] [68]) []) =
    some [⟨some [65], [66], -1, 0, false⟩, ⟨some [67], [68], -1, 0, false⟩] := by decide +kernel

/-- C41: a duplicate. -/
example : (add testLexer [119] reSpace true).2 = false := by
  rw [show testLexer = addAll testCalls from rfl, (C41_duplicate testCalls [119] reSpace true).1]
  simp [testCalls]

end Verif.Props.SimpleLexer
