import Verif.Proofs.StackLexerSafe
import Verif.Props.SimpleLexer
/-
C43–C45, C48, C60–C62 and the stack lexer half of C37: lexer/stacklexer/lex.go. Regular expressions
are arbitrary functions with in-bounds results (C37, C43, C45 no panics, C48, C61, C62), or leftmost
searches of arbitrary context-independent matchers that never match the empty string (C44, C45
discipline, C60).
-/
namespace Verif.Props.StackLexer
open Verif Verif.SetSymbol Verif.StackLexer Verif.Spec
open Verif.SimpleLexer (Bytes Lx Kind lastNl countNl slice slice_eq)
open Verif.Props.SimpleLexer (seen inserted lineOf colOf)

/-! ### Specification -/

/-- The text contributed by an element of a rewriting, `secs` being the bounds of the match and of its
groups in the text `x` that was searched: a literal, or the text of a section, empty for a group that
took no part. -/
def part (x : Bytes) (secs : List (Int × Int)) (s : Submatch) : Bytes :=
  if s.section_ = -1 then s.str else
  match secs[s.section_.toNat]? with
  | some (i, j) => if 0 ≤ i then (x.drop i.toNat).take (j - i).toNat else []
  | none => []

/-- The value of a lexeme for a match: its text, or the rewriting of it. -/
def made (r : Rule) (x : Bytes) (a e : Nat) (g : List (Int × Int)) : Bytes :=
  match r.submatches with
  | none => (x.drop a).take (e - a)
  | some ss => ss.flatMap (part x ((a, e) :: g))

/-- The rule of the sub-lexer, searched for from a position `c ≤ p`, was found at `[p, p+n)`, and the
value is made of that match. -/
def Found (b : Bytes) (_ : Mode) (s : Sub) (p : Nat) (k : Tok) (n : Nat) : Prop :=
  some k.1 ∈ s.rules ∧ ∃ c ≤ p, ∃ g, k.1.re.find (b.drop c) = some (p - c, p - c + n, g) ∧
    k.2 = made k.1 (b.drop c) (p - c) (p - c + n) g

/-- What should be seen for a piece: nothing for a discarded match. `ek` is the error kind. -/
def emitted (ek : Nat) : Seg Tok → Option (Kind × Bytes × Bool)
  | .tok (r, val) _ => if r.discard then none else some (.idx r.kind, val, false)
  | .err v => some (.idx ek, v, true)

/-- No two neighbouring pieces are errors. -/
def NoAdjacentErrors (segs : List (Seg Tok)) : Prop :=
  List.IsChain (fun a b : Seg Tok => ¬ (a.isErr = true ∧ b.isErr = true)) segs

/-- Where a rule leads: `k > 0` carets pop, a name pushes the sub-lexer of that name. -/
def leads (lexers : Bytes → Option Sub) (k : Tok) : Option (Move Sub) :=
  match k.1.pop, k.1.push with
  | 0, [] => some .stay
  | 0, name => (lexers name).map .push
  | k, _ => some (.pop k)

theorem leads_eq (lexers : Bytes → Option Sub) :
    leads lexers = fun k => moveOf lexers k.1 := by
  funext k
  unfold leads moveOf
  cases h1 : k.1.pop with
  | zero =>
    cases h2 : k.1.push with
    | nil => simp
    | cons x xs => simp
  | succ n => simp

/-! ### Auxiliary facts -/

theorem run_mono {takes takes' : Mode → σ → Nat → κ → Nat → Prop} {dead dead' : σ → Nat → Prop}
    {move : κ → Option (Move σ)} {b : Bytes} {f : Mode} {st : List σ} {p : Nat} {segs : List (Seg κ)}
    (h : Run takes dead move b f st p segs)
    (ht : ∀ f s p k n, 0 < n → takes f s p k n → takes' f s p k n)
    (hd : ∀ s p, p < b.length → dead s p → dead' s p) : Run takes' dead' move b f st p segs := by
  induction h with
  | done => exact .done
  | last h pos le => exact .last (ht _ _ _ _ _ pos h) pos le
  | tok h pos lt hm fits rest ih => exact .tok (ht _ _ _ _ _ pos h) pos lt hm fits ih
  | fall lt h rest ih => exact .fall lt (hd _ _ lt h) ih
  | err pos le h stop rest ih =>
    refine .err pos le (fun i h1 h2 => hd _ i (by omega) (h i h1 h2)) ?_ ih
    rcases stop with h | ⟨k, n, h1, h2⟩
    · exact .inl h
    · exact .inr ⟨k, n, h1, ht _ _ _ _ _ h1 h2⟩

theorem run_cover {takes : Mode → σ → Nat → κ → Nat → Prop} {dead : σ → Nat → Prop}
    {move : κ → Option (Move σ)} {b : Bytes} {f : Mode} {st : List σ} {p : Nat} {segs : List (Seg κ)}
    (h : Run takes dead move b f st p segs) : cover segs = b.drop p := by
  induction h with
  | done => simp [cover]
  | @last _ _ _ p _ n h pos le =>
    simp only [cover, List.flatMap_cons, List.flatMap_nil, List.append_nil, Seg.val]
    rw [List.take_of_length_le]
    simp only [List.length_drop]; omega
  | @tok _ _ _ p k n _ segs h pos le _ _ rest ih =>
    unfold cover at ih ⊢
    rw [List.flatMap_cons, ih, Seg.val, ← List.drop_drop, List.take_append_drop]
  | fall lt h rest ih => exact ih
  | @err _ _ p q segs pos le h stop rest ih =>
    unfold cover at ih ⊢
    rw [List.flatMap_cons, ih, Seg.val]
    have e : b.drop q = (b.drop p).drop (q - p) := by
      rw [List.drop_drop]; congr 1; omega
    rw [e, List.take_append_drop]

theorem run_pieces {takes : Mode → σ → Nat → κ → Nat → Prop} {dead : σ → Nat → Prop}
    {move : κ → Option (Move σ)} {b : Bytes} {f : Mode} {st : List σ} {p : Nat} {segs : List (Seg κ)}
    (h : Run takes dead move b f st p segs) {k : κ} {v : Bytes} (hm : .tok k v ∈ segs) :
    ∃ f s p n, takes f s p k n ∧ 0 < n ∧ p + n ≤ b.length ∧ v = (b.drop p).take n := by
  induction h with
  | done => cases hm
  | last h pos le =>
    simp only [List.mem_singleton, Seg.tok.injEq] at hm
    obtain ⟨rfl, rfl⟩ := hm
    exact ⟨_, _, _, _, h, pos, by omega, rfl⟩
  | tok h pos lt _ _ rest ih =>
    rcases List.mem_cons.1 hm with hm | hm
    · simp only [Seg.tok.injEq] at hm
      obtain ⟨rfl, rfl⟩ := hm
      exact ⟨_, _, _, _, h, pos, by omega, rfl⟩
    · exact ih hm
  | fall lt h rest ih => exact ih hm
  | err pos le h stop rest ih =>
    rcases List.mem_cons.1 hm with hm | hm
    · cases hm
    · exact ih hm

theorem pre_eq (l : Lexer) : pre l = inserted l.startKind l.startVal := by
  unfold pre inserted SimpleLexer.insertLx
  by_cases h : l.startKind = [] <;> simp [h]

theorem post_eq (l : Lexer) : post l = inserted l.endKind l.endVal := by
  unfold post inserted SimpleLexer.insertLx
  by_cases h : l.endKind = [] <;> simp [h]

theorem render_seen (b : Bytes) (ek p ln c : Nat) (segs : List (Seg Tok)) :
    (render b ek p ln c segs).map seen = segs.filterMap (emitted ek) := by
  induction segs generalizing p ln c with
  | nil => rfl
  | cons s segs ih =>
    cases s with
    | tok k v =>
      obtain ⟨r, val⟩ := k
      by_cases hd : r.discard = true <;> simp [render, emitted, hd, ih, seen]
    | err v => simp [render, emitted, ih, seen]

private theorem subPiece_part {b : Bytes} {r : Rule} {loc : Loc} 
    (hf : r.re.find (b.drop loc.off) = some (loc.a, loc.e, loc.groups)) {s : Submatch} {v : Bytes}
    (h : subPiece b loc s = .ok v) : v = part (b.drop loc.off) ((loc.a, loc.e) :: loc.groups) s := by
  unfold subPiece at h
  unfold part
  by_cases hs : s.section_ = -1
  · rw [if_pos hs] at h ⊢; exact (Out.ok.inj h).symm
  rw [if_neg hs] at h ⊢
  by_cases h0 : s.section_ < 0
  · unfold sectionOf at h; rw [if_pos h0] at h; cases h
  rw [sectionOf_eq loc (by omega)] at h
  cases hy : ((loc.a, loc.e) :: loc.groups : List (Int × Int))[s.section_.toNat]? with
  | none => rw [hy] at h; cases h
  | some y =>
    obtain ⟨i, j⟩ := y
    rw [hy] at h
    simp only at h ⊢
    unfold goSlice at h
    split at h
    · next hc =>
      have h := Out.ok.inj h
      rcases section_bound hf hy with hb | ⟨h1, h2, h3⟩
      · cases hb
        rw [if_neg (by omega)]
        rw [← h, slice_eq]; simp
      · simp only at h1 h2 h3
        rw [if_pos h1, ← h, slice_eq, List.drop_drop]
        congr 1
        · omega
        · congr 1; omega
    · cases h

theorem value_made {b : Bytes} {r : Rule} {loc : Loc}
    (hf : r.re.find (b.drop loc.off) = some (loc.a, loc.e, loc.groups)) {v : Bytes}
    (h : value b r loc = .ok v) : v = made r (b.drop loc.off) loc.a loc.e loc.groups := by
  unfold value at h
  unfold made
  cases hm : r.submatches with
  | none =>
    rw [hm] at h
    rw [← Out.ok.inj h, slice_eq, List.drop_drop]
    congr 1; omega
  | some ss =>
    rw [hm] at h
    simp only at h ⊢
    clear hm
    induction ss generalizing v with
    | nil => exact (Out.ok.inj h).symm
    | cons s ss ih =>
      simp only [subValue, Out.bind_eq_ok] at h
      obtain ⟨v1, h1, v2, h2, h3⟩ := h
      rw [← Out.ok.inj h3, List.flatMap_cons, ← ih h2, ← subPiece_part hf h1]

theorem claims_found {b : Bytes} {f : Mode} {s : Sub} {p : Nat} {k : Tok} {n : Nat}
    (h : Claims b f s p k n) : Found b f s p k n := by
  obtain ⟨h1, c, h2, g, h3, h4⟩ := h
  exact ⟨h1, c, h2, g, h3, value_made (loc := ⟨p - c, p - c + n, g, c⟩) h3 h4⟩

/-- The result of `Lex` whenever it returns, from the loop theorem. -/
theorem returned {b : Bytes} {takes : Mode → Sub → Nat → Tok → Nat → Prop}
    {dead : Sub → Nat → Prop} {D : Sub → Prop} {V : Sub → Mode → List Ent → Nat → Prop} {l : Lexer}
    (G : Good l.compare b takes dead D V) {s : Sub} (hs : l.start = some s) (hDs : D s)
    (hD : ∀ x t, l.lexers x = some t → D t) {lxs : List Lx} {l' : Lexer}
    (h : Out.Returns (fun n => lex n l b) (lxs, l')) :
    ∃ segs, Run takes dead (leads l.lexers) b .taken [s] 0 segs ∧ NoAdjacentErrors segs ∧
      lxs = inserted l.startKind l.startVal ++ render b (str l.set l.error).2 0 1 0 segs ++
        inserted l.endKind l.endVal ∧ l' = { l with set := (str l.set l.error).1 } := by
  obtain ⟨N, hN⟩ := h
  have h := hN (N + (2 * b.length + 1)) (by omega)
  rcases lex_spec G hs hDs hD (n := N + (2 * b.length + 1)) (by omega) with h1 | ⟨segs, h1, h2, h3⟩
  · simp only [h1] at h; cases h
  · simp only [h3] at h
    have h := Out.ok.inj h
    simp only [Prod.mk.injEq] at h
    refine ⟨segs, by rw [leads_eq]; exact h1, h2, ?_, h.2.symm⟩
    rw [← pre_eq, ← post_eq]
    exact h.1.symm

/-! ### C37, C43, C62 -/

/-- C37: `Lex` of a stack lexer never runs forever: it returns or panics. -/
theorem C37_stack_terminates (l : Lexer) (b : Bytes) :
    (∃ r, Out.Returns (fun n => lex n l b) r) ∨ Out.Panics (fun n => lex n l b) := by
  cases hs : l.start with
  | none =>
    right
    refine ⟨0, fun n _ => ?_⟩
    show lex n l b = _
    unfold lex; rw [hs]
  | some s =>
    rcases lex_spec (good_any l.compare b) hs trivial (fun _ _ _ => trivial)
      (Nat.le_refl (2 * b.length + 1)) with h | ⟨segs, -, -, h⟩
    · exact .inr ⟨_, fun n hn => (lex_mono l b _ _ hn).panic h⟩
    · exact .inl ⟨_, _, fun n hn => (lex_mono l b _ _ hn).ok h⟩

/-- C43, C45, C62, and C37: for every stack lexer, whatever its regexps and mode, and every input on
which `Lex` returns, the input is cut into consecutive non-empty pieces such that: the lexemes are, in
order, those of the pieces (none for a discarded match) between the inserted ones; a piece of a rule is
where a search for its regexp found it, under the sub-lexer that is current there according to the
pushes and pops (with `fall`ing back to the sub-lexer below before anything becomes an error); its
value is the text, or the rewriting of it; no two error pieces are neighbours. -/
theorem C43_lossless (l : Lexer) (b : Bytes) (lxs : List Lx) (l' : Lexer)
    (h : Out.Returns (fun n => lex n l b) (lxs, l')) :
    ∃ s segs, l.start = some s ∧ cover segs = b ∧
      lxs.map seen = (inserted l.startKind l.startVal).map seen ++
        segs.filterMap (emitted (str l.set l.error).2) ++ (inserted l.endKind l.endVal).map seen ∧
      Run (Found b) (fun _ _ => True) (leads l.lexers) b .taken [s] 0 segs ∧ NoAdjacentErrors segs := by
  cases hs : l.start with
  | none =>
    obtain ⟨N, hN⟩ := h
    have := hN N (Nat.le_refl _)
    simp only [lex, hs] at this
    cases this
  | some s =>
    obtain ⟨segs, h1, h2, h3, -⟩ := returned (good_any l.compare b) hs trivial (fun _ _ _ => trivial) h
    refine ⟨s, segs, rfl, by simpa using run_cover h1, ?_,
      run_mono h1 (fun _ _ _ _ _ _ h => claims_found h) (fun _ _ _ h => h), h2⟩
    rw [h3, List.map_append, List.map_append, render_seen]

/-- C43: without rewriting, discarding rules and inserted lexemes, the values of the lexemes
concatenate to the input. -/
theorem C43_values (l : Lexer) (b : Bytes) (lxs : List Lx) (l' : Lexer)
    (h : Out.Returns (fun n => lex n l b) (lxs, l'))
    (hr : ∀ s, Reach l s → ∀ r, some r ∈ s.rules → r.submatches = none ∧ r.discard = false)
    (hs : l.startKind = []) (he : l.endKind = []) : lxs.flatMap Lx.val = b := by
  cases hst : l.start with
  | none =>
    obtain ⟨N, hN⟩ := h
    have := hN N (Nat.le_refl _)
    simp only [lex, hst] at this
    cases this
  | some s =>
  have G : Good l.compare b (fun f s p k n => Reach l s ∧ Claims b f s p k n) (fun _ _ => True) (Reach l)
      (fun s _ es cur => Reach l s ∧ VAny b s es cur) := by
    have G := good_any l.compare b
    exact {
      stop := fun _ _ _ _ _ _ _ => trivial
      go := fun s f es cur hV r loc hc => by
        obtain ⟨h1, h2, h3, h4⟩ := G.go s f es cur hV.2 r loc hc
        exact ⟨h1, h2, h3, fun v hv hne => ⟨hV.1, h4 v hv hne⟩⟩
      populate := fun s cur hs hb => ⟨hs, G.populate s cur trivial hb⟩
      update := fun s f es cur cur' h h1 h2 => ⟨h.1, G.update s f es cur cur' h.2 h1 h2⟩
      stay := fun s f es cur h h1 h2 => ⟨h.1, G.stay s f es cur h.2 h1 h2⟩ }
  obtain ⟨segs, h1, h2, h3, -⟩ := returned G hst (.inl hst) (fun x t ht => .inr ⟨x, ht⟩) h
  have hc : cover segs = b := by simpa using run_cover h1
  have hp : ∀ k v, Seg.tok k v ∈ segs → k.2 = v ∧ k.1.discard = false := by
    intro k v hm
    obtain ⟨f, t, p, n, ⟨hR, hC⟩, -, -, rfl⟩ := run_pieces h1 hm
    obtain ⟨hr1, hr2⟩ := hr t hR k.1 hC.1
    obtain ⟨-, c, h4, g, -, h6⟩ := claims_found hC
    refine ⟨?_, hr2⟩
    rw [h6, made, hr1]
    simp only
    rw [List.drop_drop]
    congr 1
    · omega
    · congr 1; omega
  have key : ∀ (segs : List (Seg Tok)) p ln c, (∀ k v, Seg.tok k v ∈ segs → k.2 = v ∧ k.1.discard = false) →
      (render b (str l.set l.error).2 p ln c segs).flatMap Lx.val = cover segs := by
    intro segs
    induction segs with
    | nil => intros; rfl
    | cons s segs ih =>
      intro p ln c hp
      have ih := fun p ln c => ih p ln c fun k v hm => hp k v (List.mem_cons_of_mem _ hm)
      cases s with
      | tok k v =>
        obtain ⟨e1, e2⟩ := hp k v (List.mem_cons_self ..)
        obtain ⟨r, val⟩ := k
        simp only at e1 e2
        simp only [render, e2, cover, List.flatMap_append, ih, List.flatMap_cons, Seg.val]
        simp [e1]
      | err v => simp only [render, cover, List.flatMap_cons, ih, Seg.val]
  rw [h3, hs, he]
  simp only [inserted, if_true, List.nil_append, List.append_nil]
  rw [key segs 0 1 0 hp, hc]

/-! ### C44, C45, C60 -/

/-- C44 and C45, the part that holds: for lexers in the default mode whose rules search leftmost for
what context-independent matchers `m` match, never the empty string, every input on which `Lex`
returns is cut according to the stack discipline, where a position is given up by a sub-lexer only when
none of its rules matches there, and every piece of a rule is the longest match among the rules of the
current sub-lexer, ties going to the higher priority — except after an error that follows a token of
the same sub-lexer (mode `later`, see `C44_refuted`). For UTF-8 regexps the positions considered are
rune starts. -/
theorem C44_longest_partial (l : Lexer) (hc : l.compare = lengthThenPriority)
    (m : Rule → Bytes → Option Nat) (step : Bytes → Nat) (hsync : Sync step)
    (hR : ∀ s, Reach l s → ∀ r, some r ∈ s.rules →
      Leftmost step (m r) r.re.bounds ∧ (∀ x, m r x ≠ some 0) ∧ 0 ≤ r.priority)
    (b : Bytes) (lxs : List Lx) (l' : Lexer) (h : Out.Returns (fun n => lex n l b) (lxs, l')) :
    ∃ s segs, l.start = some s ∧ cover segs = b ∧ NoAdjacentErrors segs ∧
      lxs.map seen = (inserted l.startKind l.startVal).map seen ++
        segs.filterMap (emitted (str l.set l.error).2) ++ (inserted l.endKind l.endVal).map seen ∧
      Run (fun f s p k n => Found b f s p k n ∧ m k.1 (b.drop p) = some n ∧
          (Bd step b p → f ≠ .later →
            Wins (fun r => some r ∈ s.rules) m (fun r => r.priority) (b.drop p) k.1 n))
        (fun s p => Bd step b p → ∀ r, some r ∈ s.rules → m r (b.drop p) = none)
        (leads l.lexers) b .taken [s] 0 segs := by
  obtain ⟨s, -, hs, -⟩ := C43_lossless l b lxs l' h
  obtain ⟨segs, h1, h2, h3, -⟩ := returned (l := l) (hc ▸ good_longest (m := m) hsync b) hs
    (hR s (.inl hs)) (fun x t ht => hR t (.inr ⟨x, ht⟩)) h
  refine ⟨s, segs, hs, by simpa using run_cover h1, h2, ?_,
    run_mono h1 (fun _ _ _ _ _ _ h => ⟨claims_found h.1, h.2.1, fun hB hf => h.2.2 hB hf⟩)
      (fun _ _ _ h => h)⟩
  rw [h3, List.map_append, List.map_append, render_seen]

/-- C60: in priority mode, for the same lexers, every piece of a rule belongs to the rule with the
highest priority among the rules of the current sub-lexer that match there. -/
theorem C60_priority (l : Lexer) (hc : l.compare = priorityThenLength)
    (m : Rule → Bytes → Option Nat) (step : Bytes → Nat) (hsync : Sync step)
    (hR : ∀ s, Reach l s → ∀ r, some r ∈ s.rules →
      Leftmost step (m r) r.re.bounds ∧ (∀ x, m r x ≠ some 0) ∧ 0 ≤ r.priority)
    (b : Bytes) (lxs : List Lx) (l' : Lexer) (h : Out.Returns (fun n => lex n l b) (lxs, l')) :
    ∃ s segs, l.start = some s ∧ cover segs = b ∧ NoAdjacentErrors segs ∧
      lxs.map seen = (inserted l.startKind l.startVal).map seen ++
        segs.filterMap (emitted (str l.set l.error).2) ++ (inserted l.endKind l.endVal).map seen ∧
      Run (fun f s p k n => Found b f s p k n ∧ m k.1 (b.drop p) = some n ∧
          (Bd step b p → ∀ j n', some j ∈ s.rules → m j (b.drop p) = some n' →
            k.1.priority ≤ j.priority))
        (fun s p => Bd step b p → ∀ r, some r ∈ s.rules → m r (b.drop p) = none)
        (leads l.lexers) b .taken [s] 0 segs := by
  obtain ⟨s, -, hs, -⟩ := C43_lossless l b lxs l' h
  obtain ⟨segs, h1, h2, h3, -⟩ := returned (l := l) (hc ▸ good_foremost (m := m) hsync b) hs
    (hR s (.inl hs)) (fun x t ht => hR t (.inr ⟨x, ht⟩)) h
  refine ⟨s, segs, hs, by simpa using run_cover h1, h2, ?_,
    run_mono h1 (fun _ _ _ _ _ _ h => ⟨claims_found h.1, h.2.1, fun hB => h.2.2 hB⟩)
      (fun _ _ _ h => h)⟩
  rw [h3, List.map_append, List.map_append, render_seen]

/-- C45, the part that holds of "no rule combination makes Lex panic": if the outermost sub-lexer has
no pop rule, every push target is defined, and rewritings only use the whole match and groups that
always take part, then `Lex` returns on every input. -/
theorem C45_no_panic_partial (l : Lexer) (s0 : Sub) (hs : l.start = some s0)
    (hpop : ∀ r, some r ∈ s0.rules → r.pop = 0)
    (hpush : ∀ s, Reach l s → ∀ r, some r ∈ s.rules → r.pop = 0 → r.push ≠ [] →
      ∃ t, l.lexers r.push = some t)
    (hsub : ∀ s, Reach l s → ∀ r, some r ∈ s.rules → SafeSubs r) (b : Bytes) :
    ∃ lxs l', Out.Returns (fun n => lex n l b) (lxs, l') := by
  rcases C37_stack_terminates l b with ⟨⟨lxs, l'⟩, h⟩ | ⟨N, h⟩
  · exact ⟨lxs, l', h⟩
  · exact absurd (h N (Nat.le_refl _)) (safe_lex ⟨hs, hpop, hpush, hsub⟩ b N)

/-! ### C48 -/

/-- The newlines in the first piece if it is a token. -/
def nextNl : List (Seg Tok) → Nat
  | .tok _ u :: _ => u.count 10
  | _ => 0

/-- Pieces with the positions where they start, the newlines in the error piece just before (for a
token), and the newlines in the token just after (for an error). -/
def placedC : Nat → Nat → List (Seg Tok) → List (Nat × Nat × Seg Tok)
  | _, _, [] => []
  | p, c, .tok k v :: segs => (p, c, .tok k v) :: placedC (p + v.length) 0 segs
  | p, _, .err v :: segs =>
    (p, nextNl segs, .err v) :: placedC (p + v.length) (v.count 10) segs

/-- Pieces with the positions where they start. -/
def placed : Nat → List (Seg Tok) → List (Nat × Seg Tok)
  | _, [] => []
  | p, s :: segs => (p, s) :: placed (p + s.val.length) segs

/-- Lexeme that should be seen for a placed piece: the position is that of its first byte, lines and
columns counted from 1. -/
def shown (b : Bytes) (ek : Nat) : Nat × Seg Tok → Option Lx
  | (p, .tok (r, val) _) =>
    if r.discard then none else some ⟨.idx r.kind, val, 1 + lineOf b p, colOf b p, false⟩
  | (p, .err v) => some ⟨.idx ek, v, 1 + lineOf b p, colOf b p, true⟩

/-- Lexeme that is seen. -/
def shownC (b : Bytes) (ek : Nat) : Nat × Nat × Seg Tok → Option Lx
  | (p, c, .tok (r, val) _) =>
    if r.discard then none else some ⟨.idx r.kind, val, 1 + lineOf b p - c, colOf b p, false⟩
  | (p, c, .err v) =>
    some ⟨.idx ek, v, 1 + lineOf b p + c, colOf b (p + v.length) - v.length, true⟩

theorem lineOf_add {b : Bytes} (p n : Nat) : lineOf b (p + n) = lineOf b p + ((b.drop p).take n).count 10 := by
  unfold lineOf
  rw [List.take_add, List.count_append]

theorem colAt_eq {b : Bytes} {p : Nat} (h : p ≤ b.length) : colAt b p = colOf b p := by
  have := Props.SimpleLexer.col_eq (b.take p)
  rw [List.length_take, Nat.min_eq_left h] at this
  unfold colAt
  rw [this]
  rfl

theorem colOf_add {b : Bytes} (p n : Nat) (hle : p + n ≤ b.length)
    (h : (10 : UInt8) ∉ (b.drop p).take n) : colOf b (p + n) = colOf b p + n := by
  unfold colOf
  rw [List.take_add, List.reverse_append, List.takeWhile_append_of_pos]
  · simp only [List.length_append, List.length_reverse, List.length_take, List.length_drop]
    omega
  · intro x hx
    rw [List.mem_reverse] at hx
    simp only [bne_iff_ne, ne_eq]
    rintro rfl
    exact h hx

private theorem segs_of_cover {segs : List (Seg Tok)} {b : Bytes} {p : Nat} {s : Seg Tok}
    (h : cover (s :: segs) = b.drop p) (hp : p ≤ b.length) :
    p + s.val.length ≤ b.length ∧ s.val = (b.drop p).take s.val.length ∧
      cover segs = b.drop (p + s.val.length) := by
  unfold cover at *
  rw [List.flatMap_cons] at h
  refine ⟨?_, ?_, ?_⟩
  · have := congrArg List.length h
    rw [List.length_append, List.length_drop] at this
    omega
  · rw [← h]; simp
  · rw [← List.drop_drop, ← h]; simp

private theorem render_pos (b : Bytes) (ek : Nat) : ∀ (segs : List (Seg Tok)) (p ln c : Nat),
    cover segs = b.drop p → p ≤ b.length → NoAdjacentErrors segs →
    (c ≠ 0 → segs.head?.any Seg.isErr = false) → ln + c = 1 + lineOf b p →
    render b ek p ln c segs = (placedC p c segs).filterMap (shownC b ek) := by
  intro segs
  induction segs with
  | nil => intros; rfl
  | cons s segs ih =>
    intro p ln c hcov hp hch hc hln
    obtain ⟨h1, h2, h3⟩ := segs_of_cover hcov hp
    have hch' : NoAdjacentErrors segs := by
      unfold NoAdjacentErrors at hch ⊢
      cases segs with
      | nil => simp
      | cons t ts => exact (List.isChain_cons_cons.1 hch).2
    have hadd := lineOf_add (b := b) p s.val.length
    rw [← h2] at hadd
    cases s with
    | tok k v =>
      obtain ⟨r, val⟩ := k
      simp only [Seg.val] at h1 h2 h3 hadd
      have hr := ih (p + v.length) (ln + countNl v + c) 0 h3 h1 hch' (by simp)
        (by unfold countNl; show ln + List.count 10 v + c + 0 = _; omega)
      simp only [render, placedC, List.filterMap_cons, shownC, hr, colAt_eq hp]
      have e : (1 + (lineOf b p : Int) - c) = ln := by omega
      rw [e]
      by_cases hd : r.discard = true <;> simp [hd]
    | err v =>
      simp only [Seg.val] at h1 h2 h3 hadd
      have hc0 : c = 0 := by
        by_contra hne
        have := hc hne
        simp [Seg.isErr] at this
      subst hc0
      have hhead : segs.head?.any Seg.isErr = false := by
        cases segs with
        | nil => rfl
        | cons t ts =>
          have : ¬ ((Seg.err v : Seg Tok).isErr = true ∧ t.isErr = true) := by
            unfold NoAdjacentErrors at hch
            exact (List.isChain_cons_cons.1 hch).1
          simpa [Seg.isErr] using this
      have hr := ih (p + v.length) ln (countNl v) h3 h1 hch' (fun _ => hhead)
        (by unfold countNl; show ln + List.count 10 v = _; omega)
      simp only [render, placedC, List.filterMap_cons, shownC, hr, colAt_eq h1]
      congr 2
      have : nlHead segs = nextNl segs := by
        unfold nlHead countNl nextNl
        cases segs with
        | nil => rfl
        | cons t ts => cases t <;> rfl
      rw [← this]
      push_cast
      omega

/-- C48, what the positions are. A lexeme of a rule carries its true column and, as line, the true
line minus the newlines in an error piece directly before it. An error lexeme carries, as line, that of
its first byte plus the newlines in the token directly after it and, as column, that of the position
after it minus its length. -/
theorem C48_exact (l : Lexer) (b : Bytes) (lxs : List Lx) (l' : Lexer)
    (h : Out.Returns (fun n => lex n l b) (lxs, l')) :
    ∃ s segs, l.start = some s ∧
      Run (Found b) (fun _ _ => True) (leads l.lexers) b .taken [s] 0 segs ∧ NoAdjacentErrors segs ∧
      lxs = inserted l.startKind l.startVal ++
        (placedC 0 0 segs).filterMap (shownC b (str l.set l.error).2) ++ inserted l.endKind l.endVal := by
  obtain ⟨s, -, hs, -⟩ := C43_lossless l b lxs l' h
  obtain ⟨segs, h1, h2, h3, -⟩ := returned (good_any l.compare b) hs trivial (fun _ _ _ => trivial) h
  refine ⟨s, segs, hs, run_mono h1 (fun _ _ _ _ _ _ h => claims_found h) (fun _ _ _ h => h), h2, ?_⟩
  rw [h3, render_pos b _ segs 0 1 0 (run_cover h1) (Nat.zero_le _) h2 (by simp)
    (by simp [lineOf])]

/-- No error piece contains a newline, nor does a token directly after one. -/
def Calm : List (Seg Tok) → Prop
  | [] => True
  | .tok _ _ :: segs => Calm segs
  | .err v :: segs => (10 : UInt8) ∉ v ∧ nextNl segs = 0 ∧ Calm segs

private theorem placedC_calm (b : Bytes) (ek : Nat) : ∀ (segs : List (Seg Tok)) (p : Nat),
    cover segs = b.drop p → p ≤ b.length → Calm segs →
    (placedC p 0 segs).filterMap (shownC b ek) = (placed p segs).filterMap (shown b ek) := by
  intro segs
  induction segs with
  | nil => intros; rfl
  | cons s segs ih =>
    intro p hcov hp hc
    obtain ⟨h1, h2, h3⟩ := segs_of_cover hcov hp
    cases s with
    | tok k v =>
      obtain ⟨r, val⟩ := k
      simp only [Seg.val] at h1 h3
      simp only [placedC, placed, List.filterMap_cons, shownC, shown, Seg.val, ih _ h3 h1 hc]
      simp
    | err v =>
      simp only [Seg.val] at h1 h2 h3
      obtain ⟨g1, g2, g3⟩ := hc
      have e0 : v.count 10 = 0 := List.count_eq_zero.2 g1
      have e1 : colOf b (p + v.length) = colOf b p + v.length :=
        colOf_add p v.length h1 (by rw [← h2]; exact g1)
      simp only [placedC, placed, List.filterMap_cons, shownC, shown, Seg.val, e0, ih _ h3 h1 g3, e1]
      rw [g2]
      congr 2
      push_cast; omega

/-- C48, the part that holds: when no error piece and no token directly after one contains a newline,
every lexeme carries the line and column of its first byte, counted from 1. -/
theorem C48_positions_partial (l : Lexer) (b : Bytes) (lxs : List Lx) (l' : Lexer)
    (h : Out.Returns (fun n => lex n l b) (lxs, l')) :
    ∃ s segs, l.start = some s ∧
      Run (Found b) (fun _ _ => True) (leads l.lexers) b .taken [s] 0 segs ∧
      (Calm segs → lxs = inserted l.startKind l.startVal ++
        (placed 0 segs).filterMap (shown b (str l.set l.error).2) ++ inserted l.endKind l.endVal) := by
  obtain ⟨s, segs, h1, h2, -, h4⟩ := C48_exact l b lxs l' h
  refine ⟨s, segs, h1, h2, fun hc => ?_⟩
  rw [h4, placedC_calm b _ segs 0 (run_cover h2) (Nat.zero_le _) hc]

/-! ### C61 -/

/-- C61: lexing leaves nothing behind: whatever was lexed before, an input gives the same lexemes. -/
theorem C61_same_result (l l1 : Lexer) (b1 : Bytes) (lxs1 : List Lx)
    (h1 : Out.Returns (fun n => lex n l b1) (lxs1, l1)) (b : Bytes) (n : Nat) :
    (∃ lxs, lex n l b = .ok (lxs, l1) ∧ lex n l1 b = .ok (lxs, l1)) ∨
    (lex n l b = .panic ∧ lex n l1 b = .panic) ∨ (lex n l b = .fuel ∧ lex n l1 b = .fuel) := by
  obtain ⟨s, -, hs, -⟩ := C43_lossless l b1 lxs1 l1 h1
  obtain ⟨-, -, -, -, rfl⟩ := returned (good_any l.compare b1) hs trivial (fun _ _ _ => trivial) h1
  have e1 := SimpleLexer.str_fst_stable (s := l.set) l.error
  have e2 := SimpleLexer.str_snd_stable (s := l.set) l.error
  rw [lex_eq hs, lex_eq (l := { l with set := (str l.set l.error).1 }) hs]
  simp only [e1, e2]
  have : init b { l with set := (str l.set l.error).1 } s = init b l s := rfl
  rw [this]
  have : post { l with set := (str l.set l.error).1 } = post l := rfl
  rw [this]
  cases loop l.compare l.lexers (str l.set l.error).2 b n (init b l s) with
  | ok op => exact .inl ⟨_, rfl, rfl⟩
  | panic => exact .inr (.inl ⟨rfl, rfl⟩)
  | fuel => exact .inr (.inr ⟨rfl, rfl⟩)

/-! ### Concrete lexers -/

/-- A regexp without groups from a prefix matcher. -/
def ofMatch (m : Bytes → Option Nat) (hm : ∀ s n, m s = some n → n ≤ s.length) : Re where
  num := 0
  find := fun s => (search m s.length s).map fun x => (x.1, x.2, [])
  bound := by
    intro s a b g h
    rw [Option.map_eq_some_iff] at h
    obtain ⟨x, h1, h2⟩ := h
    cases h2
    exact search_bound hm _ _ _ _ h1
  groups := by
    intro s a b g h
    rw [Option.map_eq_some_iff] at h
    obtain ⟨x, h1, h2⟩ := h
    cases h2
    simp

theorem ofMatch_leftmost (m : Bytes → Option Nat) (hm : ∀ s n, m s = some n → n ≤ s.length) :
    Leftmost runeLen m (ofMatch m hm).bounds := by
  have : (ofMatch m hm).bounds = fun s => search m s.length s := by
    funext s
    simp [Re.bounds, ofMatch, Option.map_map, Function.comp_def]
  rw [this]
  exact search_leftmost m

def lower (x : UInt8) : Bool := 97 ≤ x && x ≤ 122

/-- `[a-z]+`, `x`, `\n`, `(`, `)`. -/
def reWord : Re := ofMatch (plusM lower) (plusM_bound _)
def reX : Re := ofMatch (litM [120]) (litM_bound _)
def reNl : Re := ofMatch (litM [10]) (litM_bound _)
def reOpen : Re := ofMatch (litM [40]) (litM_bound _)
def reClose : Re := ofMatch (litM [41]) (litM_bound _)

/-- A rule without rewriting. -/
def rule (kind : Nat) (re : Re) (prio : Int) (push : Bytes := []) (pop : Nat := 0) (discard : Bool := false) :
    Option Rule := some ⟨kind, re, discard, prio, push, pop, none⟩

/-- A lexer with an outermost sub-lexer and one called `b`; five kinds. -/
def mkLexer (s : List (Option Rule)) (t : List (Option Rule)) : Lexer where
  lexers := fun x => if x = [97] then some ⟨s⟩ else if x = [98] then some ⟨t⟩ else none
  start := some ⟨s⟩
  set := (str (str (str (str (str (new : SymSet Bytes) [49]).1 [50]).1 [51]).1 [52]).1 [53]).1
  error := [69]
  compare := lengthThenPriority
  startKind := []
  startVal := []
  endKind := []
  endVal := []

/-- The lexemes of a result. -/
def lxsOf (o : Out (List Lx × Lexer)) : Option (List Lx) :=
  match o with
  | .ok r => some r.1
  | _ => none

def panics (o : Out (List Lx × Lexer)) : Bool :=
  match o with
  | .panic => true
  | _ => false

/-- Words and parentheses: `(` pushes `b`, in which `)` pops. -/
def parens : Lexer := mkLexer [rule 0 reWord 0, rule 1 reOpen 1 [98]]
  [rule 0 reWord 0, none, rule 2 reClose 1 [] 1]

def parensM (r : Rule) : Bytes → Option Nat :=
  if r.kind = 0 then plusM lower else if r.kind = 1 then litM [40] else litM [41]

/-- "a(b)c" and "a(:c": in the second, `:` is not lexable in `b`, which is left, nor outside. -/
example : lxsOf (lex 20 parens [97, 40, 98, 41, 99]) = some
      [⟨.idx 0, [97], 1, 1, false⟩, ⟨.idx 1, [40], 1, 2, false⟩, ⟨.idx 0, [98], 1, 3, false⟩,
       ⟨.idx 2, [41], 1, 4, false⟩, ⟨.idx 0, [99], 1, 5, false⟩] ∧
    lxsOf (lex 20 parens [97, 40, 58, 99]) = some
      [⟨.idx 0, [97], 1, 1, false⟩, ⟨.idx 1, [40], 1, 2, false⟩, ⟨.idx 5, [58], 1, 3, true⟩,
       ⟨.idx 0, [99], 1, 4, false⟩] := by decide +kernel

theorem parens_reach {s : Sub} (h : Reach parens s) :
    s = ⟨[rule 0 reWord 0, rule 1 reOpen 1 [98]]⟩ ∨
    s = ⟨[rule 0 reWord 0, none, rule 2 reClose 1 [] 1]⟩ := by
  rcases h with h | ⟨x, h⟩
  · left; exact (Option.some.inj h).symm
  · simp only [parens, mkLexer] at h
    split at h
    · left; exact (Option.some.inj h).symm
    · split at h
      · right; exact (Option.some.inj h).symm
      · cases h

theorem plusM_ne_zero (p : UInt8 → Bool) (x : Bytes) : plusM p x ≠ some 0 := by
  unfold plusM
  split <;> simp_all

theorem litM_ne_zero (w : Bytes) (hw : w ≠ []) (x : Bytes) : litM w x ≠ some 0 := by
  unfold litM
  split <;> simp_all

/-- The hypotheses of C44/C45/C60 on the regexps, met by this lexer. -/
example : ∀ s, Reach parens s → ∀ r, some r ∈ s.rules →
    Leftmost runeLen (parensM r) r.re.bounds ∧ (∀ x, parensM r x ≠ some 0) ∧ 0 ≤ r.priority := by
  intro s hs r hr
  rcases parens_reach hs with rfl | rfl
  all_goals
    simp only [rule, List.mem_cons, Option.some.injEq, List.not_mem_nil, or_false, reduceCtorEq, false_or] at hr
    rcases hr with rfl | rfl
    · exact ⟨ofMatch_leftmost (plusM lower) (plusM_bound _), plusM_ne_zero _, by simp⟩
    · exact ⟨ofMatch_leftmost (litM _) (litM_bound _), litM_ne_zero _ (by simp), by simp⟩

/-- The hypotheses of C45_no_panic_partial, met by this lexer. -/
example (b : Bytes) : ∃ lxs l', Out.Returns (fun n => lex n parens b) (lxs, l') := by
  refine C45_no_panic_partial parens _ rfl ?_ ?_ ?_ b
  · intro r hr
    simp only [rule, List.mem_cons, Option.some.injEq, List.not_mem_nil, or_false] at hr
    rcases hr with rfl | rfl <;> rfl
  · intro s hs r hr _ hp
    rcases parens_reach hs with rfl | rfl
    all_goals
      simp only [rule, List.mem_cons, Option.some.injEq, List.not_mem_nil, or_false, reduceCtorEq, false_or] at hr
      rcases hr with rfl | rfl
      · simp at hp
      · first
          | simp at hp; done
          | exact ⟨_, rfl⟩
  · intro s hs r hr ss hss
    rcases parens_reach hs with rfl | rfl
    all_goals
      simp only [rule, List.mem_cons, Option.some.injEq, List.not_mem_nil, or_false, reduceCtorEq, false_or] at hr
      rcases hr with rfl | rfl <;> cases hss

/-- C44 fails: with the rules `x` and `word /[a-z]+/`, the input "aa:xx" gives, after the error, twice
the lexeme `x`, though `word` matches two bytes there: the match of `x` was searched for from position
0, the one of `word` from position 2, and the ends relative to these positions are compared. -/
theorem C44_refuted :
    lxsOf (lex 20 (mkLexer [rule 0 reX 0, rule 1 reWord 1] []) [97, 97, 58, 120, 120]) = some
      [⟨.idx 1, [97, 97], 1, 1, false⟩, ⟨.idx 5, [58], 1, 3, true⟩, ⟨.idx 0, [120], 1, 4, false⟩,
       ⟨.idx 0, [120], 1, 5, false⟩] ∧
    plusM lower [120, 120] = some 2 ∧ litM [120] [120, 120] = some 1 := by decide +kernel

/-- `a*`. -/
def starA (s : Bytes) : Option Nat := some (s.takeWhile (· == 97)).length

def reStar : Re := ofMatch starA (by
  intro s n h
  cases h
  exact List.Sublist.length_le (List.takeWhile_sublist _))

/-- C44 also fails for a rule that can match the empty string: with `a*` the input "ba" is one error,
though the rule matches one byte at position 1: after an error the cached matches are not renewed. -/
theorem C44_empty_refuted :
    lxsOf (lex 20 (mkLexer [rule 0 reStar 0] []) [98, 97]) = some [⟨.idx 5, [98, 97], 1, 1, true⟩] ∧
    starA [97] = some 1 := by decide +kernel

/-- A regexp matching one byte, with an optional group that takes no part: `.(a)?` on text without
`a`. -/
def reOpt : Re where
  num := 1
  find := fun s => if s = [] then none else some (0, 1, [(-1, -1)])
  bound := by
    intro s a b g h
    split at h
    · cases h
    · next hs =>
      cases h
      exact ⟨by omega, List.length_pos_iff.2 hs⟩
  groups := by
    intro s a b g h
    split at h
    · cases h
    · cases h
      simp

/-- C45 fails: a pop rule in the outermost sub-lexer, a push of an undefined sub-lexer, and a rewriting
with a group that takes no part (at the beginning of the input) each make `Lex` panic; without them the
same inputs are lexed. -/
theorem C45_refuted :
    panics (lex 20 (mkLexer [rule 0 reX 0 [] 1] []) [120, 120]) = true ∧
    panics (lex 20 (mkLexer [rule 0 reX 0 [99]] []) [120, 120]) = true ∧
    panics (lex 20 (mkLexer [some ⟨0, reOpt, false, 0, [], 0, some [⟨1, []⟩]⟩] []) [120, 120]) = true ∧
    panics (lex 20 (mkLexer [rule 0 reX 0] []) [120, 120]) = false := by decide +kernel

/-- C48 fails: in ":\n" the error lexeme, on the first line, is reported on line 2; in "\n:\n:" with a
rule for `x` only, the error lexeme at line 1, column 1 is reported at column -2. -/
theorem C48_refuted :
    lxsOf (lex 20 (mkLexer [rule 0 reNl 0] []) [58, 10]) = some
      [⟨.idx 5, [58], 2, 1, true⟩, ⟨.idx 0, [10], 1, 2, false⟩] ∧
    lineOf [58, 10] 0 = 0 ∧
    lxsOf (lex 20 (mkLexer [rule 0 reX 0] []) [10, 58, 10, 58]) = some
      [⟨.idx 5, [10, 58, 10, 58], 1, -2, true⟩] ∧ colOf [10, 58, 10, 58] 0 = 1 := by decide +kernel

/-- Rewriting (C62): with the elements `"`, whole match, `"`. -/
example : lxsOf (lex 20 (mkLexer [some ⟨0, reWord, false, 0, [], 0, some [⟨-1, [34]⟩, ⟨0, []⟩, ⟨-1, [34]⟩]⟩] [])
    [97, 98]) = some [⟨.idx 0, [34, 97, 98, 34], 1, 1, false⟩] ∧
    made ⟨0, reWord, false, 0, [], 0, some [⟨-1, [34]⟩, ⟨0, []⟩, ⟨-1, [34]⟩]⟩ [97, 98] 0 2 [] =
      [34, 97, 98, 34] := by decide +kernel

/-- Priority mode (C60): the earlier rule `x` wins over the longer `word`. -/
example : lxsOf (lex 20 { mkLexer [rule 0 reX 0, rule 1 reWord 1] [] with compare := priorityThenLength }
    [120, 121]) = some [⟨.idx 0, [120], 1, 1, false⟩, ⟨.idx 1, [121], 1, 2, false⟩] := by decide +kernel

end Verif.Props.StackLexer
