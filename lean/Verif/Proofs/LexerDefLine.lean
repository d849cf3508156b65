import Verif.Proofs.LexerDefRx
import Verif.Model.StackLexerText
/-
Reading the lines of lexer definitions.
-/
namespace Verif.Spec.LexerDef
open Verif Verif.Spec

def cN : Cls := ⟨true, [(47, 47), (9, 10), (12, 13), (32, 32)]⟩

theorem byte_cN (x : UInt8) : cN.byte x = !gap x := by
  have := SimpleLexer.all_bytes (p := fun x => cN.byte x == !gap x) (by decide +kernel) x
  simpa using this

def rName : Rex := .cap 1 (.seq (.cls cN) (.star (.cls cN)))

theorem go_name {t n r : B} (h : Run (fun x => !gap x) t n r) (ne : n ≠ []) (k : Caps UInt8) : go rName (t, k) = some (r, (1, n) :: k) := by
  rw [rName, go_cap, go_free rfl, plus_all' (c := cN) (by decide) (by rw [show cN.byte = fun x => !gap x from funext byte_cN]; exact h) ne]
  obtain ⟨rfl, -⟩ := h
  simp only [Option.map_some]
  rw [take_left]

theorem go_gap {T : Rex} {x : UInt8} (hx : gap x = true) (s : B) (k : Caps UInt8) : go (.seq rName T) (x :: s, k) = none := by
  rw [rName, go_cap_seq rfl]
  have : (Rex.seq (.cls cN) (.star (.cls cN))).ends decode (x :: s) = [] :=
    dead_ends (r := .seq (.cls cN) (.star (.cls cN))) (by decide) (by simp [Rex.dead, byte_cN, hx])
  rw [this]
  rfl

theorem go_empty {T : Rex} (k : Caps UInt8) : go (.seq rName T) ([], k) = none := by
  rw [rName, go_cap_seq rfl, seq_ends, ends_nil]
  rfl

theorem gap_ascii {x : UInt8} (h : gap x = true) : x.toNat < 0x80 := by
  have := SimpleLexer.all_bytes (p := fun x => !gap x || decide (x.toNat < 0x80)) (by decide +kernel) x
  simpa [h] using this

theorem find_of {r : Rex} {s : B} {q : B × Caps UInt8} (h : go r (s, []) = some q) : ∀ n, ∃ m, r.find decode n s = some (m, q.2) := by
  have h : r.first decode s = some q := h
  intro n
  cases n with
  | zero => exact ⟨_, by rw [Rex.find, h]; rfl⟩
  | succ n => exact ⟨_, by rw [Rex.find, h]⟩

theorem find_skip {T : Rex} : ∀ (a t : B) (n : Nat), (∀ x ∈ a, gap x = true) → (Rex.seq rName T).find decode (a.length + n) (a ++ t) = (Rex.seq rName T).find decode n t
  | [], t, n, _ => by simp
  | x :: a, t, n, h => by
    have hx := h x (.head _)
    have h0 : (Rex.seq rName T).first decode (x :: (a ++ t)) = none := go_gap hx _ _
    rw [List.length_cons, show a.length + 1 + n = (a.length + n) + 1 by omega, List.cons_append, Rex.find, h0, decode_ascii (gap_ascii hx)]
    exact find_skip a t n fun y hy => h y (.tail _ hy)

theorem find_blank {T : Rex} {s : B} (h : Blank s) : (Rex.seq rName T).find decode s.length s = none := by
  have := find_skip (T := T) s [] 0 h
  rw [List.append_nil] at this
  rw [← Nat.add_zero s.length, this, Rex.find, show (Rex.seq rName T).first decode [] = none from go_empty _]
  rfl

/-- Finding the match of a line. -/
theorem find_named {T : Rex} {s n r : B} (h : Named s n r) {q : B × Caps UInt8} (hT : go T (r, [(1, n)]) = some q) :
    ∃ m, (Rex.seq rName T).find decode s.length s = some (m, q.2) := by
  obtain ⟨⟨a, t, ⟨rfl, h1, -⟩, h2⟩, ne⟩ := h
  have hg : go (.seq rName T) (t, []) = some q := by
    rw [go_then (go_name h2 ne []) (by rw [hT]; rfl), hT]
  obtain ⟨m, hm⟩ := find_of hg t.length
  exact ⟨m, by rw [List.length_append, find_skip a t _ h1, hm]⟩

/-! ### Simple lexers -/

def rDash (n : Nat) : Rex := .cap n (.alt (ch 45) .eps)

theorem go_dash (n : Nat) (s : B) (k : Caps UInt8) : ∃ r v, go (rDash n) (s, k) = some (r, (n, v) :: k) ∧ (v = [45] ↔ ∃ z, s = 45 :: z) := by
  rw [rDash, go_cap]
  cases s with
  | nil =>
    rw [go_right (by rw [go_ch (by omega)])]
    exact ⟨_, _, rfl, by simp⟩
  | cons x s =>
    by_cases h : x = 45
    · subst h
      rw [go_left (show go (ch 45) (45 :: s, k) = some (s, k) from go_ch_some (x := 45) (by decide) s k)]
      refine ⟨_, _, rfl, ?_⟩
      simp only [List.length_cons, show s.length + 1 - s.length = 1 by omega]
      simp
    · have : ¬ x.toNat = 45 := fun e => h (UInt8.toNat_inj.1 e)
      rw [go_right (by rw [go_ch (by omega)]; simp [this])]
      refine ⟨_, _, rfl, ?_⟩
      simp [h]

theorem ch_slash (q : B × Caps UInt8) : isSlash q.1 = true ↔ (go (ch 47) q).isSome := by
  obtain ⟨s, k⟩ := q
  rw [go_ch (by omega)]
  cases s with
  | nil => simp [isSlash]
  | cons x s =>
    simp only [isSlash, beq_iff_eq]
    by_cases h : x = 47
    · subst h; simp
    · have : ¬ x.toNat = 47 := fun e => h (UInt8.toNat_inj.1 e)
      simp [h, this]

/-- Whatever comes after the opening slash. -/
theorem go_open {T : Rex} {s : B} (k : Caps UInt8) : go (.seq (ch 47) T) (s, k) = match s with | x :: t => if x = 47 then go T (t, k) else none | [] => none := by
  rw [go_seq, run_free (ch 47) rfl, List.findSome?_map, ch_ends (by omega)]
  cases s with
  | nil => rfl
  | cons x s =>
    by_cases h : x = 47
    · subst h
      simp only [show (47 : UInt8).toNat = 47 from rfl, if_true, List.findSome?_cons, List.findSome?_nil, Function.comp]
      cases go T (s, k) <;> rfl
    · have : ¬ x.toNat = 47 := fun e => h (UInt8.toNat_inj.1 e)
      simp [h, this]

def rSimple : Rex := .seq rName (.seq rW (.seq (.alt (.seq (ch 47) (.seq (.cap 2 rBody) (ch 47))) .eps) (.seq rW (rDash 3))))

theorem compile_simple : Regexp.compile SimpleLexer.lexStr = some rSimple := by decide +kernel

/-- What is captured in a line of a simple lexer. -/
theorem simple_caps {s n x : B} {d : Bool} (h : SimpleLine s n x d) :
    ∃ m k, rSimple.find decode s.length s = some (m, k) ∧ group k 1 = n ∧ group k 2 = x ∧ decide (group k 3 = [45]) = d := by
  obtain ⟨r, a, b, t, c, e, h1, h2, h3, h4, h5⟩ := h
  obtain ⟨u, v, g4, hv⟩ := go_dash 3 e ((2, x) :: [(1, n)])
  obtain ⟨u', v', g4', hv'⟩ := go_dash 3 e [(1, n)]
  have hd : decide (v = [45]) = d := by
    cases d with
    | true => simpa using hv.2 (h5.1 rfl)
    | false =>
      simp only [decide_eq_false_iff_not]
      intro hx
      exact absurd (h5.2 (hv.1 hx)) (by simp)
  have hd' : decide (v' = [45]) = d := by
    cases d with
    | true => simpa using hv'.2 (h5.1 rfl)
    | false =>
      simp only [decide_eq_false_iff_not]
      intro hx
      exact absurd (h5.2 (hv'.1 hx)) (by simp)
  rcases h3 with ⟨w, rfl, hc⟩ | ⟨hn, rfl, rfl⟩
  · have g2 : go (.alt (.seq (ch 47) (.seq (.cap 2 rBody) (ch 47))) .eps) (47 :: w, [(1, n)]) = some (t, (2, x) :: [(1, n)]) := by
      refine go_left ?_
      rw [go_open]
      simp only [if_true]
      rw [go_body ch_slash 2 hc]
      exact go_ch_some (x := 47) (by decide) t _
    have g3 : go (.seq rW (rDash 3)) (t, (2, x) :: [(1, n)]) = some (u, (3, v) :: (2, x) :: [(1, n)]) := by
      rw [go_then (go_white h4 _) (by rw [g4]; rfl), g4]
    have g1 : go (.seq (.alt (.seq (ch 47) (.seq (.cap 2 rBody) (ch 47))) .eps) (.seq rW (rDash 3))) (47 :: w, [(1, n)]) = some (u, (3, v) :: (2, x) :: [(1, n)]) := by
      rw [go_then g2 (by rw [g3]; rfl), g3]
    obtain ⟨m, hm⟩ := find_named (T := .seq rW (.seq (.alt (.seq (ch 47) (.seq (.cap 2 rBody) (ch 47))) .eps) (.seq rW (rDash 3)))) h1
      (q := (u, (3, v) :: (2, x) :: [(1, n)])) (by rw [go_then (go_white h2 _) (by rw [g1]; rfl), g1])
    exact ⟨m, _, hm, by simp [group], by simp [group], by simpa [group] using hd⟩
  · have g2 : go (.alt (.seq (ch 47) (.seq (.cap 2 rBody) (ch 47))) .eps) (t, [(1, n)]) = some (t, [(1, n)]) := by
      rw [go_right, go_eps]
      rw [go_open]
      cases t with
      | nil => rfl
      | cons y t =>
        simp only
        split
        · next hy => exact go_body_none ch_slash 2 (fun e r hc => hn t e r (by rw [hy]) hc) _
        · rfl
    have g3 : go (.seq rW (rDash 3)) (t, [(1, n)]) = some (u', (3, v') :: [(1, n)]) := by
      rw [go_then (go_white h4 _) (by rw [g4']; rfl), g4']
    have g1 : go (.seq (.alt (.seq (ch 47) (.seq (.cap 2 rBody) (ch 47))) .eps) (.seq rW (rDash 3))) (t, [(1, n)]) = some (u', (3, v') :: [(1, n)]) := by
      rw [go_then g2 (by rw [g3]; rfl), g3]
    obtain ⟨m, hm⟩ := find_named (T := .seq rW (.seq (.alt (.seq (ch 47) (.seq (.cap 2 rBody) (ch 47))) .eps) (.seq rW (rDash 3)))) h1
      (q := (u', (3, v') :: [(1, n)])) (by rw [go_then (go_white h2 _) (by rw [g1]; rfl), g1])
    exact ⟨m, _, hm, by simp [group], by simp [group], by simpa [group] using hd'⟩

/-- **Reading a line of a simple lexer.** -/
theorem simple_line {s n x : B} {d : Bool} (h : SimpleLine s n x d) : SimpleLexer.lineParts rSimple s = some (n, if x = [] then n else x, d) := by
  obtain ⟨m, k, h1, h2, h3, h4⟩ := simple_caps h
  rw [SimpleLexer.lineParts, h1]
  simp only [Option.map_some, h2, h3, h4]

theorem simple_unique {s n x n' x' : B} {d d' : Bool} (h : SimpleLine s n x d) (h' : SimpleLine s n' x' d') : n = n' ∧ x = x' ∧ d = d' := by
  obtain ⟨m, k, h1, h2, h3, h4⟩ := simple_caps h
  obtain ⟨m', k', h1', h2', h3', h4'⟩ := simple_caps h'
  rw [h1] at h1'
  simp only [Option.some.injEq, Prod.mk.injEq] at h1'
  obtain ⟨-, rfl⟩ := h1'
  exact ⟨h2.symm.trans h2', h3.symm.trans h3', h4.symm.trans h4'⟩

theorem simple_named {s n x : B} {d : Bool} (h : SimpleLine s n x d) : ¬ Blank s := by
  intro hb
  obtain ⟨r, a, b, t, c, e, ⟨⟨a', t', h1, h2⟩, ne⟩, -⟩ := h
  cases n with
  | nil => exact ne rfl
  | cons y n =>
    have := h2.all y (.head _)
    rw [h1.eq, h2.eq] at hb
    simp [hb y (by simp)] at this

theorem simple_blank {s : B} (h : Blank s) : SimpleLexer.lineParts rSimple s = none := by
  rw [SimpleLexer.lineParts, rSimple, find_blank h]
  rfl

/-- Every other line has a name. -/
theorem named_exists {s : B} (h : ¬ Blank s) : ∃ n r, Named s n r := by
  obtain ⟨a, t, h1⟩ := run_exists gap s
  obtain ⟨n, r, h2⟩ := run_exists (fun x => !gap x) t
  refine ⟨n, r, ⟨a, t, h1, h2⟩, ?_⟩
  rintro rfl
  obtain ⟨rfl, ha, hb⟩ := h1
  obtain ⟨he, -, hd⟩ := h2
  rw [List.nil_append] at he
  subst he
  apply h
  cases t with
  | nil => simpa [Blank] using ha
  | cons x r =>
    have e1 := hb x r rfl
    have e2 := hd x r rfl
    simp only [e1] at e2
    cases e2

open Classical in
theorem simple_exists {s : B} (h : ¬ Blank s) : ∃ n x d, SimpleLine s n x d := by
  obtain ⟨n, r, h1⟩ := named_exists h
  obtain ⟨a, b, h2⟩ := run_exists RxByte.space r
  by_cases hc : ∃ v x t, b = 47 :: v ∧ Closed v x t
  · obtain ⟨v, x, t, hb, hc⟩ := hc
    obtain ⟨c, d, h4⟩ := run_exists RxByte.space t
    exact ⟨n, x, decide (∃ z, d = 45 :: z), r, a, b, t, c, d, h1, h2, .inl ⟨v, hb, hc⟩, h4, by simp⟩
  · obtain ⟨c, d, h4⟩ := run_exists RxByte.space b
    exact ⟨n, [], decide (∃ z, d = 45 :: z), r, a, b, b, c, d, h1, h2, .inr ⟨fun v e t hb hcl => hc ⟨v, e, t, hb, hcl⟩, rfl, rfl⟩, h4, by simp⟩

/-! ### Stack lexers -/

def rTail : Rex := .seq (ch 47) (.seq rW rGroup)

def rRe : Rex := .alt (.seq (ch 47) (.seq (.cap 2 rBody) rTail)) .eps

theorem go_tail {r a b g t : B} (h1 : Run RxByte.space r a b) (h2 : GroupPart b g t) (k : Caps UInt8) :
    ∃ k', go rTail (47 :: r, k) = some (t, k') ∧ (k' = (3, g) :: k ∨ k' = k ∧ g = []) := by
  obtain ⟨k', h3, h4⟩ := go_group h2 k
  refine ⟨k', ?_, h4⟩
  rw [rTail, go_open]
  simp only [if_true]
  rw [go_then (go_white h1 k) (by rw [h3]; rfl), h3]

theorem tail_slash (q : B × Caps UInt8) : isSlash q.1 = true ↔ (go rTail q).isSome := by
  obtain ⟨s, k⟩ := q
  cases s with
  | nil => rw [rTail, go_open]; simp [isSlash]
  | cons x s =>
    by_cases h : x = 47
    · subst h
      obtain ⟨a, b, h1⟩ := run_exists RxByte.space s
      obtain ⟨g, t, h2⟩ := group_exists b
      obtain ⟨k', h3, -⟩ := go_tail h1 h2 k
      rw [h3]
      simp [isSlash]
    · rw [rTail, go_open]
      simp [isSlash, h]

theorem go_re {s e g r : B} (h : RePart s e g r) (n : B) : ∃ k, go rRe (s, [(1, n)]) = some (r, k) ∧ group k 1 = n ∧ group k 2 = e ∧ group k 3 = g ∧
    ∀ m, 4 ≤ m → group k m = [] := by
  cases h with
  | @some s e r a b g t hc hr hg =>
    obtain ⟨k', h3, h4⟩ := go_tail hr hg ((2, e) :: [(1, n)])
    refine ⟨k', go_left (by rw [go_open]; simp only [if_true]; rw [go_body tail_slash 2 hc, h3]), ?_⟩
    rcases h4 with rfl | ⟨rfl, rfl⟩
    · refine ⟨by simp [group], by simp [group], by simp [group], fun m hm => ?_⟩
      simp [group, List.find?_cons, show (3 == m) = false by simp; omega, show (2 == m) = false by simp; omega, show (1 == m) = false by simp; omega]
    · refine ⟨by simp [group], by simp [group], by simp [group], fun m hm => ?_⟩
      simp [group, List.find?_cons, show (2 == m) = false by simp; omega, show (1 == m) = false by simp; omega]
  | none hn =>
    refine ⟨[(1, n)], ?_, by simp [group], by simp [group], by simp [group], fun m hm => ?_⟩
    · rw [rRe, go_right, go_eps]
      rw [go_open]
      cases s with
      | nil => rfl
      | cons y t =>
        simp only
        split
        · next hy => exact go_body_none tail_slash 2 (fun e r hc => hn t e r (by rw [hy]) hc) _
        · rfl
    · simp [group, List.find?_cons, show (1 == m) = false by simp; omega]

theorem re_exists (s : B) : ∃ e g r, RePart s e g r := by
  by_cases hc : ∃ v x t, s = 47 :: v ∧ Closed v x t
  · obtain ⟨v, x, t, rfl, hc⟩ := hc
    obtain ⟨a, b, h1⟩ := run_exists RxByte.space t
    obtain ⟨g, t, h2⟩ := group_exists b
    exact ⟨x, g, t, .some hc h1 h2⟩
  · exact ⟨[], [], s, .none fun v e t hb hcl => hc ⟨v, e, t, hb, hcl⟩⟩

def cL1 : Cls := ⟨false, [(97, 122), (65, 90), (95, 95)]⟩
def cL2 : Cls := ⟨false, [(97, 122), (65, 90), (95, 95), (48, 57)]⟩

theorem byte_cL1 (x : UInt8) : cL1.byte x = letter x := by
  have := SimpleLexer.all_bytes (p := fun x => cL1.byte x == letter x) (by decide +kernel) x
  simpa using this

theorem byte_cL2 (x : UInt8) : cL2.byte x = RxByte.word x := by
  have := SimpleLexer.all_bytes (p := fun x => cL2.byte x == RxByte.word x) (by decide +kernel) x
  simpa using this

def rIdent : Rex := .seq (.cls cL1) (.star (.cls cL2))

theorem letter_word {x : UInt8} (h : letter x = true) : RxByte.word x = true := by
  simp only [letter, Bool.and_eq_true] at h
  exact h.1

theorem ident_rest {s n r : B} (h : Ident s n r) : rIdent.rest decode s = some r := by
  have hd := h.run.drop
  obtain ⟨⟨rfl, h1, h2⟩, x, t, rfl, hx⟩ := h
  refine seq_rest (t := t ++ r) ?_ ?_
  · rw [Rex.rest, List.cons_append, ends_pos (by decide) rfl, byte_cL1, hx]
    rfl
  · rw [star_rest (by decide), show cL2.byte = RxByte.word from funext byte_cL2]
    rw [List.cons_append, List.dropWhile_cons_of_pos (letter_word hx)] at hd
    rw [hd]

theorem ident_dead {x : UInt8} (h : letter x = false) (s : B) : rIdent.ends decode (x :: s) = [] := by
  rw [rIdent, seq_ends, ends_pos (by decide) rfl, byte_cL1, h]
  rfl

theorem ident_exists {x : UInt8} (h : letter x = true) (s : B) : ∃ n r, Ident (x :: s) n r := by
  obtain ⟨n, r, h1⟩ := run_exists RxByte.word (x :: s)
  refine ⟨n, r, h1, ?_⟩
  obtain ⟨e, -, h3⟩ := h1
  cases n with
  | nil =>
    have := h3 x s e.symm
    rw [letter_word h] at this
    cases this
  | cons y n =>
    obtain ⟨rfl, -⟩ := List.cons.inj e
    exact ⟨_, _, rfl, h⟩

def cC : Cls := ⟨false, [(94, 94)]⟩

def rMove : Rex := .alt (.cap 4 (.alt (.seq (.cls cC) (.star (.cls cC))) rIdent)) .eps

theorem byte_cC (x : UInt8) : cC.byte x = (x == 94) := by
  have := SimpleLexer.all_bytes (p := fun x => cC.byte x == (x == 94)) (by decide +kernel) x
  simpa using this

theorem carets_dead {x : UInt8} (h : x ≠ 94) (s : B) : (Rex.seq (.cls cC) (.star (.cls cC))).ends decode (x :: s) = [] := by
  rw [seq_ends, ends_pos (by decide) rfl, byte_cC]
  simp [h]

theorem go_move {s m r : B} (h : MovePart s m r) (k : Caps UInt8) : ∃ k', go rMove (s, k) = some (r, k') ∧ (k' = (4, m) :: k ∨ k' = k ∧ m = []) := by
  cases h with
  | carets h ne =>
    refine ⟨(4, m) :: k, go_left ?_, .inl rfl⟩
    rw [go_cap, go_left (q := (r, k))]
    · obtain ⟨rfl, -⟩ := h
      simp only [Option.map_some]
      rw [take_left]
    · rw [go_free rfl, plus_all' (c := cC) (by decide) (by rw [show cC.byte = fun x => x == 94 from funext byte_cC]; exact h) ne]
      rfl
  | push h =>
    refine ⟨(4, m) :: k, go_left ?_, .inl rfl⟩
    have h' := ident_rest h
    obtain ⟨⟨rfl, h1, h2⟩, x, t, rfl, hx⟩ := h
    have hne : x ≠ 94 := by rintro rfl; exact absurd hx (by decide)
    rw [go_cap, go_right, go_free rfl, h']
    · simp only [Option.map_some]
      rw [take_left]
    · rw [go_free rfl, Rex.rest, List.cons_append, carets_dead hne]
      rfl
  | none h =>
    refine ⟨k, ?_, .inr ⟨rfl, rfl⟩⟩
    rw [rMove, go_right, go_eps]
    rw [go_cap, go_free rfl, Rex.rest, alt_ends]
    cases s with
    | nil => rfl
    | cons x s =>
      have := h x s rfl
      simp only [Bool.or_eq_false_iff, beq_eq_false_iff_ne] at this
      rw [carets_dead this.1, ident_dead this.2]
      rfl

theorem move_exists (s : B) : ∃ m r, MovePart s m r := by
  cases s with
  | nil => exact ⟨[], [], .none fun x t e => by cases e⟩
  | cons x s =>
    by_cases h1 : x = 94
    · subst h1
      obtain ⟨m, r, h⟩ := run_exists (· == 94) (94 :: s)
      refine ⟨m, r, .carets h ?_⟩
      rintro rfl
      have := h.stop 94 s h.eq.symm
      simp at this
    · by_cases h2 : letter x = true
      · obtain ⟨n, r, h⟩ := ident_exists h2 s
        exact ⟨n, r, .push h⟩
      · refine ⟨[], x :: s, .none fun y t e => ?_⟩
        cases e
        simp [h1, h2]

def rStack : Rex := .seq rName (.seq rW (.seq rRe (.seq rW (.seq rMove (.seq rW (rDash 5))))))

theorem compile_stack : Regexp.compile StackLexer.subParserLine = some rStack := by decide +kernel

/-- **Reading a line of a stack lexer.** -/
theorem stack_line {s : B} {p : Parts} (h : StackLine s p) : StackLexer.lineOf rStack s = some ⟨p.name, p.expr, p.groups, p.move, p.minus⟩ := by
  obtain ⟨r, a, b, t, c, d, u, e, f, h1, h2, h3, h4, h5, h6, h7⟩ := h
  obtain ⟨k, g3, k1, k2, k3, k4⟩ := go_re h3 p.name
  obtain ⟨k', g5, hk'⟩ := go_move h5 k
  obtain ⟨z, v, g7, hv⟩ := go_dash 5 f k'
  have g6 : go (.seq rW (rDash 5)) (u, k') = some (z, (5, v) :: k') := by rw [go_then (go_white h6 _) (by rw [g7]; rfl), g7]
  have g5 : go (.seq rMove (.seq rW (rDash 5))) (d, k) = some (z, (5, v) :: k') := by rw [go_then g5 (by rw [g6]; rfl), g6]
  have g4 : go (.seq rW (.seq rMove (.seq rW (rDash 5)))) (t, k) = some (z, (5, v) :: k') := by rw [go_then (go_white h4 _) (by rw [g5]; rfl), g5]
  have g3 : go (.seq rRe (.seq rW (.seq rMove (.seq rW (rDash 5))))) (b, [(1, p.name)]) = some (z, (5, v) :: k') := by rw [go_then g3 (by rw [g4]; rfl), g4]
  obtain ⟨m, hm⟩ := find_named (T := .seq rW (.seq rRe (.seq rW (.seq rMove (.seq rW (rDash 5)))))) h1 (q := (z, (5, v) :: k'))
    (by rw [go_then (go_white h2 _) (by rw [g3]; rfl), g3])
  have skip : ∀ {j i : Nat} {w : B} {l : Caps UInt8}, j ≠ i → group ((j, w) :: l) i = group l i := by
    intro j i w l hne
    simp [group, List.find?_cons, show (j == i) = false by simpa using hne]
  have top : ∀ {j : Nat} {w : B} {l : Caps UInt8}, group ((j, w) :: l) j = w := by
    intro j w l
    simp [group]
  have hmin : decide (v = [45]) = p.minus := by
    cases hp : p.minus with
    | true => simpa using hv.2 (h7.1 hp)
    | false =>
      simp only [decide_eq_false_iff_not]
      intro hx
      have := h7.2 (hv.1 hx)
      rw [hp] at this
      cases this
  rw [StackLexer.lineOf, rStack, hm]
  simp only [Option.map_some, skip (show 5 ≠ 1 by omega), skip (show 5 ≠ 2 by omega), skip (show 5 ≠ 3 by omega), skip (show 5 ≠ 4 by omega), top, hmin]
  rcases hk' with rfl | ⟨rfl, hm⟩
  · simp only [skip (show 4 ≠ 1 by omega), skip (show 4 ≠ 2 by omega), skip (show 4 ≠ 3 by omega), top, k1, k2, k3]
  · simp only [k1, k2, k3, k4 4 (Nat.le_refl _), hm]

theorem stack_blank {s : B} (h : Blank s) : StackLexer.lineOf rStack s = none := by
  rw [StackLexer.lineOf, rStack, find_blank h]
  rfl

open Classical in
theorem stack_exists {s : B} (h : ¬ Blank s) : ∃ p, StackLine s p := by
  obtain ⟨n, r, h1⟩ := named_exists h
  obtain ⟨a, b, h2⟩ := run_exists RxByte.space r
  obtain ⟨x, g, t, h3⟩ := re_exists b
  obtain ⟨c, d, h4⟩ := run_exists RxByte.space t
  obtain ⟨m, u, h5⟩ := move_exists d
  obtain ⟨e, f, h6⟩ := run_exists RxByte.space u
  exact ⟨⟨n, x, g, m, decide (∃ z, f = 45 :: z)⟩, r, a, b, t, c, d, u, e, f, h1, h2, h3, h4, h5, h6, by simp⟩

end Verif.Spec.LexerDef
