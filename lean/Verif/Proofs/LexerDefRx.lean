import Verif.Spec.LexerDef
import Verif.Proofs.RegexpMore
import Verif.Proofs.LexText
/-
Working out what regular expressions capture, for the expressions by which lexer definitions are read.
-/
namespace Verif.Spec.LexerDef
open Verif.Spec

abbrev B := List UInt8

/-- The preferred match. -/
def go (r : Rex) (st : B × Caps UInt8) : Option (B × Caps UInt8) := (r.run decode st).head?

/-- No captures in it. -/
def free : Rex → Bool
  | .eps => true
  | .cls _ => true
  | .fin => true
  | .seq a b => free a && free b
  | .alt a b => free a && free b
  | .star a => free a
  | .cap _ _ => false

theorem again_free {f : B × Caps UInt8 → List (B × Caps UInt8)} {g : B → List B} (k : Caps UInt8) (h : ∀ s, f (s, k) = (g s).map fun t => (t, k)) :
    ∀ n s, again f n (s, k) = (again1 g n s).map fun t => (t, k)
  | 0, s => rfl
  | n + 1, s => by
    rw [again, again1, h s, List.filter_map, List.flatMap_map, List.map_append, List.map_flatMap]
    simp only [again_free k h n]
    rfl

theorem run_free : ∀ (r : Rex), free r = true → ∀ (s : B) (k : Caps UInt8), r.run decode (s, k) = (r.ends decode s).map fun t => (t, k)
  | .eps, _, s, k => rfl
  | .cls c, _, s, k => by
    simp only [Rex.run, Rex.ends]
    cases decode s with
    | none => rfl
    | some q => simp only; split <;> rfl
  | .fin, _, s, k => by simp only [Rex.run, Rex.ends]; split <;> rfl
  | .seq a b, h, s, k => by
    simp only [free, Bool.and_eq_true] at h
    rw [Rex.run, Rex.ends, run_free a h.1, List.flatMap_map, List.map_flatMap]
    simp only [run_free b h.2]
  | .alt a b, h, s, k => by
    simp only [free, Bool.and_eq_true] at h
    rw [Rex.run, Rex.ends, run_free a h.1, run_free b h.2, List.map_append]
  | .star a, h, s, k => by
    rw [Rex.run, Rex.ends]
    exact again_free k (fun s => run_free a h s k) _ s
  | .cap _ _, h, s, k => by simp [free] at h

theorem go_free {r : Rex} (h : free r = true) (s : B) (k : Caps UInt8) : go r (s, k) = (r.rest decode s).map fun t => (t, k) := by
  rw [go, run_free r h, List.head?_map]
  rfl

theorem go_seq (a b : Rex) (st : B × Caps UInt8) : go (.seq a b) st = (a.run decode st).findSome? (go b) := by
  rw [go, Rex.run, List.head?_flatMap]
  rfl

theorem go_then {a b : Rex} {st q : B × Caps UInt8} (h : go a st = some q) (hb : (go b q).isSome) : go (.seq a b) st = go b q := by
  rw [go_seq]
  rw [go] at h
  cases e : a.run decode st with
  | nil => rw [e] at h; cases h
  | cons x l =>
    rw [e] at h
    cases h
    obtain ⟨z, hz⟩ := Option.isSome_iff_exists.1 hb
    rw [List.findSome?_cons, hz]

theorem go_left {a b : Rex} {st q : B × Caps UInt8} (h : go a st = some q) : go (.alt a b) st = some q := by
  rw [go] at h ⊢
  rw [Rex.run]
  cases e : a.run decode st with
  | nil => rw [e] at h; cases h
  | cons x l => rw [e] at h; exact h

theorem go_none {a : Rex} {st : B × Caps UInt8} : go a st = none ↔ a.run decode st = [] := by
  rw [go, List.head?_eq_none_iff]

theorem go_right {a b : Rex} {st : B × Caps UInt8} (h : go a st = none) : go (.alt a b) st = go b st := by
  rw [go, Rex.run, go_none.1 h]
  rfl

theorem go_eps (st : B × Caps UInt8) : go .eps st = some st := rfl

theorem go_cap (n : Nat) (a : Rex) (st : B × Caps UInt8) : go (.cap n a) st = (go a st).map fun q => (q.1, (n, st.1.take (st.1.length - q.1.length)) :: q.2) := by
  rw [go, Rex.run, List.head?_map]
  rfl

theorem take_left (a b : B) : (a ++ b).take ((a ++ b).length - b.length) = a := by
  rw [List.length_append, Nat.add_sub_cancel, List.take_left']
  rfl

/-- A single character. -/
def ch (n : Nat) : Rex := .cls ⟨false, [(n, n)]⟩

theorem ch_ends {n : Nat} (hn : n < 0x80) (s : B) : (ch n).ends decode s = match s with | [] => [] | x :: t => if x.toNat = n then [t] else [] :=
  one_rest hn s

theorem go_ch {n : Nat} (hn : n < 0x80) (s : B) (k : Caps UInt8) :
    go (ch n) (s, k) = match s with | [] => none | x :: t => if x.toNat = n then some (t, k) else none := by
  rw [go_free rfl, Rex.rest, ch_ends hn]
  cases s with
  | nil => rfl
  | cons x t => simp only; split <;> rfl

theorem go_ch_some {x : UInt8} (hx : x.toNat < 0x80) (t : B) (k : Caps UInt8) : go (ch x.toNat) (x :: t, k) = some (t, k) := by
  rw [go_ch hx]
  simp

/-! ### Runs -/

theorem Run.drop {p : UInt8 → Bool} {s a b : B} (h : Run p s a b) : s.dropWhile p = b := by
  obtain ⟨rfl, h1, h2⟩ := h
  rw [List.dropWhile_append_of_pos h1]
  cases b with
  | nil => rfl
  | cons x b => rw [List.dropWhile_cons_of_neg (by simp [h2 x b rfl])]

theorem takeWhile_all {p : UInt8 → Bool} : ∀ {s : B} {x}, x ∈ s.takeWhile p → p x = true
  | [], x, h => by cases h
  | y :: s, x, h => by
    rw [List.takeWhile_cons] at h
    split at h
    · next hy =>
      rcases List.mem_cons.1 h with rfl | h
      · exact hy
      · exact takeWhile_all h
    · cases h

theorem run_exists (p : UInt8 → Bool) (s : B) : ∃ a b, Run p s a b := by
  refine ⟨s.takeWhile p, s.dropWhile p, (List.takeWhile_append_dropWhile).symm, fun x hx => takeWhile_all hx, fun x t e => ?_⟩
  have := List.head?_dropWhile_not p s
  rw [e] at this
  simpa using this

def cW : Cls := ⟨false, [(9, 10), (12, 13), (32, 32)]⟩

def rW : Rex := .star (.cls cW)

theorem byte_cW (x : UInt8) : cW.byte x = RxByte.space x := by
  have := SimpleLexer.all_bytes (p := fun x => cW.byte x == RxByte.space x) (by decide +kernel) x
  simpa using this

theorem go_white {s a b : B} (h : Run RxByte.space s a b) (k : Caps UInt8) : go rW (s, k) = some (b, k) := by
  rw [go_free rfl, rW, star_rest (by decide), show cW.byte = RxByte.space from funext byte_cW, h.drop]
  rfl

/-- A class once or more. -/
theorem plus_all' {c : Cls} (hc : c.low = true) {s a b : B} (h : Run c.byte s a b) (ne : a ≠ []) :
    (Rex.seq (.cls c) (.star (.cls c))).rest decode s = some b := by
  have hd := h.drop
  obtain ⟨rfl, h1, h2⟩ := h
  cases a with
  | nil => exact absurd rfl ne
  | cons x a =>
    rcases ends_cls hc x (a ++ b) with ⟨e, -⟩ | ⟨-, n, e, -, h4, -⟩
    · rw [h1 x (.head _)] at e; cases e
    · refine seq_rest (t := (a ++ b).drop n) (by rw [Rex.rest, List.cons_append, e]; rfl) ?_
      rw [star_rest hc]
      congr 1
      rw [List.cons_append, List.dropWhile_cons_of_pos (h1 x (.head _))] at hd
      refine Eq.trans ?_ hd
      conv => rhs; rw [← List.take_append_drop n (a ++ b)]
      rw [List.dropWhile_append_of_pos h4]

/-! ### Expressions between slashes -/

def cB : Cls := ⟨true, [(47, 47), (92, 92)]⟩

theorem byte_cB (x : UInt8) : cB.byte x = (x != 47 && x != 92) := by
  have := SimpleLexer.all_bytes (p := fun x => cB.byte x == (x != 47 && x != 92)) (by decide +kernel) x
  simpa using this

def rItem : Rex := .alt (.cls cB) (.seq (ch 92) (.alt (ch 47) .eps))

def rBody : Rex := .seq rItem (.star rItem)

theorem item_slash (s : B) : rItem.ends decode (47 :: s) = [] := by
  rw [rItem, alt_ends, seq_ends, ch_ends (by omega)]
  rcases ends_char (c := cB) (by decide) 47 s with ⟨-, e⟩ | ⟨h, -⟩
  · rw [e]; rfl
  · rw [byte_cB] at h; simp at h

theorem item_pair (s : B) : rItem.ends decode (92 :: 47 :: s) = [s, 47 :: s] := by
  rw [rItem, alt_ends, seq_ends, ch_ends (by omega)]
  rcases ends_char (c := cB) (by decide) 92 (47 :: s) with ⟨-, e⟩ | ⟨h, -⟩
  · rw [e]
    simp only [show (92 : UInt8).toNat = 92 from rfl, if_true, List.flatMap_cons, List.flatMap_nil, List.append_nil, List.nil_append]
    rw [alt_ends, ch_ends (by omega)]
    rfl
  · rw [byte_cB] at h; simp at h

theorem item_back {s : B} (hs : ∀ t, s ≠ 47 :: t) : rItem.ends decode (92 :: s) = [s] := by
  rw [rItem, alt_ends, seq_ends, ch_ends (by omega)]
  rcases ends_char (c := cB) (by decide) 92 s with ⟨-, e⟩ | ⟨h, -⟩
  · rw [e]
    simp only [show (92 : UInt8).toNat = 92 from rfl, if_true, List.flatMap_cons, List.flatMap_nil, List.append_nil, List.nil_append]
    rw [alt_ends, ch_ends (by omega)]
    cases s with
    | nil => rfl
    | cons x t =>
      have : ¬ x.toNat = 47 := fun h => hs t (by rw [show x = 47 from UInt8.toNat_inj.1 h])
      simp [this, eps_ends]
  · rw [byte_cB] at h; simp at h

theorem item_char {x : UInt8} (h1 : x ≠ 47) (h2 : x ≠ 92) (s : B) :
    ∃ v t, s = v ++ t ∧ rItem.ends decode (x :: s) = [t] ∧ ∀ y ∈ v, 0x80 ≤ y.toNat := by
  rcases ends_char (c := cB) (by decide) x s with ⟨h, -⟩ | ⟨-, v, t, e1, e2, hv⟩
  · rw [byte_cB] at h; simp [h1, h2] at h
  · refine ⟨v, t, e1, ?_, hv⟩
    rw [rItem, alt_ends, e2, seq_ends, ch_ends (by omega)]
    have : ¬ x.toNat = 92 := fun h => h2 (UInt8.toNat_inj.1 h)
    simp [this]

/-- Where the expression ends: what is left from the closing slash on. -/
def close : B → Option B
  | [] => none
  | [x] => if x = 47 then some [x] else none
  | x :: y :: s =>
    if x = 47 then some (x :: y :: s)
    else if x = 92 ∧ y = 47 then (close s).or (some (y :: s))
    else close (y :: s)

theorem close_slash (s : B) : close (47 :: s) = some (47 :: s) := by
  cases s <;> simp [close]

theorem close_pair (s : B) : close (92 :: 47 :: s) = (close s).or (some (47 :: s)) := by
  simp [close]

theorem close_back {s : B} (hs : ∀ t, s ≠ 47 :: t) : close (92 :: s) = close s := by
  cases s with
  | nil => simp [close]
  | cons y s =>
    have : y ≠ 47 := fun h => hs s (by rw [h])
    rw [close]
    simp [this]

theorem close_char {x : UInt8} (h1 : x ≠ 47) (h2 : x ≠ 92) (s : B) : close (x :: s) = close s := by
  cases s with
  | nil => simp [close, h1]
  | cons y s => rw [close]; simp [h1, h2]

theorem close_high {v : B} (hv : ∀ y ∈ v, 0x80 ≤ y.toNat) (t : B) : close (v ++ t) = close t := by
  induction v with
  | nil => rfl
  | cons y v ih =>
    have hy := hv y (.head _)
    rw [List.cons_append, close_char, ih fun z hz => hv z (.tail _ hz)]
    · rintro rfl; exact absurd hy (by decide)
    · rintro rfl; exact absurd hy (by decide)

/-- It begins with a slash. -/
def isSlash : B → Bool
  | x :: _ => x == 47
  | [] => false

theorem star_close : ∀ (n : Nat) (s : B), s.length ≤ n → (again1 (rItem.ends decode) n s).find? isSlash = close s := by
  intro n
  induction n with
  | zero => intro s hs; cases s with
    | nil => rfl
    | cons => simp at hs
  | succ n ih =>
    intro s hs
    rw [again1, List.find?_append]
    cases s with
    | nil => simp [Rex.ends, rItem, decode, ch, isSlash, close]
    | cons x s =>
      simp only [List.length_cons] at hs
      by_cases h1 : x = 47
      · subst h1
        rw [item_slash, close_slash]
        simp [isSlash]
      have hx : ([x :: s].find? isSlash) = none := by simp [isSlash, h1]
      rw [hx, Option.or_none]
      by_cases h2 : x = 92
      · subst h2
        by_cases h3 : ∃ t, s = 47 :: t
        · obtain ⟨t, rfl⟩ := h3
          simp only [List.length_cons] at hs
          rw [item_pair, close_pair]
          simp only [List.filter_cons, List.length_cons, show t.length < t.length + 1 + 1 by omega, show t.length + 1 < t.length + 1 + 1 by omega, decide_true,
            if_true, List.filter_nil, List.flatMap_cons, List.flatMap_nil, List.append_nil, List.find?_append]
          rw [ih t (by omega), ih (47 :: t) (by simp; omega), close_slash]
        · have h3 : ∀ t, s ≠ 47 :: t := fun t e => h3 ⟨t, e⟩
          rw [item_back h3, close_back h3]
          simp only [List.filter_cons, List.length_cons, show s.length < s.length + 1 by omega, decide_true,
            if_true, List.filter_nil, List.flatMap_cons, List.flatMap_nil, List.append_nil]
          exact ih s (by omega)
      · obtain ⟨v, t, rfl, e, hv⟩ := item_char h1 h2 s
        simp only [List.length_append] at hs
        rw [e, close_char h1 h2, close_high hv]
        simp only [List.filter_cons, List.length_cons, List.length_append, show t.length < v.length + t.length + 1 by omega, decide_true,
          if_true, List.filter_nil, List.flatMap_cons, List.flatMap_nil, List.append_nil]
        exact ih t (by omega)

theorem body_close {s : B} (hs : ∀ t, s ≠ 47 :: t) : (rBody.ends decode s).find? isSlash = close s := by
  rw [rBody, seq_ends]
  cases s with
  | nil => simp [Rex.ends, rItem, decode, ch, close]
  | cons x s =>
    have h1 : x ≠ 47 := fun h => hs s (by rw [h])
    have star : ∀ t, (Rex.star rItem).ends decode t = again1 (rItem.ends decode) t.length t := fun t => rfl
    by_cases h2 : x = 92
    · subst h2
      by_cases h3 : ∃ t, s = 47 :: t
      · obtain ⟨t, rfl⟩ := h3
        rw [item_pair, close_pair]
        simp only [List.flatMap_cons, List.flatMap_nil, List.append_nil, List.find?_append, star]
        rw [star_close _ t (Nat.le_refl _), star_close _ (47 :: t) (Nat.le_refl _), close_slash]
      · have h3 : ∀ t, s ≠ 47 :: t := fun t e => h3 ⟨t, e⟩
        rw [item_back h3, close_back h3]
        simp only [List.flatMap_cons, List.flatMap_nil, List.append_nil, star]
        exact star_close _ s (Nat.le_refl _)
    · obtain ⟨v, t, rfl, e, hv⟩ := item_char h1 h2 s
      rw [e, close_char h1 h2, close_high hv]
      simp only [List.flatMap_cons, List.flatMap_nil, List.append_nil, star]
      exact star_close _ t (Nat.le_refl _)

theorem body_slash (t : B) : rBody.ends decode (47 :: t) = [] := by
  rw [rBody, seq_ends, item_slash]
  rfl

theorem close_of_esc : ∀ (n : Nat) (e r : B), e.length ≤ n → (∀ p q, e = p ++ 47 :: q → p.getLast? = some 92) →
    (e.getLast? = some 92 → 47 ∉ r) → close (e ++ 47 :: r) = some (47 :: r) := by
  have none : ∀ r : B, 47 ∉ r → close r = none := by
    intro r
    induction r with
    | nil => intro _; rfl
    | cons x r ih =>
      intro h
      have hx : x ≠ 47 := fun e => h (by simp [e])
      have hr : 47 ∉ r := fun e => h (by simp [e])
      by_cases h2 : x = 92
      · subst h2
        rw [close_back (fun t e => hr (by simp [e])), ih hr]
      · rw [close_char hx h2, ih hr]
  intro n
  induction n with
  | zero =>
    intro e r hl _ _
    obtain rfl := List.length_eq_zero_iff.1 (Nat.le_zero.1 hl)
    exact close_slash r
  | succ n ih =>
    intro e r hl h1 h2
    cases e with
    | nil => exact close_slash r
    | cons x e =>
      have hx : x ≠ 47 := by
        rintro rfl
        have := h1 [] e rfl
        cases this
      have cut : ∀ {a e'}, x :: e = a ++ e' → (∀ t, e' ≠ 47 :: t) → (∀ p q, e' = p ++ 47 :: q → p.getLast? = some 92) := by
        intro a e' ha hne p q hp
        have := h1 (a ++ p) q (by rw [ha, hp, List.append_assoc])
        cases p with
        | nil => exact absurd hp (hne q)
        | cons z p => rwa [List.getLast?_append, List.getLast?_cons, Option.some_or, ← List.getLast?_cons] at this
      simp only [List.length_cons] at hl
      by_cases hb : x = 92
      · subst hb
        cases e with
        | nil =>
          show close (92 :: 47 :: r) = _
          rw [close_pair, none r (h2 rfl)]
          rfl
        | cons y e =>
          simp only [List.length_cons] at hl
          by_cases hy : y = 47
          · subst hy
            have hne : ∀ t, e ≠ 47 :: t := by
              rintro t rfl
              have := h1 [92, 47] t rfl
              simp at this
            show close (92 :: 47 :: (e ++ 47 :: r)) = _
            rw [close_pair, ih e r (by omega) (cut (a := [92, 47]) rfl hne) ?_]
            · rfl
            · intro he
              cases e with
              | nil => cases he
              | cons z e => exact h2 (by rw [← he]; rfl)
          · show close (92 :: (y :: e ++ 47 :: r)) = _
            rw [close_back (by intro t ht; rw [List.cons_append] at ht; exact hy (List.cons.inj ht).1), ih (y :: e) r (by simp; omega) (cut (a := [92]) rfl ?_) ?_]
            · intro t ht; exact hy (List.cons.inj ht).1
            · intro he; exact h2 (by rw [← he]; rfl)
      · rw [List.cons_append, close_char hx hb, ih e r (by omega) (cut (a := [x]) rfl ?_) ?_]
        · rintro t rfl
          have := h1 [x] t rfl
          simp [hb] at this
        · intro he
          cases e with
          | nil => cases he
          | cons z e => exact h2 (by rw [← he]; rfl)

theorem Closed.first {s e r : B} (h : Closed s e r) (t : B) : s ≠ 47 :: t := by
  intro hs
  obtain ⟨rfl, ne, h1, -⟩ := h
  cases e with
  | nil => exact ne rfl
  | cons x e =>
    obtain ⟨rfl, -⟩ := List.cons.inj hs
    have := h1 [] e rfl
    cases this

theorem Closed.close {s e r : B} (h : Closed s e r) : close s = some (47 :: r) := by
  obtain ⟨rfl, -, h1, h2⟩ := h
  exact close_of_esc _ e r (Nat.le_refl _) h1 h2

/-- A line with a slash in it has an expression. -/
theorem close_some : ∀ (n : Nat) (s t : B), s.length ≤ n → close s = some t → ∃ e r, t = 47 :: r ∧ s = e ++ 47 :: r ∧
    (∀ p q, e = p ++ 47 :: q → p.getLast? = some 92) ∧ (e.getLast? = some 92 → 47 ∉ r) := by
  have none : ∀ r : B, close r = none → 47 ∉ r := by
    suffices H : ∀ (n : Nat) (r : B), r.length ≤ n → close r = none → 47 ∉ r from fun r => H _ r (Nat.le_refl _)
    intro n
    induction n with
    | zero => intro r hl; obtain rfl := List.length_eq_zero_iff.1 (Nat.le_zero.1 hl); simp
    | succ n ih =>
      intro r hl h
      cases r with
      | nil => simp
      | cons x r =>
        simp only [List.length_cons] at hl
        by_cases h1 : x = 47
        · subst h1; rw [close_slash] at h; cases h
        by_cases h2 : x = 92
        · subst h2
          by_cases h3 : ∃ t, r = 47 :: t
          · obtain ⟨t, rfl⟩ := h3
            rw [close_pair] at h
            cases hc : LexerDef.close t <;> simp [hc] at h
          · have h3 : ∀ t, r ≠ 47 :: t := fun t e => h3 ⟨t, e⟩
            rw [close_back h3] at h
            simpa using ih r (by omega) h
        · rw [close_char h1 h2] at h
          have := ih r (by omega) h
          simp [this, Ne.symm h1]
  have cons : ∀ {x : UInt8} {e r : B}, x ≠ 47 → (x = 92 ∨ ∀ t, e ≠ 47 :: t) → (∀ p q, e = p ++ 47 :: q → p = [] ∨ p.getLast? = some 92) →
      ∀ p q, x :: e = p ++ 47 :: q → p.getLast? = some 92 := by
    intro x e r hx hb he p q hp
    cases p with
    | nil => exact absurd (List.cons.inj hp).1 hx
    | cons z p =>
      obtain ⟨rfl, hp'⟩ := List.cons.inj hp
      rcases he p q hp' with rfl | h
      · rcases hb with rfl | hb
        · rfl
        · exact absurd hp' (hb q)
      · cases p with
        | nil => cases h
        | cons y p => rw [List.getLast?_cons_cons]; exact h
  intro n
  induction n with
  | zero => intro s t hl h; obtain rfl := List.length_eq_zero_iff.1 (Nat.le_zero.1 hl); cases h
  | succ n ih =>
    intro s t hl h
    cases s with
    | nil => cases h
    | cons x s =>
      simp only [List.length_cons] at hl
      by_cases h1 : x = 47
      · subst h1
        rw [close_slash] at h
        cases h
        exact ⟨[], s, rfl, rfl, by simp, by simp⟩
      by_cases h2 : x = 92
      · subst h2
        by_cases h3 : ∃ t, s = 47 :: t
        · obtain ⟨u, rfl⟩ := h3
          simp only [List.length_cons] at hl
          rw [close_pair] at h
          cases hc : LexerDef.close u with
          | none =>
            rw [hc] at h
            cases h
            refine ⟨[92], u, rfl, rfl, cons (r := []) (by decide) (.inl rfl) (by simp), fun _ => none u hc⟩
          | some t' =>
            rw [hc] at h
            cases h
            obtain ⟨e, r, rfl, rfl, g1, g2⟩ := ih u t (by omega) hc
            refine ⟨92 :: 47 :: e, r, rfl, rfl, ?_, fun he => g2 ?_⟩
            · refine cons (r := []) (by decide) (.inl rfl) fun p q hp => ?_
              cases p with
              | nil => exact .inl rfl
              | cons z p =>
                obtain ⟨rfl, hp'⟩ := List.cons.inj hp
                have := g1 p q hp'
                cases p with
                | nil => cases this
                | cons y p => right; rw [List.getLast?_cons_cons]; exact this
            · cases e with
              | nil => simp at he
              | cons z e => rw [List.getLast?_cons_cons, List.getLast?_cons_cons] at he; exact he
        · have h3 : ∀ t, s ≠ 47 :: t := fun t e => h3 ⟨t, e⟩
          rw [close_back h3] at h
          obtain ⟨e, r, rfl, rfl, g1, g2⟩ := ih s t (by omega) h
          refine ⟨92 :: e, r, rfl, rfl, cons (r := []) (by decide) (.inl rfl) fun p q hp => .inr (g1 p q hp), fun he => ?_⟩
          cases e with
          | nil => exact absurd rfl (h3 r)
          | cons z e => rw [List.getLast?_cons_cons] at he; exact g2 he
      · rw [close_char h1 h2] at h
        obtain ⟨e, r, rfl, rfl, g1, g2⟩ := ih s t (by omega) h
        refine ⟨x :: e, r, rfl, rfl, cons (r := []) h1 (.inr ?_) fun p q hp => .inr (g1 p q hp), fun he => ?_⟩
        · rintro t rfl
          have := g1 [] t rfl
          cases this
        · cases e with
          | nil => simp [h2] at he
          | cons z e => rw [List.getLast?_cons_cons] at he; exact g2 he

theorem closed_exists {s : B} (h1 : ∀ t, s ≠ 47 :: t) {t : B} (h : close s = some t) : ∃ e r, t = 47 :: r ∧ Closed s e r := by
  obtain ⟨e, r, rfl, rfl, g1, g2⟩ := close_some _ s t (Nat.le_refl _) h
  refine ⟨e, r, rfl, rfl, ?_, g1, g2⟩
  rintro rfl
  exact h1 r rfl

theorem findSome_find {α β : Type} {f : α → Option β} {p : α → Bool} : ∀ (l : List α), (∀ x ∈ l, p x = true ↔ (f x).isSome) → l.findSome? f = (l.find? p).bind f
  | [], _ => rfl
  | x :: l, h => by
    have hx := h x (.head _)
    rw [List.findSome?_cons, List.find?_cons]
    cases hp : p x with
    | true =>
      obtain ⟨y, hy⟩ := Option.isSome_iff_exists.1 (hx.1 hp)
      simp [hy]
    | false =>
      rw [hp] at hx
      have : f x = none := by
        cases hf : f x with
        | none => rfl
        | some y => rw [hf] at hx; simp at hx
      rw [this]
      exact findSome_find l fun x hx => h x (.tail _ hx)

theorem go_cap_seq {a : Rex} (h : free a = true) (T : Rex) (n : Nat) (s : B) (k : Caps UInt8) :
    go (.seq (.cap n a) T) (s, k) = (a.ends decode s).findSome? fun t => go T (t, (n, s.take (s.length - t.length)) :: k) := by
  rw [go_seq, Rex.run, run_free a h, List.map_map, List.findSome?_map]
  rfl

/-- The expression and what comes after. -/
theorem go_body {T : Rex} (hT : ∀ q, isSlash q.1 = true ↔ (go T q).isSome) (n : Nat) {s e r : B} (h : Closed s e r) (k : Caps UInt8) :
    go (.seq (.cap n rBody) T) (s, k) = go T (47 :: r, (n, e) :: k) := by
  rw [go_cap_seq rfl, findSome_find (p := isSlash) _ (fun x _ => hT (x, _)), body_close h.first, h.close]
  obtain ⟨rfl, -⟩ := h
  show go T (47 :: r, (n, (e ++ 47 :: r).take ((e ++ 47 :: r).length - (47 :: r).length)) :: k) = _
  rw [take_left]

theorem go_body_none {T : Rex} (hT : ∀ q, isSlash q.1 = true ↔ (go T q).isSome) (n : Nat) {s : B} (h : ∀ e r, ¬ Closed s e r) (k : Caps UInt8) :
    go (.seq (.cap n rBody) T) (s, k) = none := by
  rw [go_cap_seq rfl, findSome_find (p := isSlash) _ (fun x _ => hT (x, _))]
  by_cases hs : ∃ t, s = 47 :: t
  · obtain ⟨t, rfl⟩ := hs
    rw [body_slash]
    rfl
  · have hs : ∀ t, s ≠ 47 :: t := fun t e => hs ⟨t, e⟩
    rw [body_close hs]
    cases hc : close s with
    | none => rfl
    | some t =>
      obtain ⟨e, r, -, hcl⟩ := closed_exists hs hc
      exact absurd hcl (h e r)

/-! ### Groups -/

def cG : Cls := ⟨true, [(92, 92), (41, 41)]⟩

theorem byte_cG (x : UInt8) : cG.byte x = (x != 41 && x != 92) := by
  have := SimpleLexer.all_bytes (p := fun x => cG.byte x == (x != 41 && x != 92)) (by decide +kernel) x
  simpa using this

def rG : Rex := .alt (.cls cG) (.seq (ch 92) (.cls cL))

/-- Where the groups end. -/
def closeG : B → Option B
  | [] => none
  | [x] => if x = 41 then some [x] else none
  | x :: y :: s =>
    if x = 41 then some (x :: y :: s)
    else if x = 92 then (if y = 10 then none else closeG s)
    else closeG (y :: s)

theorem closeG_par (s : B) : closeG (41 :: s) = some (41 :: s) := by
  cases s <;> simp [closeG]

theorem closeG_char {x : UInt8} (h1 : x ≠ 41) (h2 : x ≠ 92) (s : B) : closeG (x :: s) = closeG s := by
  cases s with
  | nil => simp [closeG, h1]
  | cons y s => rw [closeG]; simp [h1, h2]

theorem closeG_esc (y : UInt8) (s : B) : closeG (92 :: y :: s) = if y = 10 then none else closeG s := by
  simp [closeG]

theorem closeG_high {v : B} (hv : ∀ y ∈ v, 0x80 ≤ y.toNat) (t : B) : closeG (v ++ t) = closeG t := by
  induction v with
  | nil => rfl
  | cons y v ih =>
    have hy := hv y (.head _)
    rw [List.cons_append, closeG_char, ih fun z hz => hv z (.tail _ hz)]
    · rintro rfl; exact absurd hy (by decide)
    · rintro rfl; exact absurd hy (by decide)

def isPar : B → Bool
  | x :: _ => x == 41
  | [] => false

theorem g_ends (s : B) : rG.ends decode s = (Rex.cls cG).ends decode s ++
    match s with
    | [] => []
    | x :: t => if x.toNat = 92 then (Rex.cls cL).ends decode t else [] := by
  rw [rG, alt_ends]
  congr 1
  rw [seq_ends, ch_ends (by omega)]
  cases s with
  | nil => rfl
  | cons x t => simp only; split <;> simp

theorem star_closeG : ∀ (n : Nat) (s : B), s.length ≤ n → (again1 (rG.ends decode) n s).find? isPar = closeG s := by
  intro n
  induction n with
  | zero => intro s hs; cases s with
    | nil => rfl
    | cons => simp at hs
  | succ n ih =>
    intro s hs
    rw [again1, List.find?_append, g_ends]
    cases s with
    | nil => simp [ends_nil, isPar, closeG]
    | cons x s =>
      simp only [List.length_cons] at hs
      rcases ends_char (c := cG) (by decide) x s with ⟨hx, e⟩ | ⟨hx, v, t, rfl, e, hv⟩
      · rw [byte_cG] at hx
        rw [e]
        by_cases h1 : x = 41
        · subst h1
          rw [closeG_par]
          simp [isPar]
        · have h2 : x = 92 := by
            apply Classical.byContradiction
            intro h2
            simp [h1, h2] at hx
          subst h2
          have hp : ([92 :: s].find? isPar) = none := by simp [isPar]
          rw [hp, Option.or_none]
          simp only [show (92 : UInt8).toNat = 92 from rfl, if_true, List.nil_append]
          cases s with
          | nil => simp [ends_nil, closeG]
          | cons y s =>
            simp only [List.length_cons] at hs
            rw [closeG_esc]
            rcases ends_char (c := cL) (by decide) y s with ⟨hy, e⟩ | ⟨hy, v, t, rfl, e, hv⟩
            · rw [byte_cL] at hy
              have : y = 10 := by simpa using hy
              subst this
              rw [e]
              rfl
            · rw [byte_cL] at hy
              have hy : y ≠ 10 := by simpa using hy
              rw [e, if_neg hy, closeG_high hv]
              simp only [List.length_append] at hs
              simp only [List.filter_cons, List.length_cons, List.length_append, show t.length < v.length + t.length + 1 + 1 by omega, decide_true,
                if_true, List.filter_nil, List.flatMap_cons, List.flatMap_nil, List.append_nil]
              exact ih t (by omega)
      · rw [byte_cG] at hx
        simp only [Bool.and_eq_true, bne_iff_ne] at hx
        have hp : ([x :: (v ++ t)].find? isPar) = none := by simp [isPar, hx.1]
        have hn : ¬ x.toNat = 92 := fun h => hx.2 (UInt8.toNat_inj.1 h)
        rw [e, hp, Option.or_none, closeG_char hx.1 hx.2, closeG_high hv]
        simp only [List.length_append] at hs
        simp only [if_neg hn, List.append_nil, List.filter_cons, List.length_cons, List.length_append, show t.length < v.length + t.length + 1 by omega, decide_true,
          if_true, List.filter_nil, List.flatMap_cons, List.flatMap_nil]
        exact ih t (by omega)

theorem Groups.close {g : B} (h : Groups g) (r : B) : closeG (g ++ 41 :: r) = some (41 :: r) := by
  induction h with
  | nil => exact closeG_par r
  | plain h1 h2 _ ih => rw [List.cons_append, closeG_char h1 h2, ih]
  | esc h _ ih => rw [List.cons_append, List.cons_append, closeG_esc, if_neg h, ih]

theorem closeG_some : ∀ (n : Nat) (s t : B), s.length ≤ n → closeG s = some t → ∃ g r, t = 41 :: r ∧ s = g ++ 41 :: r ∧ Groups g := by
  intro n
  induction n with
  | zero => intro s t hl h; obtain rfl := List.length_eq_zero_iff.1 (Nat.le_zero.1 hl); cases h
  | succ n ih =>
    intro s t hl h
    cases s with
    | nil => cases h
    | cons x s =>
      simp only [List.length_cons] at hl
      by_cases h1 : x = 41
      · subst h1
        rw [closeG_par] at h
        cases h
        exact ⟨[], s, rfl, rfl, .nil⟩
      by_cases h2 : x = 92
      · subst h2
        cases s with
        | nil => simp [closeG] at h
        | cons y s =>
          simp only [List.length_cons] at hl
          rw [closeG_esc] at h
          split at h
          · cases h
          · next hy =>
            obtain ⟨g, r, rfl, rfl, hg⟩ := ih s t (by omega) h
            exact ⟨92 :: y :: g, r, rfl, rfl, .esc hy hg⟩
      · rw [closeG_char h1 h2] at h
        obtain ⟨g, r, rfl, rfl, hg⟩ := ih s t (by omega) h
        exact ⟨x :: g, r, rfl, rfl, .plain h1 h2 hg⟩

theorem ch_par (q : B × Caps UInt8) : isPar q.1 = true ↔ (go (ch 41) q).isSome := by
  obtain ⟨s, k⟩ := q
  rw [go_ch (by omega)]
  cases s with
  | nil => simp [isPar]
  | cons x s =>
    simp only [isPar, beq_iff_eq]
    by_cases h : x = 41
    · subst h; simp
    · have : ¬ x.toNat = 41 := fun e => h (UInt8.toNat_inj.1 e)
      simp [h, this]

def rGroup : Rex := .alt (.seq (ch 40) (.seq (.cap 3 (.star rG)) (ch 41))) .eps

theorem go_groups {s : B} (k : Caps UInt8) : go (.seq (.cap 3 (.star rG)) (ch 41)) (s, k) =
    (closeG s).bind fun t => go (ch 41) (t, (3, s.take (s.length - t.length)) :: k) := by
  rw [go_cap_seq rfl, findSome_find (p := isPar) _ (fun x _ => ch_par (x, _))]
  rw [show (Rex.star rG).ends decode s = again1 (rG.ends decode) s.length s from rfl, star_closeG _ s (Nat.le_refl _)]

theorem go_group {s g r : B} (h : GroupPart s g r) (k : Caps UInt8) : ∃ k', go rGroup (s, k) = some (r, k') ∧ (k' = (3, g) :: k ∨ k' = k ∧ g = []) := by
  cases h with
  | @some g r hg =>
    refine ⟨_, go_left (q := (r, (3, g) :: k)) ?_, .inl rfl⟩
    have h1 := go_ch_some (x := 40) (by decide) (g ++ 41 :: r) k
    have h2 : go (.seq (.cap 3 (.star rG)) (ch 41)) (g ++ 41 :: r, k) = some (r, (3, g) :: k) := by
      rw [go_groups, hg.close, Option.bind_some, take_left]
      exact go_ch_some (x := 41) (by decide) r _
    rw [go_then (a := ch 40) h1 (by rw [h2]; rfl), h2]
  | none hn =>
    refine ⟨k, ?_, .inr ⟨rfl, rfl⟩⟩
    rw [rGroup, go_right, go_eps]
    rw [go_seq, run_free (ch 40) rfl, List.findSome?_map, ch_ends (by omega)]
    cases s with
    | nil => rfl
    | cons x s =>
      by_cases hx : x.toNat = 40
      · have : x = 40 := UInt8.toNat_inj.1 hx
        subst this
        simp only [hx, if_true, List.findSome?_cons, List.findSome?_nil, Function.comp]
        have := go_groups (s := s) k
        rw [this]
        cases hc : closeG s with
        | none => rfl
        | some t =>
          obtain ⟨g, r, -, rfl, hg⟩ := closeG_some _ s t (Nat.le_refl _) hc
          exact absurd rfl (hn g r hg)
      · simp [hx]

theorem group_exists (s : B) : ∃ g r, GroupPart s g r := by
  by_cases h : ∃ g r, Groups g ∧ s = 40 :: (g ++ 41 :: r)
  · obtain ⟨g, r, hg, rfl⟩ := h
    exact ⟨g, r, .some hg⟩
  · exact ⟨[], s, .none fun g r hg e => h ⟨g, r, hg, e⟩⟩

end Verif.Spec.LexerDef
