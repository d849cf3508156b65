import Verif.Proofs.TreeText
import Verif.Spec.TreeDef
/-
Lines of texts of trees: the matcher of Model/TreeText reads what Spec/TreeDef says.
-/
namespace Verif.TreeDef
open Verif Verif.Spec Verif.Spec.TreeDef Verif.TreeText

variable {R : Type}

theorem white_isS {a : Str} (h : White a) : ∀ c ∈ a, isS c = true := by
  intro c hc
  rcases h c hc with rfl | rfl | rfl | rfl | rfl <;> rfl

theorem isS_white {a : Str} (h : ∀ c ∈ a, isS c = true) : White a := by
  intro c hc
  simpa [isS] using h c hc

theorem kind_isK {a : Str} (h : IsKind a) : ∀ c ∈ a, isK c = true := by
  intro c hc
  have := h.2 c hc
  simp only [List.mem_cons, List.not_mem_nil, or_false, not_or] at this
  obtain ⟨a1, a2, a3, a4, a5, a6, a7, a8, a9⟩ := this
  simp [isK, isS, a1, a2, a3, a4, a5, a6, a7, a8, a9]

theorem isK_kind {a : Str} (ha : a ≠ []) (h : ∀ c ∈ a, isK c = true) : IsKind a := by
  refine ⟨ha, fun c hc => ?_⟩
  have := h c hc
  simp [isK, isS] at this
  simp only [List.mem_cons, List.not_mem_nil, or_false, not_or]
  obtain ⟨a1, a2, a3, a4, a5, a6, a7, a8, a9⟩ := this
  exact ⟨a5, a6, a7, a8, a9, a4, a2, a1, a3⟩

/-! ### Values -/

theorem quoted_items {s v : Str} (h : Quoted s v) : Items s ∧ handleSlash s = v := by
  induction h with
  | nil => exact ⟨.nil, rfl⟩
  | char h1 h2 _ ih => exact ⟨.plain h1 h2 ih.1, by rw [handleSlash_plain h2, ih.2]⟩
  | slash _ ih => exact ⟨.esc (by decide) ih.1, by rw [handleSlash, if_pos ⟨rfl, rfl⟩, ih.2]⟩
  | quote _ ih => exact ⟨.esc (by decide) ih.1, by rw [handleSlash, if_neg (by decide), if_neg (by decide), if_pos ⟨rfl, rfl⟩, ih.2]⟩
  | line _ ih => exact ⟨.esc (by decide) ih.1, by rw [handleSlash, if_neg (by decide), if_pos ⟨rfl, rfl⟩, ih.2]⟩
  | @other c s v h _ ih =>
    simp only [List.mem_cons, List.not_mem_nil, or_false, not_or] at h
    obtain ⟨h1, h2, h3, h4⟩ := h
    exact ⟨.esc h4 ih.1, by rw [handleSlash, if_neg (by simp [h1]), if_neg (by simp [h3]), if_neg (by simp [h2]), handleSlash_plain h1, ih.2]⟩

theorem items_quoted {s : Str} (h : Items s) : Quoted s (handleSlash s) := by
  have : ∃ v, Quoted s v := by
    induction h with
    | nil => exact ⟨_, .nil⟩
    | plain h1 h2 _ ih => exact ih.elim fun v hv => ⟨_, .char h1 h2 hv⟩
    | @esc y s h1 _ ih =>
      obtain ⟨v, hv⟩ := ih
      by_cases e1 : y = '\\'
      · subst e1; exact ⟨_, .slash hv⟩
      by_cases e2 : y = '"'
      · subst e2; exact ⟨_, .quote hv⟩
      by_cases e3 : y = 'n'
      · subst e3; exact ⟨_, .line hv⟩
      · exact ⟨_, .other (by simp [e1, e2, e3, h1]) hv⟩
  obtain ⟨v, hv⟩ := this
  rw [(quoted_items hv).2]
  exact hv

/-- The value as the expression captures it. -/
inductive Raw : Str → Str → Prop
  | none : Raw [] []
  | some {a s b} : White a → Items s → White b → Raw (':' :: a ++ '"' :: s ++ '"' :: b) s

/-- The line as the expression reads it. -/
inductive RawLine : Str → Bool × Str × Str × Bool → Prop
  | blank {a b : Str} {c : Bool} : White a → White b → RawLine (a ++ brace '}' c ++ b) (c, [], [], false)
  | node {a b k d x v : Str} {c o : Bool} : White a → White b → IsKind k → White d → Raw x v →
      RawLine (a ++ brace '}' c ++ b ++ k ++ d ++ x ++ brace '{' o) (c, k, v, o)

/-- What the captures say. -/
def says (q : Bool × Str × Str × Bool) : List Tok := closing q.1 ++ if q.2.1 ≠ [] then [TreeDef.node q.2.1 (handleSlash q.2.2.1) q.2.2.2] else []

theorem rawLine_says {l : Str} {ts : List Tok} : Line l ts ↔ ∃ q, RawLine l q ∧ says q = ts := by
  constructor
  · intro h
    cases h with
    | @blank a b c h1 h2 => exact ⟨_, .blank h1 h2, by simp [says]⟩
    | @node a b k d x v c o h1 h2 h3 h4 h5 =>
      have : ∃ s, Raw x s ∧ handleSlash s = v := by
        cases h5 with
        | none => exact ⟨[], .none, rfl⟩
        | some g1 g2 g3 => exact ⟨_, .some g1 (quoted_items g2).1 g3, (quoted_items g2).2⟩
      obtain ⟨s, hs, e⟩ := this
      exact ⟨_, .node h1 h2 h3 h4 hs, by simp [says, h3.1, e]⟩
  · rintro ⟨q, h, rfl⟩
    cases h with
    | blank h1 h2 =>
      have := Line.blank (c := ‹_›) h1 h2
      simpa [says] using this
    | @node a b k d x v c o h1 h2 h3 h4 h5 =>
      have hv : Value x (handleSlash v) := by
        cases h5 with
        | none => exact .none
        | some g1 g2 g3 => exact .some g1 (items_quoted g2) g3
      have := Line.node (c := c) (o := o) h1 h2 h3 h4 hv
      simpa [says, h3.1] using this

/-! ### The matcher finds the reading -/

theorem tail_some {c : Bool} {k v b : Str} {o : Bool} (hb : White b) : tailRe c k v (b ++ brace '{' o) = some (c, k, v, o) := by
  unfold tailRe
  refine many_all b _ [] (white_isS hb) ?_ ?_
  · cases o with
    | false => intro x hx; cases hx
    | true => intro x hx; cases hx; rfl
  · cases o <;> rfl

theorem after_some {c : Bool} {k d x v : Str} {o : Bool} (hd : White d) (hx : Raw x v) :
    afterKind c k (d ++ (x ++ brace '{' o)) = some (c, k, v, o) := by
  unfold afterKind
  cases hx with
  | none =>
    refine many_all d _ [] (white_isS hd) ?_ ?_
    · cases o with
      | false => intro x hx; cases hx
      | true => intro x hx; cases hx; rfl
    · have := tail_some (c := c) (k := k) (v := []) (b := []) (o := o) (by simp [White])
      unfold valueGroup
      rw [List.nil_append] at this ⊢
      cases o with
      | false => exact this
      | true => exact this
  | @some a _ b g1 g2 g3 =>
    refine many_all d _ [] (white_isS hd) ?_ ?_
    · intro x hx; cases hx; rfl
    · have e : ':' :: a ++ '"' :: v ++ '"' :: b ++ brace '{' o = ':' :: (a ++ '"' :: (v ++ '"' :: (b ++ brace '{' o))) := by simp
      rw [e]
      unfold valueGroup
      simp only [if_true]
      rw [many_all (r := (c, k, v, o)) a _ [] (white_isS g1) (by intro x hx; cases hx; rfl)]
      · rfl
      · simp only [if_true]
        exact manyQ_all g2 _ _ (by simp [tail_some g3])

theorem raw_head {x v : Str} {o : Bool} (hx : Raw x v) : ∀ y, (x ++ brace '{' o).head? = some y → isK y = false := by
  cases hx with
  | none =>
    cases o with
    | false => intro x hx; cases hx
    | true => intro x hx; cases hx; rfl
  | some => intro y hy; cases hy; rfl

theorem kind_some {c : Bool} {k d x v : Str} {o : Bool} (hk : IsKind k) (hd : White d) (hx : Raw x v) :
    kindRe c (k ++ (d ++ (x ++ brace '{' o))) = some (c, k, v, o) := by
  have hK := kind_isK hk
  cases k with
  | nil => exact absurd rfl hk.1
  | cons y ys =>
    unfold kindRe
    rw [List.cons_append]
    simp only [hK y (by simp), if_true]
    rw [many_all (r := (c, y :: ys, v, o)) ys _ [y] (fun z hz => hK z (by simp [hz]))]
    · rfl
    · intro z hz
      cases d with
      | nil => exact raw_head hx z hz
      | cons w d =>
        cases hz
        have := white_isS hd z (by simp)
        simp [isK, this]
    · exact after_some hd hx

theorem rawLine_some {l : Str} {q : Bool × Str × Str × Bool} (h : RawLine l q) : treeLine l = some q := by
  have front : ∀ {a b r : Str} {c : Bool} {q : Bool × Str × Str × Bool}, White a → White b →
      (∀ y, r.head? = some y → isS y = false ∧ y ≠ '}') → kindRe c r = some q → treeLine (a ++ brace '}' c ++ b ++ r) = some q := by
    intro a b r c q ha hb hr hq
    unfold treeLine
    have step : ∀ b : Str, White b → many isS (fun _ s => kindRe c s) [] (b ++ r) = some q := fun b hb =>
      many_all b r [] (white_isS hb) (fun y hy => (hr y hy).1) hq
    cases c with
    | true =>
      rw [show a ++ brace '}' true ++ b ++ r = a ++ ('}' :: (b ++ r)) by simp [brace]]
      refine many_all a _ [] (white_isS ha) (by intro y hy; cases hy; rfl) ?_
      exact opt_eq (step b hb)
    | false =>
      rw [show a ++ brace '}' false ++ b ++ r = (a ++ b) ++ r by simp [brace]]
      refine many_all (a ++ b) _ [] ?_ (fun y hy => (hr y hy).1) ?_
      · intro y hy
        rcases List.mem_append.mp hy with h | h
        · exact white_isS ha y h
        · exact white_isS hb y h
      · rw [opt_ne fun y hy => (hr y hy).2]
        exact step [] (by simp [White])
  cases h with
  | @blank a b c h1 h2 =>
    have := front (r := []) (c := c) (q := (c, [], [], false)) h1 h2 (by simp) (by cases c <;> rfl)
    simpa using this
  | @node a b k d x v c o h1 h2 h3 h4 h5 =>
    rw [show a ++ brace '}' c ++ b ++ k ++ d ++ x ++ brace '{' o = a ++ brace '}' c ++ b ++ (k ++ (d ++ (x ++ brace '{' o))) by simp]
    refine front h1 h2 ?_ (kind_some h3 h4 h5)
    intro y hy
    have hK := kind_isK h3
    cases k with
    | nil => exact absurd rfl h3.1
    | cons z k =>
      cases hy
      have := hK y (by simp)
      exact ⟨isK_not_isS this, by simp [isK] at this; exact this.1⟩

/-! ### What the matcher finds is a reading -/

theorem many_sound {c : Char → Bool} {k : Str → Str → Option R} {r : R} : ∀ (s acc : Str), many c k acc s = some r →
    ∃ w t, s = w ++ t ∧ (∀ x ∈ w, c x = true) ∧ k (acc ++ w) t = some r
  | [], acc, h => ⟨[], [], rfl, by simp, by rw [List.append_nil]; exact h⟩
  | x :: xs, acc, h => by
    unfold many at h
    split at h
    · rename_i hx
      rcases Option.or_eq_some_iff.mp h with h | ⟨_, h⟩
      · obtain ⟨w, t, e, hw, hk⟩ := many_sound xs (acc ++ [x]) h
        exact ⟨x :: w, t, by rw [e]; rfl, by simpa [hx] using hw, by simpa using hk⟩
      · exact ⟨[], x :: xs, rfl, by simp, by rw [List.append_nil]; exact h⟩
    · exact ⟨[], x :: xs, rfl, by simp, by rw [List.append_nil]; exact h⟩

theorem opt_sound {x : Char} {k : Bool → Str → Option R} {r : R} {s : Str} (h : opt x k s = some r) :
    ∃ b t, s = brace x b ++ t ∧ k b t = some r := by
  cases s with
  | nil => exact ⟨false, [], rfl, h⟩
  | cons y ys =>
    rw [opt] at h
    split at h
    · rename_i e
      subst e
      rcases Option.or_eq_some_iff.mp h with h | ⟨_, h⟩
      · exact ⟨true, ys, rfl, h⟩
      · exact ⟨false, y :: ys, rfl, h⟩
    · exact ⟨false, y :: ys, rfl, h⟩

theorem manyQ_sound {k : Str → Str → Option R} {r : R} : ∀ (n : Nat) (s acc : Str), s.length ≤ n → manyQ k acc s = some r →
    ∃ w t, s = w ++ t ∧ Items w ∧ k (acc ++ w) t = some r
  | n, [], acc, _, h => ⟨[], [], rfl, .nil, by rw [List.append_nil]; unfold manyQ at h; exact h⟩
  | n, [x], acc, _, h => by
    unfold manyQ at h
    split at h
    · rename_i hx
      rcases Option.or_eq_some_iff.mp h with h | ⟨_, h⟩
      · exact ⟨[x], [], rfl, .plain hx.1 hx.2 .nil, h⟩
      · exact ⟨[], [x], rfl, .nil, by rw [List.append_nil]; exact h⟩
    · exact ⟨[], [x], rfl, .nil, by rw [List.append_nil]; exact h⟩
  | n + 1, x :: y :: ys, acc, hn, h => by
    unfold manyQ at h
    split at h
    · rename_i hx
      rcases Option.or_eq_some_iff.mp h with h | ⟨_, h⟩
      · obtain ⟨w, t, e, hw, hk⟩ := manyQ_sound n (y :: ys) (acc ++ [x]) (by simpa using hn) h
        exact ⟨x :: w, t, by rw [e]; rfl, .plain hx.1 hx.2 hw, by simpa using hk⟩
      · exact ⟨[], _, rfl, .nil, by rw [List.append_nil]; exact h⟩
    · split at h
      · rename_i hx
        obtain ⟨rfl, hy⟩ := hx
        rcases Option.or_eq_some_iff.mp h with h | ⟨_, h⟩
        · obtain ⟨w, t, e, hw, hk⟩ := manyQ_sound n ys (acc ++ ['\\', y]) (by simp at hn; omega) h
          exact ⟨'\\' :: y :: w, t, by rw [e]; rfl, .esc hy hw, by simpa using hk⟩
        · exact ⟨[], _, rfl, .nil, by rw [List.append_nil]; exact h⟩
      · exact ⟨[], _, rfl, .nil, by rw [List.append_nil]; exact h⟩

theorem tail_sound {c : Bool} {k v s : Str} {q : Bool × Str × Str × Bool} (h : tailRe c k v s = some q) :
    ∃ b o, White b ∧ s = b ++ brace '{' o ∧ q = (c, k, v, o) := by
  unfold tailRe at h
  obtain ⟨b, t, e1, hb, h1⟩ := many_sound s [] h
  obtain ⟨o, u, e2, h2⟩ := opt_sound h1
  cases u with
  | nil =>
    have h3 : some (c, k, v, o) = some q := h2
    refine ⟨b, o, isS_white hb, by rw [e1, e2]; simp, ?_⟩
    injection h3 with h3
    exact h3.symm
  | cons x u => cases h2

theorem after_sound {c : Bool} {k s : Str} {q : Bool × Str × Str × Bool} (h : afterKind c k s = some q) :
    ∃ d x v o, White d ∧ Raw x v ∧ s = d ++ x ++ brace '{' o ∧ q = (c, k, v, o) := by
  unfold afterKind at h
  obtain ⟨d, t, e1, hd, h1⟩ := many_sound s [] h
  unfold valueGroup at h1
  rcases Option.or_eq_some_iff.mp h1 with h2 | ⟨_, h2⟩
  · cases t with
    | nil => cases h2
    | cons x xs =>
      simp only at h2
      split at h2
      · rename_i e
        subst e
        obtain ⟨a, t, e2, ha, h3⟩ := many_sound xs [] h2
        cases t with
        | nil => cases h3
        | cons y ys =>
          simp only at h3
          split at h3
          · rename_i e
            subst e
            obtain ⟨w, t, e3, hw, h4⟩ := manyQ_sound _ ys [] (Nat.le_refl _) h3
            cases t with
            | nil => cases h4
            | cons z zs =>
              simp only at h4
              split at h4
              · rename_i e
                subst e
                obtain ⟨b, o, hb, e4, e5⟩ := tail_sound h4
                exact ⟨d, _, w, o, isS_white hd, .some (isS_white ha) hw hb, by rw [e1, e2, e3, e4]; simp, by rw [e5]; simp⟩
              · cases h4
          · cases h3
      · cases h2
  · obtain ⟨b, o, hb, e4, e5⟩ := tail_sound h2
    refine ⟨d ++ b, [], [], o, ?_, .none, by rw [e1, e4]; simp, e5⟩
    intro x hx
    rcases List.mem_append.mp hx with h | h
    · exact isS_white hd x h
    · exact hb x h

theorem rawLine_sound {l : Str} {q : Bool × Str × Str × Bool} (h : treeLine l = some q) : RawLine l q := by
  unfold treeLine at h
  obtain ⟨a, t1, e1, ha, h1⟩ := many_sound l [] h
  obtain ⟨c, t2, e2, h2⟩ := opt_sound h1
  obtain ⟨b, t3, e3, hb, h3⟩ := many_sound t2 [] h2
  unfold kindRe at h3
  rcases Option.or_eq_some_iff.mp h3 with h4 | ⟨_, h4⟩
  · cases t3 with
    | nil => cases h4
    | cons x xs =>
      simp only at h4
      split at h4
      · rename_i hx
        obtain ⟨w, t, e4, hw, h5⟩ := many_sound xs [x] h4
        obtain ⟨d, y, v, o, hd, hy, e5, e6⟩ := after_sound h5
        have := RawLine.node (c := c) (o := o) (isS_white ha) (isS_white hb) (isK_kind (a := x :: w) (by simp) (by simpa [hx] using hw)) hd hy
        rw [e1, e2, e3, e4, e5, e6]
        simpa using this
      · cases h4
  · cases t3 with
    | nil =>
      obtain ⟨d, y, v, o, hd, hy, e, e6⟩ := after_sound h4
      have := RawLine.blank (c := c) (isS_white ha) (isS_white hb)
      rw [e1, e2, e3, e6]
      cases hy with
      | none =>
        cases o with
        | true => simp [brace] at e
        | false => simpa using this
      | some => simp at e
    | cons x xs => cases h4

/-- The matcher reads a line exactly if the layout allows it, and reads what the layout says. -/
theorem line_iff {l : Str} {ts : List Tok} : Line l ts ↔ ∃ q, treeLine l = some q ∧ says q = ts := by
  rw [rawLine_says]
  exact ⟨fun ⟨q, h, e⟩ => ⟨q, rawLine_some h, e⟩, fun ⟨q, h, e⟩ => ⟨q, rawLine_sound h, e⟩⟩

end Verif.TreeDef
