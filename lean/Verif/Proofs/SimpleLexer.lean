import Verif.Model.SimpleLexer
import Verif.Spec.Lexer
import Verif.Proofs.SetSymbol
import Mathlib.Tactic.Linarith
/-
Proofs about the simple lexer: the loop cuts the input into pieces.
-/
namespace Verif.SimpleLexer
open Verif Verif.SetSymbol Verif.Spec

abbrev Cmp := Int → Int → Int → Int → Bool
abbrev Ent := Rule × Option (Nat × Nat)

theorem ltp_iff {e1 p1 e2 p2 : Int} :
    lengthThenPriority e1 p1 e2 p2 = true ↔ e1 > e2 ∨ (e1 = e2 ∧ p1 < p2) := by
  unfold lengthThenPriority; simp

theorem ptl_iff {e1 p1 e2 p2 : Int} :
    priorityThenLength e1 p1 e2 p2 = true ↔ p1 < p2 ∨ (p1 = p2 ∧ e1 > e2) := by
  unfold priorityThenLength; simp

/-- What the choice loop computes, in the default mode. -/
theorem choose_spec (b : Bytes) (cur : Nat) (es : List Ent) (c : Choice) :
    let c' := choose lengthThenPriority b cur c es
    (c' = c ∨ ∃ r e, (r, some (cur, e)) ∈ es ∧ c' = ⟨some r, slice b cur e, e, r.priority⟩) ∧
    (c'.lxEnd > c.lxEnd ∨ (c'.lxEnd = c.lxEnd ∧ c'.lxP ≤ c.lxP)) ∧
    (∀ r e, (r, some (cur, e)) ∈ es → e < c'.lxEnd ∨ (e = c'.lxEnd ∧ c'.lxP ≤ r.priority)) := by
  induction es generalizing c with
  | nil => simp [choose]
  | cons x es ih =>
    obtain ⟨r, l⟩ := x
    cases l with
    | none =>
      simp only [choose]
      obtain ⟨h1, h2, h3⟩ := ih c
      refine ⟨?_, h2, ?_⟩
      · rcases h1 with h1 | ⟨r', e, hm, h1⟩
        · exact .inl h1
        · exact .inr ⟨r', e, List.mem_cons_of_mem _ hm, h1⟩
      · intro r' e hm
        simp at hm
        exact h3 r' e hm
    | some loc =>
      obtain ⟨a, e⟩ := loc
      simp only [choose]
      split
      · next hc =>
        obtain ⟨ha, hc⟩ := hc
        subst ha
        rw [ltp_iff] at hc
        obtain ⟨h1, h2, h3⟩ := ih ⟨some r, slice b a e, e, r.priority⟩
        refine ⟨?_, ?_, ?_⟩
        · rcases h1 with h1 | ⟨r', e', hm, h1⟩
          · exact .inr ⟨r, e, List.mem_cons_self .., h1⟩
          · exact .inr ⟨r', e', List.mem_cons_of_mem _ hm, h1⟩
        · dsimp only at h2 ⊢; omega
        · intro r' e' hm
          rcases List.mem_cons.1 hm with hm | hm
          · simp only [Prod.mk.injEq, Option.some.injEq, true_and] at hm
            obtain ⟨rfl, rfl⟩ := hm
            dsimp only at h2 ⊢; omega
          · exact h3 r' e' hm
      · next hc =>
        obtain ⟨h1, h2, h3⟩ := ih c
        refine ⟨?_, h2, ?_⟩
        · rcases h1 with h1 | ⟨r', e', hm, h1⟩
          · exact .inl h1
          · exact .inr ⟨r', e', List.mem_cons_of_mem _ hm, h1⟩
        · intro r' e' hm
          rcases List.mem_cons.1 hm with hm | hm
          · simp only [Prod.mk.injEq, Option.some.injEq] at hm
            obtain ⟨rfl, rfl, rfl⟩ := hm
            rw [ltp_iff] at hc
            simp only [true_and] at hc
            omega
          · exact h3 r' e' hm

/-- In priority mode nothing is ever chosen: the initial priority -1 is smaller than any. -/
theorem choose_priority (b : Bytes) (cur : Nat) (es : List Ent) (c : Choice) (hc : c.lxP < 0)
    (h : ∀ x ∈ es, 0 ≤ x.1.priority) : choose priorityThenLength b cur c es = c := by
  induction es with
  | nil => rfl
  | cons x es ih =>
    obtain ⟨r, l⟩ := x
    have hr : 0 ≤ r.priority := h (r, l) (List.mem_cons_self ..)
    have ih := ih fun x hx => h x (List.mem_cons_of_mem _ hx)
    cases l with
    | none => exact ih
    | some loc =>
      simp only [choose]
      rw [if_neg]
      · exact ih
      · rintro ⟨_, h2⟩
        rw [ptl_iff] at h2
        omega

/-- Contract between the cached matches and the lexing relation: what the loop needs to know. -/
structure Good (cmp : Cmp) (b : Bytes) (takes : Nat → Rule → Nat → Prop) (dead : Nat → Prop)
    (V : List Ent → Nat → Prop) : Prop where
  stop : ∀ es cur, V es cur → cur < b.length →
    (choose cmp b cur ⟨none, [], cur, -1⟩ es).lxEnd = cur →
    dead cur ∧ (choose cmp b cur ⟨none, [], cur, -1⟩ es).val = []
  go : ∀ es cur, V es cur → cur < b.length →
    (choose cmp b cur ⟨none, [], cur, -1⟩ es).lxEnd ≠ cur →
    ∃ r n, choose cmp b cur ⟨none, [], cur, -1⟩ es =
        ⟨some r, (b.drop cur).take n, cur + n, r.priority⟩ ∧
      0 < n ∧ cur + n ≤ b.length ∧ takes cur r n
  update : ∀ es cur cur', V es cur → cur ≤ cur' → cur' ≤ b.length →
    V (es.map (refind b cur')) cur'

theorem slice_eq (b : Bytes) (p q : Nat) : slice b p q = (b.drop p).take (q - p) := by
  unfold slice; rw [List.drop_take]

/-- Lexemes emitted for the pieces from position `p` on, when `ln` newlines have been counted; `ek`
is the index of the error kind. -/
def render (b : Bytes) (ek : Nat) : Nat → Nat → List (Seg Rule) → List Lx
  | _, _, [] => []
  | p, ln, .tok r v :: segs =>
    (if r.discard then [] else [⟨.idx r.kind, v, ln, p - lastNl (b.take p), false⟩]) ++
      render b ek (p + v.length) (ln + countNl v) segs
  | p, ln, .err v :: segs =>
    ⟨.idx ek, v, -1, 0, true⟩ :: render b ek (p + v.length) ln segs

theorem str_snd_stable {s : SymSet Bytes} (x : Bytes) : (str (str s x).1 x).2 = (str s x).2 := by
  unfold str
  cases h : s.str2sym x with
  | some v => simp [h]
  | none => simp [upd]

theorem str_fst_stable {s : SymSet Bytes} (x : Bytes) : (str (str s x).1 x).1 = (str s x).1 := by
  unfold str
  cases h : s.str2sym x with
  | some v => simp [h]
  | none => simp [upd]

/-- Conclusion of the loop theorem: the result of running from a state whose pending piece starts at
`p`. The pieces do not depend on the lexemes emitted before nor on the symbol set. -/
def Done (error : Bytes) (b : Bytes) (takes : Nat → Rule → Nat → Prop) (dead : Nat → Prop)
    (errFlag : Bool) (lines : Nat) (p : Nat) (out : List Lx → SymSet Bytes → Out Op) : Prop :=
  ∃ segs, Lexes takes dead b p segs ∧
    (errFlag = true → segs.head?.any Seg.isErr = true) ∧
    List.IsChain (fun a b : Seg Rule => ¬ (a.isErr = true ∧ b.isErr = true)) segs ∧
    ∀ lxs set, ∃ op', out lxs set = .ok op' ∧ op'.cur = b.length ∧
      (checkError error b op').lxs = lxs ++ render b (str set error).2 p lines segs ∧
      (checkError error b op').set = if segs.any Seg.isErr then (str set error).1 else set

theorem loop_spec {cmp : Cmp} {b : Bytes} {takes : Nat → Rule → Nat → Prop} {dead : Nat → Prop}
    {V : List Ent → Nat → Prop} (G : Good cmp b takes dead V) (error : Bytes) (n : Nat) :
    ∀ next errFlag errStart cur lines, V next cur → cur < b.length → b.length ≤ cur + n →
      (errFlag = true → errStart < cur ∧ ∀ i, errStart ≤ i → i < cur → dead i) →
      Done error b takes dead errFlag lines (if errFlag then errStart else cur)
        (fun lxs set => loop cmp error b n ⟨next, lxs, errFlag, errStart, cur, lines, set⟩) := by
  induction n with
  | zero => intro _ _ _ _ _ _ h1 h2; omega
  | succ n ih =>
    intro next errFlag errStart cur lines hV hcur hn hE
    by_cases hstop : (choose cmp b cur ⟨none, [], cur, -1⟩ next).lxEnd = cur
    · -- error step
      obtain ⟨hd, hv⟩ := G.stop next cur hV hcur hstop
      let s := if errFlag then errStart else cur
      have hs : s < cur + 1 ∧ ∀ i, s ≤ i → i < cur + 1 → dead i := by
        cases errFlag with
        | false =>
          refine ⟨Nat.lt_succ_self _, fun i h1 h2 => ?_⟩
          have h1 : cur ≤ i := h1
          have : i = cur := by omega
          rw [this]; exact hd
        | true =>
          obtain ⟨h1, h2⟩ := hE rfl
          refine ⟨by show errStart < cur + 1; omega, fun i h3 h4 => ?_⟩
          have h3 : errStart ≤ i := h3
          by_cases hi : i = cur
          · rw [hi]; exact hd
          · exact h2 i h3 (by omega)
      have hb : ∀ lxs set, body cmp error b ⟨next, lxs, errFlag, errStart, cur, lines, set⟩ =
          .ok ⟨next, lxs, true, s, cur + 1, lines, set⟩ := by
        intro lxs set
        unfold body findNextMatch
        simp only [hv]
        rw [if_pos hstop]
        rfl
      simp only [loop, hb, Out.bind_ok]
      by_cases hend : cur + 1 ≥ b.length
      · simp only [if_pos hend]
        have hl : cur + 1 = b.length := by omega
        refine ⟨[.err ((b.drop s).take (b.length - s))],
          .err (hl ▸ hs.1) (Nat.le_refl _) (hl ▸ hs.2) (.inl rfl) .done, fun _ => rfl, by simp,
          fun lxs set => ⟨_, rfl, hl, ?_, ?_⟩⟩
        · show (checkError error b _).lxs = _
          unfold checkError
          simp [hl, render, slice_eq]
        · show (checkError error b _).set = _
          unfold checkError
          simp [hl, Seg.isErr]
      · simp only [if_neg hend]
        have := ih (next.map (refind b (cur + 1))) true s (cur + 1) lines
          (G.update next cur (cur + 1) hV (by omega) (by omega))
          (by omega) (by omega) (fun _ => hs)
        obtain ⟨segs, h1, h2, h3, h4⟩ := this
        exact ⟨segs, h1, fun _ => h2 rfl, h3, h4⟩
    · -- token step
      obtain ⟨r, k, hc, hk, hle, ht⟩ := G.go next cur hV hcur hstop
      have hne : ¬ (cur + k = cur) := by omega
      let v := (b.drop cur).take k
      have hvl : v.length = k := by simp only [v, List.length_take, List.length_drop]; omega
      let errs : SymSet Bytes → List Lx := fun set => if errFlag then
            [⟨.idx (str set error).2, slice b errStart cur, -1, 0, true⟩] else []
      let toks : List Lx :=
        if r.discard then [] else [⟨.idx r.kind, v, lines, cur - lastNl (b.take cur), false⟩]
      let st : SymSet Bytes → SymSet Bytes := fun set => if errFlag then (str set error).1 else set
      have hb : ∀ lxs set, body cmp error b ⟨next, lxs, errFlag, errStart, cur, lines, set⟩ =
          .ok ⟨next, lxs ++ errs set ++ toks, false, errStart, cur + k, lines + countNl v, st set⟩ := by
        intro lxs set
        unfold body findNextMatch
        simp only [hc]
        rw [if_neg hne]
        unfold checkError
        have hh : ¬ (b.length < cur) := by omega
        cases errFlag <;> cases hd : r.discard <;> simp [errs, toks, st, v, hh, hd]
      -- the rest of the run
      have tail : Done error b takes dead false (lines + countNl v) (cur + k) (fun lxs set =>
          if cur + k ≥ b.length then
            .ok ⟨next, lxs, false, errStart, cur + k, lines + countNl v, set⟩
          else loop cmp error b n (updateNext b
            ⟨next, lxs, false, errStart, cur + k, lines + countNl v, set⟩)) := by
        by_cases hend : cur + k ≥ b.length
        · have hl : cur + k = b.length := by omega
          simp only [if_pos hend]
          refine ⟨[], hl ▸ .done, by simp, by simp, fun lxs set => ⟨_, rfl, hl, ?_, ?_⟩⟩
          · simp [checkError, render]
          · simp [checkError]
        · simp only [if_neg hend]
          exact ih (next.map (refind b (cur + k))) false errStart (cur + k) (lines + countNl v)
            (G.update next cur (cur + k) hV (by omega) (by omega)) (by omega) (by omega) (by simp)
      simp only [loop, hb, Out.bind_ok]
      obtain ⟨segs, h1, -, h3, h4⟩ := tail
      have hek : ∀ set, (str (st set) error).2 = (str set error).2 := by
        intro set
        cases errFlag with
        | false => rfl
        | true => exact str_snd_stable error
      have hes : ∀ set, (str (st set) error).1 = (str set error).1 := by
        intro set
        cases errFlag with
        | false => rfl
        | true => exact str_fst_stable error
      have hL : Lexes takes dead b cur (.tok r v :: segs) := .tok ht hk hle h1
      have hR : ∀ set, render b (str set error).2 cur lines (.tok r v :: segs) =
          toks ++ render b (str set error).2 (cur + k) (lines + countNl v) segs := by
        intro set
        simp only [render, hvl, toks]
      have hch : List.IsChain (fun a b : Seg Rule => ¬ (a.isErr = true ∧ b.isErr = true))
          (.tok r v :: segs) := by
        cases segs with
        | nil => simp
        | cons a l => exact List.IsChain.cons_cons (by simp [Seg.isErr]) h3
      cases errFlag with
      | false =>
        refine ⟨.tok r v :: segs, hL, by simp, hch, fun lxs set => ?_⟩
        obtain ⟨op', g1, g2, g3, g4⟩ := h4 (lxs ++ errs set ++ toks) (st set)
        refine ⟨op', g1, g2, ?_, ?_⟩
        · rw [g3, hek]
          simp only [errs, Bool.false_eq_true, if_false, List.append_nil, List.append_assoc]
          rw [hR]
        · rw [g4, hes]
          simp [st, Seg.isErr]
      | true =>
        obtain ⟨hp1, hp2⟩ := hE rfl
        have hul : ((b.drop errStart).take (cur - errStart)).length = cur - errStart := by
          simp only [List.length_take, List.length_drop]; omega
        refine ⟨.err ((b.drop errStart).take (cur - errStart)) :: .tok r v :: segs,
          .err hp1 (by omega) hp2 (.inr ⟨r, k, hk, ht⟩) hL, by simp [Seg.isErr],
          List.IsChain.cons_cons (by simp [Seg.isErr]) hch, fun lxs set => ?_⟩
        obtain ⟨op', g1, g2, g3, g4⟩ := h4 (lxs ++ errs set ++ toks) (st set)
        refine ⟨op', g1, g2, ?_, ?_⟩
        · rw [g3, hek]
          simp only [if_true]
          rw [render, hul, show errStart + (cur - errStart) = cur by omega, hR]
          simp [errs, slice_eq]
        · rw [g4, hes]
          simp [st, Seg.isErr]

/-- A rule was found at `[p, p+n)` by a search started at or before `p`. -/
def Claims (rs : List Rule) (b : Bytes) (p : Nat) (r : Rule) (n : Nat) : Prop :=
  r ∈ rs ∧ ∃ c ≤ p, r.re.find (b.drop c) = some (p - c, p - c + n)

/-- Cached matches of arbitrary regexps. -/
def VAny (rs : List Rule) (b : Bytes) (es : List Ent) (cur : Nat) : Prop :=
  ∀ r a e, (r, some (a, e)) ∈ es → r ∈ rs ∧ a ≤ e ∧ e ≤ b.length ∧
    ∃ c ≤ cur, c ≤ a ∧ r.re.find (b.drop c) = some (a - c, e - c)

theorem mem_refind {b : Bytes} {cur : Nat} {es : List Ent} {r : Rule} {o : Option (Nat × Nat)}
    (h : (r, o) ∈ es.map (refind b cur)) :
    (∃ loc, (r, some loc) ∈ es ∧ loc.1 ≤ cur ∧
      o = (r.re.find (b.drop cur)).map fun l => (l.1 + cur, l.2 + cur)) ∨
    ((r, o) ∈ es ∧ ∀ loc, o = some loc → cur < loc.1) := by
  rw [List.mem_map] at h
  obtain ⟨⟨r', o'⟩, hm, he⟩ := h
  unfold refind at he
  cases o' with
  | none =>
    simp only [Prod.mk.injEq] at he
    obtain ⟨rfl, rfl⟩ := he
    exact .inr ⟨hm, by simp⟩
  | some loc =>
    simp only at he
    split at he
    · next hc =>
      simp only [Prod.mk.injEq] at he
      obtain ⟨rfl, rfl⟩ := he
      exact .inl ⟨loc, hm, hc, rfl⟩
    · next hc =>
      simp only [Prod.mk.injEq] at he
      obtain ⟨rfl, rfl⟩ := he
      refine .inr ⟨hm, ?_⟩
      intro l hl; cases hl; omega

theorem vAny_update {rs : List Rule} {b : Bytes} {es : List Ent} {cur cur' : Nat}
    (h : VAny rs b es cur) (hc : cur ≤ cur') (hb : cur' ≤ b.length) :
    VAny rs b (es.map (refind b cur')) cur' := by
  intro r a e hm
  rcases mem_refind hm with ⟨loc, h1, h2, h3⟩ | ⟨h1, h2⟩
  · obtain ⟨hr, _⟩ := h r loc.1 loc.2 h1
    cases hf : r.re.find (b.drop cur') with
    | none => rw [hf] at h3; simp at h3
    | some l =>
      rw [hf] at h3
      simp only [Option.map_some, Option.some.injEq, Prod.mk.injEq] at h3
      obtain ⟨rfl, rfl⟩ := h3
      have hbd := r.re.bound _ l.1 l.2 hf
      simp only [List.length_drop] at hbd
      refine ⟨hr, by omega, by omega, cur', Nat.le_refl _, by omega, ?_⟩
      rw [hf]; simp
  · obtain ⟨hr, h3, h4, c, h5, h6, h7⟩ := h r a e h1
    exact ⟨hr, h3, h4, c, by omega, h6, h7⟩

theorem good_any (rs : List Rule) (b : Bytes) :
    Good lengthThenPriority b (Claims rs b) (fun _ => True) (VAny rs b) where
  stop := by
    intro es cur hV _ hs
    refine ⟨trivial, ?_⟩
    obtain ⟨h1, -, -⟩ := choose_spec b cur es ⟨none, [], cur, -1⟩
    rcases h1 with h1 | ⟨r, e, hm, h1⟩
    · rw [h1]
    · rw [h1] at hs ⊢
      simp only at hs
      subst hs
      simp [slice_eq]
  go := by
    intro es cur hV hlt hs
    obtain ⟨h1, h2, -⟩ := choose_spec b cur es ⟨none, [], cur, -1⟩
    rcases h1 with h1 | ⟨r, e, hm, h1⟩
    · rw [h1] at hs; simp at hs
    · obtain ⟨hr, h3, h4, c, h5, h6, h7⟩ := hV r cur e hm
      rw [h1] at hs h2
      simp only at hs h2
      refine ⟨r, e - cur, ?_, by omega, by omega, hr, c, h5, ?_⟩
      · rw [h1, slice_eq, show cur + (e - cur) = e by omega]
      · rw [h7, show cur - c + (e - cur) = e - c by omega]
  update := fun _ _ _ h h1 h2 => vAny_update h h1 h2

/-- Cached matches of context-independent regexps: `m r` is the match of `r` at the beginning of a
string. -/
structure VCtx (rs : List Rule) (m : Rule → Bytes → Option Nat) (step : Bytes → Nat) (b : Bytes)
    (es : List Ent) (cur : Nat) : Prop where
  any : VAny rs b es cur
  rules : es.map Prod.fst = rs
  none : ∀ r, (r, none) ∈ es → ∀ i, Bd step b i → cur ≤ i → m r (b.drop i) = .none
  some : ∀ r a e, (r, some (a, e)) ∈ es → cur ≤ a ∧ m r (b.drop a) = .some (e - a) ∧
    ∀ i, Bd step b i → cur ≤ i → i < a → m r (b.drop i) = .none

theorem map_refind_fst (b : Bytes) (cur : Nat) (es : List Ent) :
    (es.map (refind b cur)).map Prod.fst = es.map Prod.fst := by
  rw [List.map_map]
  apply List.map_congr_left
  intro x _
  obtain ⟨r, o⟩ := x
  cases o with
  | none => rfl
  | some l =>
    simp only [Function.comp, refind]
    split <;> rfl

theorem vCtx_update {rs : List Rule} {m : Rule → Bytes → Option Nat} {step : Bytes → Nat}
    (hsync : Sync step) (hL : ∀ r ∈ rs, Leftmost step (m r) r.re.find) {b : Bytes} {es : List Ent}
    {cur cur' : Nat} (h : VCtx rs m step b es cur) (hc : cur ≤ cur') (hb : cur' ≤ b.length) :
    VCtx rs m step b (es.map (refind b cur')) cur' where
  any := vAny_update h.any hc hb
  rules := by rw [map_refind_fst, h.rules]
  none := by
    intro r hm i hi hci
    rcases mem_refind hm with ⟨loc, h1, h2, h3⟩ | ⟨h1, h2⟩
    · obtain ⟨hr, _⟩ := h.any r loc.1 loc.2 h1
      cases hf : r.re.find (b.drop cur') with
      | some l => rw [hf] at h3; simp at h3
      | none =>
        have := hL r hr (b.drop cur')
        rw [hf] at this
        have := this (i - cur') (hsync b cur' i hi hci)
        rwa [List.drop_drop, show cur' + (i - cur') = i by omega] at this
    · exact h.none r h1 i hi (by omega)
  some := by
    intro r a e hm
    rcases mem_refind hm with ⟨loc, h1, h2, h3⟩ | ⟨h1, h2⟩
    · obtain ⟨hr, _⟩ := h.any r loc.1 loc.2 h1
      cases hf : r.re.find (b.drop cur') with
      | none => rw [hf] at h3; simp at h3
      | some l =>
        obtain ⟨la, le⟩ := l
        rw [hf] at h3
        simp only [Option.map_some, Option.some.injEq, Prod.mk.injEq] at h3
        obtain ⟨rfl, rfl⟩ := h3
        have := hL r hr (b.drop cur')
        rw [hf] at this
        obtain ⟨h4, h5, h6⟩ := this
        refine ⟨by omega, ?_, ?_⟩
        · rw [List.drop_drop] at h5
          rw [show la + cur' = cur' + la by omega, h5]
          congr 1; omega
        · intro i hi hci hia
          have := h6 (i - cur') (hsync b cur' i hi hci) (by omega)
          rwa [List.drop_drop, show cur' + (i - cur') = i by omega] at this
    · obtain ⟨h3, h4, h5⟩ := h.some r a e h1
      have := h2 (a, e) rfl
      exact ⟨by simp only at this; omega, h4, fun i hi hci hia => h5 i hi (by omega) hia⟩

/-- Rule `r` wins at `p`, where `p` is a rune start; elsewhere it merely matches. -/
def WinsAt (rs : List Rule) (m : Rule → Bytes → Option Nat) (step : Bytes → Nat) (b : Bytes)
    (p : Nat) (r : Rule) (n : Nat) : Prop :=
  r ∈ rs ∧ m r (b.drop p) = some n ∧
    (Bd step b p → Wins (· ∈ rs) m (fun r => r.priority) (b.drop p) r n)

/-- No rule matches at the rune start `p`. -/
def DeadAt (rs : List Rule) (m : Rule → Bytes → Option Nat) (step : Bytes → Nat) (b : Bytes)
    (p : Nat) : Prop :=
  Bd step b p → ∀ r ∈ rs, ∀ n, m r (b.drop p) = some n → n = 0

theorem vCtx_match {rs : List Rule} {m : Rule → Bytes → Option Nat} {step : Bytes → Nat} {b : Bytes}
    {es : List Ent} {cur : Nat} (h : VCtx rs m step b es cur) (hB : Bd step b cur) {r : Rule}
    (hr : r ∈ rs) {n : Nat} (hm : m r (b.drop cur) = some n) : (r, some (cur, cur + n)) ∈ es := by
  rw [← h.rules, List.mem_map] at hr
  obtain ⟨⟨r', o⟩, ho, rfl⟩ := hr
  cases o with
  | none =>
    have := h.none r' ho cur hB (Nat.le_refl _)
    simp only at hm
    rw [hm] at this; cases this
  | some l =>
    obtain ⟨a, e⟩ := l
    obtain ⟨h1, h2, h3⟩ := h.some r' a e ho
    obtain ⟨_, h4, h5, _⟩ := h.any r' a e ho
    by_cases hc : cur < a
    · have := h3 cur hB (Nat.le_refl _) hc
      simp only at hm
      rw [hm] at this; cases this
    · have : a = cur := by omega
      subst this
      simp only at hm
      rw [hm] at h2
      have := Option.some.inj h2
      rw [show a + n = e by omega]
      exact ho

theorem good_ctx {rs : List Rule} {m : Rule → Bytes → Option Nat} {step : Bytes → Nat}
    (hsync : Sync step) (hL : ∀ r ∈ rs, Leftmost step (m r) r.re.find) (b : Bytes) :
    Good lengthThenPriority b (WinsAt rs m step b) (DeadAt rs m step b) (VCtx rs m step b) where
  stop := by
    intro es cur hV hlt hs
    refine ⟨?_, ((good_any rs b).stop es cur hV.any hlt hs).2⟩
    intro hB r hr n hn
    have := vCtx_match hV hB hr hn
    obtain ⟨-, -, h3⟩ := choose_spec b cur es ⟨none, [], cur, -1⟩
    have := h3 _ _ this
    omega
  go := by
    intro es cur hV hlt hs
    obtain ⟨h1, h2, h3⟩ := choose_spec b cur es ⟨none, [], cur, -1⟩
    rcases h1 with h1 | ⟨r, e, hm, h1⟩
    · rw [h1] at hs; simp at hs
    · obtain ⟨hr, h4, h5, -⟩ := hV.any r cur e hm
      obtain ⟨-, h6, -⟩ := hV.some r cur e hm
      rw [h1] at hs h2 h3
      simp only at hs h2 h3
      refine ⟨r, e - cur, ?_, by omega, by omega, hr, h6, fun hB => ⟨hr, h6, by omega, ?_⟩⟩
      · rw [h1, slice_eq, show cur + (e - cur) = e by omega]
      · intro j n' hj hn'
        have := vCtx_match hV hB hj hn'
        have := h3 _ _ this
        show n' < e - cur ∨ n' = e - cur ∧ r.priority ≤ j.priority
        omega
  update := fun _ _ _ h h1 h2 => vCtx_update hsync hL h h1 h2

theorem good_priority (rs : List Rule) (b : Bytes) (hp : ∀ r ∈ rs, 0 ≤ r.priority) :
    Good priorityThenLength b (fun _ _ _ => False) (fun _ => True)
      (fun es _ => es.map Prod.fst = rs) where
  stop := by
    intro es cur hV _ _
    rw [choose_priority b cur es _ (by simp) (by
      intro x hx; exact hp _ (hV ▸ List.mem_map_of_mem hx))]
    simp
  go := by
    intro es cur hV _ hs
    rw [choose_priority b cur es _ (by simp) (by
      intro x hx; exact hp _ (hV ▸ List.mem_map_of_mem hx))] at hs
    simp at hs
  update := by
    intro es cur cur' h _ _
    show (es.map (refind b cur')).map Prod.fst = rs
    rw [map_refind_fst, h]

/-- `populateNext` on a table without gaps. -/
theorem populate_some (b : Bytes) (rs : List Rule) :
    populateNext b (rs.map some) = .ok (rs.map fun r => (r, r.re.find b)) := by
  induction rs with
  | nil => rfl
  | cons r rs ih => simp [populateNext, ih]

theorem populate_gap (b : Bytes) (rs : List (Option Rule)) (h : none ∈ rs) :
    populateNext b rs = .panic := by
  induction rs with
  | nil => cases h
  | cons r rs ih =>
    cases r with
    | none => rfl
    | some r =>
      have : none ∈ rs := by simpa using h
      simp [populateNext, ih this]

theorem vAny_init (rs : List Rule) (b : Bytes) : VAny rs b (rs.map fun r => (r, r.re.find b)) 0 := by
  intro r a e hm
  rw [List.mem_map] at hm
  obtain ⟨r', hr, he⟩ := hm
  simp only [Prod.mk.injEq] at he
  obtain ⟨rfl, he⟩ := he
  have := r'.re.bound _ _ _ he
  exact ⟨hr, this.1, this.2, 0, Nat.le_refl _, Nat.zero_le _, by simpa using he⟩

theorem vCtx_init {rs : List Rule} {m : Rule → Bytes → Option Nat} {step : Bytes → Nat}
    (hL : ∀ r ∈ rs, Leftmost step (m r) r.re.find) (b : Bytes) :
    VCtx rs m step b (rs.map fun r => (r, r.re.find b)) 0 where
  any := vAny_init rs b
  rules := by simp [List.map_map, Function.comp_def]
  none := by
    intro r hm i hi _
    rw [List.mem_map] at hm
    obtain ⟨r', hr, he⟩ := hm
    simp only [Prod.mk.injEq] at he
    obtain ⟨rfl, he⟩ := he
    have := hL r' hr b
    rw [he] at this
    exact this i hi
  some := by
    intro r a e hm
    rw [List.mem_map] at hm
    obtain ⟨r', hr, he⟩ := hm
    simp only [Prod.mk.injEq] at he
    obtain ⟨rfl, he⟩ := he
    have := hL r' hr b
    rw [he] at this
    exact ⟨Nat.zero_le _, this.2.1, fun i hi _ => this.2.2 i hi⟩

/-- The inserted lexemes. -/
def pre (l : Lexer) : List Lx := if l.startKind ≠ [] then [insertLx l.startKind l.startVal] else []
def post (l : Lexer) : List Lx := if l.endKind ≠ [] then [insertLx l.endKind l.endVal] else []

theorem loop_mono (cmp : Cmp) (error b : Bytes) (n : Nat) : ∀ op k, n ≤ k →
    Out.Le (loop cmp error b n op) (loop cmp error b k op) := by
  induction n with
  | zero => intro op k _; exact .inl rfl
  | succ n ih =>
    intro op k hk
    obtain ⟨k, rfl⟩ : ∃ j, k = j + 1 := ⟨k - 1, by omega⟩
    simp only [loop]
    refine Out.Le.bind (Out.Le.refl _) fun op1 => ?_
    split
    · exact Out.Le.refl _
    · exact ih _ _ (by omega)

theorem lex_mono (l : Lexer) (b : Bytes) (n k : Nat) (h : n ≤ k) :
    Out.Le (lex n l b) (lex k l b) := by
  unfold lex
  refine Out.Le.bind (Out.Le.refl _) fun next => ?_
  exact Out.Le.bind (loop_mono _ _ _ _ _ _ h) fun _ => Out.Le.refl _

/-- The result of `Lex` for a rule table without gaps: the pieces do not depend on the symbol set
nor on what is inserted. -/
theorem lex_spec {cmp : Cmp} (error : Bytes) {rs : List Rule} {b : Bytes}
    {takes : Nat → Rule → Nat → Prop} {dead : Nat → Prop} {V : List Ent → Nat → Prop}
    (G : Good cmp b takes dead V) (h0 : V (rs.map fun r => (r, r.re.find b)) 0)
    (he : b = [] → (choose cmp b 0 ⟨none, [], 0, -1⟩
      (rs.map fun r => (r, r.re.find b))).lxEnd = 0) :
    ∃ segs, Lexes takes dead b 0 segs ∧
      List.IsChain (fun a b : Seg Rule => ¬ (a.isErr = true ∧ b.isErr = true)) segs ∧
      ∀ l : Lexer, l.rules = rs.map some → l.compare = cmp → l.error = error →
      ∀ n, b.length + 1 ≤ n → lex n l b = .ok
        (pre l ++ render b (str l.set error).2 0 0 segs ++ post l,
         { l with set := if segs.any Seg.isErr then (str l.set error).1 else l.set }) := by
  by_cases hb : b = []
  · subst hb
    refine ⟨[], .done, by simp, ?_⟩
    rintro l hrs rfl rfl n hn
    obtain ⟨n, rfl⟩ : ∃ k, n = k + 1 := ⟨n - 1, by omega⟩
    simp only [lex, hrs, populate_some, Out.bind_ok, loop]
    have hbody : ∀ op : Op, op.next = (rs.map fun r => (r, r.re.find [])) → op.cur = 0 →
        body l.compare l.error [] op = .ok { op with
          lines := op.lines + countNl (choose l.compare [] 0 ⟨none, [], 0, -1⟩ op.next).val
          errStart := if op.errFlag then op.errStart else 0
          errFlag := true
          cur := 1 } := by
      intro op h1 h2
      obtain ⟨next, lxs, errFlag, errStart, cur, lines, set⟩ := op
      simp only at h1 h2
      subst h1 h2
      unfold body findNextMatch
      simp only
      rw [if_pos (he rfl)]
    rw [hbody _ rfl rfl]
    simp [render, checkError, pre, post]
  · have hlen : 0 < b.length := List.length_pos_iff.2 hb
    obtain ⟨segs, h1, -, h3, h4⟩ := loop_spec G error b.length (rs.map fun r => (r, r.re.find b))
      false 0 0 0 h0 hlen (by simp) (by simp)
    refine ⟨segs, h1, h3, ?_⟩
    rintro l hrs rfl rfl n hn
    obtain ⟨op', g1, g2, g3, g4⟩ := h4 (pre l) l.set
    have := (loop_mono _ _ _ _ _ n (by omega)).ok g1
    simp only [lex, hrs, populate_some, Out.bind_ok]
    unfold pre at this g3
    rw [this]
    simp only [Out.bind_ok]
    rw [g3, g4]
    simp [pre, post]

end Verif.SimpleLexer
