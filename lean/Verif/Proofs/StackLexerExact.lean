import Verif.Proofs.StackLexerPanic
import Verif.Spec.StackExact
/-
What the stack lexer does, exactly, with cached matches that were searched for at different positions.
-/
namespace Verif.StackLexer
open Verif Verif.SetSymbol Verif.Spec
open Verif.SimpleLexer (Bytes Lx Kind lastNl countNl slice insertLx slice_eq Cmp)

/-- Contract between the cached matches, the positions of the searches and the lexing relation. -/
structure GoodH (cmp : Cmp) (b : Bytes) (takes : List Nat → Sub → Nat → Tok → Nat → Prop) (dead : Sub → Nat → Prop)
    (broken : List Nat → Sub → Nat → Prop) (D : Sub → Prop) (V : Sub → List Nat → List Ent → Nat → Prop) : Prop where
  stop : ∀ s ev es cur, V s ev es cur → cur < b.length → choose cmp cur none es = none → dead s cur
  go : ∀ s ev es cur, V s ev es cur → cur ≤ b.length → ∀ r loc, choose cmp cur none es = some (r, loc) →
    loc.off + loc.a = cur ∧ cur < loc.off + loc.e ∧ loc.off + loc.e ≤ b.length ∧ ¬ dead s cur ∧
    (∀ val, value b r loc = .ok val → takes ev s cur (r, val) (loc.off + loc.e - cur)) ∧
    (value b r loc = .panic → broken ev s cur)
  populate : ∀ s cur, D s → cur ≤ b.length → V s [cur] (fresh b cur s) cur
  update : ∀ s ev es cur cur', V s ev es cur → cur ≤ cur' → cur' ≤ b.length →
    V s (cur' :: ev) (es.map (refind b cur')) cur'
  stay : ∀ s ev es cur, V s ev es cur → cur < b.length → choose cmp cur none es = none → V s ev es (cur + 1)

/-- What the outcome says about the result of the loop. -/
def Ends (ek : Nat) (b : Bytes) (errFlag : Bool) (lines p : Nat) (lxs : List Lx) (out : Out Op) :
    Option (List (Seg Tok)) → Prop
  | none => out = .panic
  | some segs => (errFlag = true → segs.head?.any Seg.isErr = true) ∧
    List.IsChain (fun a b : Seg Tok => ¬ (a.isErr = true ∧ b.isErr = true)) segs ∧
    ∃ op', out = .ok op' ∧ op'.cur = b.length ∧ (checkError ek b op').lxs = lxs ++ render b ek p lines 0 segs

theorem loop_goes {cmp : Cmp} {b : Bytes} {takes : List Nat → Sub → Nat → Tok → Nat → Prop} {dead : Sub → Nat → Prop}
    {broken : List Nat → Sub → Nat → Prop} {D : Sub → Prop} {V : Sub → List Nat → List Ent → Nat → Prop}
    (G : GoodH cmp b takes dead broken D V) (lexers : Bytes → Option Sub)
    (hD : ∀ x s, lexers x = some s → D s) (ek : Nat) (n : Nat) :
    ∀ (op : Op) (ev : List Nat), V op.sub ev op.next op.cur → D op.sub → (∀ s ∈ op.stack, D s) →
      op.cur < b.length → 2 * (b.length - op.cur) + op.stack.length ≤ n →
      (op.errFlag = true → op.stack = [] ∧ op.errStart < op.cur ∧
        ∀ i, op.errStart ≤ i → i < op.cur → dead op.sub i) →
      ∃ o, Goes takes dead broken (fun k => moveOf lexers k.1) b ev (op.sub :: op.stack.reverse)
          (if op.errFlag then op.errStart else op.cur) o ∧
        Ends ek b op.errFlag op.lines (if op.errFlag then op.errStart else op.cur) op.lxs (loop cmp lexers ek b n op) o := by
  induction n with
  | zero => intro op ev _ _ _ h1 h2; omega
  | succ n ih =>
    intro op ev hV hDs hDst hcur hn hE
    cases hch : choose cmp op.cur none op.next with
    | none =>
      have hd := G.stop _ _ _ _ hV hcur hch
      have hb : body cmp lexers ek b op = stopStep b op := by unfold body; rw [hch]
      simp only [loop, hb]
      unfold stopStep
      by_cases hst : op.stack.length = 0
      · have hst' : op.stack = [] := List.length_eq_zero_iff.1 hst
        let s := if op.errFlag then op.errStart else op.cur
        have hs : s < op.cur + 1 ∧ ∀ i, s ≤ i → i < op.cur + 1 → dead op.sub i := by
          cases hf : op.errFlag with
          | false =>
            simp only [s, hf, Bool.false_eq_true, if_false]
            refine ⟨Nat.lt_succ_self _, fun i h1 h2 => ?_⟩
            have : i = op.cur := by omega
            rw [this]; exact hd
          | true =>
            simp only [s, hf, if_true]
            obtain ⟨-, h1, h2⟩ := hE hf
            refine ⟨by omega, fun i h3 h4 => ?_⟩
            by_cases hi : i = op.cur
            · rw [hi]; exact hd
            · exact h2 i h3 (by omega)
        have hse : setError op = { op with errFlag := true, errStart := s } := by
          unfold setError
          cases hf : op.errFlag <;> simp [s, hf]
          rw [← hf]
        rw [if_pos hst, hse, hst']
        simp only [List.reverse_nil]
        by_cases hend : op.cur + 1 ≥ b.length
        · rw [if_pos hend]
          have hl : op.cur + 1 = b.length := by omega
          refine ⟨some [.err ((b.drop s).take (b.length - s))],
            .err (o := some []) (hl ▸ hs.1) (Nat.le_refl _) (hl ▸ hs.2) (.inl rfl) .done, fun _ => rfl, by simp,
            _, rfl, hl, ?_⟩
          have hsl : ((b.drop s).take (b.length - s)).length = b.length - s := by simp
          have e1 : s + (b.length - s) = b.length := by omega
          unfold checkError
          simp only [hl, Bool.not_true, Bool.false_or, gt_iff_lt, Nat.lt_irrefl, decide_false,
            Bool.false_eq_true, if_false, slice_eq, render, nlHead, Nat.add_zero, hsl]
          show op.lxs ++ _ = op.lxs ++ [_]
          rw [show (if op.errFlag then op.errStart else op.cur) = s from rfl, e1]
        · rw [if_neg hend]
          simp only [Out.bind_ok]
          obtain ⟨o, h1, h2⟩ := ih { op with errFlag := true, errStart := s, cur := op.cur + 1 } ev
            (G.stay _ _ _ _ hV hcur hch) hDs hDst (by show op.cur + 1 < _; omega)
            (by show 2 * (b.length - (op.cur + 1)) + op.stack.length ≤ n; omega)
            (fun _ => ⟨hst', hs⟩)
          simp only [if_true, hst', List.reverse_nil] at h1 h2
          refine ⟨o, h1, ?_⟩
          cases o with
          | none => exact h2
          | some segs => exact ⟨fun _ => h2.1 rfl, h2.2.1, h2.2.2⟩
      · rw [if_neg hst]
        have hst' : op.stack ≠ [] := fun h => hst (by rw [h]; rfl)
        obtain ⟨s, st, hp, hcfg, hlen, -, hms, hmst⟩ := pop_eq b 1 op (by omega) hst'
        have hf : op.errFlag = false := by
          cases hf : op.errFlag with
          | false => rfl
          | true => exact absurd (hE hf).1 hst'
        rw [hp]
        simp only [Out.bind_ok]
        obtain ⟨o, h1, h2⟩ := ih (populateNext b { op with sub := s, stack := st }) [op.cur]
          (G.populate s op.cur (hDst _ hms) (by omega)) (hDst _ hms)
          (fun x hx => hDst _ (hmst _ hx)) hcur
          (by show 2 * (b.length - op.cur) + st.length ≤ n; omega)
          (fun h => by have : op.errFlag = true := h; rw [hf] at this; cases this)
        have hm1 : min 1 op.stack.length = 1 := by omega
        rw [hm1, List.drop_succ_cons, List.drop_zero] at hcfg
        change Goes takes dead broken _ b [op.cur] (s :: st.reverse) (if op.errFlag then op.errStart else op.cur) o at h1
        refine ⟨o, ?_, h2⟩
        rw [← hcfg]
        simp only [hf, Bool.false_eq_true, if_false] at h1 ⊢
        exact .fall hcur hd h1
    | some x =>
      obtain ⟨r, loc⟩ := x
      obtain ⟨ha, hlt, hle2, hnd, htk, hbr⟩ := G.go _ _ _ _ hV (by omega) r loc hch
      -- an error before the current position is put in front
      have lift : ∀ o, Goes takes dead broken (fun k => moveOf lexers k.1) b ev (op.sub :: op.stack.reverse) op.cur o →
          Goes takes dead broken (fun k => moveOf lexers k.1) b ev (op.sub :: op.stack.reverse)
            (if op.errFlag then op.errStart else op.cur) (if op.errFlag then o.map (.err ((b.drop op.errStart).take (op.cur - op.errStart)) :: ·) else o) := by
        intro o h
        cases hf : op.errFlag with
        | false => simpa [hf] using h
        | true =>
          obtain ⟨h1, h2, h3⟩ := hE hf
          rw [h1] at h ⊢
          simp only [if_true]
          exact .err h2 (by omega) h3 (.inr hnd) h
      have liftN := lift none
      simp only [Option.map_none, ite_self] at liftN
      cases hv : value b r loc with
      | fuel => exact absurd hv (value_ne_fuel b r loc)
      | panic =>
        refine ⟨none, liftN (.broken hcur (hbr hv)), ?_⟩
        simp only [Ends, loop, body_tok_panic hch hv, Out.bind]
      | ok val =>
      have ht := htk val hv
      let k := loc.off + loc.e - op.cur
      have hk : 0 < k := by simp only [k]; omega
      have hek : loc.off + loc.e = op.cur + k := by simp only [k]; omega
      let v := (b.drop op.cur).take k
      have hvl : v.length = k := by simp only [v, List.length_take, List.length_drop]; omega
      have htxt : slice b (loc.off + loc.a) (loc.off + loc.e) = v := by
        rw [slice_eq, ha]
      simp only [loop, body_tok hch (by omega) (by omega) hv]
      rw [htxt, hek]
      let op1 := tokState ek b op r val v (op.cur + k)
      -- the rest of the run
      have tail : (op1.cur < b.length ∧ moveStep lexers b r op1 = .panic ∧ ∀ mv, moveOf lexers r = some mv → ¬ mv.Fits op.stack.reverse) ∨
          (moveStep lexers b r op1 = .ok (.done op1) ∧ op1.cur = b.length) ∨
          (op1.cur < b.length ∧ ∃ mv, moveOf lexers r = some mv ∧ mv.Fits op.stack.reverse ∧ ∃ o,
            Goes takes dead broken (fun k => moveOf lexers k.1) b (mv.searches ev op1.cur) (mv.apply (op.sub :: op.stack.reverse)) op1.cur o ∧
            Ends ek b false op1.lines op1.cur op1.lxs
              ((moveStep lexers b r op1).bind fun
                | .done op => .ok op
                | .more op => loop cmp lexers ek b n op) o) := by
        have hc1 : op1.cur = op.cur + k := rfl
        unfold moveStep moveOf
        by_cases hend : op1.cur ≥ b.length
        · right; left
          rw [if_pos hend]
          exact ⟨rfl, by omega⟩
        rw [if_neg hend]
        by_cases hpop : r.pop > 0
        · rw [if_pos hpop, if_pos hpop]
          by_cases hst : op.stack = []
          · left
            have : pop b r.pop op1 = .panic := by
              unfold pop
              rw [show op1.stack = [] from hst]
              simp
            rw [this]
            refine ⟨by omega, rfl, fun mv h => ?_⟩
            cases h
            rw [hst]
            simp [Move.Fits]
          · right; right
            refine ⟨by omega, _, rfl, fun h => hst (List.reverse_eq_nil_iff.1 h), ?_⟩
            obtain ⟨s, st, hp, hcfg, hlen, -, hms, hmst⟩ := pop_eq b r.pop op1 hpop hst
            rw [hp]
            simp only [Out.bind_ok]
            have := ih (populateNext b { op1 with sub := s, stack := st }) [op1.cur]
              (G.populate s op1.cur (hDst _ hms) (by omega)) (hDst _ hms)
              (fun x hx => hDst _ (hmst _ hx)) (by show op1.cur < b.length; omega)
              (by
                show 2 * (b.length - op1.cur) + st.length ≤ n
                have : st.length < op.stack.length := hlen
                omega)
              (fun h => by cases h)
            have e : (Move.pop r.pop).apply (op.sub :: op.stack.reverse) = s :: st.reverse := by
              rw [hcfg]
              simp only [Move.apply, List.length_cons, List.length_reverse, Nat.add_sub_cancel]
              rfl
            rw [e]
            exact this
        · rw [if_neg hpop, if_neg hpop]
          by_cases hpush : r.push ≠ []
          · rw [if_pos hpush, if_pos hpush]
            cases hl : lexers r.push with
            | none => left; exact ⟨by omega, rfl, fun mv h => by cases h⟩
            | some s =>
              right; right
              refine ⟨by omega, _, rfl, trivial, ?_⟩
              simp only [Out.bind_ok]
              have := ih (populateNext b { op1 with stack := op1.stack ++ [op1.sub], sub := s }) [op1.cur]
                (G.populate s op1.cur (hD _ _ hl) (by omega)) (hD _ _ hl)
                (by
                  intro x hx
                  rcases List.mem_append.1 hx with hx | hx
                  · exact hDst x hx
                  · rw [List.mem_singleton.1 hx]; exact hDs)
                (by show op1.cur < b.length; omega)
                (by
                  show 2 * (b.length - op1.cur) + (op1.stack ++ [op1.sub]).length ≤ n
                  rw [List.length_append, show op1.stack = op.stack from rfl]
                  simp only [List.length_singleton]
                  omega)
                (fun h => by cases h)
              have e : (op1.stack ++ [op1.sub]).reverse = op.sub :: op.stack.reverse := by
                rw [List.reverse_append]; rfl
              change ∃ o, Goes takes dead broken _ b [op1.cur] (s :: (op1.stack ++ [op1.sub]).reverse) op1.cur o ∧ _ at this
              rw [e] at this
              exact this
          · rw [if_neg hpush, if_neg hpush]
            right; right
            refine ⟨by omega, _, rfl, trivial, ?_⟩
            simp only [Out.bind_ok]
            exact ih (updateNext b op1) (op1.cur :: ev)
              (G.update op.sub _ op.next op.cur op1.cur hV (by omega) (by omega)) hDs hDst
              (by show op1.cur < b.length; omega)
              (by
                show 2 * (b.length - op1.cur) + op.stack.length ≤ n
                omega)
              (fun h => by cases h)
      have hR : ∀ carry segs, render b ek op.cur op.lines carry (.tok (r, val) v :: segs) =
          (if r.discard then [] else [⟨.idx r.kind, val, op.lines, colAt b op.cur, false⟩]) ++
          render b ek (op.cur + k) (op.lines + countNl v + carry) 0 segs := by
        intro carry segs
        simp only [render, hvl]
      -- putting the token, and the error before it, in front of the rest
      have fin : ∀ segs, Goes takes dead broken (fun k => moveOf lexers k.1) b ev (op.sub :: op.stack.reverse)
            op.cur (some (.tok (r, val) v :: segs)) →
          List.IsChain (fun a b : Seg Tok => ¬ (a.isErr = true ∧ b.isErr = true)) segs →
          ∀ out : Out Op, (∃ op', out = .ok op' ∧ op'.cur = b.length ∧
            (checkError ek b op').lxs = op1.lxs ++ render b ek op1.cur op1.lines 0 segs) →
          ∃ o, Goes takes dead broken (fun k => moveOf lexers k.1) b ev (op.sub :: op.stack.reverse)
              (if op.errFlag then op.errStart else op.cur) o ∧
            Ends ek b op.errFlag op.lines (if op.errFlag then op.errStart else op.cur) op.lxs out o := by
        intro segs hL h3 out hout
        obtain ⟨op', g1, g2, g3⟩ := hout
        have hch : List.IsChain (fun a b : Seg Tok => ¬ (a.isErr = true ∧ b.isErr = true))
            (.tok (r, val) v :: segs) := by
          cases segs with
          | nil => simp
          | cons a l => exact List.IsChain.cons_cons (by simp [Seg.isErr]) h3
        refine ⟨_, lift _ hL, ?_⟩
        cases hf : op.errFlag with
        | false =>
          simp only [Bool.false_eq_true, if_false]
          refine ⟨by simp, hch, op', g1, g2, ?_⟩
          rw [g3, hR]
          simp only [op1, tokState, hf, Bool.false_eq_true, if_false, List.append_nil,
            List.append_assoc]
        | true =>
          obtain ⟨hst, hp1, hp2⟩ := hE hf
          have hul : ((b.drop op.errStart).take (op.cur - op.errStart)).length =
              op.cur - op.errStart := by
            simp only [List.length_take, List.length_drop]; omega
          simp only [if_true, Option.map_some]
          refine ⟨by simp [Seg.isErr], List.IsChain.cons_cons (by simp [Seg.isErr]) hch, op', g1, g2, ?_⟩
          rw [g3]
          rw [render, hul, show op.errStart + (op.cur - op.errStart) = op.cur by omega, hR]
          simp only [op1, tokState, hf, if_true, slice_eq, hul, nlHead, List.append_assoc,
            List.cons_append, List.nil_append]
      rcases tail with ⟨h1, h2, h3⟩ | ⟨h1, h2⟩ | ⟨h1, mv, h2, hfit, o, h3, h4⟩
      · refine ⟨none, liftN (.stuck ht hk h1 h3), ?_⟩
        rw [show tokState ek b op r val v (op.cur + k) = op1 from rfl, h2]
        rfl
      · have hl : op.cur + k = b.length := h2
        rw [show tokState ek b op r val v (op.cur + k) = op1 from rfl, h1]
        refine fin [] (.last ht hk hl) (by simp) _ ⟨op1, rfl, h2, ?_⟩
        simp [checkError, render, op1, tokState]
      · have hg := Goes.tok (move := fun k : Tok => moveOf lexers k.1) ht hk h1 h2 hfit h3
        cases o with
        | none => exact ⟨none, liftN hg, h4⟩
        | some segs => exact fin segs hg h4.2.1 _ h4.2.2

theorem lex_goes {b : Bytes} {takes : List Nat → Sub → Nat → Tok → Nat → Prop} {dead : Sub → Nat → Prop}
    {broken : List Nat → Sub → Nat → Prop} {D : Sub → Prop} {V : Sub → List Nat → List Ent → Nat → Prop} {l : Lexer}
    (G : GoodH l.compare b takes dead broken D V) {s : Sub} (hs : l.start = some s) (hDs : D s)
    (hD : ∀ x t, l.lexers x = some t → D t) {n : Nat} (hn : 2 * b.length + 1 ≤ n) :
    ∃ o, Goes takes dead broken (fun k => moveOf l.lexers k.1) b [0] [s] 0 o ∧
      (o = none → lex n l b = .panic) ∧ ∀ segs, o = some segs →
        List.IsChain (fun a b : Seg Tok => ¬ (a.isErr = true ∧ b.isErr = true)) segs ∧
        lex n l b = .ok (pre l ++ render b (str l.set l.error).2 0 1 0 segs ++ post l,
           { l with set := (str l.set l.error).1 }) := by
  rw [lex_eq hs]
  by_cases hb : b = []
  · subst hb
    obtain ⟨n, rfl⟩ : ∃ k, n = k + 1 := ⟨n - 1, by omega⟩
    have hV : V s [0] (init [] l s).next 0 := G.populate s 0 hDs (Nat.le_refl _)
    have hstop : choose l.compare (init [] l s).cur none (init [] l s).next = none := by
      cases hc : choose l.compare (init [] l s).cur none (init [] l s).next with
      | none => rfl
      | some x =>
        obtain ⟨-, h2, h3, -⟩ := G.go _ _ _ _ hV (Nat.le_refl _) x.1 x.2 hc
        simp only [List.length_nil] at h3
        omega
    refine ⟨some [], .done, by simp, ?_⟩
    intro segs h
    cases h
    refine ⟨by simp, ?_⟩
    simp only [loop, body, hstop]
    simp [stopStep, init, populateNext, setError, consumeRemainingAsError, checkError, render, Out.bind]
  · have hlen : 0 < b.length := List.length_pos_iff.2 hb
    obtain ⟨o, h1, h2⟩ := loop_goes G l.lexers hD (str l.set l.error).2 n (init b l s) [0]
      (G.populate s 0 hDs (Nat.zero_le _)) hDs (fun s hs => by cases hs) hlen
      (by show 2 * (b.length - 0) + 0 ≤ n; omega) (fun h => by cases h)
    refine ⟨o, h1, ?_, ?_⟩
    · rintro rfl
      rw [show loop _ _ _ _ _ _ = _ from h2]
      rfl
    · rintro segs rfl
      obtain ⟨-, h3, op', h4, h5, h6⟩ := h2
      refine ⟨h3, ?_⟩
      rw [h4]
      have : consumeRemainingAsError b op' = op' := by
        unfold consumeRemainingAsError; rw [if_pos (by omega)]
      simp only [Out.bind_ok, this, h6]
      rfl

/-! ### The default mode -/

/-- What the rules of the sub-lexer match in the input begins at rune starts. -/
def Starts (m : Rule → Bytes → Option Nat) (step : Bytes → Nat) (b : Bytes) (s : Sub) : Prop :=
  ∀ r, some r ∈ s.rules → ∀ p, p ≤ b.length → m r (b.drop p) ≠ none → Bd step b p

/-- Cached matches of context-independent regexps, with the positions of the searches: a search is made again as soon as
the last result is not beyond the current position. -/
structure VHist (m : Rule → Bytes → Option Nat) (step : Bytes → Nat) (b : Bytes) (s : Sub) (ev : List Nat)
    (es : List Ent) (cur : Nat) : Prop where
  ctx : ∃ f, VCtx m step b s f es cur
  starts : Starts m step b s
  le : ∀ q ∈ ev, q ≤ cur
  hist : ∀ r loc, (some r, some loc) ∈ es → loc.off ∈ ev ∧
    (∀ q ∈ ev, q < loc.off → ∃ i, q ≤ i ∧ i ≤ loc.off ∧ m r (b.drop i) ≠ none) ∧
    ∀ q ∈ ev, loc.off < q → q < loc.a + loc.off

/-- The match of a rule at the current position was found by the search that stands for it there. -/
theorem vHist_since {m : Rule → Bytes → Option Nat} {step : Bytes → Nat} (hsync : Sync step) {b : Bytes} {s : Sub}
    {ev : List Nat} {es : List Ent} {cur : Nat} (h : VHist m step b s ev es cur) (hc : cur ≤ b.length)
    {r : Rule} {loc : Loc} (hm : (some r, some loc) ∈ es) (ha : loc.a + loc.off = cur) :
    Since (fun i => m r (b.drop i) ≠ none) ev cur loc.off := by
  obtain ⟨f, hV⟩ := h.ctx
  obtain ⟨h1, h2, h3⟩ := h.hist r loc hm
  obtain ⟨h4, -, -, h5⟩ := hV.any r loc hm
  refine ⟨h1, fun hcur => ?_, fun i hi1 hi2 hn => ?_, fun hcur q hq hlt => ?_⟩
  · have := h3 cur hcur
    have := h.le _ h1
    omega
  · exact hn ((leftmost_some hsync (hV.reg r h4).1 h5).2 i (h.starts r h4 i (by omega) hn) hi1 (by omega))
  · obtain ⟨i, g1, g2, g3⟩ := h2 q hq hlt
    have : loc.off ≠ cur := fun e => hcur (e ▸ h1)
    exact ⟨i, g1, by omega, g3⟩

theorem since_unique {hit : Nat → Prop} {ev : List Nat} {p q q' : Nat} (h : Since hit ev p q) (h' : Since hit ev p q') :
    q = q' := by
  obtain ⟨h1, h2, h3, h4⟩ := h
  obtain ⟨g1, g2, g3, g4⟩ := h'
  by_cases hp : p ∈ ev
  · rw [h2 hp, g2 hp]
  · rcases Nat.lt_trichotomy q q' with hlt | rfl | hlt
    · obtain ⟨i, i1, i2, i3⟩ := g4 hp q h1 hlt
      exact absurd i3 (h3 i i1 i2)
    · rfl
    · obtain ⟨i, i1, i2, i3⟩ := h4 hp q' g1 hlt
      exact absurd i3 (g3 i i1 i2)

/-- Which rule of the sub-lexer is taken at a position after the searches given, how many bytes it matches there and
where it was searched for. -/
abbrev Choice := List Nat → Sub → Nat → Rule → Nat → Nat → Prop

/-- The rule is taken, with the value made of the match that was found. -/
def TakesH (C : Choice) (b : Bytes) (ev : List Nat) (s : Sub) (p : Nat) (k : Tok) (n : Nat) : Prop :=
  ∃ q g, C ev s p k.1 n q ∧
    k.1.re.find (b.drop q) = some (p - q, p - q + n, g) ∧ value b k.1 ⟨p - q, p - q + n, g, q⟩ = .ok k.2

/-- The value of the rule taken cannot be made. -/
def BrokenH (C : Choice) (b : Bytes) (ev : List Nat) (s : Sub) (p : Nat) : Prop :=
  ∃ r n q g, C ev s p r n q ∧
    r.re.find (b.drop q) = some (p - q, p - q + n, g) ∧ value b r ⟨p - q, p - q + n, g, q⟩ = .panic ∧ q ≤ b.length

/-- No rule of the sub-lexer matches at `p`. -/
def DeadH (m : Rule → Bytes → Option Nat) (b : Bytes) (s : Sub) (p : Nat) : Prop :=
  ∀ r, some r ∈ s.rules → m r (b.drop p) = none

theorem good_hist {cmp : Cmp} {m : Rule → Bytes → Option Nat} {step : Bytes → Nat} (hsync : Sync step) (b : Bytes)
    (C : Choice)
    (hC : ∀ s ev es cur r loc, (∃ f, VCtx m step b s f es cur) → Starts m step b s → cur ≤ b.length → choose cmp cur none es = some (r, loc) →
      some r ∈ s.rules → m r (b.drop cur) = some (loc.e - loc.a) → loc.a + loc.off = cur → loc.a ≤ loc.e →
      (∀ j l, (some j, some l) ∈ es → l.a + l.off = cur → Since (fun i => m j (b.drop i) ≠ none) ev cur l.off) →
      (some r, some loc) ∈ es → C ev s cur r (loc.e - loc.a) loc.off) :
    GoodH cmp b (TakesH C b) (DeadH m b) (BrokenH C b) (fun s => Regular m step s ∧ Starts m step b s) (VHist m step b) where
  stop := by
    intro s ev es cur hV hlt hc r hr
    have hB := hV.starts r hr cur (by omega)
    obtain ⟨f, hV⟩ := hV.ctx
    cases hm : m r (b.drop cur) with
    | none => rfl
    | some n =>
      obtain ⟨loc, h1, h2, -⟩ := vCtx_match hV (hB (by rw [hm]; simp)) hr hm
      exact absurd h2 (choose_none hc r loc h1)
  go := by
    intro s ev es cur hH hle r loc hc
    obtain ⟨f, hV⟩ := hH.ctx
    have hmem : (some r, some loc) ∈ es ∧ loc.a + loc.off = cur := by
      rcases choose_mem _ _ _ _ _ _ hc with h | h
      · cases h
      · exact h
    obtain ⟨hmem, hcur⟩ := hmem
    obtain ⟨h1, h2, h3, -, -⟩ := vAny_go f hV.any hc
    obtain ⟨-, h6, -⟩ := hV.hit r loc hmem
    rw [hcur] at h6
    obtain ⟨h4, -, hlen, h5⟩ := hV.any r loc hmem
    have hne : loc.e - loc.a ≠ 0 := fun e => by
      rw [e] at h6
      exact (hV.reg r h4).2.1 _ h6
    have en : loc.off + loc.e - cur = loc.e - loc.a := by omega
    have hF : C ev s cur r (loc.off + loc.e - cur) loc.off := by
      rw [en]
      exact hC s ev es cur r loc hH.ctx hH.starts hle hc h4 h6 hcur (by omega) (fun j l => vHist_since hsync hH hle) hmem
    have e1 : cur - loc.off = loc.a := by omega
    have e2 : loc.a + (loc.off + loc.e - cur) = loc.e := by omega
    refine ⟨h1, by omega, h3, fun hd => ?_, fun val hv => ⟨loc.off, loc.groups, hF, ?_, ?_⟩,
      fun hv => ⟨r, _, loc.off, loc.groups, hF, ?_, ?_, hlen⟩⟩
    · rw [hd r h4] at h6
      cases h6
    · rw [e1, e2]; exact h5
    · rw [e1, e2]; exact hv
    · rw [e1, e2]; exact h5
    · rw [e1, e2]; exact hv
  populate := by
    intro s cur hs hb
    refine ⟨⟨_, vCtx_fresh hsync hs.1 hb⟩, hs.2, by simp, fun r loc hm => ?_⟩
    have e := (findFrom_some (mem_fresh hm).2.symm).1
    refine ⟨by simp [e], fun q hq hlt => ?_, fun q hq hlt => ?_⟩
    · simp only [List.mem_singleton] at hq
      omega
    · simp only [List.mem_singleton] at hq
      omega
  update := by
    intro s ev es cur cur' h h1 h2
    obtain ⟨f, hV⟩ := h.ctx
    refine ⟨⟨_, vCtx_update hsync hV h1 h2⟩, h.starts, ?_, fun r loc hm => ?_⟩
    · intro q hq
      rcases List.mem_cons.1 hq with rfl | hq
      · exact Nat.le_refl _
      · have := h.le q hq
        omega
    · rcases mem_refind hm with ⟨l, g1, g2, g3⟩ | ⟨g1, g2⟩
      · have e := (findFrom_some g3.symm).1
        obtain ⟨k1, k2, k3⟩ := h.hist r l g1
        have hl := h.le _ k1
        refine ⟨by simp [e], fun q hq hlt => ?_, fun q hq hlt => ?_⟩
        · rcases List.mem_cons.1 hq with rfl | hq
          · omega
          rcases Nat.lt_or_ge q l.off with hq1 | hq1
          · obtain ⟨i, i1, i2, i3⟩ := k2 q hq hq1
            exact ⟨i, i1, by omega, i3⟩
          · refine ⟨l.a + l.off, ?_, by omega, ?_⟩
            · rcases Nat.eq_or_lt_of_le hq1 with e | hlt
              · omega
              · have := k3 q hq hlt
                omega
            · rw [(hV.hit r l g1).2.1]
              simp
        · rcases List.mem_cons.1 hq with rfl | hq
          · omega
          · have := h.le q hq
            omega
      · obtain ⟨k1, k2, k3⟩ := h.hist r loc g1
        have hl := h.le _ k1
        have := g2 loc rfl
        refine ⟨List.mem_cons_of_mem _ k1, fun q hq hlt => ?_, fun q hq hlt => ?_⟩
        · rcases List.mem_cons.1 hq with rfl | hq
          · omega
          · exact k2 q hq hlt
        · rcases List.mem_cons.1 hq with rfl | hq
          · omega
          · exact k3 q hq hlt
  stay := by
    intro s ev es cur h hlt hc
    obtain ⟨f, hV⟩ := h.ctx
    have G := good_longest (m := m) hsync b
    have := G.stay s f es cur hV hlt (fun r loc h => by
      rcases choose_mem _ _ _ _ _ _ h with h | ⟨h, e⟩
      · cases h
      · exact absurd e (choose_none hc r loc h))
    exact ⟨⟨_, this⟩, h.starts, fun q hq => by have := h.le q hq; omega, h.hist⟩

theorem good_furthest {m : Rule → Bytes → Option Nat} {step : Bytes → Nat} (hsync : Sync step) (b : Bytes)
    (C : Choice)
    (e : C = fun ev s => Furthest (fun r => some r ∈ s.rules) m (fun r => r.priority) b ev) :
    GoodH lengthThenPriority b (TakesH C b) (DeadH m b) (BrokenH C b) (fun s => Regular m step s ∧ Starts m step b s) (VHist m step b) := by
  subst e
  refine good_hist hsync b _ ?_
  rintro s ev es cur r loc ⟨f, hV⟩ hB hle hc h4 h6 hcur hae hS hmem
  refine ⟨h4, h6, hS r loc hmem hcur, fun j n' q' hj hn' hq' => ?_⟩
  obtain ⟨l, hl1, hl2, hl3⟩ := vCtx_match hV (hB j hj _ hle (by rw [hn']; simp)) hj hn'
  obtain ⟨-, hb⟩ := choose_best lengthThenPriority cur
    (fun x y => y.2.e < x.2.e ∨ (y.2.e = x.2.e ∧ x.1.priority ≤ y.1.priority))
    (fun _ => .inr ⟨rfl, Int.le_refl _⟩) (fun _ _ _ h1 h2 => by omega) (fun r => 0 ≤ r.priority)
    (fun x y _ hy h => by rw [ltp_iff hy] at h; omega)
    (fun x y _ hy h => by
      have := mt (ltp_iff (e1 := x.2.e) (p1 := x.1.priority) (e2 := y.2.e) hy).2 (by rw [h]; simp)
      omega)
    es (fun r o h => (hV.reg r (hV.mem r o h)).2.2) none (fun _ h => by cases h)
  obtain ⟨y, hy1, hy2⟩ := hb j l hl1 hl2
  rw [hc] at hy1
  cases hy1
  have e := since_unique hq' (hS j l hl1 hl2)
  subst e
  simp only at hy2
  show cur + n' - l.off < cur + (loc.e - loc.a) - loc.off ∨
    cur + n' - l.off = cur + (loc.e - loc.a) - loc.off ∧ r.priority ≤ j.priority
  omega

theorem good_foremostH {m : Rule → Bytes → Option Nat} {step : Bytes → Nat} (hsync : Sync step) (b : Bytes)
    (C : Choice)
    (e : C = fun ev s => Foremost (fun r => some r ∈ s.rules) m (fun r => r.priority) b ev) :
    GoodH priorityThenLength b (TakesH C b) (DeadH m b) (BrokenH C b) (fun s => Regular m step s ∧ Starts m step b s) (VHist m step b) := by
  subst e
  refine good_hist hsync b _ ?_
  rintro s ev es cur r loc ⟨f, hV⟩ hB hle hc h4 h6 hcur hae hS hmem
  refine ⟨h4, h6, hS r loc hmem hcur, fun j n' q' hj hn' hq' => ?_⟩
  obtain ⟨l, hl1, hl2, hl3⟩ := vCtx_match hV (hB j hj _ hle (by rw [hn']; simp)) hj hn'
  obtain ⟨-, hb⟩ := choose_best priorityThenLength cur
    (fun x y => x.1.priority < y.1.priority ∨ (x.1.priority = y.1.priority ∧ y.2.e ≤ x.2.e))
    (fun _ => .inr ⟨rfl, Nat.le_refl _⟩) (fun _ _ _ h1 h2 => by omega) (fun r => 0 ≤ r.priority)
    (fun x y _ hy h => by rw [ptl_iff hy] at h; omega)
    (fun x y _ hy h => by
      have := mt (ptl_iff (e1 := x.2.e) (p1 := x.1.priority) (e2 := y.2.e) hy).2 (by rw [h]; simp)
      omega)
    es (fun r o h => (hV.reg r (hV.mem r o h)).2.2) none (fun _ h => by cases h)
  obtain ⟨y, hy1, hy2⟩ := hb j l hl1 hl2
  rw [hc] at hy1
  cases hy1
  have e := since_unique hq' (hS j l hl1 hl2)
  subst e
  simp only at hy2
  show r.priority < j.priority ∨ r.priority = j.priority ∧ cur + n' - l.off ≤ cur + (loc.e - loc.a) - loc.off
  omega

/-! ### There is only one outcome -/

theorem goes_unique {σ κ : Type} {takes : List Nat → σ → Nat → κ → Nat → Prop} {dead : σ → Nat → Prop}
    {broken : List Nat → σ → Nat → Prop} {move : κ → Option (Move σ)} {b : Bytes} (D : σ → Prop)
    (hD : ∀ s k, D s → ∀ ev p n, takes ev s p k n → ∀ t, move k = some (.push t) → D t)
    (det : ∀ ev s p k n k' n', D s → takes ev s p k n → takes ev s p k' n' → k = k' ∧ n = n')
    (in_ : ∀ ev s p k n, D s → 0 < n → takes ev s p k n → p + n ≤ b.length)
    (td : ∀ ev s p k n, takes ev s p k n → ¬ dead s p) (bd : ∀ ev s p, broken ev s p → ¬ dead s p)
    (tb : ∀ ev s p k n, D s → takes ev s p k n → ¬ broken ev s p)
    {ev : List Nat} {st : List σ} {p : Nat} {o o' : Option (List (Seg κ))} (hst : ∀ s ∈ st, D s)
    (h : Goes takes dead broken move b ev st p o) (h' : Goes takes dead broken move b ev st p o') : o = o' := by
  have hmv : ∀ {mv : Move σ} {s : σ} {st : List σ} {ev p k n}, (∀ x ∈ s :: st, D x) → takes ev s p k n → move k = some mv →
      ∀ x ∈ mv.apply (s :: st), D x := by
    intro mv s st ev p k n hst ht hm x hx
    cases mv with
    | stay => exact hst x hx
    | push t =>
      rcases List.mem_cons.1 hx with rfl | hx
      · exact hD s k (hst s List.mem_cons_self) ev p n ht _ hm
      · exact hst x hx
    | pop j => exact hst x (List.mem_of_mem_drop hx)
  induction h generalizing o' with
  | @done ev st =>
    generalize hp : b.length = p at h'
    cases h' with
    | done => rfl
    | last h pos le => have := in_ _ _ _ _ _ (hst _ List.mem_cons_self) pos h; omega
    | tok h pos lt => omega
    | stuck h pos lt => omega
    | broken lt => omega
    | fall lt => omega
    | err pos le => omega
  | last h pos le =>
    have hs := hst _ List.mem_cons_self
    cases h' with
    | done => omega
    | last h2 => obtain ⟨rfl, rfl⟩ := det _ _ _ _ _ _ _ hs h h2; rfl
    | tok h2 pos lt => obtain ⟨rfl, rfl⟩ := det _ _ _ _ _ _ _ hs h h2; omega
    | stuck h2 pos lt => obtain ⟨rfl, rfl⟩ := det _ _ _ _ _ _ _ hs h h2; omega
    | broken lt h2 => exact absurd h2 (tb _ _ _ _ _ hs h)
    | fall lt h2 => exact absurd h2 (td _ _ _ _ _ h)
    | err pos' le h2 => exact absurd (h2 _ (Nat.le_refl _) pos') (td _ _ _ _ _ h)
  | tok h pos lt hm fits rest ih =>
    have hs := hst _ List.mem_cons_self
    cases h' with
    | done => omega
    | last h2 pos le => obtain ⟨rfl, rfl⟩ := det _ _ _ _ _ _ _ hs h h2; omega
    | tok h2 pos lt hm2 fits2 rest2 =>
      obtain ⟨rfl, rfl⟩ := det _ _ _ _ _ _ _ hs h h2
      cases hm.symm.trans hm2
      rw [ih (hmv hst h hm) rest2]
    | stuck h2 pos lt hm2 =>
      obtain ⟨rfl, rfl⟩ := det _ _ _ _ _ _ _ hs h h2
      exact absurd fits (hm2 _ hm)
    | broken lt h2 => exact absurd h2 (tb _ _ _ _ _ hs h)
    | fall lt h2 => exact absurd h2 (td _ _ _ _ _ h)
    | err pos' le h2 => exact absurd (h2 _ (Nat.le_refl _) pos') (td _ _ _ _ _ h)
  | stuck h pos lt hm =>
    have hs := hst _ List.mem_cons_self
    cases h' with
    | done => omega
    | last h2 pos le => obtain ⟨rfl, rfl⟩ := det _ _ _ _ _ _ _ hs h h2; omega
    | tok h2 pos lt hm2 fits2 rest2 =>
      obtain ⟨rfl, rfl⟩ := det _ _ _ _ _ _ _ hs h h2
      exact absurd fits2 (hm _ hm2)
    | stuck => rfl
    | broken => rfl
    | fall lt h2 => exact absurd h2 (td _ _ _ _ _ h)
    | err pos' le h2 => exact absurd (h2 _ (Nat.le_refl _) pos') (td _ _ _ _ _ h)
  | broken lt h =>
    have hs := hst _ List.mem_cons_self
    cases h' with
    | done => omega
    | last h2 pos le => exact absurd h (tb _ _ _ _ _ hs h2)
    | tok h2 => exact absurd h (tb _ _ _ _ _ hs h2)
    | stuck => rfl
    | broken => rfl
    | fall lt h2 => exact absurd h2 (bd _ _ _ h)
    | err pos' le h2 => exact absurd (h2 _ (Nat.le_refl _) pos') (bd _ _ _ h)
  | fall lt h rest ih =>
    cases h' with
    | done => omega
    | last h2 => exact absurd h (td _ _ _ _ _ h2)
    | tok h2 => exact absurd h (td _ _ _ _ _ h2)
    | stuck h2 => exact absurd h (td _ _ _ _ _ h2)
    | broken _ h2 => exact absurd h (bd _ _ _ h2)
    | fall _ _ rest2 => exact ih (fun x hx => hst x (List.mem_cons_of_mem _ hx)) rest2
  | @err ev s p q o pos le h stop rest ih =>
    have h0 := h _ (Nat.le_refl _) pos
    cases h' with
    | done => omega
    | last h2 => exact absurd h0 (td _ _ _ _ _ h2)
    | tok h2 => exact absurd h0 (td _ _ _ _ _ h2)
    | stuck h2 => exact absurd h0 (td _ _ _ _ _ h2)
    | broken _ h2 => exact absurd h0 (bd _ _ _ h2)
    | @err _ _ _ q2 o2 pos2 le2 h2 stop2 rest2 =>
      have e : q = q2 := by
        rcases Nat.lt_trichotomy q q2 with hlt | e | hlt
        · rcases stop with e | hn
          · omega
          · exact absurd (h2 q (by omega) hlt) hn
        · exact e
        · rcases stop2 with e | hn
          · omega
          · exact absurd (h q2 (by omega) hlt) hn
      subst e
      rw [ih hst rest2]

end Verif.StackLexer
