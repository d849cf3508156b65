import Verif.Model.StackLexer
import Verif.Spec.StackLexer
import Verif.Proofs.SimpleLexer
/-
Proofs about the stack lexer: the loop cuts the input into pieces.
-/
namespace Verif.StackLexer
open Verif Verif.SetSymbol Verif.Spec
open Verif.SimpleLexer (Bytes Lx Kind lastNl countNl slice insertLx slice_eq Cmp)

abbrev Ent := Option Rule × Option Loc
/-- A rule with the value of the lexeme it produced. -/
abbrev Tok := Rule × Bytes

/-- Where a rule leads. -/
def moveOf (lexers : Bytes → Option Sub) (r : Rule) : Option (Move Sub) :=
  if r.pop > 0 then some (.pop r.pop)
  else if r.push ≠ [] then (lexers r.push).map .push
  else some .stay

/-- Cached matches right after `populateNext`. -/
def fresh (b : Bytes) (cur : Nat) (s : Sub) : List Ent :=
  s.rules.map fun r =>
    match r with
    | none => (none, none)
    | some r => (some r, findFrom b cur r)

/-- No rule took over: nothing chosen, or an empty match. -/
def Stopped (cmp : Cmp) (es : List Ent) (cur : Nat) : Prop :=
  ∀ r loc, choose cmp cur none es = some (r, loc) → loc.off + loc.e = cur

/-- Contract between the cached matches and the lexing relation. -/
structure Good (cmp : Cmp) (b : Bytes) (takes : Mode → Sub → Nat → Tok → Nat → Prop)
    (dead : Sub → Nat → Prop) (D : Sub → Prop) (V : Sub → Mode → List Ent → Nat → Prop) : Prop where
  stop : ∀ s f es cur, V s f es cur → cur < b.length → Stopped cmp es cur → dead s cur
  go : ∀ s f es cur, V s f es cur → ∀ r loc, choose cmp cur none es = some (r, loc) →
    loc.off + loc.a = cur ∧ cur ≤ loc.off + loc.e ∧ loc.off + loc.e ≤ b.length ∧
    ∀ val, value b r loc = .ok val → loc.off + loc.e ≠ cur →
      takes f s cur (r, val) (loc.off + loc.e - cur)
  populate : ∀ s cur, D s → cur ≤ b.length → V s .taken (fresh b cur s) cur
  update : ∀ s f es cur cur', V s f es cur → cur ≤ cur' → cur' ≤ b.length →
    V s .next (es.map (refind b cur')) cur'
  stay : ∀ s f es cur, V s f es cur → cur < b.length → Stopped cmp es cur →
    V s f.afterErr es (cur + 1)

/-- Newlines in the first piece if it is a token. -/
def nlHead : List (Seg Tok) → Nat
  | .tok _ v :: _ => countNl v
  | _ => 0

/-- Lexemes emitted for the pieces from position `p` on; `ln` is the line counted so far and `carry`
the newlines of the error piece just passed, which are counted only after the following token. -/
def render (b : Bytes) (ek : Nat) : Nat → Nat → Nat → List (Seg Tok) → List Lx
  | _, _, _, [] => []
  | p, ln, carry, .tok (r, val) v :: segs =>
    (if r.discard then [] else [⟨.idx r.kind, val, ln, colAt b p, false⟩]) ++
      render b ek (p + v.length) (ln + countNl v + carry) 0 segs
  | p, ln, _, .err v :: segs =>
    ⟨.idx ek, v, (ln + nlHead segs : Nat), colAt b (p + v.length) - v.length, true⟩ ::
      render b ek (p + v.length) ln (countNl v) segs

/-- Conclusion of the loop theorem. -/
def Done (ek : Nat) (b : Bytes) (takes : Mode → Sub → Nat → Tok → Nat → Prop)
    (dead : Sub → Nat → Prop) (lexers : Bytes → Option Sub) (f : Mode) (cfg : List Sub)
    (errFlag : Bool) (lines : Nat) (p : Nat) (lxs : List Lx) (out : Out Op) : Prop :=
  out = .panic ∨
  ∃ segs, Run takes dead (fun k => moveOf lexers k.1) b f cfg p segs ∧
    (errFlag = true → segs.head?.any Seg.isErr = true) ∧
    List.IsChain (fun a b : Seg Tok => ¬ (a.isErr = true ∧ b.isErr = true)) segs ∧
    ∃ op', out = .ok op' ∧ op'.cur = b.length ∧
      (checkError ek b op').lxs = lxs ++ render b ek p lines 0 segs

theorem populateNext_eq (b : Bytes) (op : Op) :
    populateNext b op = { op with next := fresh b op.cur op.sub } := rfl

theorem pop_eq (b : Bytes) (i : Nat) (op : Op) (hi : 0 < i) (hs : op.stack ≠ []) :
    ∃ s st, pop b i op = .ok (populateNext b { op with sub := s, stack := st }) ∧
      s :: st.reverse = (op.sub :: op.stack.reverse).drop (min i op.stack.length) ∧
      st.length < op.stack.length ∧ (st ++ [s]).head? = op.stack.head? ∧
      s ∈ op.stack ∧ ∀ x ∈ st, x ∈ op.stack := by
  have hl : 0 < op.stack.length := List.length_pos_iff.2 hs
  have hlt : op.stack.length - i < op.stack.length := by omega
  refine ⟨op.stack[op.stack.length - i], op.stack.take (op.stack.length - i), ?_, ?_, ?_, ?_, ?_, ?_⟩
  · unfold pop
    simp only [List.getElem?_eq_getElem hlt]
  · have h1 : op.stack[op.stack.length - i] :: (op.stack.take (op.stack.length - i)).reverse
        = (op.stack.take (op.stack.length - i + 1)).reverse := by
      rw [List.take_succ_eq_append_getElem hlt, List.reverse_append]; rfl
    rw [h1, List.reverse_take]
    obtain ⟨m, hm⟩ : ∃ m, min i op.stack.length = m + 1 := ⟨min i op.stack.length - 1, by omega⟩
    rw [hm, List.drop_succ_cons]
    congr 1
    omega
  · simp only [List.length_take]; omega
  · rw [← List.take_succ_eq_append_getElem hlt, List.head?_take, if_neg (by omega)]
  · exact List.getElem_mem hlt
  · exact fun x hx => List.mem_of_mem_take hx

theorem value_none {b : Bytes} {r : Rule} {loc : Loc} (h : r.submatches = none) :
    value b r loc = .ok (slice b (loc.off + loc.a) (loc.off + loc.e)) := by
  unfold value; rw [h]

theorem subPiece_ne_fuel (b : Bytes) (loc : Loc) (s : Submatch) : subPiece b loc s ≠ .fuel := by
  unfold subPiece
  split
  · simp
  · split
    · simp
    · unfold goSlice; split <;> simp

theorem subValue_ne_fuel (b : Bytes) (loc : Loc) (ss : List Submatch) : subValue b loc ss ≠ .fuel := by
  induction ss with
  | nil => simp [subValue]
  | cons s ss ih =>
    unfold subValue
    cases h : subPiece b loc s with
    | fuel => exact absurd h (subPiece_ne_fuel b loc s)
    | panic => simp [Out.bind]
    | ok v =>
      cases h2 : subValue b loc ss with
      | fuel => exact absurd h2 ih
      | panic => simp [Out.bind]
      | ok v => simp [Out.bind]

theorem value_ne_fuel (b : Bytes) (r : Rule) (loc : Loc) : value b r loc ≠ .fuel := by
  unfold value
  split
  · exact subValue_ne_fuel b loc _
  · simp

theorem setError_cur (op : Op) : (setError op).cur = op.cur := by
  unfold setError; split <;> rfl

theorem countNl_slice_self (b : Bytes) (i : Nat) : countNl (slice b i i) = 0 := by
  rw [slice_eq]; simp [countNl]

theorem body_stop {cmp : Cmp} {lexers : Bytes → Option Sub} {ek : Nat} {b : Bytes} {op : Op}
    (h : Stopped cmp op.next op.cur)
    (hg : ∀ r loc, choose cmp op.cur none op.next = some (r, loc) → loc.off + loc.a = op.cur) :
    body cmp lexers ek b op = .panic ∨ body cmp lexers ek b op = stopStep b op := by
  unfold body
  cases hc : choose cmp op.cur none op.next with
  | none => exact .inr rfl
  | some x =>
    obtain ⟨r, loc⟩ := x
    have h1 := h r loc hc
    have h2 := hg r loc hc
    cases hv : value b r loc with
    | fuel => exact absurd hv (value_ne_fuel b r loc)
    | panic => left; simp [hv, Out.bind]
    | ok val =>
      right
      simp only [hv, Out.bind_ok]
      rw [h1, h2, countNl_slice_self]
      simp only [Nat.add_zero, if_pos]

/-- The state after a token, before the move. -/
def tokState (ek : Nat) (b : Bytes) (op : Op) (r : Rule) (val txt : Bytes) (e : Nat) : Op :=
  { op with
    lxs := op.lxs ++ (if op.errFlag then
        [⟨.idx ek, slice b op.errStart op.cur, (op.lines + countNl txt : Nat),
          colAt b op.cur - (slice b op.errStart op.cur).length, true⟩] else []) ++
      (if r.discard then [] else [⟨.idx r.kind, val, op.lines, colAt b op.cur, false⟩])
    errFlag := false
    lines := op.lines + countNl txt +
      (if op.errFlag then countNl (slice b op.errStart op.cur) else 0)
    cur := e }

theorem body_tok {cmp : Cmp} {lexers : Bytes → Option Sub} {ek : Nat} {b : Bytes} {op : Op} {r : Rule}
    {loc : Loc} (hc : choose cmp op.cur none op.next = some (r, loc)) (hne : loc.off + loc.e ≠ op.cur)
    (hle : op.cur ≤ b.length) {val : Bytes} (hv : value b r loc = .ok val) :
    body cmp lexers ek b op = moveStep lexers b r (tokState ek b op r val
      (slice b (loc.off + loc.a) (loc.off + loc.e)) (loc.off + loc.e)) := by
  unfold body
  simp only [hc, hv, Out.bind_ok]
  rw [if_neg hne]
  congr 1
  unfold checkError tokState
  have hh : ¬ (b.length < op.cur) := by omega
  obtain ⟨sub, stack, next, lxs, errFlag, errStart, cur, lines⟩ := op
  simp only at hh
  cases errFlag <;> cases hd : r.discard <;> simp [hh]

theorem body_tok_panic {cmp : Cmp} {lexers : Bytes → Option Sub} {ek : Nat} {b : Bytes} {op : Op}
    {r : Rule} {loc : Loc} (hc : choose cmp op.cur none op.next = some (r, loc))
    (hv : value b r loc = .panic) : body cmp lexers ek b op = .panic := by
  unfold body
  simp only [hc, hv, Out.bind]

theorem loop_spec {cmp : Cmp} {b : Bytes} {takes : Mode → Sub → Nat → Tok → Nat → Prop}
    {dead : Sub → Nat → Prop} {D : Sub → Prop} {V : Sub → Mode → List Ent → Nat → Prop}
    (G : Good cmp b takes dead D V) (lexers : Bytes → Option Sub)
    (hD : ∀ x s, lexers x = some s → D s) (ek : Nat) (n : Nat) :
    ∀ (op : Op) (f : Mode), V op.sub (if op.errFlag then f.afterErr else f) op.next op.cur → D op.sub → (∀ s ∈ op.stack, D s) →
      op.cur < b.length → 2 * (b.length - op.cur) + op.stack.length ≤ n →
      (op.errFlag = true → op.stack = [] ∧ op.errStart < op.cur ∧
        ∀ i, op.errStart ≤ i → i < op.cur → dead op.sub i) →
      Done ek b takes dead lexers f (op.sub :: op.stack.reverse) op.errFlag op.lines
        (if op.errFlag then op.errStart else op.cur) op.lxs (loop cmp lexers ek b n op) := by
  induction n with
  | zero => intro op f _ _ _ h1 h2; omega
  | succ n ih =>
    intro op f hV hDs hDst hcur hn hE
    have hgo := G.go _ _ _ _ hV
    by_cases hstop : Stopped cmp op.next op.cur
    · have hd := G.stop _ _ _ _ hV hcur hstop
      rcases body_stop (lexers := lexers) (ek := ek) (b := b) hstop (fun r loc h => (hgo r loc h).1)
        with hb | hb
      · left; simp only [loop, hb, Out.bind]
      simp only [loop, hb]
      unfold stopStep
      by_cases hst : op.stack.length = 0
      · -- error step
        have hst' : op.stack = [] := List.length_eq_zero_iff.1 hst
        let s := if op.errFlag then op.errStart else op.cur
        have hs : s < op.cur + 1 ∧ ∀ i, s ≤ i → i < op.cur + 1 → dead op.sub i := by
          cases hf : op.errFlag with
          | false =>
            simp only [s, hf, Bool.false_eq_true, if_false]
            refine ⟨Nat.lt_succ_self _, fun i h1 h2 => ?_⟩
            have : i = op.cur := by omega
            rw [this]; exact hd
          | true =>
            simp only [s, hf, if_true]
            obtain ⟨-, h1, h2⟩ := hE hf
            refine ⟨by omega, fun i h3 h4 => ?_⟩
            by_cases hi : i = op.cur
            · rw [hi]; exact hd
            · exact h2 i h3 (by omega)
        have hse : setError op = { op with errFlag := true, errStart := s } := by
          unfold setError
          cases hf : op.errFlag <;> simp [s, hf]
          rw [← hf]
        rw [if_pos hst, hse, hst']
        simp only [List.reverse_nil]
        by_cases hend : op.cur + 1 ≥ b.length
        · rw [if_pos hend]
          have hl : op.cur + 1 = b.length := by omega
          right
          refine ⟨[.err ((b.drop s).take (b.length - s))],
            .err (hl ▸ hs.1) (Nat.le_refl _) (hl ▸ hs.2) (.inl rfl) .done, fun _ => rfl, by simp,
            _, rfl, hl, ?_⟩
          have hsl : ((b.drop s).take (b.length - s)).length = b.length - s := by simp
          have e1 : s + (b.length - s) = b.length := by omega
          unfold checkError
          simp only [hl, Bool.not_true, Bool.false_or, gt_iff_lt, Nat.lt_irrefl, decide_false,
            Bool.false_eq_true, if_false, slice_eq, render, nlHead, Nat.add_zero, hsl]
          show op.lxs ++ _ = op.lxs ++ [_]
          rw [show (if op.errFlag then op.errStart else op.cur) = s from rfl, e1]
        · rw [if_neg hend]
          simp only [Out.bind_ok]
          have := ih { op with errFlag := true, errStart := s, cur := op.cur + 1 } f
            (by
              have := G.stay _ _ _ _ hV hcur hstop
              have e : (if op.errFlag = true then f.afterErr else f).afterErr = f.afterErr := by
                cases op.errFlag <;> cases f <;> rfl
              rw [e] at this
              exact this) hDs hDst (by show op.cur + 1 < _; omega)
            (by show 2 * (b.length - (op.cur + 1)) + op.stack.length ≤ n; omega)
            (fun _ => ⟨hst', hs⟩)
          simp only [if_true, hst', List.reverse_nil] at this
          rcases this with h | ⟨segs, h1, h2, h3, h4⟩
          · left; simpa [hst'] using h
          · right
            exact ⟨segs, h1, fun _ => h2 rfl, h3, by simpa [hst'] using h4⟩
      · -- falling back
        rw [if_neg hst]
        have hst' : op.stack ≠ [] := fun h => hst (by rw [h]; rfl)
        obtain ⟨s, st, hp, hcfg, hlen, -, hms, hmst⟩ := pop_eq b 1 op (by omega) hst'
        have hf : op.errFlag = false := by
          cases hf : op.errFlag with
          | false => rfl
          | true => exact absurd (hE hf).1 hst'
        rw [hp]
        simp only [Out.bind_ok]
        have := ih (populateNext b { op with sub := s, stack := st }) .taken
          (by
            have h := G.populate s op.cur (hDst _ hms) (by omega)
            show V s (if op.errFlag = true then _ else _) (fresh b op.cur s) op.cur
            rw [hf]; exact h) (hDst _ hms)
          (fun x hx => hDst _ (hmst _ hx)) hcur
          (by show 2 * (b.length - op.cur) + st.length ≤ n; omega)
          (fun h => by have : op.errFlag = true := h; rw [hf] at this; cases this)
        have hm1 : min 1 op.stack.length = 1 := by omega
        rw [hm1, List.drop_succ_cons, List.drop_zero] at hcfg
        change Done ek b takes dead lexers .taken (s :: st.reverse) op.errFlag op.lines
          (if op.errFlag then op.errStart else op.cur) op.lxs _ at this
        rcases this with h | ⟨segs, h1, h2, h3, h4⟩
        · exact .inl h
        · right
          refine ⟨segs, ?_, h2, h3, h4⟩
          rw [← hcfg]
          simp only [hf, Bool.false_eq_true, if_false] at h1 ⊢
          exact .fall hcur hd h1
    · -- token step
      obtain ⟨r, loc, hc, hne⟩ : ∃ r loc, choose cmp op.cur none op.next = some (r, loc) ∧
          loc.off + loc.e ≠ op.cur := by
        unfold Stopped at hstop
        push Not at hstop
        exact hstop
      obtain ⟨ha, hle1, hle2, htk⟩ := hgo r loc hc
      cases hv : value b r loc with
      | fuel => exact absurd hv (value_ne_fuel b r loc)
      | panic =>
        left
        simp only [loop, body_tok_panic hc hv, Out.bind]
      | ok val =>
      have ht := htk val hv hne
      let k := loc.off + loc.e - op.cur
      have hk : 0 < k := by simp only [k]; omega
      have hek : loc.off + loc.e = op.cur + k := by simp only [k]; omega
      let v := (b.drop op.cur).take k
      have hvl : v.length = k := by simp only [v, List.length_take, List.length_drop]; omega
      have htxt : slice b (loc.off + loc.a) (loc.off + loc.e) = v := by
        rw [slice_eq, ha]
      simp only [loop, body_tok hc hne (by omega) hv]
      rw [htxt, hek]
      let op1 := tokState ek b op r val v (op.cur + k)
      -- the rest of the run
      have tail : moveStep lexers b r op1 = .panic ∨
          (moveStep lexers b r op1 = .ok (.done op1) ∧ op1.cur = b.length) ∨
          (op1.cur < b.length ∧ ∃ mv, moveOf lexers r = some mv ∧ mv.Fits op.stack.reverse ∧
            Done ek b takes dead lexers (mv.mode) (mv.apply (op.sub :: op.stack.reverse)) false
              op1.lines op1.cur op1.lxs
              ((moveStep lexers b r op1).bind fun
                | .done op => .ok op
                | .more op => loop cmp lexers ek b n op)) := by
        have hc1 : op1.cur = op.cur + k := rfl
        unfold moveStep moveOf
        by_cases hend : op1.cur ≥ b.length
        · right; left
          rw [if_pos hend]
          exact ⟨rfl, by omega⟩
        rw [if_neg hend]
        by_cases hpop : r.pop > 0
        · rw [if_pos hpop, if_pos hpop]
          by_cases hst : op.stack = []
          · left
            have : pop b r.pop op1 = .panic := by
              unfold pop
              rw [show op1.stack = [] from hst]
              simp
            rw [this]; rfl
          · right; right
            refine ⟨by omega, _, rfl, fun h => hst (List.reverse_eq_nil_iff.1 h), ?_⟩
            obtain ⟨s, st, hp, hcfg, hlen, -, hms, hmst⟩ := pop_eq b r.pop op1 hpop hst
            rw [hp]
            simp only [Out.bind_ok]
            have := ih (populateNext b { op1 with sub := s, stack := st }) .taken
              (G.populate s op1.cur (hDst _ hms) (by omega)) (hDst _ hms)
              (fun x hx => hDst _ (hmst _ hx)) (by show op1.cur < b.length; omega)
              (by
                show 2 * (b.length - op1.cur) + st.length ≤ n
                have : st.length < op.stack.length := hlen
                omega)
              (fun h => by cases h)
            have e : (Move.pop r.pop).apply (op.sub :: op.stack.reverse) = s :: st.reverse := by
              rw [hcfg]
              simp only [Move.apply, List.length_cons, List.length_reverse, Nat.add_sub_cancel]
              rfl
            rw [e]
            exact this
        · rw [if_neg hpop, if_neg hpop]
          by_cases hpush : r.push ≠ []
          · rw [if_pos hpush, if_pos hpush]
            cases hl : lexers r.push with
            | none => left; rfl
            | some s =>
              right; right
              refine ⟨by omega, _, rfl, trivial, ?_⟩
              simp only [Out.bind_ok]
              have := ih (populateNext b { op1 with stack := op1.stack ++ [op1.sub], sub := s }) .taken
                (G.populate s op1.cur (hD _ _ hl) (by omega)) (hD _ _ hl)
                (by
                  intro x hx
                  rcases List.mem_append.1 hx with hx | hx
                  · exact hDst x hx
                  · rw [List.mem_singleton.1 hx]; exact hDs)
                (by show op1.cur < b.length; omega)
                (by
                  show 2 * (b.length - op1.cur) + (op1.stack ++ [op1.sub]).length ≤ n
                  rw [List.length_append, show op1.stack = op.stack from rfl]
                  simp only [List.length_singleton]
                  omega)
                (fun h => by cases h)
              have e : (op1.stack ++ [op1.sub]).reverse = op.sub :: op.stack.reverse := by
                rw [List.reverse_append]; rfl
              change Done ek b takes dead lexers .taken (s :: (op1.stack ++ [op1.sub]).reverse) false
                op1.lines op1.cur op1.lxs _ at this
              rw [e] at this
              exact this
          · rw [if_neg hpush, if_neg hpush]
            right; right
            refine ⟨by omega, _, rfl, trivial, ?_⟩
            simp only [Out.bind_ok]
            exact ih (updateNext b op1) .next
              (G.update op.sub _ op.next op.cur op1.cur hV (by omega) (by omega)) hDs hDst
              (by show op1.cur < b.length; omega)
              (by
                show 2 * (b.length - op1.cur) + op.stack.length ≤ n
                omega)
              (fun h => by cases h)
      have hR : ∀ carry segs, render b ek op.cur op.lines carry (.tok (r, val) v :: segs) =
          (if r.discard then [] else [⟨.idx r.kind, val, op.lines, colAt b op.cur, false⟩]) ++
          render b ek (op.cur + k) (op.lines + countNl v + carry) 0 segs := by
        intro carry segs
        simp only [render, hvl]
      -- putting the token, and the error before it, in front of the rest
      have fin : ∀ segs, Run takes dead (fun k => moveOf lexers k.1) b
            (if op.errFlag then f.afterErr else f) (op.sub :: op.stack.reverse)
            op.cur (.tok (r, val) v :: segs) →
          List.IsChain (fun a b : Seg Tok => ¬ (a.isErr = true ∧ b.isErr = true)) segs →
          ∀ out : Out Op, (∃ op', out = .ok op' ∧ op'.cur = b.length ∧
            (checkError ek b op').lxs = op1.lxs ++ render b ek op1.cur op1.lines 0 segs) →
          Done ek b takes dead lexers f (op.sub :: op.stack.reverse) op.errFlag op.lines
            (if op.errFlag then op.errStart else op.cur) op.lxs out := by
        intro segs hL h3 out hout
        obtain ⟨op', g1, g2, g3⟩ := hout
        have hch : List.IsChain (fun a b : Seg Tok => ¬ (a.isErr = true ∧ b.isErr = true))
            (.tok (r, val) v :: segs) := by
          cases segs with
          | nil => simp
          | cons a l => exact List.IsChain.cons_cons (by simp [Seg.isErr]) h3
        right
        cases hf : op.errFlag with
        | false =>
          rw [hf] at hL
          refine ⟨.tok (r, val) v :: segs, hL, by simp, hch, op', g1, g2, ?_⟩
          rw [g3]
          simp only [Bool.false_eq_true, if_false]
          rw [hR]
          simp only [op1, tokState, hf, Bool.false_eq_true, if_false, List.append_nil,
            List.append_assoc]
        | true =>
          obtain ⟨hst, hp1, hp2⟩ := hE hf
          have hul : ((b.drop op.errStart).take (op.cur - op.errStart)).length =
              op.cur - op.errStart := by
            simp only [List.length_take, List.length_drop]; omega
          rw [hst, hf] at hL
          rw [hst]
          rw [hf] at ht
          refine ⟨.err ((b.drop op.errStart).take (op.cur - op.errStart)) :: .tok (r, val) v :: segs,
            .err hp1 (by omega) hp2 (.inr ⟨(r, val), k, hk, ht⟩) hL, by simp [Seg.isErr],
            List.IsChain.cons_cons (by simp [Seg.isErr]) hch, op', g1, g2, ?_⟩
          rw [g3]
          simp only [if_true]
          rw [render, hul, show op.errStart + (op.cur - op.errStart) = op.cur by omega, hR]
          simp only [op1, tokState, hf, if_true, slice_eq, hul, nlHead, List.append_assoc,
            List.cons_append, List.nil_append]
      rcases tail with h | ⟨h1, h2⟩ | ⟨h1, mv, h2, hfit, h3⟩
      · left
        rw [show tokState ek b op r val v (op.cur + k) = op1 from rfl, h]
        rfl
      · have hl : op.cur + k = b.length := h2
        rw [show tokState ek b op r val v (op.cur + k) = op1 from rfl, h1]
        refine fin [] (.last ht hk hl) (by simp) _ ⟨op1, rfl, h2, ?_⟩
        simp [checkError, render, op1, tokState]
      · rcases h3 with h3 | ⟨segs, g1, -, g3, g4⟩
        · exact .inl h3
        · exact fin segs (.tok ht hk h1 h2 hfit g1) g3 _ g4

/-! ### The choice -/

theorem ltp_iff {e1 p1 e2 p2 : Int} (h : 0 ≤ p2) :
    lengthThenPriority e1 p1 e2 p2 = true ↔ e1 > e2 ∨ (e1 = e2 ∧ p1 < p2) := by
  unfold lengthThenPriority
  have : ¬ p2 = -1 := by omega
  simp [this]

theorem ptl_iff {e1 p1 e2 p2 : Int} (h : 0 ≤ p2) :
    priorityThenLength e1 p1 e2 p2 = true ↔ p1 < p2 ∨ (p1 = p2 ∧ e1 > e2) := by
  unfold priorityThenLength
  have : ¬ p2 = -1 := by omega
  simp [this]

theorem choose_mem (cmp : Cmp) (cur : Nat) (es : List Ent) (c : Option (Rule × Loc)) :
    ∀ r loc, choose cmp cur c es = some (r, loc) →
      c = some (r, loc) ∨ ((some r, some loc) ∈ es ∧ loc.a + loc.off = cur) := by
  induction es generalizing c with
  | nil => intro r loc h; exact .inl h
  | cons x es ih =>
    intro r loc h
    obtain ⟨o1, o2⟩ := x
    have lift : ∀ c', choose cmp cur c' es = some (r, loc) → c' = c ∨
          (∃ tr l, c' = some (tr, l) ∧ o1 = some tr ∧ o2 = some l ∧ l.a + l.off = cur) →
        c = some (r, loc) ∨ ((some r, some loc) ∈ (o1, o2) :: es ∧ loc.a + loc.off = cur) := by
      intro c' h h'
      rcases ih c' r loc h with h1 | ⟨h1, h2⟩
      · rcases h' with h' | ⟨tr, l, h2, h3, h4, h5⟩
        · exact .inl (h' ▸ h1)
        · rw [h2] at h1
          cases h1
          exact .inr ⟨by rw [h3, h4]; exact List.mem_cons_self .., h5⟩
      · exact .inr ⟨List.mem_cons_of_mem _ h1, h2⟩
    cases o1 with
    | none => exact lift c h (.inl rfl)
    | some tr =>
      cases o2 with
      | none => exact lift c h (.inl rfl)
      | some l =>
        simp only [choose] at h
        split at h
        · next hl =>
          split at h
          · exact lift _ h (.inr ⟨tr, l, rfl, rfl, rfl, hl⟩)
          · split at h
            · exact lift _ h (.inr ⟨tr, l, rfl, rfl, rfl, hl⟩)
            · exact lift _ h (.inl rfl)
        · exact lift c h (.inl rfl)

/-- The chosen rule is the best one for an order `le` that `cmp` decides. -/
theorem choose_best (cmp : Cmp) (cur : Nat) (le : Rule × Loc → Rule × Loc → Prop)
    (refl : ∀ x, le x x) (trans : ∀ x y z, le x y → le y z → le x z) (ok : Rule → Prop)
    (hc : ∀ x y : Rule × Loc, ok x.1 → ok y.1 → cmp x.2.e x.1.priority y.2.e y.1.priority = true → le x y)
    (hn : ∀ x y : Rule × Loc, ok x.1 → ok y.1 → cmp x.2.e x.1.priority y.2.e y.1.priority = false → le y x)
    (es : List Ent) (hok : ∀ r o, (some r, o) ∈ es → ok r) (c : Option (Rule × Loc))
    (hcok : ∀ x, c = some x → ok x.1) :
    (∀ x, c = some x → ∃ y, choose cmp cur c es = some y ∧ le y x) ∧
    ∀ r loc, (some r, some loc) ∈ es → loc.a + loc.off = cur →
      ∃ y, choose cmp cur c es = some y ∧ le y (r, loc) := by
  induction es generalizing c with
  | nil =>
    refine ⟨fun x h => ⟨x, h, refl x⟩, ?_⟩
    intro r loc h; cases h
  | cons x es ih =>
    obtain ⟨o1, o2⟩ := x
    have hok' : ∀ r o, (some r, o) ∈ es → ok r := fun r o h => hok r o (List.mem_cons_of_mem _ h)
    cases o1 with
    | none =>
      obtain ⟨h1, h2⟩ := ih hok' c hcok
      refine ⟨h1, fun r loc hm hl => ?_⟩
      rcases List.mem_cons.1 hm with hm | hm
      · cases hm
      · exact h2 r loc hm hl
    | some tr =>
      have hotr : ok tr := hok tr o2 (List.mem_cons_self ..)
      cases o2 with
      | none =>
        obtain ⟨h1, h2⟩ := ih hok' c hcok
        refine ⟨h1, fun r loc hm hl => ?_⟩
        rcases List.mem_cons.1 hm with hm | hm
        · cases hm
        · exact h2 r loc hm hl
      | some l =>
        by_cases hl : l.a + l.off = cur
        · cases c with
          | none =>
            simp only [choose, if_pos hl]
            obtain ⟨h1, h2⟩ := ih hok' (some (tr, l)) (fun x hx => by cases hx; exact hotr)
            refine ⟨fun x hx => (by cases hx), fun r loc hm hl => ?_⟩
            rcases List.mem_cons.1 hm with hm | hm
            · cases hm; exact h1 _ rfl
            · exact h2 r loc hm hl
          | some y =>
            obtain ⟨r0, l0⟩ := y
            simp only [choose, if_pos hl]
            have hokr0 : ok r0 := hcok _ rfl
            by_cases hcmp : cmp l.e tr.priority l0.e r0.priority = true
            · rw [if_pos hcmp]
              obtain ⟨h1, h2⟩ := ih hok' (some (tr, l)) (fun x hx => by cases hx; exact hotr)
              refine ⟨fun x hx => ?_, fun r loc hm hl => ?_⟩
              · cases hx
                obtain ⟨z, hz1, hz2⟩ := h1 _ rfl
                exact ⟨z, hz1, trans _ _ _ hz2 (hc (tr, l) (r0, l0) hotr hokr0 hcmp)⟩
              · rcases List.mem_cons.1 hm with hm | hm
                · cases hm; exact h1 _ rfl
                · exact h2 r loc hm hl
            · rw [if_neg hcmp]
              obtain ⟨h1, h2⟩ := ih hok' (some (r0, l0)) hcok
              refine ⟨h1, fun r loc hm hl => ?_⟩
              rcases List.mem_cons.1 hm with hm | hm
              · cases hm
                obtain ⟨z, hz1, hz2⟩ := h1 _ rfl
                exact ⟨z, hz1, trans _ _ _ hz2
                  (hn (tr, l) (r0, l0) hotr hokr0 (Bool.eq_false_iff.2 hcmp))⟩
              · exact h2 r loc hm hl
        · have e : choose cmp cur c ((some tr, some l) :: es) = choose cmp cur c es := by
            simp only [choose, if_neg hl]
          rw [e]
          obtain ⟨h1, h2⟩ := ih hok' c hcok
          refine ⟨h1, fun r loc hm hl' => ?_⟩
          rcases List.mem_cons.1 hm with hm | hm
          · cases hm; exact absurd hl' hl
          · exact h2 r loc hm hl'

/-! ### Arbitrary regular expressions -/

/-- Rule `r` of the sub-lexer was found at `[p, p+n)` by a search started at or before `p`, and `val`
is the value made of the match. -/
def Claims (b : Bytes) (_ : Mode) (s : Sub) (p : Nat) (k : Tok) (n : Nat) : Prop :=
  some k.1 ∈ s.rules ∧ ∃ c ≤ p, ∃ g, k.1.re.find (b.drop c) = some (p - c, p - c + n, g) ∧
    value b k.1 ⟨p - c, p - c + n, g, c⟩ = .ok k.2

/-- Cached matches of arbitrary regexps. -/
def VAny (b : Bytes) (s : Sub) (es : List Ent) (cur : Nat) : Prop :=
  ∀ r loc, (some r, some loc) ∈ es → some r ∈ s.rules ∧ loc.off ≤ cur ∧ loc.off ≤ b.length ∧
    r.re.find (b.drop loc.off) = some (loc.a, loc.e, loc.groups)

theorem mem_fresh {b : Bytes} {cur : Nat} {s : Sub} {r : Rule} {o : Option Loc}
    (h : (some r, o) ∈ fresh b cur s) : some r ∈ s.rules ∧ o = findFrom b cur r := by
  unfold fresh at h
  rw [List.mem_map] at h
  obtain ⟨x, hx, he⟩ := h
  cases x with
  | none => cases he
  | some r' =>
    simp only [Prod.mk.injEq, Option.some.injEq] at he
    obtain ⟨rfl, rfl⟩ := he
    exact ⟨hx, rfl⟩

theorem findFrom_some {b : Bytes} {cur : Nat} {r : Rule} {loc : Loc}
    (h : findFrom b cur r = some loc) :
    loc.off = cur ∧ r.re.find (b.drop cur) = some (loc.a, loc.e, loc.groups) := by
  unfold findFrom at h
  cases hf : r.re.find (b.drop cur) with
  | none => rw [hf] at h; cases h
  | some x =>
    rw [hf] at h
    cases h
    exact ⟨rfl, rfl⟩

theorem mem_refind {b : Bytes} {cur : Nat} {es : List Ent} {r : Rule} {o : Option Loc}
    (h : (some r, o) ∈ es.map (refind b cur)) :
    (∃ loc, (some r, some loc) ∈ es ∧ loc.a + loc.off ≤ cur ∧ o = findFrom b cur r) ∨
    ((some r, o) ∈ es ∧ ∀ loc, o = some loc → cur < loc.a + loc.off) := by
  rw [List.mem_map] at h
  obtain ⟨⟨r', o'⟩, hm, he⟩ := h
  unfold refind at he
  cases r' with
  | none => cases he
  | some r' =>
    cases o' with
    | none =>
      cases he
      exact .inr ⟨hm, by simp⟩
    | some loc =>
      simp only at he
      split at he
      · next hc =>
        cases he
        exact .inl ⟨loc, hm, hc, rfl⟩
      · next hc =>
        cases he
        refine .inr ⟨hm, ?_⟩
        intro l hl; cases hl; omega

theorem vAny_fresh {b : Bytes} {s : Sub} {cur : Nat} (hb : cur ≤ b.length) :
    VAny b s (fresh b cur s) cur := by
  intro r loc hm
  obtain ⟨h1, h2⟩ := mem_fresh hm
  obtain ⟨h3, h4⟩ := findFrom_some h2.symm
  exact ⟨h1, by omega, by omega, by rw [h3]; exact h4⟩

theorem vAny_update {b : Bytes} {s : Sub} {es : List Ent} {cur cur' : Nat}
    (h : VAny b s es cur) (hc : cur ≤ cur') (hb : cur' ≤ b.length) :
    VAny b s (es.map (refind b cur')) cur' := by
  intro r loc hm
  rcases mem_refind hm with ⟨l, h1, h2, h3⟩ | ⟨h1, h2⟩
  · obtain ⟨hr, -⟩ := h r l h1
    obtain ⟨h4, h5⟩ := findFrom_some h3.symm
    exact ⟨hr, by omega, by omega, by rw [h4]; exact h5⟩
  · obtain ⟨hr, h3, h4, h5⟩ := h r loc h1
    exact ⟨hr, by omega, h4, h5⟩

theorem vAny_go {cmp : Cmp} {b : Bytes} {s : Sub} {es : List Ent} {cur : Nat} (f : Mode)
    (hV : VAny b s es cur) {r : Rule} {loc : Loc} (hc : choose cmp cur none es = some (r, loc)) :
    loc.off + loc.a = cur ∧ cur ≤ loc.off + loc.e ∧ loc.off + loc.e ≤ b.length ∧
    (some r, some loc) ∈ es ∧
    ∀ val, value b r loc = .ok val → Claims b f s cur (r, val) (loc.off + loc.e - cur) := by
  rcases choose_mem _ _ _ _ _ _ hc with h | ⟨h1, h2⟩
  · cases h
  obtain ⟨h3, h4, h5, h6⟩ := hV r loc h1
  have hb := r.re.bound _ _ _ _ h6
  rw [List.length_drop] at hb
  have ea : cur - loc.off = loc.a := by omega
  have ee : cur - loc.off + (loc.off + loc.e - cur) = loc.e := by omega
  refine ⟨by omega, by omega, by omega, h1, fun val hv => ⟨h3, loc.off, h4, loc.groups, ?_, ?_⟩⟩
  · rw [ee, ea]; exact h6
  · rw [ee, ea]; exact hv

theorem good_any (cmp : Cmp) (b : Bytes) :
    Good cmp b (Claims b) (fun _ _ => True) (fun _ => True) (fun s _ es cur => VAny b s es cur) where
  stop := fun _ _ _ _ _ _ _ => trivial
  go := by
    intro s f es cur hV r loc hc
    obtain ⟨h1, h2, h3, -, h4⟩ := vAny_go f hV hc
    exact ⟨h1, h2, h3, fun val hv _ => h4 val hv⟩
  populate := fun s cur _ hb => vAny_fresh hb
  update := fun _ _ _ _ _ h h1 h2 => vAny_update h h1 h2
  stay := by
    intro s f es cur h _ _ r loc hm
    obtain ⟨h1, h2, h3⟩ := h r loc hm
    exact ⟨h1, by omega, h3⟩

/-! ### Context-independent regular expressions -/

/-- The bounds of a match. -/
def Re.bounds (re : Re) (s : Bytes) : Option (Nat × Nat) := (re.find s).map fun x => (x.1, x.2.1)

/-- All rules of the sub-lexer search leftmost for what `m` matches, never for the empty string, and
have no negative priority. -/
def Regular (m : Rule → Bytes → Option Nat) (step : Bytes → Nat) (s : Sub) : Prop :=
  ∀ r, some r ∈ s.rules → Leftmost step (m r) r.re.bounds ∧ (∀ x, m r x ≠ some 0) ∧ 0 ≤ r.priority

/-- Cached matches of context-independent regexps. Those at the current position were searched for
from the same position, unless an error followed a token. Before the first token all were. -/
structure VCtx (m : Rule → Bytes → Option Nat) (step : Bytes → Nat) (b : Bytes) (s : Sub) (f : Mode)
    (es : List Ent) (cur : Nat) : Prop where
  reg : Regular m step s
  any : VAny b s es cur
  rules : ∀ r, some r ∈ s.rules → ∃ o, (some r, o) ∈ es
  mem : ∀ r o, (some r, o) ∈ es → some r ∈ s.rules
  miss : ∀ r, (some r, none) ∈ es → ∀ i, Bd step b i → cur ≤ i → m r (b.drop i) = .none
  hit : ∀ r loc, (.some r, .some loc) ∈ es → cur ≤ loc.a + loc.off ∧
    m r (b.drop (loc.a + loc.off)) = .some (loc.e - loc.a) ∧
    ∀ i, Bd step b i → cur ≤ i → i < loc.a + loc.off → m r (b.drop i) = .none
  same : f ≠ .later → ∃ c, ∀ r loc, (.some r, .some loc) ∈ es → loc.a + loc.off = cur → loc.off = c
  all : f = .taken → ∃ c, ∀ r loc, (.some r, .some loc) ∈ es → loc.off = c

theorem leftmost_none {m : Bytes → Option Nat} {step : Bytes → Nat} {re : Re} {b : Bytes} {cur : Nat}
    (hsync : Sync step) (hL : Leftmost step m re.bounds) (h : re.find (b.drop cur) = none) :
    ∀ i, Bd step b i → cur ≤ i → m (b.drop i) = none := by
  intro i hi hci
  have := hL (b.drop cur)
  unfold Re.bounds at this
  rw [h] at this
  have := this (i - cur) (hsync b cur i hi hci)
  rwa [List.drop_drop, show cur + (i - cur) = i by omega] at this

theorem leftmost_some {m : Bytes → Option Nat} {step : Bytes → Nat} {re : Re} {b : Bytes} {cur a e : Nat}
    {g : List (Int × Int)} (hsync : Sync step) (hL : Leftmost step m re.bounds)
    (h : re.find (b.drop cur) = some (a, e, g)) :
    m (b.drop (a + cur)) = some (e - a) ∧
    ∀ i, Bd step b i → cur ≤ i → i < a + cur → m (b.drop i) = none := by
  have := hL (b.drop cur)
  unfold Re.bounds at this
  rw [h] at this
  obtain ⟨h4, h5, h6⟩ := this
  refine ⟨?_, ?_⟩
  · rw [List.drop_drop] at h5
    rw [Nat.add_comm]; exact h5
  · intro i hi hci hia
    have := h6 (i - cur) (hsync b cur i hi hci) (by omega)
    rwa [List.drop_drop, show cur + (i - cur) = i by omega] at this

theorem vCtx_fresh {m : Rule → Bytes → Option Nat} {step : Bytes → Nat} (hsync : Sync step) {b : Bytes}
    {s : Sub} (hs : Regular m step s) {cur : Nat} (hb : cur ≤ b.length) :
    VCtx m step b s .taken (fresh b cur s) cur where
  reg := hs
  any := vAny_fresh hb
  rules := by
    intro r hr
    refine ⟨findFrom b cur r, ?_⟩
    unfold fresh
    rw [List.mem_map]
    exact ⟨.some r, hr, rfl⟩
  mem := fun r o h => (mem_fresh h).1
  miss := by
    intro r hm
    obtain ⟨h1, h2⟩ := mem_fresh hm
    unfold findFrom at h2
    refine leftmost_none hsync (hs r h1).1 ?_
    cases hf : r.re.find (b.drop cur) with
    | none => rfl
    | some x => rw [hf] at h2; cases h2
  hit := by
    intro r loc hm
    obtain ⟨h1, h2⟩ := mem_fresh hm
    obtain ⟨h3, h4⟩ := findFrom_some h2.symm
    obtain ⟨h5, h6⟩ := leftmost_some hsync (hs r h1).1 h4
    rw [h3]
    exact ⟨by omega, h5, h6⟩
  same := by
    intro _
    refine ⟨cur, fun r loc hm _ => ?_⟩
    exact (findFrom_some (mem_fresh hm).2.symm).1
  all := by
    intro _
    refine ⟨cur, fun r loc hm => ?_⟩
    exact (findFrom_some (mem_fresh hm).2.symm).1

theorem vCtx_update {m : Rule → Bytes → Option Nat} {step : Bytes → Nat} (hsync : Sync step) {b : Bytes}
    {s : Sub} {f : Mode} {es : List Ent} {cur cur' : Nat} (h : VCtx m step b s f es cur)
    (hc : cur ≤ cur') (hb : cur' ≤ b.length) :
    VCtx m step b s .next (es.map (refind b cur')) cur' where
  reg := h.reg
  any := vAny_update h.any hc hb
  rules := by
    intro r hr
    obtain ⟨o, ho⟩ := h.rules r hr
    have := List.mem_map_of_mem (f := refind b cur') ho
    cases o with
    | none => exact ⟨_, this⟩
    | some l =>
      simp only [refind] at this
      split at this
      · exact ⟨_, this⟩
      · exact ⟨_, this⟩
  mem := by
    intro r o hm
    rcases mem_refind hm with ⟨l, h1, -, -⟩ | ⟨h1, -⟩
    · exact h.mem r _ h1
    · exact h.mem r _ h1
  miss := by
    intro r hm i hi hci
    rcases mem_refind hm with ⟨l, h1, h2, h3⟩ | ⟨h1, h2⟩
    · have hr := h.mem r _ h1
      refine leftmost_none hsync (h.reg r hr).1 ?_ i hi hci
      unfold findFrom at h3
      cases hf : r.re.find (b.drop cur') with
      | none => rfl
      | some x => rw [hf] at h3; cases h3
    · exact h.miss r h1 i hi (by omega)
  hit := by
    intro r loc hm
    rcases mem_refind hm with ⟨l, h1, h2, h3⟩ | ⟨h1, h2⟩
    · have hr := h.mem r _ h1
      obtain ⟨h4, h5⟩ := findFrom_some h3.symm
      obtain ⟨h6, h7⟩ := leftmost_some hsync (h.reg r hr).1 h5
      rw [h4]
      exact ⟨by omega, h6, h7⟩
    · obtain ⟨h3, h4, h5⟩ := h.hit r loc h1
      have := h2 loc rfl
      exact ⟨by omega, h4, fun i hi hci hia => h5 i hi (by omega) hia⟩
  same := by
    intro _
    refine ⟨cur', fun r loc hm hl => ?_⟩
    rcases mem_refind hm with ⟨l, h1, h2, h3⟩ | ⟨h1, h2⟩
    · exact (findFrom_some h3.symm).1
    · have := h2 loc rfl
      omega
  all := by simp

theorem vCtx_match {m : Rule → Bytes → Option Nat} {step : Bytes → Nat} {b : Bytes} {s : Sub} {f : Mode}
    {es : List Ent} {cur : Nat} (h : VCtx m step b s f es cur) (hB : Bd step b cur) {r : Rule}
    (hr : some r ∈ s.rules) {n : Nat} (hm : m r (b.drop cur) = .some n) :
    ∃ loc, (.some r, .some loc) ∈ es ∧ loc.a + loc.off = cur ∧ loc.off + loc.e = cur + n := by
  obtain ⟨o, ho⟩ := h.rules r hr
  cases o with
  | none =>
    have := h.miss r ho cur hB (Nat.le_refl _)
    rw [hm] at this; cases this
  | some l =>
    obtain ⟨h1, h2, h3⟩ := h.hit r l ho
    by_cases hc : cur < l.a + l.off
    · have := h3 cur hB (Nat.le_refl _) hc
      rw [hm] at this; cases this
    · have e : l.a + l.off = cur := by omega
      rw [e, hm] at h2
      have h2 := Option.some.inj h2
      obtain ⟨-, -, h4, h5⟩ := h.any r l ho
      have := r.re.bound _ _ _ _ h5
      exact ⟨l, ho, e, by omega⟩

/-- Where no rule took over there is no cached match: empty matches do not occur. -/
theorem vCtx_stopped {cmp : Cmp} {m : Rule → Bytes → Option Nat} {step : Bytes → Nat} {b : Bytes}
    {s : Sub} {f : Mode} {es : List Ent} {cur : Nat} (h : VCtx m step b s f es cur)
    (hs : Stopped cmp es cur) : choose cmp cur .none es = .none := by
  cases hc : choose cmp cur .none es with
  | none => rfl
  | some x =>
    obtain ⟨r, loc⟩ := x
    have h1 := hs r loc hc
    rcases choose_mem _ _ _ _ _ _ hc with h2 | ⟨h2, h3⟩
    · cases h2
    · obtain ⟨-, h4, -⟩ := h.hit r loc h2
      have : loc.e - loc.a = 0 := by omega
      rw [this] at h4
      exact absurd h4 ((h.reg r (h.mem r _ h2)).2.1 _)

theorem choose_none {cmp : Cmp} {cur : Nat} {es : List Ent} (h : choose cmp cur none es = none) :
    ∀ r loc, (some r, some loc) ∈ es → loc.a + loc.off ≠ cur := by
  intro r loc hm hl
  obtain ⟨-, h2⟩ := choose_best cmp cur (fun _ _ => True) (fun _ => trivial) (fun _ _ _ _ _ => trivial)
    (fun _ => True) (fun _ _ _ _ _ => trivial) (fun _ _ _ _ _ => trivial) es (fun _ _ _ => trivial) none
    (fun _ _ => trivial)
  obtain ⟨y, hy, -⟩ := h2 r loc hm hl
  rw [h] at hy; cases hy

/-- No rule of the sub-lexer matches at the rune start `p`. -/
def DeadAt (m : Rule → Bytes → Option Nat) (step : Bytes → Nat) (b : Bytes) (s : Sub) (p : Nat) : Prop :=
  Bd step b p → ∀ r, some r ∈ s.rules → m r (b.drop p) = none

/-- Rule `r` of the sub-lexer matches at `p`, the value is made of a match found there, and `r` is
best among the rules matching at `p` if that is a rune start. -/
def TakesAt (m : Rule → Bytes → Option Nat) (step : Bytes → Nat)
    (best : Mode → Sub → Bytes → Rule → Nat → Prop) (b : Bytes) (f : Mode) (s : Sub) (p : Nat) (k : Tok)
    (n : Nat) : Prop :=
  Claims b f s p k n ∧ m k.1 (b.drop p) = some n ∧ (Bd step b p → best f s (b.drop p) k.1 n)

theorem good_ctx {cmp : Cmp} {m : Rule → Bytes → Option Nat} {step : Bytes → Nat} (hsync : Sync step)
    (b : Bytes) (best : Mode → Sub → Bytes → Rule → Nat → Prop)
    (hbest : ∀ s f es cur, VCtx m step b s f es cur → Bd step b cur → ∀ r loc,
      choose cmp cur none es = some (r, loc) → loc.a + loc.off = cur →
      m r (b.drop cur) = some (loc.e - loc.a) → 0 < loc.e - loc.a →
      best f s (b.drop cur) r (loc.e - loc.a)) :
    Good cmp b (TakesAt m step best b) (DeadAt m step b) (Regular m step) (VCtx m step b) where
  stop := by
    intro s f es cur hV _ hs hB r hr
    have hc := vCtx_stopped hV hs
    cases hm : m r (b.drop cur) with
    | none => rfl
    | some n =>
      obtain ⟨loc, h1, h2, -⟩ := vCtx_match hV hB hr hm
      exact absurd h2 (choose_none hc r loc h1)
  go := by
    intro s f es cur hV r loc hc
    obtain ⟨h1, h2, h3, h4, h5⟩ := vAny_go f hV.any hc
    refine ⟨h1, h2, h3, fun val hv hne => ?_⟩
    obtain ⟨-, h6, -⟩ := hV.hit r loc h4
    rw [show loc.a + loc.off = cur by omega] at h6
    have e : loc.off + loc.e - cur = loc.e - loc.a := by omega
    refine ⟨h5 val hv, ?_, fun hB => ?_⟩
    · rw [e]; exact h6
    · rw [e]
      exact hbest s f es cur hV hB r loc hc (by omega) h6 (by omega)
  populate := fun s cur hs hb => vCtx_fresh hsync hs hb
  update := fun _ _ _ _ _ h h1 h2 => vCtx_update hsync h h1 h2
  stay := by
    intro s f es cur h hlt hs
    have hc := choose_none (vCtx_stopped h hs)
    exact {
      reg := h.reg
      any := fun r loc hm => by
        obtain ⟨h1, h2, h3⟩ := h.any r loc hm
        exact ⟨h1, by omega, h3⟩
      rules := h.rules
      mem := h.mem
      miss := fun r hm i hi hci => h.miss r hm i hi (by omega)
      hit := fun r loc hm => by
        obtain ⟨h1, h2, h3⟩ := h.hit r loc hm
        have := hc r loc hm
        exact ⟨by omega, h2, fun i hi hci => h3 i hi (by omega)⟩
      same := fun hf => by
        have hf : f = .taken := by cases f <;> simp_all [Mode.afterErr]
        obtain ⟨c, hc⟩ := h.all hf
        exact ⟨c, fun r loc hm _ => hc r loc hm⟩
      all := fun hf => by
        have hf : f = .taken := by cases f <;> simp_all [Mode.afterErr]
        exact h.all hf }

/-- The longest match, in the default mode, unless the sub-lexer has produced a token since it became
current and then an error followed. -/
def longest (m : Rule → Bytes → Option Nat) (f : Mode) (s : Sub) (x : Bytes) (r : Rule) (n : Nat) : Prop :=
  f ≠ .later → Wins (fun r => some r ∈ s.rules) m (fun r => r.priority) x r n

/-- The rule of the highest priority. -/
def foremost (m : Rule → Bytes → Option Nat) (_ : Mode) (s : Sub) (x : Bytes) (r : Rule) (_ : Nat) : Prop :=
  ∀ j n', some j ∈ s.rules → m j x = some n' → r.priority ≤ j.priority

theorem good_longest {m : Rule → Bytes → Option Nat} {step : Bytes → Nat} (hsync : Sync step)
    (b : Bytes) : Good lengthThenPriority b (TakesAt m step (longest m) b) (DeadAt m step b)
      (Regular m step) (VCtx m step b) := by
  refine good_ctx hsync b _ ?_
  rintro s f es cur hV hB r loc hc hcur hm hpos hf
  obtain ⟨c, hcs⟩ := hV.same hf
  have hmem : (some r, some loc) ∈ es := by
    rcases choose_mem _ _ _ _ _ _ hc with h | h
    · cases h
    · exact h.1
  refine ⟨hV.mem _ _ hmem, hm, hpos, fun j n' hj hn' => ?_⟩
  obtain ⟨l, hl1, hl2, hl3⟩ := vCtx_match hV hB hj hn'
  obtain ⟨-, h2⟩ := choose_best lengthThenPriority cur
    (fun x y => y.2.e < x.2.e ∨ (y.2.e = x.2.e ∧ x.1.priority ≤ y.1.priority))
    (fun _ => .inr ⟨rfl, Int.le_refl _⟩) (fun _ _ _ h1 h2 => by omega) (fun r => 0 ≤ r.priority)
    (fun x y _ hy h => by rw [ltp_iff hy] at h; omega)
    (fun x y _ hy h => by
      have := mt (ltp_iff (e1 := x.2.e) (p1 := x.1.priority) (e2 := y.2.e) hy).2 (by rw [h]; simp)
      omega)
    es (fun r o h => (hV.reg r (hV.mem r o h)).2.2) none (fun _ h => by cases h)
  obtain ⟨y, hy1, hy2⟩ := h2 j l hl1 hl2
  rw [hc] at hy1
  cases hy1
  have e1 := hcs _ _ hmem hcur
  have e2 := hcs _ _ hl1 hl2
  simp only at hy2
  show n' < loc.e - loc.a ∨ n' = loc.e - loc.a ∧ r.priority ≤ j.priority
  omega

theorem good_foremost {m : Rule → Bytes → Option Nat} {step : Bytes → Nat} (hsync : Sync step)
    (b : Bytes) : Good priorityThenLength b (TakesAt m step (foremost m) b) (DeadAt m step b)
      (Regular m step) (VCtx m step b) := by
  refine good_ctx hsync b _ ?_
  intro s f es cur hV hB r loc hc hcur hm hpos j n' hj hn'
  obtain ⟨l, hl1, hl2, hl3⟩ := vCtx_match hV hB hj hn'
  obtain ⟨-, h2⟩ := choose_best priorityThenLength cur
    (fun x y => x.1.priority < y.1.priority ∨ (x.1.priority = y.1.priority ∧ y.2.e ≤ x.2.e))
    (fun _ => .inr ⟨rfl, Nat.le_refl _⟩) (fun _ _ _ h1 h2 => by omega) (fun r => 0 ≤ r.priority)
    (fun x y _ hy h => by rw [ptl_iff hy] at h; omega)
    (fun x y _ hy h => by
      have := mt (ptl_iff (e1 := x.2.e) (p1 := x.1.priority) (e2 := y.2.e) hy).2 (by rw [h]; simp)
      omega)
    es (fun r o h => (hV.reg r (hV.mem r o h)).2.2) none (fun _ h => by cases h)
  obtain ⟨y, hy1, hy2⟩ := h2 j l hl1 hl2
  rw [hc] at hy1
  cases hy1
  simp only at hy2
  omega

/-! ### The result of Lex -/

def pre (l : Lexer) : List Lx := if l.startKind ≠ [] then [insertLx l.startKind l.startVal] else []
def post (l : Lexer) : List Lx := if l.endKind ≠ [] then [insertLx l.endKind l.endVal] else []

theorem loop_mono (cmp : Cmp) (lexers : Bytes → Option Sub) (ek : Nat) (b : Bytes) (n : Nat) :
    ∀ op k, n ≤ k → Out.Le (loop cmp lexers ek b n op) (loop cmp lexers ek b k op) := by
  induction n with
  | zero => intro op k _; exact .inl rfl
  | succ n ih =>
    intro op k hk
    obtain ⟨k, rfl⟩ : ∃ j, k = j + 1 := ⟨k - 1, by omega⟩
    simp only [loop]
    refine Out.Le.bind (Out.Le.refl _) fun x => ?_
    cases x with
    | done op => exact Out.Le.refl _
    | more op => exact ih _ _ (by omega)

/-- The state in which `lex` enters the loop. -/
def init (b : Bytes) (l : Lexer) (s : Sub) : Op :=
  populateNext b ⟨s, [], [], pre l, false, 0, 0, 1⟩

theorem lex_eq {l : Lexer} {s : Sub} (hs : l.start = some s) (n : Nat) (b : Bytes) :
    lex n l b = (loop l.compare l.lexers (str l.set l.error).2 b n (init b l s)).bind fun op =>
      .ok ((checkError (str l.set l.error).2 b (consumeRemainingAsError b op)).lxs ++ post l,
        { l with set := (str l.set l.error).1 }) := by
  unfold lex
  rw [hs]
  rfl

theorem lex_mono (l : Lexer) (b : Bytes) (n k : Nat) (h : n ≤ k) :
    Out.Le (lex n l b) (lex k l b) := by
  cases hs : l.start with
  | none => unfold lex; rw [hs]; exact Out.Le.refl _
  | some s =>
    rw [lex_eq hs, lex_eq hs]
    exact Out.Le.bind (loop_mono _ _ _ _ _ _ _ h) fun _ => Out.Le.refl _

theorem lex_spec {b : Bytes} {takes : Mode → Sub → Nat → Tok → Nat → Prop} {dead : Sub → Nat → Prop}
    {D : Sub → Prop} {V : Sub → Mode → List Ent → Nat → Prop} {l : Lexer}
    (G : Good l.compare b takes dead D V) {s : Sub} (hs : l.start = some s) (hDs : D s)
    (hD : ∀ x t, l.lexers x = some t → D t) {n : Nat} (hn : 2 * b.length + 1 ≤ n) :
    lex n l b = .panic ∨
    ∃ segs, Run takes dead (fun k => moveOf l.lexers k.1) b .taken [s] 0 segs ∧
      List.IsChain (fun a b : Seg Tok => ¬ (a.isErr = true ∧ b.isErr = true)) segs ∧
      lex n l b = .ok (pre l ++ render b (str l.set l.error).2 0 1 0 segs ++ post l,
         { l with set := (str l.set l.error).1 }) := by
  rw [lex_eq hs]
  by_cases hb : b = []
  · subst hb
    obtain ⟨n, rfl⟩ : ∃ k, n = k + 1 := ⟨n - 1, by omega⟩
    have hV : V s .taken (init [] l s).next 0 := G.populate s 0 hDs (Nat.le_refl _)
    have hgo := G.go _ _ _ _ hV
    have hstop : Stopped l.compare (init [] l s).next (init [] l s).cur := by
      intro r loc hc
      obtain ⟨h1, h2, h3, -⟩ := hgo r loc hc
      simp only [List.length_nil] at h3
      show _ = 0
      omega
    simp only [loop]
    rcases body_stop (lexers := l.lexers) (ek := (str l.set l.error).2) (b := [])
      (op := init [] l s) hstop (fun r loc h => (hgo r loc h).1) with h | h
    · left; rw [h]; rfl
    · right
      refine ⟨[], .done, by simp, ?_⟩
      rw [h]
      simp [stopStep, init, populateNext, setError, consumeRemainingAsError, checkError, render, Out.bind]
  · have hlen : 0 < b.length := List.length_pos_iff.2 hb
    have := loop_spec G l.lexers hD (str l.set l.error).2 n (init b l s) .taken
      (G.populate s 0 hDs (Nat.zero_le _)) hDs (fun s hs => by cases hs) hlen
      (by show 2 * (b.length - 0) + 0 ≤ n; omega) (fun h => by cases h)
    rcases this with h | ⟨segs, h1, -, h3, op', h4, h5, h6⟩
    · left; rw [h]; rfl
    · right
      refine ⟨segs, h1, h3, ?_⟩
      rw [h4]
      have : consumeRemainingAsError b op' = op' := by
        unfold consumeRemainingAsError; rw [if_pos (by omega)]
      simp only [Out.bind_ok, this, h6]
      rfl

end Verif.StackLexer
