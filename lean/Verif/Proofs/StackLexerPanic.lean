import Verif.Proofs.StackLexerSafe
import Verif.Spec.StackCrash
/-
When the stack lexer panics.
-/
namespace Verif.StackLexer
open Verif Verif.SetSymbol Verif.Spec
open Verif.SimpleLexer (Bytes Lx Kind lastNl countNl slice insertLx slice_eq Cmp)

/-- A rule is found at `p` whose value cannot be made. -/
def Breaks (b : Bytes) (s : Sub) (p : Nat) : Prop :=
  ∃ r loc, some r ∈ s.rules ∧ loc.off + loc.a = p ∧ loc.off ≤ b.length ∧ r.re.find (b.drop loc.off) = some (loc.a, loc.e, loc.groups) ∧
    value b r loc = .panic

theorem stopStep_panic {b : Bytes} {op : Op} : stopStep b op ≠ .panic := by
  unfold stopStep
  split
  · split <;> simp
  · rename_i h
    obtain ⟨s, st, hp, -⟩ := pop_eq b 1 op (by omega) (fun e => h (by rw [e]; rfl))
    rw [hp]
    simp

theorem loop_panic {cmp : Cmp} {b : Bytes} {takes : Mode → Sub → Nat → Tok → Nat → Prop}
    {dead : Sub → Nat → Prop} {D : Sub → Prop} {V : Sub → Mode → List Ent → Nat → Prop}
    (G : Good cmp b takes dead D V) (hA : ∀ s f es cur, V s f es cur → VAny b s es cur) (lexers : Bytes → Option Sub)
    (hD : ∀ x s, lexers x = some s → D s) (ek : Nat) (n : Nat) :
    ∀ (op : Op) (f : Mode), V op.sub (if op.errFlag then f.afterErr else f) op.next op.cur → D op.sub → (∀ s ∈ op.stack, D s) →
      (op.cur < b.length ∨ op.cur = b.length ∧ op.stack = [] ∧ op.errFlag = false) →
      (op.errFlag = true → op.stack = [] ∧ op.errStart < op.cur ∧
        ∀ i, op.errStart ≤ i → i < op.cur → dead op.sub i) →
      loop cmp lexers ek b n op = .panic →
      Crash takes dead (fun k => moveOf lexers k.1) (fun s p => D s ∧ Breaks b s p) b f (op.sub :: op.stack.reverse)
        (if op.errFlag then op.errStart else op.cur) := by
  induction n with
  | zero => intro op f _ _ _ _ _ h; cases h
  | succ n ih =>
    intro op f hV hDs hDst hcur hE hp
    -- an error before the current position is put in front
    have lift : Crash takes dead (fun k => moveOf lexers k.1) (fun s p => D s ∧ Breaks b s p) b (if op.errFlag then f.afterErr else f)
        (op.sub :: op.stack.reverse) op.cur →
        Crash takes dead (fun k => moveOf lexers k.1) (fun s p => D s ∧ Breaks b s p) b f (op.sub :: op.stack.reverse)
          (if op.errFlag then op.errStart else op.cur) := by
      intro h
      cases hf : op.errFlag with
      | false => simpa [hf] using h
      | true =>
        obtain ⟨h1, h2, h3⟩ := hE hf
        have hlt : op.cur < b.length := by
          rcases hcur with h | ⟨-, -, h⟩
          · exact h
          · rw [hf] at h; cases h
        rw [hf, h1] at h
        simp only [if_true, List.reverse_nil] at h
        rw [h1]
        simp only [if_true, List.reverse_nil]
        exact .err h2 hlt h3 h
    have hle : op.cur ≤ b.length := by omega
    have hgo := G.go _ _ _ _ hV
    by_cases hbad : ∃ r loc, choose cmp op.cur none op.next = some (r, loc) ∧ value b r loc = .panic
    · obtain ⟨r, loc, hc, hv⟩ := hbad
      apply lift
      obtain ⟨h1, -, -, hm, -⟩ := vAny_go f (hA _ _ _ _ hV) hc
      obtain ⟨h3, -, h5, h6⟩ := hA _ _ _ _ hV r loc hm
      exact .broken hle ⟨hDs, r, loc, h3, h1, h5, h6, hv⟩
    by_cases hstop : Stopped cmp op.next op.cur
    · have hb : body cmp lexers ek b op = stopStep b op := by
        unfold body
        cases hc : choose cmp op.cur none op.next with
        | none => rfl
        | some x =>
          obtain ⟨r, loc⟩ := x
          have h1 := hstop r loc hc
          have h2 := (hgo r loc hc).1
          cases hv : value b r loc with
          | fuel => exact absurd hv (value_ne_fuel b r loc)
          | panic => exact absurd ⟨r, loc, hc, hv⟩ hbad
          | ok val =>
            simp only [hv, Out.bind_ok]
            rw [h1, h2, countNl_slice_self]
            simp only [Nat.add_zero, if_pos]
      simp only [loop, hb] at hp
      unfold stopStep at hp
      by_cases hst : op.stack.length = 0
      · have hst' : op.stack = [] := List.length_eq_zero_iff.1 hst
        rw [if_pos hst] at hp
        by_cases hend : op.cur + 1 ≥ b.length
        · rw [if_pos hend] at hp; cases hp
        rw [if_neg hend] at hp
        have hlt : op.cur < b.length := by omega
        have hd := G.stop _ _ _ _ hV hlt hstop
        let s := if op.errFlag then op.errStart else op.cur
        have hs : s < op.cur + 1 ∧ ∀ i, s ≤ i → i < op.cur + 1 → dead op.sub i := by
          cases hf : op.errFlag with
          | false =>
            simp only [s, hf, Bool.false_eq_true, if_false]
            refine ⟨Nat.lt_succ_self _, fun i h1 h2 => ?_⟩
            have : i = op.cur := by omega
            rw [this]; exact hd
          | true =>
            simp only [s, hf, if_true]
            obtain ⟨-, h1, h2⟩ := hE hf
            refine ⟨by omega, fun i h3 h4 => ?_⟩
            by_cases hi : i = op.cur
            · rw [hi]; exact hd
            · exact h2 i h3 (by omega)
        have hse : setError op = { op with errFlag := true, errStart := s } := by
          unfold setError
          cases hf : op.errFlag <;> simp [s, hf]
          rw [← hf]
        rw [hse] at hp
        have := ih { op with errFlag := true, errStart := s, cur := op.cur + 1 } f
          (by
            have := G.stay _ _ _ _ hV hlt hstop
            have e : (if op.errFlag = true then f.afterErr else f).afterErr = f.afterErr := by
              cases op.errFlag <;> cases f <;> rfl
            rw [e] at this
            exact this) hDs hDst (.inl (by show op.cur + 1 < _; omega))
          (fun _ => ⟨hst', hs⟩) hp
        simpa only [if_true] using this
      · rw [if_neg hst] at hp
        have hst' : op.stack ≠ [] := fun h => hst (by rw [h]; rfl)
        have hlt : op.cur < b.length := by
          rcases hcur with h | ⟨-, h, -⟩
          · exact h
          · exact absurd h hst'
        have hd := G.stop _ _ _ _ hV hlt hstop
        obtain ⟨s, st, hpe, hcfg, hlen, -, hms, hmst⟩ := pop_eq b 1 op (by omega) hst'
        have hf : op.errFlag = false := by
          cases hf : op.errFlag with
          | false => rfl
          | true => exact absurd (hE hf).1 hst'
        rw [hpe] at hp
        simp only [Out.bind_ok] at hp
        have := ih (populateNext b { op with sub := s, stack := st }) .taken
          (by
            have h := G.populate s op.cur (hDst _ hms) (by omega)
            show V s (if op.errFlag = true then _ else _) (fresh b op.cur s) op.cur
            rw [hf]; exact h) (hDst _ hms)
          (fun x hx => hDst _ (hmst _ hx)) (.inl hlt)
          (fun h => by have : op.errFlag = true := h; rw [hf] at this; cases this) hp
        have hm1 : min 1 op.stack.length = 1 := by omega
        rw [hm1, List.drop_succ_cons, List.drop_zero] at hcfg
        change Crash takes dead _ _ b .taken (s :: st.reverse) (if op.errFlag then op.errStart else op.cur) at this
        rw [← hcfg]
        simp only [hf, Bool.false_eq_true, if_false] at this ⊢
        exact .fall hlt hd this
    · obtain ⟨r, loc, hc, hne⟩ : ∃ r loc, choose cmp op.cur none op.next = some (r, loc) ∧
          loc.off + loc.e ≠ op.cur := by
        unfold Stopped at hstop
        push Not at hstop
        exact hstop
      obtain ⟨ha, hle1, hle2, htk⟩ := hgo r loc hc
      cases hv : value b r loc with
      | fuel => exact absurd hv (value_ne_fuel b r loc)
      | panic => exact absurd ⟨r, loc, hc, hv⟩ hbad
      | ok val =>
      have ht := htk val hv hne
      apply lift
      let k := loc.off + loc.e - op.cur
      have hk : 0 < k := by simp only [k]; omega
      have hek : loc.off + loc.e = op.cur + k := by simp only [k]; omega
      simp only [loop, body_tok hc hne (by omega) hv] at hp
      rw [hek] at hp
      generalize hop1 : tokState ek b op r val (slice b (loc.off + loc.a) (op.cur + k)) (op.cur + k) = op1 at hp
      have hc1 : op1.cur = op.cur + k := by rw [← hop1]; rfl
      have hs1 : op1.stack = op.stack := by rw [← hop1]; rfl
      have hu1 : op1.sub = op.sub := by rw [← hop1]; rfl
      have hn1 : op1.next = op.next := by rw [← hop1]; rfl
      have hf1 : op1.errFlag = false := by rw [← hop1]; rfl
      unfold moveStep at hp
      by_cases hend : op1.cur ≥ b.length
      · rw [if_pos hend] at hp; cases hp
      rw [if_neg hend] at hp
      have hlt : op.cur + k < b.length := by omega
      by_cases hpop : r.pop > 0
      · rw [if_pos hpop] at hp
        have hmv : moveOf lexers r = some (.pop r.pop) := if_pos hpop
        by_cases hst : op.stack = []
        · rw [hst]
          exact .outermost ht hk hlt hmv
        · obtain ⟨s, st, hpe, hcfg, hlen, -, hms, hmst⟩ := pop_eq b r.pop op1 hpop (hs1 ▸ hst)
          rw [hs1] at hms hmst
          rw [hpe] at hp
          simp only [Out.bind_ok] at hp
          have := ih (populateNext b { op1 with sub := s, stack := st }) .taken
            (by
              show V s (if op1.errFlag = true then _ else _) (fresh b op1.cur s) op1.cur
              rw [hf1]; exact G.populate s op1.cur (hDst _ hms) (by omega)) (hDst _ hms)
            (fun x hx => hDst _ (hmst _ hx)) (.inl (by show op1.cur < b.length; omega))
            (fun h => by have h : op1.errFlag = true := h; rw [hf1] at h; cases h) hp
          have e : (Move.pop r.pop).apply (op.sub :: op.stack.reverse) = s :: st.reverse := by
            rw [hcfg, hs1, hu1]
            simp only [Move.apply, List.length_cons, List.length_reverse, Nat.add_sub_cancel]
          change Crash takes dead _ _ b .taken (s :: st.reverse) (if op1.errFlag then op1.errStart else op1.cur) at this
          rw [hf1, if_neg (by simp), hc1, ← e] at this
          exact .tok ht hk hlt hmv (fun h => hst (List.reverse_eq_nil_iff.1 h)) this
      · rw [if_neg hpop] at hp
        by_cases hpush : r.push ≠ []
        · rw [if_pos hpush] at hp
          have hm0 : moveOf lexers r = (lexers r.push).map .push := (if_neg hpop).trans (if_pos hpush)
          cases hl : lexers r.push with
          | none =>
            rw [hl] at hm0
            exact .nowhere ht hk hlt hm0
          | some s =>
            rw [hl] at hm0 hp
            simp only [Out.bind_ok] at hp
            have := ih (populateNext b { op1 with stack := op1.stack ++ [op1.sub], sub := s }) .taken
              (by
                show V s (if op1.errFlag = true then _ else _) (fresh b op1.cur s) op1.cur
                rw [hf1]; exact G.populate s op1.cur (hD _ _ hl) (by omega)) (hD _ _ hl)
              (by
                intro x hx
                rcases List.mem_append.1 hx with hx | hx
                · rw [hs1] at hx; exact hDst x hx
                · rw [List.mem_singleton.1 hx, hu1]; exact hDs)
              (.inl (by show op1.cur < b.length; omega))
              (fun h => by have h : op1.errFlag = true := h; rw [hf1] at h; cases h) hp
            have e : (op1.stack ++ [op1.sub]).reverse = op.sub :: op.stack.reverse := by
              rw [List.reverse_append, hs1, hu1]; rfl
            change Crash takes dead _ _ b .taken (s :: (op1.stack ++ [op1.sub]).reverse)
              (if op1.errFlag then op1.errStart else op1.cur) at this
            rw [hf1, if_neg (by simp), hc1, e] at this
            exact .tok ht hk hlt hm0 trivial this
        · rw [if_neg hpush] at hp
          have hm0 : moveOf lexers r = some .stay := (if_neg hpop).trans (if_neg hpush)
          simp only [Out.bind_ok] at hp
          have := ih (updateNext b op1) .next
            (by
              show V op1.sub (if op1.errFlag = true then _ else _) (op1.next.map (refind b op1.cur)) op1.cur
              rw [hf1, hu1, hn1]
              exact G.update op.sub _ op.next op.cur op1.cur hV (by omega) (by omega))
            (by show D op1.sub; rw [hu1]; exact hDs) (by show ∀ s ∈ op1.stack, D s; rw [hs1]; exact hDst)
            (.inl (by show op1.cur < b.length; omega))
            (fun h => by have h : op1.errFlag = true := h; rw [hf1] at h; cases h) hp
          change Crash takes dead _ _ b .next (op1.sub :: op1.stack.reverse)
            (if op1.errFlag then op1.errStart else op1.cur) at this
          rw [hf1, if_neg (by simp), hc1, hs1, hu1] at this
          exact .tok ht hk hlt hm0 trivial this

/-- A panic of `Lex` is the absence of sub-lexers, or one of the things of `Crash`. -/
theorem lex_panic {l : Lexer} {b : Bytes} {takes : Mode → Sub → Nat → Tok → Nat → Prop}
    {dead : Sub → Nat → Prop} {D : Sub → Prop} {V : Sub → Mode → List Ent → Nat → Prop}
    (G : Good l.compare b takes dead D V) (hA : ∀ s f es cur, V s f es cur → VAny b s es cur)
    (hD : ∀ s, Reach l s → D s) {s : Sub} (hs : l.start = some s) {n : Nat} (h : lex n l b = .panic) :
    Crash takes dead (fun k => moveOf l.lexers k.1) (fun s p => D s ∧ Breaks b s p) b .taken [s] 0 := by
  rw [lex_eq hs] at h
  have hp : loop l.compare l.lexers (str l.set l.error).2 b n (init b l s) = .panic := by
    cases hl : loop l.compare l.lexers (str l.set l.error).2 b n (init b l s) with
    | panic => rfl
    | fuel => rw [hl] at h; cases h
    | ok x => rw [hl] at h; cases h
  refine loop_panic G hA l.lexers (fun x s h => hD s (.inr ⟨x, h⟩)) _ n (init b l s) .taken
    (G.populate s 0 (hD s (.inl hs)) (Nat.zero_le _)) (hD s (.inl hs)) (fun _ h => by cases h) ?_ (fun h => by cases h) hp
  rcases Nat.eq_zero_or_pos b.length with h0 | h0
  · exact .inr ⟨h0.symm, rfl, rfl⟩
  · exact .inl h0

end Verif.StackLexer
