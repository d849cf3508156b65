import Verif.Proofs.StackLexer
/-
When the stack lexer does not panic.
-/
namespace Verif.StackLexer
open Verif Verif.SetSymbol Verif.Spec
open Verif.SimpleLexer (Bytes Lx Kind lastNl countNl slice insertLx slice_eq Cmp)

/-- A rewriting uses literals, the whole match, and groups that exist and always take part. -/
def SafeSubs (r : Rule) : Prop :=
  ∀ ss, r.submatches = some ss → ∀ x ∈ ss, x.section_ = -1 ∨ (0 ≤ x.section_ ∧
    ∀ s a e g, r.re.find s = some (a, e, g) →
      ∃ y, ((a, e) :: g : List (Int × Int))[x.section_.toNat]? = some y ∧ 0 ≤ y.1)

theorem sectionOf_eq (loc : Loc) {s : Int} (h : 0 ≤ s) :
    sectionOf loc s = ((loc.a, loc.e) :: loc.groups : List (Int × Int))[s.toNat]? := by
  unfold sectionOf
  rw [if_neg (by omega)]
  split
  · next h0 => rw [h0]; rfl
  · next k hk => rw [hk]; rfl

/-- A match found by a search. -/
theorem section_bound {b : Bytes} {r : Rule} {loc : Loc}
    (hf : r.re.find (b.drop loc.off) = some (loc.a, loc.e, loc.groups)) {k : Nat} {y : Int × Int}
    (hy : ((loc.a, loc.e) :: loc.groups : List (Int × Int))[k]? = some y) :
    y = (-1, -1) ∨ (0 ≤ y.1 ∧ y.1 ≤ y.2 ∧ y.2 ≤ ((b.drop loc.off).length : Int)) := by
  cases k with
  | zero =>
    simp only [List.getElem?_cons_zero, Option.some.injEq] at hy
    subst hy
    have := r.re.bound _ _ _ _ hf
    right
    simp only
    omega
  | succ k =>
    rw [List.getElem?_cons_succ] at hy
    exact (r.re.groups _ _ _ _ hf).2 y (List.mem_of_getElem? hy)

theorem subPiece_ok {b : Bytes} {r : Rule} {loc : Loc} (hoff : loc.off ≤ b.length)
    (hf : r.re.find (b.drop loc.off) = some (loc.a, loc.e, loc.groups)) {s : Submatch}
    (hs : s.section_ = -1 ∨ (0 ≤ s.section_ ∧
      ∃ y, ((loc.a, loc.e) :: loc.groups : List (Int × Int))[s.section_.toNat]? = some y ∧ 0 ≤ y.1)) :
    ∃ v, subPiece b loc s = .ok v := by
  unfold subPiece
  rcases hs with hs | ⟨h0, y, hy, hy0⟩
  · rw [if_pos hs]; exact ⟨_, rfl⟩
  · rw [if_neg (by omega), sectionOf_eq loc h0, hy]
    obtain ⟨i, j⟩ := y
    rcases section_bound hf hy with h | ⟨h1, h2, h3⟩
    · cases h; simp only at hy0; omega
    · simp only at h1 h2 h3 ⊢
      unfold goSlice
      rw [List.length_drop] at h3
      rw [if_pos ⟨by omega, by omega, by omega⟩]
      exact ⟨_, rfl⟩

theorem value_ok {b : Bytes} {r : Rule} {loc : Loc} (hoff : loc.off ≤ b.length)
    (hf : r.re.find (b.drop loc.off) = some (loc.a, loc.e, loc.groups)) (hs : SafeSubs r) :
    ∃ v, value b r loc = .ok v := by
  unfold value
  cases hm : r.submatches with
  | none => exact ⟨_, rfl⟩
  | some ss =>
    have : ∀ x ∈ ss, _ := hs ss hm
    clear hs hm
    induction ss with
    | nil => exact ⟨_, rfl⟩
    | cons x ss ih =>
      simp only at ih ⊢
      obtain ⟨v, hv⟩ := subPiece_ok (s := x) hoff hf (by
        rcases this x (List.mem_cons_self ..) with h | ⟨h, h'⟩
        · exact .inl h
        · exact .inr ⟨h, h' _ _ _ _ hf⟩)
      obtain ⟨w, hw⟩ := ih fun y hy => this y (List.mem_cons_of_mem _ hy)
      exact ⟨v ++ w, by simp only [subValue, hv, hw, Out.bind_ok]⟩

/-- The sub-lexers that can become current. -/
def Reach (l : Lexer) (s : Sub) : Prop := l.start = some s ∨ ∃ x, l.lexers x = some s

/-- Nothing can go wrong: there is an outermost sub-lexer and it does not pop, push targets exist,
rewritings are safe. -/
structure Safe (l : Lexer) (s0 : Sub) : Prop where
  start : l.start = some s0
  pop : ∀ r, some r ∈ s0.rules → r.pop = 0
  push : ∀ s, Reach l s → ∀ r, some r ∈ s.rules → r.pop = 0 → r.push ≠ [] → ∃ t, l.lexers r.push = some t
  subs : ∀ s, Reach l s → ∀ r, some r ∈ s.rules → SafeSubs r

/-- What is kept during a run of a safe lexer. -/
structure SafeInv (l : Lexer) (start : Sub) (b : Bytes) (op : Op) : Prop where
  any : VAny b op.sub op.next op.cur
  sub : Reach l op.sub
  stack : ∀ s ∈ op.stack, Reach l s
  bottom : (op.stack ++ [op.sub]).head? = some start
  le : op.cur ≤ b.length

theorem bind_ne_panic {α β : Type} {x : Out α} {f : α → Out β} (hx : x ≠ .panic)
    (hf : ∀ a, x = .ok a → f a ≠ .panic) : x.bind f ≠ .panic := by
  cases x with
  | ok a => exact hf a rfl
  | panic => exact absurd rfl hx
  | fuel => simp [Out.bind]

/-- The state after an iteration, if there is a further one. -/
def GoodNext (P : Op → Prop) : Out Next → Prop
  | .ok (.more op) => P op
  | .ok (.done _) => True
  | .panic => False
  | .fuel => True

theorem safe_pop {l : Lexer} {start : Sub} {b : Bytes} {op : Op} (h : SafeInv l start b op) {i : Nat}
    (hi : 0 < i) (hne : op.stack ≠ []) :
    GoodNext (SafeInv l start b) ((pop b i op).bind fun op => .ok (.more op)) := by
  obtain ⟨s, st, hp, -, -, hb, hms, hmst⟩ := pop_eq b i op hi hne
  rw [hp]
  simp only [Out.bind_ok, GoodNext]
  refine ⟨vAny_fresh h.le, h.stack s hms, fun x hx => h.stack x (hmst x hx), ?_, h.le⟩
  show (st ++ [s]).head? = _
  rw [hb]
  have hh := h.bottom
  obtain ⟨x, xs, hx⟩ := List.exists_cons_of_ne_nil hne
  rw [hx] at hh ⊢
  exact hh

theorem safe_body {l : Lexer} {start : Sub} (hS : Safe l start) {b : Bytes} {op : Op} (ek : Nat)
    (h : SafeInv l start b op) (hlt : op.cur < b.length) :
    GoodNext (SafeInv l start b) (body l.compare l.lexers ek b op) := by
  have stop : ∀ op' : Op, SafeInv l start b op' → op'.cur < b.length →
      GoodNext (SafeInv l start b) (stopStep b op') := by
    intro op' h hlt
    unfold stopStep
    split
    · next hs =>
      split
      · trivial
      · next he =>
        have e1 : (setError op').next = op'.next := by unfold setError; split <;> rfl
        have e2 : (setError op').sub = op'.sub := by unfold setError; split <;> rfl
        have e3 : (setError op').stack = op'.stack := by unfold setError; split <;> rfl
        refine ⟨?_, ?_, ?_, ?_, ?_⟩
        · show VAny b (setError op').sub (setError op').next (op'.cur + 1)
          rw [e1, e2]
          intro r loc hm
          obtain ⟨h1, h2, h3⟩ := h.any r loc hm
          exact ⟨h1, by omega, h3⟩
        · show Reach l (setError op').sub
          rw [e2]; exact h.sub
        · show ∀ s ∈ (setError op').stack, Reach l s
          rw [e3]; exact h.stack
        · show ((setError op').stack ++ [(setError op').sub]).head? = _
          rw [e2, e3]; exact h.bottom
        · show op'.cur + 1 ≤ _; omega
    · next hs => exact safe_pop h (by omega) fun e => hs (by rw [e]; rfl)
  unfold body
  cases hc : choose l.compare op.cur none op.next with
  | none => exact stop op h hlt
  | some x =>
    obtain ⟨r, loc⟩ := x
    simp only
    obtain ⟨h1, h2, h3, hm, -⟩ := vAny_go .taken h.any hc
    obtain ⟨hr, h4, h5, h6⟩ := h.any r loc hm
    obtain ⟨val, hv⟩ := value_ok h5 h6 (hS.subs _ h.sub r hr)
    rw [hv]
    simp only [Out.bind_ok]
    split
    · exact stop _ ⟨h.any, h.sub, h.stack, h.bottom, h.le⟩ hlt
    · -- the state after the token
      have e0 : ∀ op' : Op, (checkError ek b op').next = op'.next ∧ (checkError ek b op').sub = op'.sub ∧
          (checkError ek b op').stack = op'.stack := by
        intro op'; unfold checkError; split <;> exact ⟨rfl, rfl, rfl⟩
      generalize hop : ({ op with lines := op.lines + countNl (slice b (loc.off + loc.a) (loc.off + loc.e)) } : Op) = op0
      obtain ⟨e1, e2, e3⟩ := e0 op0
      generalize hop1 : ({ checkError ek b op0 with
          lxs := if r.discard = true then (checkError ek b op0).lxs else
            (checkError ek b op0).lxs ++ [⟨.idx r.kind, val, op.lines, colAt b op.cur, false⟩]
          cur := loc.off + loc.e } : Op) = op1
      have f1 : op1.next = op.next := by rw [← hop1, ← hop] at *; exact e1
      have f2 : op1.sub = op.sub := by rw [← hop1, ← hop] at *; exact e2
      have f3 : op1.stack = op.stack := by rw [← hop1, ← hop] at *; exact e3
      have f4 : op1.cur = loc.off + loc.e := by rw [← hop1]
      have hinv : SafeInv l start b op1 := by
        refine ⟨?_, by rw [f2]; exact h.sub, by rw [f3]; exact h.stack,
          by rw [f2, f3]; exact h.bottom, by omega⟩
        rw [f1, f2, f4]
        intro r loc hm
        obtain ⟨h1, h2, h3⟩ := h.any r loc hm
        exact ⟨h1, by omega, h3⟩
      unfold moveStep
      split
      · trivial
      · split
        · next hpop =>
          refine safe_pop hinv hpop ?_
          rw [f3]
          intro e
          have := h.bottom
          rw [e] at this
          have : op.sub = start := by simpa using this
          have := hS.pop r (this ▸ hr)
          omega
        · next hpop =>
          split
          · next hpush =>
            obtain ⟨t, ht⟩ := hS.push _ h.sub r hr (by omega) hpush
            rw [ht]
            refine ⟨vAny_fresh hinv.le, .inr ⟨_, ht⟩, ?_, ?_, hinv.le⟩
            · intro s hs
              rcases List.mem_append.1 hs with hs | hs
              · exact hinv.stack s hs
              · rw [List.mem_singleton.1 hs]; exact hinv.sub
            · show ((op1.stack ++ [op1.sub]) ++ [t]).head? = _
              have := hinv.bottom
              cases hst : op1.stack with
              | nil => rw [hst] at this; simpa using this
              | cons y ys => rw [hst] at this; simpa using this
          · exact ⟨vAny_update hinv.any (Nat.le_refl _) hinv.le, hinv.sub, hinv.stack, hinv.bottom,
              hinv.le⟩

/-- The loop goes on only before the end of the input. -/
theorem body_more_lt {cmp : Cmp} {lexers : Bytes → Option Sub} {ek : Nat} {b : Bytes} {op op' : Op}
    (hlt : op.cur < b.length) (h : body cmp lexers ek b op = .ok (.more op')) : op'.cur < b.length := by
  have hpop : ∀ (i : Nat) (o : Op), o.cur < b.length →
      ((pop b i o).bind fun op => Out.ok (Next.more op)) = .ok (.more op') → op'.cur < b.length := by
    intro i o ho h
    rw [Out.bind_eq_ok] at h
    obtain ⟨o1, h1, h2⟩ := h
    cases h2
    simp only [pop] at h1
    split at h1
    · cases h1
    · cases h1; exact ho
  have stop : ∀ o : Op, o.cur < b.length → stopStep b o = .ok (.more op') → op'.cur < b.length := by
    intro o ho h
    unfold stopStep at h
    split at h
    · split at h
      · cases h
      · cases h; show o.cur + 1 < _; omega
    · exact hpop 1 o ho h
  have move : ∀ (r : Rule) (o : Op), moveStep lexers b r o = .ok (.more op') → op'.cur < b.length := by
    intro r o h
    unfold moveStep at h
    by_cases hn : o.cur ≥ b.length
    · rw [if_pos hn] at h; cases h
    rw [if_neg hn] at h
    by_cases hp : r.pop > 0
    · rw [if_pos hp] at h; exact hpop _ _ (by omega) h
    rw [if_neg hp] at h
    by_cases hp : r.push ≠ []
    · rw [if_pos hp] at h
      split at h
      · cases h
      · cases h; exact Nat.lt_of_not_le hn
    · rw [if_neg hp] at h
      cases h; exact Nat.lt_of_not_le hn
  unfold body at h
  cases hc : choose cmp op.cur none op.next with
  | none => rw [hc] at h; exact stop op hlt h
  | some x =>
    rw [hc] at h
    simp only [Out.bind_eq_ok] at h
    obtain ⟨val, -, h⟩ := h
    by_cases he : x.2.off + x.2.e = op.cur
    · rw [if_pos he] at h
      refine stop _ ?_ h
      exact hlt
    · rw [if_neg he] at h
      exact move _ _ h

theorem safe_loop {l : Lexer} {start : Sub} (hS : Safe l start) {b : Bytes} (ek : Nat) (n : Nat) :
    ∀ op : Op, SafeInv l start b op → op.cur < b.length →
      loop l.compare l.lexers ek b n op ≠ .panic := by
  induction n with
  | zero => intro op _ _; simp [loop]
  | succ n ih =>
    intro op h hlt
    have hb := safe_body hS ek h hlt
    unfold loop
    cases he : body l.compare l.lexers ek b op with
    | panic => rw [he] at hb; exact hb.elim
    | fuel => simp [Out.bind]
    | ok x =>
      cases x with
      | done op' => simp [Out.bind]
      | more op' =>
        rw [he] at hb
        exact ih op' hb (body_more_lt hlt he)

theorem safe_lex {l : Lexer} {start : Sub} (hS : Safe l start) (b : Bytes) (n : Nat) :
    lex n l b ≠ .panic := by
  rw [lex_eq hS.start]
  have hinv : SafeInv l start b (init b l start) :=
    ⟨vAny_fresh (Nat.zero_le _), .inl hS.start, (fun s hs => by cases hs), rfl, Nat.zero_le _⟩
  by_cases hb : b = []
  · subst hb
    cases n with
    | zero => simp [loop, Out.bind]
    | succ n =>
      have hstop : Stopped l.compare (init [] l start).next (init [] l start).cur := by
        intro r loc hc
        obtain ⟨h1, h2, h3, -, -⟩ := vAny_go .taken hinv.any hc
        simp only [List.length_nil] at h3
        show _ = 0
        omega
      have key : body l.compare l.lexers (str l.set l.error).2 [] (init [] l start) ≠ .panic := by
        unfold body
        cases hc : choose l.compare (init [] l start).cur none (init [] l start).next with
        | none => simp [stopStep, init, populateNext, setError]
        | some x =>
          obtain ⟨r, loc⟩ := x
          obtain ⟨h1, h2, h3, hm, -⟩ := vAny_go .taken hinv.any hc
          obtain ⟨hr, h4, h5, h6⟩ := hinv.any r loc hm
          obtain ⟨val, hv⟩ := value_ok h5 h6 (hS.subs _ hinv.sub r hr)
          have := hstop r loc hc
          simp only [hv, Out.bind_ok]
          rw [if_pos this]
          simp [stopStep, init, populateNext, setError]
      refine bind_ne_panic ?_ (fun _ _ => by simp)
      simp only [loop]
      refine bind_ne_panic key fun x hx => ?_
      cases x with
      | done op => simp
      | more op =>
        exfalso
        rcases body_stop (lexers := l.lexers) (ek := (str l.set l.error).2) (b := [])
          (op := init [] l start) hstop (fun r loc h => (vAny_go .taken hinv.any h).1) with h | h
        · exact key h
        · rw [h] at hx
          simp [stopStep, init, populateNext, setError] at hx
  · have hlen : 0 < b.length := List.length_pos_iff.2 hb
    exact bind_ne_panic (safe_loop hS _ _ _ hinv hlen) (fun _ _ => by simp)

end Verif.StackLexer
