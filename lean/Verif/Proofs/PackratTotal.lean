import Verif.Model.PackratTotal
import Verif.Props.PackratWork
/- Counting all calls of the packrat parser. -/
namespace Verif.Packrat
open Verif.Spec Verif.Spec.Grammar Verif.Spec.PN Verif.Props.PackratWork Verif.Props.PackratShape

theorem forget_bind {A B : Type} (o : Out (A × Nat)) (f : A × Nat → Out (B × Nat)) (g : A → Out B) (h : ∀ x, forget (f x) = g x.1) :
    forget (o.bind f) = (forget o).bind g := by
  cases o with
  | ok x => exact h x
  | panic => rfl
  | fuel => rfl

theorem addToMemoT_forget (fuel : Nat) (st : St) (td : Def) : forget (addToMemoT fuel st td) = addToMemo fuel st td := by
  unfold addToMemoT addToMemo
  cases st.memo td.key with
  | none => rfl
  | some old =>
    dsimp only
    rw [← compareC_forget]
    refine forget_bind _ _ _ fun c => ?_
    split
    · rw [← circC_forget]
      refine forget_bind _ _ _ fun b => ?_
      split <;> rfl
    · rfl

theorem checkNonTerminalT_forget (env : Env) (fuel : Nat) (st : St) (m : Marker) :
    forget (checkNonTerminalT env fuel st m) = checkNonTerminal env fuel st m := by
  unfold checkNonTerminalT checkNonTerminal
  split
  · rw [← addToMemoT_forget]
    exact forget_bind _ _ _ fun _ => rfl
  · rfl

theorem addPartialPreT_forget (env : Env) (fuel : Nat) (st : St) (tp : Partial) (req : Marker) :
    forget (addPartialPreT env fuel st tp req) = addPartialPre env fuel st tp req := by
  unfold addPartialPreT addPartialPre
  split
  · rfl
  · rw [← checkNonTerminalT_forget]
    cases checkNonTerminalT env fuel st req <;> rfl

theorem addProdsLoopT_forget (env : Env) (fuel : Nat) {rec : St → Marker → Out (St × Nat)} {rec' : St → Marker → Out St}
    (hrec : ∀ st m, forget (rec st m) = rec' st m) (root : Marker) : ∀ (ps : List (List Nat)) (st : St) (k : Nat),
    forget (addProdsLoopT env fuel rec root st k ps) = addProdsLoop env fuel rec' root st k ps := by
  intro ps
  induction ps with
  | nil => intro st k; simp only [addProdsLoopT, addProdsLoop]; rfl
  | cons p ps ih =>
    intro st k
    cases p with
    | nil =>
      simp only [addProdsLoopT, addProdsLoop]
      rw [← addToMemoT_forget]
      refine forget_bind _ _ _ fun r => ?_
      rw [← ih]
      cases addProdsLoopT env fuel rec root r.1 (k + 1) ps <;> rfl
    | cons X p =>
      simp only [addProdsLoopT, addProdsLoop]
      rw [← addPartialPreT_forget]
      refine forget_bind _ _ _ fun r => ?_
      rw [← hrec]
      refine forget_bind _ _ _ fun r2 => ?_
      rw [← ih]
      cases addProdsLoopT env fuel rec root r2.1 (k + 1) ps <;> rfl

theorem addProdsT_forget (env : Env) (fuel : Nat) : ∀ (depth : Nat) (st : St) (root : Marker),
    forget (addProdsT env fuel depth st root) = addProds env fuel depth st root := by
  intro depth
  induction depth with
  | zero => intro st root; rfl
  | succ depth ih =>
    intro st root
    unfold addProdsT addProds
    split
    · rfl
    · dsimp only
      cases env.prods root.idx with
      | none => rfl
      | some ps =>
        dsimp only
        rw [← addProdsLoopT_forget env fuel ih]
        cases addProdsLoopT env fuel (addProdsT env fuel depth) root { st with queued := upd st.queued root true } 0 ps <;> rfl

theorem addPartialT_forget (env : Env) (fuel : Nat) (st : St) (tp : Partial) (req : Marker) :
    forget (addPartialT env fuel st tp req) = addPartial env fuel st tp req := by
  unfold addPartialT addPartial
  rw [← addPartialPreT_forget]
  refine forget_bind _ _ _ fun r => ?_
  rw [← addProdsT_forget]
  cases addProdsT env fuel fuel r.1 req <;> rfl

theorem updateT_forget (env : Env) (fuel : Nat) : ∀ (n : Nat) (st : St) (base : Partial) (ext : Key),
    forget (updateT env fuel n st base ext) = update env fuel n st base ext := by
  intro n
  induction n with
  | zero => intros; rfl
  | succ n ih =>
    intro st base ext
    unfold updateT update
    dsimp only
    split
    · rw [← addToMemoT_forget]
      cases addToMemoT fuel st (extend base ext).td <;> rfl
    · cases (extend base ext).prod[base.td.children.length + 1]? with
      | none => rfl
      | some X =>
        dsimp only
        rw [← checkNonTerminalT_forget]
        refine forget_bind _ _ _ fun r => ?_
        cases r.1.2 with
        | some td =>
          dsimp only
          rw [← ih]
          cases updateT env fuel n r.1.1 (extend base ext) td.key <;> rfl
        | none =>
          dsimp only
          rw [← addPartialT_forget]
          cases addPartialT env fuel r.1.1 (extend base ext) ⟨X, (extend base ext).td.key.stop⟩ <;> rfl

theorem loopT_forget (env : Env) (fuel : Nat) : ∀ (n : Nat) (st : St), forget (loopT env fuel n st) = loop env fuel n st := by
  intro n
  induction n with
  | zero => intros; rfl
  | succ n ih =>
    intro st
    unfold loopT loop
    cases st.stack with
    | nil => rfl
    | cons u rest =>
      obtain ⟨tp, k⟩ := u
      dsimp only
      rw [← updateT_forget]
      refine forget_bind _ _ _ fun r => ?_
      rw [← ih]
      cases loopT env fuel n r.1 <;> rfl

theorem kidsPNT_forget {V : Type} {rec : Def → Out (PN Nat V × Nat)} {rec' : Def → Out (PN Nat V)} (h : ∀ d, forget (rec d) = rec' d)
    (get : Key → Def) : ∀ ks, forget (kidsPNT rec get ks) = kidsPN rec' get ks := by
  intro ks
  induction ks with
  | nil => rfl
  | cons k ks ih =>
    simp only [kidsPNT, kidsPN]
    rw [← h]
    refine forget_bind _ _ _ fun r => ?_
    rw [← ih]
    cases kidsPNT rec get ks <;> rfl

theorem toPNT_forget {V : Type} (ev : V) (lx : List (Lexeme Nat V)) (get : Key → Def) : ∀ n d,
    forget (toPNT ev lx get n d) = toPN ev lx get n d := by
  intro n
  induction n with
  | zero => intros; rfl
  | succ n ih =>
    intro d
    unfold toPNT toPN
    rw [← kidsPNT_forget ih]
    cases kidsPNT (toPNT ev lx get n) get d.children <;> rfl

theorem parseIdxT_forget {V : Type} (ev : V) (env : Env) (s : Nat) (lx : List (Lexeme Nat V)) (fuel : Nat) :
    forget (parseIdxT ev env s lx fuel) = parseIdx ev env s lx fuel := by
  unfold parseIdxT parseIdx
  rw [← addProdsT_forget]
  refine forget_bind _ _ _ fun r0 => ?_
  rw [← loopT_forget]
  refine forget_bind _ _ _ fun r => ?_
  dsimp only
  split
  · rfl
  · rw [← toPNT_forget]
    cases toPNT ev lx r.1.get fuel (r.1.get ⟨s, 0, lx.length⟩) <;> rfl

theorem parseT_forget {α V : Type} [DecidableEq α] (ev : V) (g : Grammar α) (ls : List (Lexeme α V)) (fuel : Nat) :
    forget (parseT ev g ls fuel) = parse ev g ls fuel := by
  unfold parseT parse
  cases g.order with
  | nil => rfl
  | cons S rest =>
    simp only
    cases loadSet g ls with
    | panic => rfl
    | fuel => rfl
    | ok s =>
      simp only [Out.bind_ok]
      rw [← parseIdxT_forget]
      cases parseIdxT ev (mkEnv g s ls) (symIdx s S) (ls.map fun l => ⟨symIdx s l.kind, l.val, l.line, l.col⟩) fuel with
      | panic => rfl
      | fuel => rfl
      | ok r =>
        obtain ⟨_ | t, c⟩ := r
        · rfl
        · simp only [forget, Out.bind_ok]
          cases nameTree s t <;> rfl

/-- From the counted to the plain result. -/
theorem forget_ok {A : Type} {o : Out (A × Nat)} {o' : Out A} (h : forget o = o') {a c} (e : o = .ok (a, c)) : o' = .ok a := by
  rw [← h, e]; rfl

/-- The calls of `toPN` are the nodes of the tree. -/
theorem toPNT_nodes {V : Type} (ev : V) (lx : List (Lexeme Nat V)) (get : Key → Def) : ∀ n d t c, toPNT ev lx get n d = .ok (t, c) → c = nodes t := by
  intro n
  induction n with
  | zero => intro d t c h; cases h
  | succ n ih =>
    intro d t c h
    unfold toPNT at h
    obtain ⟨⟨ks, c'⟩, h1, h2⟩ := Out.bind_eq_ok.1 h
    cases h2
    have key : ∀ cs ks c', kidsPNT (toPNT ev lx get n) get cs = .ok (ks, c') → c' = nodess ks := by
      intro cs
      induction cs with
      | nil => intro ks c' h; cases h; rfl
      | cons k cs ihk =>
        intro ks c' h
        unfold kidsPNT at h
        obtain ⟨⟨t, c1⟩, h1, h⟩ := Out.bind_eq_ok.1 h
        obtain ⟨⟨ts, c2⟩, h2, h⟩ := Out.bind_eq_ok.1 h
        cases h
        rw [nodess, ih _ _ _ h1, ihk _ _ h2]
    rw [nodes, key _ _ _ h1]
    dsimp only
    omega

/-! ### Fuel -/

section
open Out

theorem compareKidsC_mono {c1 c2 : Def → Def → Out (Int × Nat)} (h : ∀ a b, Out.Le (c1 a b) (c2 a b)) (get) :
    ∀ k1 k2, Out.Le (compareKidsC c1 get k1 k2) (compareKidsC c2 get k1 k2) := by
  intro k1
  induction k1 with
  | nil => intro k2; simp only [compareKidsC]; exact .refl _
  | cons a k1 ih =>
    intro k2
    cases k2 with
    | nil => simp only [compareKidsC]; exact .refl _
    | cons b k2 =>
      simp only [compareKidsC]
      split
      · exact ih k2
      · refine (h _ _).bind fun p => ?_
        split
        · exact .refl _
        · exact (ih k2).bind fun _ => .refl _

theorem compareC_mono (get) : ∀ n m, n ≤ m → ∀ a b, Out.Le (compareC get n a b) (compareC get m a b) := by
  intro n
  induction n with
  | zero => intro m _ a b; exact .inl rfl
  | succ n ih =>
    intro m hm a b
    obtain ⟨m, rfl⟩ : ∃ k, m = k + 1 := ⟨m - 1, by omega⟩
    simp only [compareC]
    split
    · exact .refl _
    · exact (compareKidsC_mono (ih m (by omega)) _ _ _).bind fun _ => .refl _

theorem circKidsC_mono {c1 c2 : Def → Out (Bool × Nat)} (h : ∀ a, Out.Le (c1 a) (c2 a)) (get root) :
    ∀ ks, Out.Le (circKidsC c1 get root ks) (circKidsC c2 get root ks) := by
  intro ks
  induction ks with
  | nil => exact .refl _
  | cons a ks ih =>
    simp only [circKidsC]
    split
    · exact .refl _
    · refine (h _).bind fun b => ?_
      split
      · exact .refl _
      · exact ih.bind fun _ => .refl _

theorem circC_mono (get root) : ∀ n m, n ≤ m → ∀ a, Out.Le (circC get root n a) (circC get root m a) := by
  intro n
  induction n with
  | zero => intro m _ a; exact .inl rfl
  | succ n ih =>
    intro m hm a
    obtain ⟨m, rfl⟩ : ∃ k, m = k + 1 := ⟨m - 1, by omega⟩
    exact (circKidsC_mono (ih m (by omega)) _ _ _).bind fun _ => .refl _

theorem addToMemoT_mono {n m} (h : n ≤ m) (st td) : Out.Le (addToMemoT n st td) (addToMemoT m st td) := by
  unfold addToMemoT
  split
  · exact .refl _
  · refine (compareC_mono _ n m h _ _).bind fun c => ?_
    split
    · exact (circC_mono _ _ n m h _).bind fun b => .refl _
    · exact .refl _

theorem checkNonTerminalT_mono {n m} (h : n ≤ m) (env st mk) :
    Out.Le (checkNonTerminalT env n st mk) (checkNonTerminalT env m st mk) := by
  unfold checkNonTerminalT
  split
  · exact (addToMemoT_mono h _ _).bind fun _ => .refl _
  · exact .refl _

theorem addPartialPreT_mono {n m} (h : n ≤ m) (env st tp req) :
    Out.Le (addPartialPreT env n st tp req) (addPartialPreT env m st tp req) := by
  unfold addPartialPreT
  refine Out.Le.bind ?_ fun _ => .refl _
  split
  · exact .refl _
  · exact (checkNonTerminalT_mono h _ _ _).bind fun _ => .refl _

theorem addProdsLoopT_mono {n m} (h : n ≤ m) (env) {r1 r2 : St → Marker → Out (St × Nat)}
    (hr : ∀ s k, Out.Le (r1 s k) (r2 s k)) (root) : ∀ ps st k,
    Out.Le (addProdsLoopT env n r1 root st k ps) (addProdsLoopT env m r2 root st k ps) := by
  intro ps
  induction ps with
  | nil => intro st k; exact .refl _
  | cons p ps ih =>
    intro st k
    cases p with
    | nil => exact (addToMemoT_mono h _ _).bind fun _ => (ih _ _).bind fun _ => .refl _
    | cons X p =>
      exact (addPartialPreT_mono h _ _ _ _).bind fun _ => (hr _ _).bind fun _ => (ih _ _).bind fun _ => .refl _

theorem addProdsT_mono {n m} (h : n ≤ m) (env) : ∀ d e, d ≤ e → ∀ st root,
    Out.Le (addProdsT env n d st root) (addProdsT env m e st root) := by
  intro d
  induction d with
  | zero => intro e _ st root; exact .inl rfl
  | succ d ih =>
    intro e he st root
    obtain ⟨e, rfl⟩ : ∃ k, e = k + 1 := ⟨e - 1, by omega⟩
    simp only [addProdsT]
    split
    · exact .refl _
    · split
      · exact .refl _
      · exact (addProdsLoopT_mono h env (ih e (by omega)) _ _ _ _).bind fun _ => .refl _

theorem addPartialT_mono {n m} (h : n ≤ m) (env st tp req) :
    Out.Le (addPartialT env n st tp req) (addPartialT env m st tp req) :=
  (addPartialPreT_mono h _ _ _ _).bind fun _ => (addProdsT_mono h _ n m h _ _).bind fun _ => .refl _

theorem updateT_mono {n m} (h : n ≤ m) (env) : ∀ d e, d ≤ e → ∀ st tp k,
    Out.Le (updateT env n d st tp k) (updateT env m e st tp k) := by
  intro d
  induction d with
  | zero => intro e _ st tp k; exact .inl rfl
  | succ d ih =>
    intro e he st tp k
    obtain ⟨e, rfl⟩ : ∃ k, e = k + 1 := ⟨e - 1, by omega⟩
    simp only [updateT]
    split
    · exact (addToMemoT_mono h _ _).bind fun _ => .refl _
    · split
      · exact .refl _
      · refine (checkNonTerminalT_mono h _ _ _).bind fun r => ?_
        split
        · exact (ih e (by omega) _ _ _).bind fun _ => .refl _
        · exact (addPartialT_mono h _ _ _ _).bind fun _ => .refl _

theorem loopT_mono {n m} (h : n ≤ m) (env) : ∀ d e, d ≤ e → ∀ st, Out.Le (loopT env n d st) (loopT env m e st) := by
  intro d
  induction d with
  | zero => intro e _ st; exact .inl rfl
  | succ d ih =>
    intro e he st
    obtain ⟨e, rfl⟩ : ∃ k, e = k + 1 := ⟨e - 1, by omega⟩
    simp only [loopT]
    split
    · exact .refl _
    · exact (updateT_mono h env n m h _ _ _).bind fun _ => (ih e (by omega) _).bind fun _ => .refl _

theorem kidsPNT_mono {V : Type} {r1 r2 : Def → Out (PN Nat V × Nat)} (h : ∀ d, Out.Le (r1 d) (r2 d)) (get) : ∀ ks,
    Out.Le (kidsPNT r1 get ks) (kidsPNT r2 get ks) := by
  intro ks
  induction ks with
  | nil => exact .refl _
  | cons k ks ih => exact (h _).bind fun _ => ih.bind fun _ => .refl _

theorem toPNT_mono {V : Type} (ev : V) (lxms get) : ∀ n m, n ≤ m → ∀ d,
    Out.Le (toPNT ev lxms get n d) (toPNT ev lxms get m d) := by
  intro n
  induction n with
  | zero => intro m _ d; exact .inl rfl
  | succ n ih =>
    intro m hm d
    obtain ⟨m, rfl⟩ : ∃ k, m = k + 1 := ⟨m - 1, by omega⟩
    exact (kidsPNT_mono (ih m (by omega)) _ _).bind fun _ => .refl _

theorem parseT_mono {α V : Type} [DecidableEq α] (ev : V) (g : Grammar α) (ls) : ∀ n m, n ≤ m →
    Out.Le (parseT ev g ls n) (parseT ev g ls m) := by
  intro n m h
  unfold parseT
  split
  · exact .refl _
  · refine (Out.Le.refl _).bind fun s => Out.Le.bind ?_ fun _ => .refl _
    refine (addProdsT_mono h _ n m h _ _).bind fun r0 => (loopT_mono h _ n m h _).bind fun r => ?_
    dsimp only
    split
    · exact .refl _
    · exact (toPNT_mono ev _ _ n m h _).bind fun _ => .refl _

end

/-! ### The bound -/

section
variable {env : Env} {nts : Finset Nat}

/-- What one entry into the memo costs at most, apart from pushes. -/
def memoCost (r N n : Nat) : Nat := 3 + 2 * (r * TreeBound r N n)

theorem addToMemoT_cost (e : EnvOK env nts) {r : Nat} (hr : ∀ A k p, env.gram.Rule A k p → p.length ≤ r) {st st' : St} (h : WF env st)
    {td : Def} (hd : DefOK env st td) {fuel c} (ht : addToMemoT fuel st td = .ok (st', c)) :
    c + st.stack.length ≤ memoCost r nts.card env.lex.length + st'.stack.length := by
  unfold memoCost
  unfold addToMemoT at ht
  cases hm : st.memo td.key with
  | none =>
    rw [hm] at ht
    dsimp only at ht
    rw [foldl_push] at ht
    cases ht
    simp
    omega
  | some old =>
    rw [hm] at ht
    dsimp only at ht
    obtain ⟨⟨x, c1⟩, e1, ht⟩ := Out.bind_eq_ok.1 ht
    obtain ⟨ts, hts, hn⟩ := kids_bound e h hr hd
    obtain ⟨us, hus, _⟩ := kids_bound e h hr (h.ok _ _ hm)
    have b1 := (compare_nodes h _ _ _ _ _ _ _ hts hus e1).1
    dsimp only at ht
    split at ht
    · obtain ⟨⟨b, c2⟩, e2, ht⟩ := Out.bind_eq_ok.1 ht
      have b2 := (circ_nodes h _ _ _ _ _ _ hts e2).1
      dsimp only at ht
      split at ht
      · cases ht; omega
      · cases ht; dsimp only; omega
    · cases ht; omega

theorem addPartialPreT_cost (e : EnvOK env nts) {r : Nat} (hr : ∀ A k p, env.gram.Rule A k p → p.length ≤ r) {st st' : St} (h : WF env st)
    {tp : Partial} {m : Marker} (hp : PartialOK env st tp m) {fuel c} (ht : addPartialPreT env fuel st tp m = .ok (st', c)) :
    c + st.stack.length ≤ memoCost r nts.card env.lex.length + 2 + st'.stack.length := by
  unfold addPartialPreT at ht
  obtain ⟨⟨st1, c1⟩, e1, ht⟩ := Out.bind_eq_ok.1 ht
  dsimp only at ht
  rw [foldl_push'] at ht
  cases ht
  have : c1 + st.stack.length ≤ memoCost r nts.card env.lex.length + 1 + st1.stack.length := by
    split at e1
    · cases e1; dsimp only; omega
    · rename_i hn
      obtain ⟨⟨⟨st2, o⟩, c2⟩, e2, e1⟩ := Out.bind_eq_ok.1 e1
      cases e1
      unfold checkNonTerminalT at e2
      split at e2
      · rename_i hl
        obtain ⟨⟨st3, c3⟩, e3, e2⟩ := Out.bind_eq_ok.1 e2
        cases e2
        have hx : env.prods m.idx = none := by
          rw [e.nt] at hn
          simpa using hn
        have := addToMemoT_cost e hr h (td := leafDef m) (.inl ⟨hx, hl, rfl, rfl, rfl⟩) e3
        dsimp only at this ⊢
        omega
      · cases e2; dsimp only; unfold memoCost; omega
  simp
  omega

/-- What the markers that have not been queued can still cost. -/
def owed (env : Env) (nts : Finset Nat) (K : Nat) (st : St) : Nat :=
  ∑ t ∈ allM env nts, if st.queued (mk t) then 0 else ((env.prods t.1).getD []).length * (K + 3)

theorem owed_queued {K : Nat} {st st' : St} (h : st'.queued = st.queued) : owed env nts K st' = owed env nts K st := by
  unfold owed
  rw [h]

/-- The cost of queueing a marker. -/
theorem addProdsT_cost (e : EnvOK env nts) {r : Nat} (hr : ∀ A k p, env.gram.Rule A k p → p.length ≤ r) {P fuel}
    (hf : (allKeys env nts).card + 2 ≤ fuel) : ∀ depth st root st' c, WF env st → C1 st P → root.start ≤ env.lex.length → unq env nts st < depth →
      addProdsT env fuel depth st root = .ok (st', c) →
      c + st.stack.length + owed env nts (memoCost r nts.card env.lex.length) st' ≤
        1 + st'.stack.length + owed env nts (memoCost r nts.card env.lex.length) st := by
  intro depth
  induction depth with
  | zero => intro st root st' c _ _ _ h; omega
  | succ depth ih =>
    intro st root st' c h c1 hs hu ht
    unfold addProdsT at ht
    by_cases hq : st.queued root = true
    · rw [if_pos hq] at ht
      cases ht
      omega
    · rw [if_neg hq] at ht
      dsimp only at ht
      generalize hst1 : ({ st with queued := upd st.queued root true } : St) = st1 at ht
      have hle : Le env st st1 := by
        subst hst1
        refine ⟨fun k d hk => ⟨d, hk, Nat.le_refl _⟩, fun _ _ h _ => h, fun _ _ h => h, ?_, fun _ h => h, .refl _⟩
        intro m hm
        by_cases hmr : m = root
        · subst hmr; simp
        · simp [upd_ne _ _ hmr, hm]
      have hwf : WF env st1 := by
        have hle' := hle
        subst hst1
        exact ⟨h.key, fun k d hk => (h.ok k d hk).mono hle', h.mark, h.nd, h.acyc,
          fun m tp ht => ⟨(h.part m tp ht).1.mono hle', (h.part m tp ht).2⟩,
          fun u hu => ⟨(h.stk u hu).1.mono hle', (h.stk u hu).2⟩⟩
      have hc1 : C1 st1 P := by subst hst1; exact c1
      have hq1 : st1.queued root = true := by subst hst1; simp
      have hlen : st1.stack.length = st.stack.length := by subst hst1; rfl
      cases hps : env.prods root.idx with
      | none =>
        rw [hps] at ht
        have : owed env nts (memoCost r nts.card env.lex.length) st1 ≤ owed env nts (memoCost r nts.card env.lex.length) st := by
          apply Finset.sum_le_sum
          intro t _
          by_cases hqt : st.queued (mk t) = true
          · rw [if_pos hqt, if_pos (hle.queued _ hqt)]
          · rw [if_neg hqt]
            split
            · exact Nat.zero_le _
            · exact Nat.le_refl _
        cases ht
        omega
      | some ps =>
        rw [hps] at ht
        dsimp only at ht
        obtain ⟨⟨st2, c2⟩, e2, ht⟩ := Out.bind_eq_ok.1 ht
        cases ht
        -- the marker's own share
        have hmem : (root.idx, root.start) ∈ allM env nts := by
          simp only [allM, Finset.mem_product, Finset.mem_range]
          exact ⟨e.fin _ (by simp [hps]), by omega⟩
        have howe : owed env nts (memoCost r nts.card env.lex.length) st1 + ps.length * (memoCost r nts.card env.lex.length + 3) ≤
            owed env nts (memoCost r nts.card env.lex.length) st := by
          unfold owed
          rw [← Finset.add_sum_erase _ _ hmem, ← Finset.add_sum_erase _ _ hmem]
          have e1 : st1.queued (mk (root.idx, root.start)) = true := hq1
          have e0 : ¬ st.queued (mk (root.idx, root.start)) = true := hq
          rw [if_pos e1, if_neg e0, hps]
          have : (∑ t ∈ (allM env nts).erase (root.idx, root.start), if st1.queued (mk t) = true then 0 else
              ((env.prods t.1).getD []).length * (memoCost r nts.card env.lex.length + 3)) =
              ∑ t ∈ (allM env nts).erase (root.idx, root.start), if st.queued (mk t) = true then 0 else
              ((env.prods t.1).getD []).length * (memoCost r nts.card env.lex.length + 3) := by
            refine Finset.sum_congr rfl fun t ht => ?_
            have hne : mk t ≠ root := by
              intro h1
              apply (Finset.mem_erase.1 ht).1
              rw [← h1]
              rfl
            subst hst1
            simp only [upd_ne _ _ hne]
          rw [this]
          simp only [Option.getD_some]
          omega
        have hu1 : unq env nts st1 < depth := by
          have hlt : unq env nts st1 < unq env nts st := by
            unfold unq
            apply Finset.card_lt_card
            rw [Finset.ssubset_iff_of_subset]
            · refine ⟨(root.idx, root.start), ?_, ?_⟩
              · simp only [Finset.mem_filter]
                exact ⟨hmem, by simpa [mk] using hq⟩
              · simp only [Finset.mem_filter, not_and]
                intro _
                have : st1.queued (mk (root.idx, root.start)) = true := hq1
                simp [this]
            · intro t ht
              simp only [Finset.mem_filter] at ht ⊢
              refine ⟨ht.1, ?_⟩
              cases hqt : st.queued (mk t) with
              | false => rfl
              | true => rw [hle.queued _ hqt] at ht; cases ht.2
          omega
        have hrules : ∀ i p, ps[i]? = some p → env.gram.Rule root.idx (0 + i) p := fun i p hi => ⟨ps, hps, by simpa using hi⟩
        have key : ∀ (qs : List (List Nat)) (k : Nat) (a b : St) (d : Nat), WF env a → C1 a P → a.queued root = true → unq env nts a < depth →
            (∀ i p, qs[i]? = some p → env.gram.Rule root.idx (k + i) p) → addProdsLoopT env fuel (addProdsT env fuel depth) root a k qs = .ok (b, d) →
            d + a.stack.length + owed env nts (memoCost r nts.card env.lex.length) b ≤
              qs.length * (memoCost r nts.card env.lex.length + 3) + b.stack.length + owed env nts (memoCost r nts.card env.lex.length) a := by
          intro qs
          induction qs with
          | nil => intro k a b d _ _ _ _ _ ht; cases ht; simp
          | cons p qs ihq =>
            intro k a b d wa ca qa ua hrul ht
            have hr' : ∀ i q, qs[i]? = some q → env.gram.Rule root.idx (k + 1 + i) q := by
              intro i q hi
              have := hrul (i + 1) q (by simpa using hi)
              rwa [show k + (i + 1) = k + 1 + i by omega] at this
            have hr0 : env.gram.Rule root.idx k p := by simpa using hrul 0 p (by simp)
            rw [List.length_cons, Nat.succ_mul]
            cases p with
            | nil =>
              unfold addProdsLoopT at ht
              obtain ⟨⟨a1, d1⟩, e1, ht⟩ := Out.bind_eq_ok.1 ht
              obtain ⟨⟨a2, d2⟩, e2, ht⟩ := Out.bind_eq_ok.1 ht
              cases ht
              have hd : DefOK env a (nilDef root k) :=
                .inr ⟨[], hr0, by simpa [nilDef] using Chain.nil, by simp [nilDef], qa, Nat.le_refl _, hs⟩
              have b1 := addToMemoT_cost e hr wa hd e1
              obtain ⟨st3, e3, p3, _, q3, _⟩ := addToMemo_spec e wa ca hd hf
              rw [forget_ok (addToMemoT_forget _ _ _) e1] at e3
              cases e3
              have b2 := ihq (k + 1) a1 a2 d2 p3.wf p3.c1 (p3.le.queued _ qa) (Nat.lt_of_le_of_lt (unq_mono p3.le) ua) hr' e2
              rw [owed_queued q3] at b2
              dsimp only
              omega
            | cons X p =>
              unfold addProdsLoopT at ht
              obtain ⟨⟨a1, d1⟩, e1, ht⟩ := Out.bind_eq_ok.1 ht
              obtain ⟨⟨a2, d2⟩, e2, ht⟩ := Out.bind_eq_ok.1 ht
              obtain ⟨⟨a3, d3⟩, e3, ht⟩ := Out.bind_eq_ok.1 ht
              cases ht
              have hpo := init_PartialOK hr0 qa hs
              have b1 := addPartialPreT_cost e hr wa hpo e1
              obtain ⟨st3, e4, p4, _, q4⟩ := addPartialPre_spec e wa ca hpo hf
              rw [forget_ok (addPartialPreT_forget _ _ _ _ _) e1] at e4
              cases e4
              have u1 := Nat.lt_of_le_of_lt (unq_mono (nts := nts) p4.le) ua
              have b2 := ih a1 ⟨X, root.start⟩ a2 d2 p4.wf p4.c1 hs u1 e2
              obtain ⟨st5, e5, p5, _, _⟩ := addProds_spec e hf depth a1 ⟨X, root.start⟩ p4.wf p4.c1 hs u1
              rw [forget_ok (addProdsT_forget _ _ _ _ _) e2] at e5
              cases e5
              have b3 := ihq (k + 1) a2 a3 d3 p5.wf p5.c1 (p5.le.queued _ (p4.le.queued _ qa))
                (Nat.lt_of_le_of_lt (unq_mono p5.le) u1) hr' e3
              rw [owed_queued q4] at b2
              dsimp only at e1 e2 e3 b1 b2 b3 ⊢
              omega
        have := key ps 0 st1 st2 c2 hwf hc1 hq1 hu1 hrules e2
        dsimp only
        omega

/-- The cost of a round. -/
theorem updateT_cost (e : EnvOK env nts) {r : Nat} (hr : ∀ A k p, env.gram.Rule A k p → p.length ≤ r) {P fuel}
    (hf : (allKeys env nts).card + 2 ≤ fuel) (hf2 : (allM env nts).card < fuel) {st st' : St} (h : WF env st) (c1 : C1 st P)
    {base : Partial} {ext : Key} (hb : PartialOK env st base ext.marker) (hm : (st.memo ext).isSome) {n c}
    (ht : updateT env fuel n st base ext = .ok (st', c)) :
    c + st.stack.length + owed env nts (memoCost r nts.card env.lex.length) st' ≤
      memoCost r nts.card env.lex.length + 5 + st'.stack.length + owed env nts (memoCost r nts.card env.lex.length) st := by
  cases n with
  | zero => cases ht
  | succ n =>
    unfold updateT at ht
    dsimp only at ht
    by_cases hl : base.td.children.length + 1 = base.prod.length
    · rw [if_pos (by simpa [extend] using hl)] at ht
      obtain ⟨⟨st1, d1⟩, e1, ht⟩ := Out.bind_eq_ok.1 ht
      cases ht
      have hd := extend_DefOK h hb hm hl
      have b1 := addToMemoT_cost e hr h hd e1
      obtain ⟨st3, e3, p3, _, q3, _⟩ := addToMemo_spec e h c1 hd hf
      rw [forget_ok (addToMemoT_forget _ _ _) e1] at e3
      cases e3
      rw [owed_queued q3]
      dsimp only
      omega
    · rw [if_neg (by simpa [extend] using hl)] at ht
      obtain ⟨hlt, he⟩ := List.getElem?_eq_some_iff.1 hb.next
      have hlt' : base.td.children.length + 1 < base.prod.length := by omega
      have hX : base.prod[base.td.children.length + 1]? = some base.prod[base.td.children.length + 1] :=
        List.getElem?_eq_getElem hlt'
      have hX' : (extend base ext).prod[base.td.children.length + 1]? =
          some base.prod[base.td.children.length + 1] := hX
      rw [hX'] at ht
      dsimp only at ht
      generalize base.prod[base.td.children.length + 1] = X at *
      have hcn : checkNonTerminalT env fuel st (extend base ext).td.key.marker = .ok ((st, none), 1) := by
        unfold checkNonTerminalT
        rw [if_neg]
        intro hlx
        have hd := e.disj _ (List.mem_of_getElem? hlx)
        obtain ⟨ps, hps, _⟩ := hb.rule
        have hps : env.prods base.td.key.idx = some ps := hps
        have hd : env.prods base.td.key.idx = none := hd
        rw [hps] at hd; cases hd
      rw [hcn] at ht
      simp only [Out.bind_ok] at ht
      obtain ⟨⟨st1, d1⟩, e1, ht⟩ := Out.bind_eq_ok.1 ht
      cases ht
      unfold addPartialT at e1
      obtain ⟨⟨a1, x1⟩, f1, e1⟩ := Out.bind_eq_ok.1 e1
      obtain ⟨⟨a2, x2⟩, f2, e1⟩ := Out.bind_eq_ok.1 e1
      cases e1
      have hstop : (extend base ext).td.key.stop = ext.stop := rfl
      rw [hstop] at f1 f2
      have hpo := extend_PartialOK h hb hm hX
      have b1 := addPartialPreT_cost e hr h hpo f1
      obtain ⟨st3, e4, p4, _, q4⟩ := addPartialPre_spec e h c1 hpo hf
      rw [forget_ok (addPartialPreT_forget _ _ _ _ _) f1] at e4
      cases e4
      have hu : unq env nts a1 < fuel := Nat.lt_of_le_of_lt (Finset.card_filter_le _ _) hf2
      have b2 := addProdsT_cost e hr hf fuel a1 ⟨X, ext.stop⟩ a2 x2 p4.wf p4.c1 (h.span hm).2 hu f2
      rw [owed_queued q4] at b2
      dsimp only at b1 b2 ⊢
      omega

/-- The cost of the main loop. -/
theorem loopT_cost (e : EnvOK env nts) {r : Nat} (hr : ∀ A k p, env.gram.Rule A k p → p.length ≤ r) {fuel}
    (hf : (allKeys env nts).card + 2 ≤ fuel) (hf2 : (allM env nts).card < fuel) :
    ∀ (n : Nat) (st : St) P st' c, LInv env st P → loopT env fuel n st = .ok (st', c) →
      c + st.stack.length + owed env nts (memoCost r nts.card env.lex.length) st' ≤
        phi env nts st * (memoCost r nts.card env.lex.length + 6) + owed env nts (memoCost r nts.card env.lex.length) st := by
  have key : ∀ (n : Nat) (st : St) P st' c, LInv env st P → loopT env fuel n st = .ok (st', c) →
      ∃ d, d ≤ phi env nts st ∧ c + st.stack.length + owed env nts (memoCost r nts.card env.lex.length) st' ≤
        d * (memoCost r nts.card env.lex.length + 6) + owed env nts (memoCost r nts.card env.lex.length) st := by
    intro n
    induction n with
    | zero => intro st P st' c _ h; cases h
    | succ n ih =>
      intro st P st' c h ht
      unfold loopT at ht
      cases hs : st.stack with
      | nil => rw [hs] at ht; cases ht; exact ⟨0, Nat.zero_le _, by simp⟩
      | cons u rest =>
        obtain ⟨tp, k⟩ := u
        rw [hs] at ht
        dsimp only at ht
        obtain ⟨⟨st1, d1⟩, e1, ht⟩ := Out.bind_eq_ok.1 ht
        obtain ⟨⟨st2, d2⟩, e2, ht⟩ := Out.bind_eq_ok.1 ht
        cases ht
        obtain ⟨sta, ea, inv1, le1, hphi1⟩ := step_spec e hf hf2 h hs
        rw [forget_ok (updateT_forget _ _ _ _ _ _) e1] at ea
        cases ea
        obtain ⟨d, hd, b2⟩ := ih st1 _ st2 d2 inv1 e2
        have hstk := h.wf.stk (tp, k) (by simp [hs])
        have wf0 : WF env { st with stack := rest } :=
          ⟨h.wf.key, h.wf.ok, h.wf.mark, h.wf.nd, h.wf.acyc,
            fun m t ht => ⟨⟨(h.wf.part m t ht).1.rule, (h.wf.part m t ht).1.chain, (h.wf.part m t ht).1.next,
              (h.wf.part m t ht).1.memo, (h.wf.part m t ht).1.queued, (h.wf.part m t ht).1.le1,
              (h.wf.part m t ht).1.le2⟩, (h.wf.part m t ht).2⟩,
            fun u hu => by
              have := h.wf.stk u (by rw [hs]; exact List.mem_cons_of_mem _ hu)
              exact ⟨⟨this.1.rule, this.1.chain, this.1.next, this.1.memo, this.1.queued, this.1.le1,
                this.1.le2⟩, this.2⟩⟩
        have c10 : C1 { st with stack := rest } (fun v => P v ∨ v = (tp, k)) := by
          intro m t ht k' hk hks
          rcases h.c1 m t ht k' hk hks with h1 | h1
          · rw [hs] at h1
            rcases List.mem_cons.1 h1 with h1 | h1
            · exact .inr (.inr h1)
            · exact .inl h1
          · exact .inr (.inl h1)
        have b1 := updateT_cost e hr hf hf2 wf0 c10 (base := tp) (ext := k)
          ⟨hstk.1.rule, hstk.1.chain, hstk.1.next, hstk.1.memo, hstk.1.queued, hstk.1.le1, hstk.1.le2⟩ hstk.2 e1
        have ow : owed env nts (memoCost r nts.card env.lex.length) { st with stack := rest } =
            owed env nts (memoCost r nts.card env.lex.length) st := rfl
        rw [ow] at b1
        refine ⟨d + 1, by omega, ?_⟩
        rw [Nat.succ_mul, List.length_cons]
        dsimp only at b1 b2 ⊢
        omega
  intro n st P st' c h ht
  obtain ⟨d, hd, hb⟩ := key n st P st' c h ht
  have := Nat.mul_le_mul_right (memoCost r nts.card env.lex.length + 6) hd
  omega

theorem owed_init (K : Nat) : owed env nts K St.init = (env.lex.length + 1) * ∑ i ∈ nts, ((env.prods i).getD []).length * (K + 3) := by
  unfold owed allM
  rw [Finset.sum_product]
  simp [St.init, Finset.mul_sum]

end

end Verif.Packrat
