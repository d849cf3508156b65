import Verif.Proofs.ScalcForms
/- Programs of the stack calculator where operations on the whole stack come last: the tree the parser keeps is evaluated
to what the machine computes. -/
namespace Verif.Scalc
open Verif Verif.Spec Verif.Spec.Scalc Verif.Tree

variable {N : Type}

/-! ### Parts of programs -/

theorem is_manip {w : List Kind} (hc : .choice ∉ w) (h : Is .stack (w ++ [.smp])) : Is .stack w := by
  generalize e : w ++ [Kind.smp] = w' at h
  generalize hq : Part.stack = q at h
  induction h generalizing w with
  | none => simp at e
  | @push a b ha hb _ ihb =>
    rcases list_cases b with rfl | ⟨b, c, rfl⟩
    · obtain ⟨x, k, rfl, hk⟩ := value_end ha
      have := List.append_inj_right' (show w ++ [Kind.smp] = x ++ [k] by simpa using e) rfl
      simp only [List.cons.injEq, and_true] at this
      subst this
      simp at hk
    · rw [← List.append_assoc] at e
      have h1 := List.append_inj_left' e rfl
      have h2 := List.append_inj_right' e rfl
      simp only [List.cons.injEq, and_true] at h2
      subst h1 h2
      exact .push ha (ihb (fun h => hc (by simp [h])) rfl rfl)
  | @paren a b c ha hb hcc _ _ ihc =>
    rcases list_cases c with rfl | ⟨c, d, rfl⟩
    · have := List.append_inj_right' (show w ++ [Kind.smp] = (a ++ .opening :: b) ++ [.closing] by simpa using e) rfl
      simp at this
    · have e : w ++ [Kind.smp] = (a ++ (.opening :: (b ++ (.closing :: c)))) ++ [d] := by simpa using e
      have h1 := List.append_inj_left' e rfl
      have h2 := List.append_inj_right' e rfl
      simp only [List.cons.injEq, and_true] at h2
      subst h1 h2
      exact .paren ha hb (ihc (fun h => hc (by simp [h])) rfl rfl)
  | @manip a b ha hb =>
    rcases op_end (k := .smp) (by simp [operators]) hb with rfl | ⟨b, rfl⟩
    · have h1 := List.append_inj_left' e rfl
      subst h1
      exact ha
    · rw [← List.append_assoc] at e
      have h2 := List.append_inj_right' e rfl
      simp at h2
  | int | dec | un | bin | fold | cond => cases hq
  | op h => subst hq; simp [operators] at h
  | choose h => subst hq; simp [operators] at h

theorem is_fold {w : List Kind} (hc : .choice ∉ w) (h : Is .stack (w ++ [.sop])) : Is .stack w := by
  generalize e : w ++ [Kind.sop] = w' at h
  generalize hq : Part.stack = q at h
  induction h generalizing w with
  | none => simp at e
  | @push a b ha hb _ ihb =>
    rcases list_cases b with rfl | ⟨b, c, rfl⟩
    · rw [List.append_nil] at e
      subst e
      have hcc : Kind.choice ∉ w ++ [.sop] := by simp [hc]
      generalize e : w ++ [Kind.sop] = w' at ha hcc
      cases ha with
      | int => cases w <;> simp at e
      | dec =>
        have := List.append_inj_right' (show w ++ [Kind.sop] = [.int] ++ [.dec] from e) rfl
        simp at this
      | @un a b _ h =>
        have := op_one (k := .uop) (by simp [operators]) h fun h => hcc (by simp [h])
        subst this
        have := List.append_inj_right' e rfl
        simp at this
      | @bin a b c _ _ h =>
        have := op_one (k := .bop) (by simp [operators]) h fun h => hcc (by simp [h])
        subst this
        rw [← List.append_assoc] at e
        have := List.append_inj_right' e rfl
        simp at this
      | @fold a b ha h =>
        have := op_one (k := .sop) (by simp [operators]) h fun h => hcc (by simp [h])
        subst this
        have := List.append_inj_left' e rfl
        subst this
        exact ha
      | cond => simp at hcc
      | op h => simp [operators] at h
      | choose h => simp [operators] at h
    · rw [← List.append_assoc] at e
      have h1 := List.append_inj_left' e rfl
      have h2 := List.append_inj_right' e rfl
      simp only [List.cons.injEq, and_true] at h2
      subst h1 h2
      exact .push ha (ihb (fun h => hc (by simp [h])) rfl rfl)
  | @paren a b c ha hb hcc _ _ ihc =>
    rcases list_cases c with rfl | ⟨c, d, rfl⟩
    · have := List.append_inj_right' (show w ++ [Kind.sop] = (a ++ .opening :: b) ++ [.closing] by simpa using e) rfl
      simp at this
    · have e : w ++ [Kind.sop] = (a ++ (.opening :: (b ++ (.closing :: c)))) ++ [d] := by simpa using e
      have h1 := List.append_inj_left' e rfl
      have h2 := List.append_inj_right' e rfl
      simp only [List.cons.injEq, and_true] at h2
      subst h1 h2
      exact .paren ha hb (ihc (fun h => hc (by simp [h])) rfl rfl)
  | @manip a b ha hb =>
    have hcc : Kind.choice ∉ b := fun h => by
      have : Kind.choice ∈ w ++ [.sop] := by rw [e]; simp [h]
      simp [hc] at this
    have := op_one (k := .smp) (by simp [operators]) hb hcc
    subst this
    have := List.append_inj_right' e rfl
    simp at this
  | int | dec | un | bin | fold | cond => cases hq
  | op h => subst hq; simp [operators] at h
  | choose h => subst hq; simp [operators] at h

theorem is_paren {w : List Kind} (hw : Bal w) (h : Is .stack (.opening :: (w ++ [.closing]))) : Is .stack w := by
  generalize e : Kind.opening :: (w ++ [.closing]) = w' at h
  have e2 : (Kind.opening :: w) ++ [.closing] = w' := e
  cases h with
  | none => cases e
  | @push a b ha hb =>
    exfalso
    by_cases hb0 : b = []
    · subst hb0
      obtain ⟨x, k, rfl, hk⟩ := value_end ha
      have := List.append_inj_right' (show (Kind.opening :: w) ++ [.closing] = x ++ [k] by simpa using e) rfl
      simp only [List.cons.injEq, and_true] at this
      subst this
      simp at hk
    · have := hw.inside (is_ne ha (by simp)) hb0 e
      have := (is_bal ha).all
      omega
  | @paren a b c ha hb hc =>
    have ha0 : a = [] := by
      apply Classical.byContradiction
      intro h0
      have := hw.inside h0 (by simp) e
      have := (is_bal ha).all
      omega
    subst ha0
    have hc0 : c = [] := by
      apply Classical.byContradiction
      intro h0
      have := hw.inside (p := .opening :: (b ++ [.closing])) (s := c) (by simp) h0 (by simpa using e)
      have := (is_bal hb).wrap.all
      omega
    subst hc0
    have : w = b := by simpa using e
    subst this
    exact hb
  | @manip a b ha hb =>
    exfalso
    rcases op_end (k := .smp) (by simp [operators]) hb with rfl | ⟨b, rfl⟩
    · have := List.append_inj_right' e2 rfl
      simp at this
    · rw [← List.append_assoc] at e2
      have := List.append_inj_right' e2 rfl
      simp at this
  | op h => simp [operators] at h
  | choose h => simp [operators] at h

/-! ### Trees -/

/-- A part of the tree the parser keeps, with its tokens. -/
structure Sub (G : Grammar Str) (t : PN Str Str) (u : List Tok) : Prop where
  valid : t.Valid G
  best : t.Best G
  fr : (t.fringe (isT G)).map kv = u.map tokKv'

theorem sub_split {G : Grammar Str} : ∀ {ks : List (PN Str Str)} {u : List Tok}, (∀ t ∈ ks, t.Valid G) → (∀ t ∈ ks, t.Best G) →
    (PN.fringes (isT G) ks).map kv = u.map tokKv' → ∃ vs : List (List Tok), vs.flatten = u ∧ List.Forall₂ (Sub G) ks vs
  | [], u, _, _, hu => ⟨[], by simpa [PN.fringes] using hu, .nil⟩
  | t :: ks, u, hv, hb, hu => by
    rw [PN.fringes, List.map_append] at hu
    obtain ⟨a, b, rfl, h1, h2⟩ := List.map_eq_append_iff.1 hu.symm
    obtain ⟨vs, rfl, h3⟩ := sub_split (ks := ks) (fun t ht => hv t (by simp [ht])) (fun t ht => hb t (by simp [ht])) h2.symm
    exact ⟨a :: vs, rfl, .cons ⟨hv t (by simp), hb t (by simp), h1.symm⟩ h3⟩

theorem Sub.word {G : Grammar Str} {t : PN Str Str} {u : List Tok} (h : Sub G t u) : t.word G = (u.map (·.1)).map kn := by
  have := congrArg (List.map Prod.fst) h.fr
  simpa [PN.word, Function.comp_def, kv, tokKv'] using this

theorem Sub.derives {G : Grammar Str} {t : PN Str Str} {u : List Tok} (h : Sub G t u) : G.Derives [t.kind] ((u.map (·.1)).map kn) := by
  have := Grammar.Valid.derives h.valid
  rw [← h.word]
  exact this

theorem Sub.is {G : Grammar Str} (hG : SOK G) {t : PN Str Str} {u : List Tok} (h : Sub G t u) {q : Part} (hk : t.kind = pn q) : Is q (u.map (·.1)) := by
  have hd := h.derives
  rw [hk] at hd
  obtain ⟨a, b, h1, h2, h3⟩ := fors_part (fors_of_derives hG hd _ rfl)
  rw [fors_nil h3, List.append_nil] at h1
  rw [h1]
  exact h2

/-- The children where the reading is settled. -/
theorem Sub.kids {G : Grammar Str} {l : Lexeme Str Str} {ks : List (PN Str Str)} {u : List Tok} (h : Sub G (.node l ks) u) {k : Nat}
    {us : List (Str × List Kind)} (hs : G.Settled l.kind ((u.map (·.1)).map kn) k (us.map fun x => rd x.1 x.2)) :
    ks.map PN.kind = us.map (·.1) ∧ ∃ vs : List (List Tok), vs.flatten = u ∧ List.Forall₂ (Sub G) ks vs ∧ vs.map (List.map (·.1)) = us.map (·.2) := by
  have hnt : ¬ G.Term l.kind := by
    intro ht
    obtain ⟨ps, h1, -⟩ := hs.1.rule
    rw [show G.prods l.kind = none from ht] at h1
    cases h1
  have hw := h.word
  obtain ⟨hv, hb, hf⟩ := h
  cases hv with
  | leaf ht => exact absurd ht hnt
  | inner hr hp hv =>
  cases hb with
  | leaf ht => exact absurd ht hnt
  | inner _ hb1 hb2 =>
  have e := hb1 k _ (by rw [hw]; exact hs)
  have hT : isT G l.kind = false := by
    obtain ⟨ps, h1, -⟩ := hr
    simp [isT, h1]
  rw [PN.fringe, hT] at hf
  obtain ⟨vs, rfl, h3⟩ := sub_split hv hb2 hf
  refine ⟨by simpa [Function.comp_def] using congrArg (List.map Prod.fst) e, vs, rfl, h3, ?_⟩
  have e2 : ks.map (fun t => t.word G) = (us.map (·.2)).map (List.map kn) := by simpa [Function.comp_def] using congrArg (List.map Prod.snd) e
  have e3 : ks.map (fun t => t.word G) = (vs.map (List.map (·.1))).map (List.map kn) := by
    clear e e2 hb1 hb2 hv hf hp hw hs
    induction h3 with
    | nil => rfl
    | cons h _ ih => simp only [List.map_cons, ih, h.word]
  rw [e2] at e3
  exact ((List.map_inj_right fun a b h => (List.map_inj_right fun a b => kn_inj).1 h).1 e3).symm

/-- Leaves. -/
theorem sub_leaf {G : Grammar Str} (hG : SOK G) {t : PN Str Str} {u : List Tok} (h : Sub G t u) {K : Kind} (hk : t.kind = kn K) :
    ∃ l, t = .node l [] ∧ l.kind = kn K ∧ u = [(K, l.val)] ∧ rawReduce rdcr t () = .ok (t, ()) := by
  obtain ⟨hv, -, hf⟩ := h
  cases hv with
  | @leaf l ht =>
    have hk : l.kind = kn K := hk
    have hT : isT G l.kind = true := by simp [isT, show G.prods l.kind = none from ht]
    rw [PN.fringe, if_pos hT] at hf
    match u, hf with
    | [], hf => simp at hf
    | _ :: _ :: _, hf => simp at hf
    | [(K', x)], hf =>
      simp only [List.map_cons, List.map_nil, List.cons.injEq, and_true, kv, tokKv', Prod.mk.injEq] at hf
      obtain ⟨h1, rfl⟩ := hf
      rw [hk] at h1
      obtain rfl := kn_inj h1
      refine ⟨l, rfl, hk, rfl, red_tok ?_⟩
      rw [hk]
      cases K <;> rfl
  | @inner l ks k p hr =>
    have hk : l.kind = kn K := hk
    obtain ⟨ps, h1, -⟩ := hr
    rw [hk, show G.prods (kn K) = none from hG.term K] at h1
    cases h1

/-- Operators. -/
theorem sub_op {G : Grammar Str} (hG : SOK G) {t : PN Str Str} {x : Tok} (h : Sub G t [x]) {q : Part} {K : Kind} (hq : (q, K) ∈ operators) (hk : t.kind = pn q) :
    ∃ l, rawReduce rdcr t () = .ok (.node l [], ()) ∧ l.kind = kn K ∧ x = (K, l.val) := by
  obtain ⟨hv, hb, hf⟩ := h
  cases hv with
  | @leaf l ht =>
    have hk : l.kind = pn q := hk
    have : pn q ∈ sTable.map (·.1) := by cases q <;> decide
    obtain ⟨y, hy, e⟩ := List.mem_map.1 this
    have h0 := hG.prods y hy
    rw [e, ← hk, show G.prods l.kind = none from ht] at h0
    cases h0
  | @inner l ks k p hr hp hv =>
    have hk : l.kind = pn q := hk
    have hT : isT G l.kind = false := by
      obtain ⟨ps, h1, -⟩ := hr
      simp [isT, h1]
    cases hb with
    | leaf ht => simp [isT, show G.prods l.kind = none from ht] at hT
    | inner _ _ hb =>
    rw [PN.fringe, hT] at hf
    obtain ⟨ps, h1, h2⟩ := hG.inv hr
    rw [hk] at h1
    have key : ∀ z ∈ operators, ∀ y ∈ sTable, y.1 = pn z.1 → ∀ p ∈ y.2, p = [kn z.2] ∨ p = [pn z.1, pn z.1, pn .value, kn .choice] := by decide
    obtain ⟨vs, h3, h4⟩ := sub_split hv hb hf
    rcases key _ hq _ h1 rfl p h2 with rfl | rfl
    · obtain ⟨c, rfl, hc⟩ := List.map_eq_singleton_iff.1 hp
      cases h4 with
      | cons h5 h4 =>
        cases h4
        obtain ⟨l', rfl, h6, h7, h8⟩ := sub_leaf hG h5 hc
        subst h7
        have : x = (K, l'.val) := by simpa using h3.symm
        refine ⟨l', ?_, h6, this⟩
        refine red_last (pre := []) hk ?_ (reds_cons h8 reds_nil)
        have : ∀ z ∈ operators, pn z.1 ∈ ["E".toList, "Bop".toList, "Uop".toList, "Sop".toList, "Smp".toList] := by decide
        exact this _ hq
    · exfalso
      obtain ⟨a, r, rfl, ha, hp⟩ := List.map_eq_cons_iff.1 hp
      obtain ⟨b, r, rfl, hb, -⟩ := List.map_eq_cons_iff.1 hp
      have hs : q ≠ .stack := by rintro rfl; simp [operators] at hq
      cases h4 with
      | @cons _ va _ _ h5 h4 =>
        cases h4 with
        | @cons _ vb _ _ h6 h4 =>
          have h1 := is_ne (h5.is hG ha) hs
          have h2 := is_ne (h6.is hG hb) hs
          have := congrArg List.length h3
          simp only [List.flatten_cons, List.length_append, List.length_nil, List.length_cons] at this
          have l1 : 0 < va.length := by
            cases va with
            | nil => exact absurd rfl h1
            | cons => simp
          have l2 : 0 < vb.length := by
            cases vb with
            | nil => exact absurd rfl h2
            | cons => simp
          omega

/-! ### Evaluation -/

/-- A token whose name is known. -/
structure Known (A : Arith N) (t : Tok) : Prop where
  fine : t.1 ∈ frag → Fine A t
  fold : t.1 = .sop → ∃ f, named (folds A) t.2 = some f ∧ ∀ s, evalSop A s t.2 = f s
  manip : t.1 = .smp → ∃ f : List (PF N) → List (PF N), named manips t.2 = some f ∧ ∀ (l : Lexeme Str Str) ks vs, l.val = t.2 → List.Forall₂ (EV A) ks vs →
    List.Forall₂ (EV A) (evalSmp (.node l ks)).kids (f vs.reverse).reverse

/-- What a part is after reduction: it leaves what the machine leaves, and if `m` its children are values. -/
def Seg (A : Arith N) (m : Bool) (t : PN Str Str) (u : List Tok) : Prop :=
  ∃ vs, Out.Returns (fun n => evalStack A n t) vs ∧
    (m = true → ∃ ks, List.Forall₂ (EV A) ks vs ∧ ((∃ l, l.kind = "Stack".toList ∧ t = .node l ks) ∨ ks = [t])) ∧
    ∀ ts out, NoDec ts → exec A (u ++ ts) [] out = exec A ts vs.reverse out

theorem evalE_sop (A : Arith N) {l : Lexeme Str Str} (h : l.kind = "sop".toList) {a : PN Str Str} {vs : List (PF N)}
    (ha : Out.Returns (fun n => evalStack A n a) vs) : Out.Returns (fun n => evalE A n (.node l [a])) (evalSop A vs l.val) := by
  refine returns_succ (g := fun n => (evalStack A n a).bind fun s => .ok (evalSop A s l.val)) (fun n => ?_)
    (returns_bind ha (returns_const _))
  have h0 : (PN.node l [a]).kind = "sop".toList := h
  rw [evalE, h0, if_neg (by decide), if_neg (by decide), if_neg (by decide), if_pos rfl]
  rfl

theorem evalStack_smp (A : Arith N) {l : Lexeme Str Str} (h : l.kind = "smp".toList) {ks : List (PN Str Str)} {vs : List (PF N)}
    (hk : List.Forall₂ (EV A) (evalSmp (.node l ks)).kids vs) : Out.Returns (fun n => evalStack A n (.node l ks)) vs := by
  refine returns_succ (g := fun n => evalAll (evalE A n) (evalSmp (.node l ks)).kids) (fun n => ?_) (evalAll_ev hk)
  have h0 : (PN.node l ks).kind = "smp".toList := h
  rw [evalStack, h0, if_neg (by decide), if_pos rfl]

/-- Nothing. -/
theorem seg_none {A : Arith N} {G : Grammar Str} (hG : SOK G) {t : PN Str Str} (h : Sub G t []) (hk : t.kind = pn .stack) :
    ∃ l, l.kind = "Stack".toList ∧ rawReduce rdcr t () = .ok (.node l [], ()) := by
  obtain ⟨t', h1, h2⟩ := run_tree (A := A) hG h.valid [] h.fr (by simp)
  obtain ⟨ks, vs, h3, h4, -, h5⟩ := h2.stack hk
  have h6 := h5 [] [] [] (by intro y r e; cases e)
  have : vs = [] := by simpa [exec] using h6
  subst this
  cases h3
  rcases h4 with ⟨l, hl, rfl⟩ | h4
  · exact ⟨l, hl, h1⟩
  · cases h4

theorem forall_two {α β : Type} {R : α → β → Prop} {ks : List α} {us : List β} (h : List.Forall₂ R ks us) : ks.length = us.length := h.length_eq

theorem noDec_one {k : Kind} {x : Str} {ts : List Tok} (h : k ≠ .dec) : NoDec ((k, x) :: ts) := by
  intro y r e
  cases e
  exact h rfl

theorem one_tok {K : Kind} {v : List Tok} (h : v.map (·.1) = [K]) : ∃ x, v = [(K, x)] := by
  obtain ⟨⟨k, x⟩, rfl, h'⟩ := List.map_eq_singleton_iff.1 h
  have h' : k = K := h'
  subst h'
  exact ⟨x, rfl⟩

/-- **Reducing and running.** -/
theorem seg_tree {A : Arith N} {G : Grammar Str} (hG : SOK G) {m f : Bool} {w : List Kind} (hP : Plain m f w) :
    ∀ (t : PN Str Str) (u : List Tok), Sub G t u → t.kind = pn .stack → u.map (·.1) = w → (∀ x ∈ u, Known A x) →
      ∃ t', rawReduce rdcr t () = .ok (t', ()) ∧ Seg A m t' u := by
  induction hP with
  | @vals w hw =>
    intro t u hs hk hu hf
    obtain ⟨t', h1, h2⟩ := run_tree (A := A) hG hs.valid u hs.fr fun x hx => (hf x hx).fine (by
      have := hw x.1 (by rw [← hu]; exact List.mem_map.2 ⟨x, hx, rfl⟩)
      simpa [frag] using this)
    obtain ⟨ks, vs, h3, h4, -, h5⟩ := h2.stack hk
    refine ⟨t', h1, vs, evalStack_ev h3 h4, fun _ => ⟨ks, h3, h4⟩, fun ts out hn => ?_⟩
    rw [h5 ts [] out hn, List.append_nil]
  | @paren m f w hw ih =>
    intro t u hs hk hu hf
    obtain ⟨l, ks⟩ := t
    have hl : l.kind = pn .stack := hk
    have his := is_paren (plain_bal hw) (by rw [← hu]; exact hs.is hG hk)
    obtain ⟨hkk, vs, rfl, h2, h3⟩ := hs.kids (us := [(pn .stack, []), ("P".toList, .opening :: (w ++ [.closing])), (pn .stack, [])])
      (by rw [hl, hu]; exact settled_paren hG his)
    obtain ⟨a, _, rfl, ha, hkk⟩ := List.map_eq_cons_iff.1 hkk
    obtain ⟨b, _, rfl, hb, hkk⟩ := List.map_eq_cons_iff.1 hkk
    obtain ⟨c, rfl, hc⟩ := List.map_eq_singleton_iff.1 hkk
    cases h2 with
    | @cons _ va _ _ sa h2 =>
    cases h2 with
    | @cons _ vb _ _ sb h2 =>
    cases h2 with
    | @cons _ vc _ _ sc h2 =>
    cases h2
    simp only [List.map_cons, List.map_nil, List.cons.injEq, List.map_eq_nil_iff, and_true] at h3
    obtain ⟨rfl, hvb, rfl⟩ := h3
    obtain ⟨la, hla, ra⟩ := seg_none (A := A) hG sa ha
    obtain ⟨lc, hlc, rc⟩ := seg_none (A := A) hG sc hc
    -- the parentheses
    obtain ⟨lb, kb⟩ := b
    have hlb : lb.kind = "P".toList := hb
    obtain ⟨x, r, rfl, hx, hvb⟩ := List.map_eq_cons_iff.1 hvb
    obtain ⟨vm, z, rfl, hvm, hz⟩ := List.map_eq_append_iff.1 hvb
    obtain ⟨y, rfl⟩ := one_tok hz
    obtain ⟨K, xv⟩ := x
    have hx : K = .opening := hx
    subst hx
    obtain ⟨hv, hbst, hfr⟩ := sb
    cases hv with
    | leaf ht =>
      have h0 : G.prods "P".toList = some _ := hG.prods _ (.tail _ (.tail _ (.tail _ (.head _))))
      rw [← hlb, show G.prods lb.kind = none from ht] at h0
      cases h0
    | @inner _ _ k p hr hp hv =>
    have hT : isT G lb.kind = false := by
      obtain ⟨ps, h1, -⟩ := hr
      simp [isT, h1]
    cases hbst with
    | leaf ht => simp [isT, show G.prods lb.kind = none from ht] at hT
    | inner _ _ hbst =>
    rw [PN.fringe, hT] at hfr
    obtain ⟨ps, h4, h5⟩ := hG.inv hr
    have key : ∀ y ∈ sTable, y.1 = "P".toList → ∀ p ∈ y.2, p = [kn .opening, pn .stack, kn .closing] := by decide
    obtain rfl := key _ h4 hlb p h5
    obtain ⟨ws, h6, h7⟩ := sub_split hv hbst hfr
    obtain ⟨d, _, rfl, hd, hp⟩ := List.map_eq_cons_iff.1 hp
    obtain ⟨e, _, rfl, he, hp⟩ := List.map_eq_cons_iff.1 hp
    obtain ⟨g, rfl, hg⟩ := List.map_eq_singleton_iff.1 hp
    cases h7 with
    | cons sd h7 =>
    cases h7 with
    | @cons _ ve _ _ se h7 =>
    cases h7 with
    | cons sg h7 =>
    cases h7
    obtain ⟨ld, rfl, -, rfl, rd'⟩ := sub_leaf hG sd hd
    obtain ⟨lg, rfl, -, rfl, rg⟩ := sub_leaf hG sg hg
    have hve : ve = vm := by
      simp only [List.flatten_cons, List.flatten_nil, List.append_nil, List.cons_append, List.nil_append, List.cons.injEq] at h6
      exact List.append_inj_left' h6.2 rfl
    subst hve
    obtain ⟨t', r1, vs, e1, e2, e3⟩ := ih e ve se he hvm fun x hx => hf x (by simp [hx])
    refine ⟨t', ?_, vs, e1, e2, fun ts out hn => ?_⟩
    · have rb : rawReduce rdcr (.node lb [.node ld [], e, .node lg []]) () = .ok (t', ()) :=
        red_node hlb rd_P (reds_cons rd' (reds_cons r1 (reds_cons rg reds_nil))) rfl
      rw [red_stack hl (reds_cons ra (reds_cons rb (reds_cons rc reds_nil)))]
      have u1 : up1 [.node la [], t', .node lc []] = [.node la [], t'] := by
        show (if lc.kind = "Stack".toList then _ else _) = _
        rw [if_pos hlc]
        rfl
      have u2 : up2 [.node la [], t'] = [t'] := by
        show (if la.kind = "Stack".toList then _ else _) = _
        rw [if_pos hla]
        rfl
      rw [u1, u2]
      show Out.ok (if _ ∨ _ ∨ [t'].length = 1 then PN.node t'.lx ([] ++ t'.kids) else _, ()) = _
      rw [if_pos (.inr (.inr rfl))]
      cases t'
      rfl
    · simp only [List.flatten_cons, List.flatten_nil, List.nil_append, List.append_nil, List.cons_append, List.append_assoc]
      rw [exec, e3 _ _ (noDec_one (by decide)), exec]
      simp
  | @fold m w hw ih =>
    intro t u hs hk hu hf
    obtain ⟨l, ks⟩ := t
    have hl : l.kind = pn .stack := hk
    have hc := plain_choice hw
    have his := is_fold hc (by rw [← hu]; exact hs.is hG hk)
    obtain ⟨hkk, vs, rfl, h2, h3⟩ := hs.kids (us := [(pn .value, w ++ [.sop]), (pn .stack, [])])
      (by rw [hl, hu]; exact settled_fold hG his hc (plain_deep hw rfl))
    obtain ⟨a, _, rfl, ha, hkk⟩ := List.map_eq_cons_iff.1 hkk
    obtain ⟨b, rfl, hb⟩ := List.map_eq_singleton_iff.1 hkk
    cases h2 with
    | @cons _ va _ _ sa h2 =>
    cases h2 with
    | @cons _ vb _ _ sb h2 =>
    cases h2
    simp only [List.map_cons, List.map_nil, List.cons.injEq, List.map_eq_nil_iff, and_true] at h3
    obtain ⟨hva, rfl⟩ := h3
    obtain ⟨lb, hlb, rb⟩ := seg_none (A := A) hG sb hb
    -- the value
    obtain ⟨la, ka⟩ := a
    have hla : la.kind = pn .value := ha
    obtain ⟨hkk, vs, h4, h5, h6⟩ := sa.kids (us := [(pn .stack, w), (pn .fold, [.sop])])
      (by rw [hla, hva]; exact settled_value hG his hc)
    subst h4
    obtain ⟨c, _, rfl, hcc, hkk⟩ := List.map_eq_cons_iff.1 hkk
    obtain ⟨d, rfl, hd⟩ := List.map_eq_singleton_iff.1 hkk
    cases h5 with
    | @cons _ vc _ _ sc h5 =>
    cases h5 with
    | @cons _ vd _ _ sd h5 =>
    cases h5
    simp only [List.map_cons, List.map_nil, List.cons.injEq, and_true] at h6
    obtain ⟨hvc, hvd⟩ := h6
    obtain ⟨x, rfl⟩ := one_tok hvd
    obtain ⟨o, ro, hok, hox⟩ := sub_op hG sd (q := .fold) (K := .sop) (by simp [operators]) hd
    cases hox
    obtain ⟨t', r1, vs, e1, -, e3⟩ := ih c vc sc hcc hvc fun x hx => hf x (by simp [hx])
    obtain ⟨fn, n1, n2⟩ := (hf (.sop, o.val) (by simp)).fold rfl
    have rE : rawReduce rdcr (.node la [c, d]) () = .ok (.node o [t'], ()) :=
      red_last (pre := [t']) hla (by decide) (reds_cons r1 (reds_cons ro reds_nil))
    have hev : EV A (.node o [t']) (fn vs) := ⟨by rw [← n2]; exact evalE_sop A hok e1, by
      show o.kind ∈ _
      rw [hok]
      decide⟩
    have hone : List.Forall₂ (EV A) [.node o [t']] [fn vs] := .cons hev .nil
    refine ⟨.node o [t'], ?_, [fn vs], evalStack_ev hone (.inr rfl), fun _ => ⟨_, hone, .inr rfl⟩, fun ts out hn => ?_⟩
    · rw [red_stack hl (reds_cons rE (reds_cons rb reds_nil))]
      have u1 : up1 [.node o [t'], .node lb []] = [.node o [t']] := by
        show (if lb.kind = "Stack".toList then _ else _) = _
        rw [if_pos hlb]
        rfl
      have u2 : up2 [.node o [t']] = [.node o [t']] := by
        show (if o.kind = "Stack".toList then _ else _) = _
        rw [if_neg (by rw [hok]; decide)]
      rw [u1, u2]
      show Out.ok (if _ ∨ _ ∨ [PN.node o [t']].length = 1 then _ else _, ()) = _
      rw [if_pos (.inr (.inr rfl))]
      rfl
    · simp only [List.flatten_cons, List.flatten_nil, List.append_nil, List.append_assoc, List.cons_append, List.nil_append]
      rw [e3 _ _ (noDec_one (by decide)), exec, n1]
      simp
  | @manip f w hw ih =>
    intro t u hs hk hu hf
    obtain ⟨l, ks⟩ := t
    have hl : l.kind = pn .stack := hk
    have hc := plain_choice hw
    have his := is_manip hc (by rw [← hu]; exact hs.is hG hk)
    obtain ⟨hkk, vs, rfl, h2, h3⟩ := hs.kids (us := [(pn .stack, w), (pn .manip, [.smp])])
      (by rw [hl, hu]; exact settled_manip hG his hc)
    obtain ⟨a, _, rfl, ha, hkk⟩ := List.map_eq_cons_iff.1 hkk
    obtain ⟨b, rfl, hb⟩ := List.map_eq_singleton_iff.1 hkk
    cases h2 with
    | @cons _ va _ _ sa h2 =>
    cases h2 with
    | @cons _ vb _ _ sb h2 =>
    cases h2
    simp only [List.map_cons, List.map_nil, List.cons.injEq, and_true] at h3
    obtain ⟨hva, hvb⟩ := h3
    obtain ⟨x, rfl⟩ := one_tok hvb
    obtain ⟨o, ro, hok, hox⟩ := sub_op hG sb (q := .manip) (K := .smp) (by simp [operators]) hb
    cases hox
    obtain ⟨t', r1, vs, -, e2, e3⟩ := ih a va sa ha hva fun x hx => hf x (by simp [hx])
    obtain ⟨ks, f1, f2⟩ := e2 rfl
    obtain ⟨fn, n1, n2⟩ := (hf (.smp, o.val) (by simp)).manip rfl
    refine ⟨.node o ks, ?_, _, evalStack_smp A hok (n2 o ks vs rfl f1), ⟨fun h => absurd h (by decide), fun ts out hn => ?_⟩⟩
    · rw [red_stack hl (reds_cons r1 (reds_cons ro reds_nil))]
      have u1 : up1 [t', .node o []] = [t', .node o []] := by
        show (if o.kind = "Stack".toList then _ else _) = _
        rw [if_neg (by rw [hok]; decide)]
      have u2 : up2 [t', .node o []] = ks ++ [.node o []] := by
        show (if t'.kind = "Stack".toList then _ else _) = _
        rcases f2 with ⟨l', hl', rfl⟩ | rfl
        · rw [if_pos (show (PN.node l' ks).kind = _ from hl')]
          rfl
        · cases f1 with
          | cons h1 _ => rw [if_neg (h1.ne (by decide))]; rfl
      rw [u1, u2]
      have u3 : up3 l (ks ++ [.node o []]) = .node o ks := by
        unfold up3
        rw [show (ks ++ [PN.node o []]).getLast? = some (.node o []) by simp]
        simp only
        rw [if_pos (.inl hok)]
        simp [PN.lx, PN.kids]
      rw [u3]
    · simp only [List.flatten_cons, List.flatten_nil, List.append_nil, List.append_assoc, List.cons_append, List.nil_append]
      rw [e3 _ _ (noDec_one (by decide)), exec, n1]
      simp

/-- The machine only runs programs. -/
theorem exec_plain {A : Arith N} {m f : Bool} {w : List Kind} (hP : Plain m f w) : ∀ (u ts : List Tok) (out : List (List (PF N))) {r},
    u.map (·.1) = w → NoDec ts → exec A (u ++ ts) [] out = some r → Is .stack w := by
  induction hP with
  | @vals w hw =>
    intro u ts out r hu hn he
    have := exec_is hn u [] [] (fun x hx => by
      have := hw x.1 (by rw [← hu]; exact List.mem_map.2 ⟨x, hx, rfl⟩)
      simpa [frag] using this) rfl (by simp) he
    simpa [hu] using this
  | @paren m f w hw ih =>
    intro u ts out r hu hn he
    obtain ⟨⟨K, x⟩, u, rfl, hx, hu'⟩ := List.map_eq_cons_iff.1 hu
    have hx : K = .opening := hx
    subst hx
    obtain ⟨v, z, rfl, hv, hz⟩ := List.map_eq_append_iff.1 hu'
    obtain ⟨y, rfl⟩ := one_tok hz
    rw [List.cons_append, exec, List.append_assoc] at he
    have := ih v _ _ hv (noDec_one (by decide)) he
    simpa using Is.paren .none this .none
  | @fold m w hw ih =>
    intro u ts out r hu hn he
    obtain ⟨v, z, rfl, hv, hz⟩ := List.map_eq_append_iff.1 hu
    obtain ⟨y, rfl⟩ := one_tok hz
    rw [List.append_assoc] at he
    have := ih v _ _ hv (noDec_one (by decide)) he
    simpa using Is.push (.fold this (.op (k := .sop) (by simp [operators]))) .none
  | @manip f w hw ih =>
    intro u ts out r hu hn he
    obtain ⟨v, z, rfl, hv, hz⟩ := List.map_eq_append_iff.1 hu
    obtain ⟨y, rfl⟩ := one_tok hz
    rw [List.append_assoc] at he
    have := ih v _ _ hv (noDec_one (by decide)) he
    exact .manip this (.op (k := .smp) (by simp [operators]))

/-- **Evaluating programs where operations on the whole stack come last.** -/
theorem eval_plain {A : Arith N} {G : Grammar Str} (hg : grmr = .ok G) (hG : SOK G) {ls : List (Lexeme Str Str)} {ts : List Tok}
    (hls : ls.map kv = ts.map tokKv') {m f : Bool} (hP : Plain m f (ts.map (·.1))) (hf : ∀ x ∈ ts, Known A x) :
    Out.Returns (fun n => evalLexemes A n ls) (exec A ts [] []) := by
  have hk : ls.map (·.kind) = (ts.map (·.1)).map kn := by
    have := congrArg (List.map Prod.fst) hls
    simpa [Function.comp_def, kv, tokKv'] using this
  have ht : ∀ l ∈ ls, G.Term l.kind := by
    intro l hl
    have : l.kind ∈ ls.map (·.kind) := List.mem_map.2 ⟨l, hl, rfl⟩
    rw [hk] at this
    obtain ⟨k, -, e⟩ := List.mem_map.1 this
    rw [← e]
    exact hG.term k
  have h0 : G.order.head? = some (pn .stack) := by rw [hG.order]; rfl
  by_cases hs : G.Sentence (ls.map (·.kind))
  · rcases Props.Packrat.parse_spec [] G hG.wf ls ht with ⟨t, ⟨K, hK⟩, hp, -, -, hb⟩ | ⟨h, -⟩
    · have hk : t.kind = pn .stack := by
        have := hp.1
        rw [h0] at this
        exact (Option.some.inj this).symm
      obtain ⟨t', h1, vs, ⟨J, hJ⟩, -, h5⟩ := seg_tree hG hP t ts ⟨hp.2.1, hb (cycle_free hG), by rw [hp.2.2]; exact hls⟩ hk rfl hf
      have h6 : exec A ts [] [] = some vs := by
        have := h5 [] [] (by intro y r e; cases e)
        simpa [exec] using this
      rw [h6]
      refine ⟨max K J, fun n hn => ?_⟩
      simp only [evalLexemes, parseLexemes]
      rw [hg, Out.bind_ok, hK n (by omega), Out.bind_ok, Tree.reduce, h1, Out.bind_ok, Out.bind_ok, Out.bind_ok]
      simp only
      rw [show evalStack A n t' = _ from hJ n (by omega), Out.bind_ok]
    · exact absurd hs h
  · have h1 := (eval_lexemes A hg hG ht).2 hs
    cases he : exec A ts [] [] with
    | none => exact h1
    | some r =>
      exfalso
      apply hs
      rw [hk, sentence_iff hG]
      exact exec_plain hP ts [] [] rfl (by intro y r e; cases e) (by simpa using he)

end Verif.Scalc
