import Verif.Proofs.ScalcLang
import Verif.Proofs.SimpleLexer
/- Programs of numbers, unary and binary operators: every derivation tree is evaluated to what the machine computes. -/
namespace Verif.Scalc
open Verif Verif.Spec Verif.Spec.Scalc Verif.Tree

variable {N : Type}

/-- The kinds of tokens of these programs. -/
def frag : List Spec.Scalc.Kind := [.int, .dec, .uop, .bop]

/-- Such a token whose name is known. -/
structure Fine (A : Arith N) (t : Tok) : Prop where
  frag : t.1 ∈ frag
  un : t.1 = .uop → ∃ f, named (unary A) t.2 = some f ∧ ∀ a, evalUop A a t.2 = ⟨f a.V, a.P⟩
  bin : t.1 = .bop → ∃ f, named (binary A) t.2 = some f ∧ ∀ a b, evalBop A a b t.2 = ⟨f a.V b.V, prec a b⟩

/-- No decimals first. -/
def NoDec (ts : List Tok) : Prop := ∀ y r, ts ≠ (.dec, y) :: r

/-- A whole number first. -/
def IntHead (ts : List Tok) : Prop := ∃ x r, ts = (.int, x) :: r

theorem IntHead.noDec {ts : List Tok} (h : IntHead ts) : NoDec ts := by
  obtain ⟨x, r, rfl⟩ := h
  intro y r e
  cases e

theorem IntHead.append {ts us : List Tok} (h : IntHead ts) : IntHead (ts ++ us) := by
  obtain ⟨x, r, rfl⟩ := h
  exact ⟨x, r ++ us, rfl⟩

theorem exec_int (A : Arith N) {x : Str} {ts : List Tok} (h : NoDec ts) (st out) :
    exec A ((.int, x) :: ts) st out = exec A ts (⟨A.num x, 0⟩ :: st) out := by
  match ts with
  | [] => rfl
  | (.dec, y) :: r => exact absurd rfl (h y r)
  | (.int, y) :: r | (.uop, y) :: r | (.bop, y) :: r | (.sop, y) :: r | (.smp, y) :: r | (.choice, y) :: r | (.opening, y) :: r
  | (.closing, y) :: r => rw [exec]; intro y r e; cases e

/-- A node that stands for a value. -/
def EV (A : Arith N) (t : PN Str Str) (v : PF N) : Prop :=
  Out.Returns (fun n => evalE A n t) v ∧ t.kind ∈ ["Number".toList, "uop".toList, "bop".toList, "sop".toList]

/-- What a node is after reduction. -/
structure Run (A : Arith N) (k : Str) (t : PN Str Str) (u : List Tok) : Prop where
  value : k = "E".toList → ∃ v, EV A t v ∧ IntHead u ∧ ∀ ts st out, NoDec ts → exec A (u ++ ts) st out = exec A ts (v :: st) out
  stack : k = "Stack".toList → ∃ ks vs, List.Forall₂ (EV A) ks vs ∧ ((∃ l, l.kind = "Stack".toList ∧ t = .node l ks) ∨ ks = [t]) ∧
    (u = [] ∨ IntHead u) ∧ ∀ ts st out, NoDec ts → exec A (u ++ ts) st out = exec A ts (vs.reverse ++ st) out
  number : k = "Number".toList → ∃ l, l.kind = "Number".toList ∧ ((∃ a, t = .node l [.node a []] ∧ u = [(.int, a.val)]) ∨
    ∃ a b, t = .node l [.node a [], .node b []] ∧ u = [(.int, a.val), (.dec, b.val)])
  unary : k = "Uop".toList → ∃ l, t = .node l [] ∧ l.kind = "uop".toList ∧ u = [(.uop, l.val)] ∧ Fine A (.uop, l.val)
  binary : k = "Bop".toList → ∃ l, t = .node l [] ∧ l.kind = "bop".toList ∧ u = [(.bop, l.val)] ∧ Fine A (.bop, l.val)
  token : k ∉ sTable.map (·.1) → ∃ l K, t = .node l [] ∧ k = kn K ∧ l.kind = kn K ∧ u = [(K, l.val)] ∧ Fine A (K, l.val)
  no : k ∉ ["Sop".toList, "Smp".toList, "P".toList]

inductive Runs (A : Arith N) : List Str → List (PN Str Str) → List Tok → Prop
  | nil : Runs A [] [] []
  | cons {k t u ks ts v} : Run A k t u → Runs A ks ts v → Runs A (k :: ks) (t :: ts) (u ++ v)

def kv (l : Lexeme Str Str) : Str × Str := (l.kind, l.val)

def tokKv' (t : Tok) : Str × Str := (kn t.1, t.2)

abbrev isT (G : Grammar Str) : Str → Bool := fun s => (G.prods s).isNone

theorem runs_all {A : Arith N} {G : Grammar Str} : ∀ {ks : List (PN Str Str)} {u : List Tok},
    (∀ t ∈ ks, ∀ u : List Tok, (t.fringe (isT G)).map kv = u.map tokKv' → (∀ x ∈ u, Fine A x) →
      ∃ t', rawReduce rdcr t () = .ok (t', ()) ∧ Run A t.kind t' u) →
    (PN.fringes (isT G) ks).map kv = u.map tokKv' → (∀ x ∈ u, Fine A x) →
    ∃ ks', rawReduces rdcr ks () = .ok (ks', ()) ∧ Runs A (ks.map PN.kind) ks' u
  | [], u, _, hu, _ => by
    have : u = [] := by simpa [PN.fringes] using hu.symm
    subst this
    exact ⟨[], rfl, .nil⟩
  | t :: ks, u, h, hu, hf => by
    rw [PN.fringes, List.map_append] at hu
    obtain ⟨a, b, rfl, ha, hb⟩ := List.map_eq_append_iff.1 hu.symm
    obtain ⟨t', h1, h2⟩ := h t (by simp) a ha.symm fun x hx => hf x (by simp [hx])
    obtain ⟨ks', h3, h4⟩ := runs_all (ks := ks) (fun t ht => h t (by simp [ht])) hb.symm fun x hx => hf x (by simp [hx])
    exact ⟨t' :: ks', reds_cons h1 h3, .cons h2 h4⟩

theorem run_value {A : Arith N} {t : PN Str Str} {u : List Tok} (h : ∃ v, EV A t v ∧ IntHead u ∧ ∀ ts st out, NoDec ts → exec A (u ++ ts) st out = exec A ts (v :: st) out) :
    Run A "E".toList t u :=
  ⟨fun _ => h, fun e => absurd e (by decide), fun e => absurd e (by decide), fun e => absurd e (by decide), fun e => absurd e (by decide),
    fun e => absurd (by decide) e, by decide⟩

theorem run_stack {A : Arith N} {t : PN Str Str} {u : List Tok} (h : ∃ ks vs, List.Forall₂ (EV A) ks vs ∧ ((∃ l, l.kind = "Stack".toList ∧ t = .node l ks) ∨ ks = [t]) ∧
    (u = [] ∨ IntHead u) ∧ ∀ ts st out, NoDec ts → exec A (u ++ ts) st out = exec A ts (vs.reverse ++ st) out) :
    Run A "Stack".toList t u :=
  ⟨fun e => absurd e (by decide), fun _ => h, fun e => absurd e (by decide), fun e => absurd e (by decide), fun e => absurd e (by decide),
    fun e => absurd (by decide) e, by decide⟩

theorem evalE_bop (A : Arith N) {l : Lexeme Str Str} (h : l.kind = "bop".toList) {a b : PN Str Str} {va vb : PF N}
    (ha : Out.Returns (fun n => evalE A n a) va) (hb : Out.Returns (fun n => evalE A n b) vb) :
    Out.Returns (fun n => evalE A n (.node l [a, b])) (evalBop A va vb l.val) := by
  refine returns_succ (g := fun n => (evalE A n a).bind fun ae => (evalE A n b).bind fun be => .ok (evalBop A ae be l.val)) (fun n => ?_)
    (returns_bind ha (returns_bind hb (returns_const _)))
  have h0 : (PN.node l [a, b]).kind = "bop".toList := h
  rw [evalE, h0, if_neg (by decide), if_neg (by decide), if_pos rfl]
  rfl

theorem evalE_uop (A : Arith N) {l : Lexeme Str Str} (h : l.kind = "uop".toList) {a : PN Str Str} {va : PF N}
    (ha : Out.Returns (fun n => evalE A n a) va) :
    Out.Returns (fun n => evalE A n (.node l [a])) (evalUop A va l.val) := by
  refine returns_succ (g := fun n => (evalE A n a).bind fun ae => .ok (evalUop A ae l.val)) (fun n => ?_)
    (returns_bind ha (returns_const _))
  have h0 : (PN.node l [a]).kind = "uop".toList := h
  rw [evalE, h0, if_neg (by decide), if_pos rfl]
  rfl

theorem evalE_num1 (A : Arith N) {l a : Lexeme Str Str} (h : l.kind = "Number".toList) :
    Out.Returns (fun n => evalE A n (.node l [.node a []])) ⟨A.num a.val, 0⟩ := by
  refine returns_succ (g := fun n => .ok ⟨A.num a.val, 0⟩) (fun n => ?_) (returns_const _)
  have h0 : (PN.node l [PN.node a []]).kind = "Number".toList := h
  rw [evalE, h0, if_pos rfl]
  rfl

theorem evalE_num2 (A : Arith N) {l a b : Lexeme Str Str} (h : l.kind = "Number".toList) :
    Out.Returns (fun n => evalE A n (.node l [.node a [], .node b []])) ⟨A.num (a.val ++ b.val), (b.val.length : Int) - 1⟩ := by
  refine returns_succ (g := fun n => .ok ⟨A.num (a.val ++ b.val), (b.val.length : Int) - 1⟩) (fun n => ?_) (returns_const _)
  have h0 : (PN.node l [PN.node a [], PN.node b []]).kind = "Number".toList := h
  rw [evalE, h0, if_pos rfl]
  rfl

theorem EV.ne {A : Arith N} {t : PN Str Str} {v : PF N} (h : EV A t v) {k : Str} (hk : k ∉ ["Number".toList, "uop".toList, "bop".toList, "sop".toList]) : t.kind ≠ k :=
  fun e => hk (e ▸ h.2)

/-- A value before a stack. -/
theorem up_push {A : Arith N} (l : Lexeme Str Str) {e s : PN Str Str} {ks : List (PN Str Str)} {v vs} (he : EV A e v)
    (hks : List.Forall₂ (EV A) ks vs) (hs : (∃ l, l.kind = "Stack".toList ∧ s = .node l ks) ∨ ks = [s]) :
    up3 l (up2 (up1 [e, s])) = .node l (e :: ks) ∨ e :: ks = [up3 l (up2 (up1 [e, s]))] := by
  have e1 : up1 [e, s] = e :: ks := by
    show (if s.kind = "Stack".toList then [e] ++ s.kids else [e, s]) = _
    rcases hs with ⟨l', hl, rfl⟩ | rfl
    · rw [if_pos (show (PN.node l' ks).kind = _ from hl)]; rfl
    · cases hks with
      | cons h1 _ => rw [if_neg (h1.ne (by decide))]
  have e2 : up2 (e :: ks) = e :: ks := by rw [up2, if_neg (he.ne (by decide))]
  rw [e1, e2]
  rcases list_cases ks with rfl | ⟨a, c, rfl⟩
  · right
    show [e] = [if _ ∨ _ ∨ [e].length = 1 then .node e.lx ([] ++ e.kids) else _]
    rw [if_pos (.inr (.inr rfl))]
    cases e
    rfl
  · left
    obtain ⟨b, -, hc⟩ : ∃ b ∈ vs, EV A c b := by
      have : ∀ {ks : List (PN Str Str)} {vs}, List.Forall₂ (EV A) ks vs → ∀ c ∈ ks, ∃ b ∈ vs, EV A c b := by
        intro ks vs h
        induction h with
        | nil => simp
        | cons h _ ih =>
          intro c hc
          rcases List.mem_cons.1 hc with rfl | hc
          · exact ⟨_, .head _, h⟩
          · obtain ⟨b, h1, h2⟩ := ih c hc
            exact ⟨b, .tail _ h1, h2⟩
      exact this hks c (by simp)
    have hl : (e :: (a ++ [c])).getLast? = some c := by
      rw [← List.cons_append, List.getLast?_append]; rfl
    unfold up3
    rw [hl]
    simp only
    rw [if_neg]
    rintro (h | h | h)
    · exact hc.ne (by decide) h
    · exact hc.ne (by decide) h
    · simp at h

/-- **Reducing and running.** -/
theorem run_tree {A : Arith N} {G : Grammar Str} (hG : SOK G) {t : PN Str Str} (h : t.Valid G) :
    ∀ u : List Tok, (t.fringe (isT G)).map kv = u.map tokKv' → (∀ x ∈ u, Fine A x) →
      ∃ t', rawReduce rdcr t () = .ok (t', ()) ∧ Run A t.kind t' u := by
  induction h with
  | @leaf l hl =>
    intro u hu hf
    have hT : isT G l.kind = true := by simp [isT, show G.prods l.kind = none from hl]
    rw [PN.fringe, if_pos hT] at hu
    obtain ⟨⟨K, x⟩, rfl⟩ : ∃ x, u = [x] := by
      match u with
      | [] => simp at hu
      | [x] => exact ⟨x, rfl⟩
      | _ :: _ :: _ => simp at hu
    simp only [List.map_cons, List.map_nil, List.cons.injEq, and_true, kv, tokKv', Prod.mk.injEq] at hu
    obtain ⟨h1, rfl⟩ := hu
    have hn := kn_no K
    rw [← h1] at hn
    have hne : ∀ k ∈ sTable.map (·.1), l.kind ≠ k := fun k hk e => hn (e ▸ hk)
    refine ⟨.node l [], red_tok ?_, fun e => ?_, fun e => ?_, fun e => ?_, fun e => ?_, fun e => ?_, fun _ => ⟨l, K, rfl, h1, h1, rfl, hf _ (by simp)⟩, ?_⟩
    · unfold rdcr
      rw [if_neg (hne _ (by decide)), if_neg (hne _ (by decide)), if_neg (hne _ (by decide)), if_neg (hne _ (by decide)),
        if_neg (hne _ (by decide)), if_neg (hne _ (by decide)), if_neg (hne _ (by decide))]
    · exact absurd e (hne _ (by decide))
    · exact absurd e (hne _ (by decide))
    · exact absurd e (hne _ (by decide))
    · exact absurd e (hne _ (by decide))
    · exact absurd e (hne _ (by decide))
    · intro hk
      exact hn ((by decide : ∀ k ∈ ["Sop".toList, "Smp".toList, "P".toList], k ∈ sTable.map (·.1)) _ hk)
  | @inner l ks k p hr hp hv ih =>
    intro u hu hf
    have hT : isT G l.kind = false := by
      obtain ⟨ps, h1, h2⟩ := hr
      simp [isT, h1]
    rw [PN.fringe, hT] at hu
    obtain ⟨ks', h1, h2⟩ := runs_all ih hu hf
    rw [hp] at h2
    obtain ⟨ps, h3, h4⟩ := hG.inv hr
    have hk : (PN.node l ks).kind = l.kind := rfl
    rw [hk]
    have lst := @red_last l ks
    have tok : ∀ {K : Spec.Scalc.Kind} {t u}, Run A (kn K) t u → ∃ l, t = .node l [] ∧ l.kind = kn K ∧ u = [(K, l.val)] ∧ Fine A (K, l.val) := by
      intro K t u h
      obtain ⟨l, K', h5, h6, h7, h8, h9⟩ := h.token (kn_no K)
      obtain rfl := kn_inj h6
      exact ⟨l, h5, h7, h8, h9⟩
    have notok : ∀ {K : Spec.Scalc.Kind} {t u}, K ∉ frag → Run A (kn K) t u → False := by
      intro K t u hK h
      obtain ⟨l, -, -, -, h9⟩ := tok h
      exact hK h9.frag
    simp only [sTable, List.mem_cons, Prod.mk.injEq, List.not_mem_nil, or_false] at h3
    rcases h3 with ⟨hl, rfl⟩ | ⟨hl, rfl⟩ | ⟨hl, rfl⟩ | ⟨hl, rfl⟩ | ⟨hl, rfl⟩ | ⟨hl, rfl⟩ | ⟨hl, rfl⟩ | ⟨hl, rfl⟩ <;>
      simp only [List.mem_cons, List.not_mem_nil, or_false] at h4
    · rw [hl]
      rcases h4 with rfl | rfl | rfl | rfl
      · cases h2 with
        | cons ga h2 =>
          cases h2 with
          | cons gb h2 => exact absurd (by simp) gb.no
      · cases h2 with
        | cons ga h2 =>
          cases h2 with
          | @cons _ s us _ _ _ gb h2 =>
            cases h2
            obtain ⟨v, hv1, hv2, hv3⟩ := ga.value rfl
            obtain ⟨qs, vs, hq1, hq2, hq3, hq4⟩ := gb.stack rfl
            refine ⟨_, red_stack hl h1, run_stack ⟨_, _, .cons hv1 hq1, ?_, .inr hv2.append, fun ts st out hn => ?_⟩⟩
            · rcases up_push l hv1 hq1 hq2 with h5 | h5
              · exact .inl ⟨l, hl, h5⟩
              · exact .inr h5
            · have hnd : NoDec (us ++ ts) := by
                rcases hq3 with rfl | h
                · exact hn
                · exact h.append.noDec
              rw [List.append_nil, List.append_assoc, hv3 _ _ _ hnd, hq4 _ _ _ hn]
              simp
      · cases h2 with
        | cons ga h2 =>
          cases h2 with
          | cons gb h2 => exact absurd (by simp) gb.no
      · cases h2
        exact ⟨_, red_stack hl h1, run_stack ⟨[], [], .nil, .inl ⟨l, hl, rfl⟩, .inl rfl, fun ts st out _ => rfl⟩⟩
    · rw [hl]
      rcases h4 with rfl | rfl | rfl | rfl | rfl
      · cases h2 with
        | cons ga h2 =>
          cases h2 with
          | cons gb h2 => exact absurd (by simp) gb.no
      · cases h2 with
        | cons ga h2 =>
          cases h2 with
          | cons gb h2 =>
            cases h2 with
            | cons gc h2 =>
              cases h2 with
              | cons gd h2 => exact (notok (K := .choice) (by decide) gd).elim
      · cases h2 with
        | cons ga h2 =>
          cases h2 with
          | cons gb h2 =>
            cases h2
            obtain ⟨v, hv1, hv2, hv3⟩ := ga.value rfl
            obtain ⟨x, rfl, hx1, rfl, hx2⟩ := gb.unary rfl
            obtain ⟨f, hf1, hf2⟩ := hx2.un rfl
            refine ⟨_, lst (pre := [_]) hl (by simp) h1, run_value ⟨_, ⟨evalE_uop A hx1 hv1.1, ?_⟩, hv2.append, fun ts st out hn => ?_⟩⟩
            · show x.kind ∈ _
              rw [hx1]; simp
            · rw [List.append_nil, List.append_assoc, hv3 _ _ _ (by intro y r e; cases e)]
              show exec A ((.uop, x.val) :: ts) (v :: st) out = _
              rw [exec, hf1, hf2]
              rfl
      · cases h2 with
        | cons ga h2 =>
          cases h2 with
          | cons gb h2 =>
            cases h2 with
            | cons gc h2 =>
              cases h2
              obtain ⟨v, hv1, hv2, hv3⟩ := ga.value rfl
              obtain ⟨w, hw1, hw2, hw3⟩ := gb.value rfl
              obtain ⟨x, rfl, hx1, rfl, hx2⟩ := gc.binary rfl
              obtain ⟨f, hf1, hf2⟩ := hx2.bin rfl
              refine ⟨_, lst (pre := [_, _]) hl (by simp) h1, run_value ⟨_, ⟨evalE_bop A hx1 hv1.1 hw1.1, ?_⟩, hv2.append, fun ts st out hn => ?_⟩⟩
              · show x.kind ∈ _
                rw [hx1]; simp
              · rw [List.append_nil, List.append_assoc, List.append_assoc, hv3 _ _ _ hw2.append.noDec, hw3 _ _ _ (by intro y r e; cases e)]
                show exec A ((.bop, x.val) :: ts) (w :: v :: st) out = _
                rw [exec, hf1, hf2]
                rfl
      · cases h2 with
        | cons ga h2 =>
          cases h2
          obtain ⟨x, hx, ⟨a, rfl, rfl⟩ | ⟨a, b, rfl, rfl⟩⟩ := ga.number rfl
          · refine ⟨_, lst (pre := []) hl (by simp) h1, run_value ⟨_, ⟨evalE_num1 A hx, ?_⟩, ⟨_, _, rfl⟩, fun ts st out hn => ?_⟩⟩
            · show x.kind ∈ _
              rw [hx]; simp
            · exact exec_int A hn st out
          · refine ⟨_, lst (pre := []) hl (by simp) h1, run_value ⟨_, ⟨evalE_num2 A hx, ?_⟩, ⟨_, _, rfl⟩, fun ts st out hn => ?_⟩⟩
            · show x.kind ∈ _
              rw [hx]; simp
            · show exec A ((.int, a.val) :: (.dec, b.val) :: ts) st out = _
              rw [exec]
    · rw [hl]
      have mk : ∀ {t : PN Str Str} {u : List Tok}, (∃ l, l.kind = "Number".toList ∧ ((∃ a, t = .node l [.node a []] ∧ u = [(.int, a.val)]) ∨
          ∃ a b, t = .node l [.node a [], .node b []] ∧ u = [(.int, a.val), (.dec, b.val)])) → Run A "Number".toList t u := fun h =>
        ⟨fun e => absurd e (by decide), fun e => absurd e (by decide), fun _ => h, fun e => absurd e (by decide), fun e => absurd e (by decide),
          fun e => absurd (by decide) e, by decide⟩
      have kp := red_keep hl rd_Number h1
      rcases h4 with rfl | rfl
      · cases h2 with
        | cons ga h2 =>
          cases h2
          obtain ⟨a, rfl, -, rfl, -⟩ := tok (K := .int) ga
          exact ⟨_, kp, mk ⟨l, hl, .inl ⟨a, rfl, rfl⟩⟩⟩
      · cases h2 with
        | cons ga h2 =>
          cases h2 with
          | cons gb h2 =>
            cases h2
            obtain ⟨a, rfl, -, rfl, -⟩ := tok (K := .int) ga
            obtain ⟨b, rfl, -, rfl, -⟩ := tok (K := .dec) gb
            exact ⟨_, kp, mk ⟨l, hl, .inr ⟨a, b, rfl, rfl⟩⟩⟩
    · subst h4
      cases h2 with
      | cons ga h2 => exact (notok (K := .opening) (by decide) ga).elim
    · rw [hl]
      rcases h4 with rfl | rfl
      · cases h2 with
        | cons ga h2 =>
          cases h2
          obtain ⟨a, rfl, ha, rfl, hfa⟩ := tok (K := .bop) ga
          exact ⟨_, lst (pre := []) hl (by simp) h1, fun e => absurd e (by decide), fun e => absurd e (by decide), fun e => absurd e (by decide),
            fun e => absurd e (by decide), fun _ => ⟨a, rfl, ha, rfl, hfa⟩, fun e => absurd (by decide) e, by decide⟩
      · cases h2 with
        | cons ga h2 =>
          cases h2 with
          | cons gb h2 =>
            cases h2 with
            | cons gc h2 =>
              cases h2 with
              | cons gd h2 => exact (notok (K := .choice) (by decide) gd).elim
    · rw [hl]
      rcases h4 with rfl | rfl
      · cases h2 with
        | cons ga h2 =>
          cases h2
          obtain ⟨a, rfl, ha, rfl, hfa⟩ := tok (K := .uop) ga
          exact ⟨_, lst (pre := []) hl (by simp) h1, fun e => absurd e (by decide), fun e => absurd e (by decide), fun e => absurd e (by decide),
            fun _ => ⟨a, rfl, ha, rfl, hfa⟩, fun e => absurd e (by decide), fun e => absurd (by decide) e, by decide⟩
      · cases h2 with
        | cons ga h2 =>
          cases h2 with
          | cons gb h2 =>
            cases h2 with
            | cons gc h2 =>
              cases h2 with
              | cons gd h2 => exact (notok (K := .choice) (by decide) gd).elim
    · rcases h4 with rfl | rfl
      · cases h2 with
        | cons ga h2 => exact (notok (K := .sop) (by decide) ga).elim
      · cases h2 with
        | cons ga h2 => exact absurd (by simp) ga.no
    · rcases h4 with rfl | rfl
      · cases h2 with
        | cons ga h2 => exact absurd (by simp) ga.no
      · cases h2 with
        | cons ga h2 => exact (notok (K := .smp) (by decide) ga).elim

/-- The values of the machine are a stack. -/
theorem exec_is {A : Arith N} {cs : List Tok} {out : List (List (PF N))} (hcs : NoDec cs) : ∀ (ts : List Tok) (st : List (PF N)) (ws : List (List Spec.Scalc.Kind)) {r}, (∀ x ∈ ts, x.1 ∈ frag) →
    ws.length = st.length → (∀ w ∈ ws, Is .value w) → exec A (ts ++ cs) st out = some r → Is .stack (ws.reverse.flatten ++ ts.map (·.1)) := by
  have base : ∀ ws : List (List Spec.Scalc.Kind), (∀ w ∈ ws, Is .value w) → Is .stack ws.flatten := by
    intro ws h
    induction ws with
    | nil => exact .none
    | cons w ws ih => exact .push (h w (by simp)) (ih fun w hw => h w (by simp [hw]))
  intro ts
  induction hn : ts.length using Nat.strongRecOn generalizing ts with
  | ind n ih =>
    intro st ws r hf hlen hw he
    subst hn
    have push : ∀ ⦃w : List Spec.Scalc.Kind⦄ ⦃rest : List Tok⦄ ⦃v : PF N⦄ ⦃st' : List (PF N)⦄ ⦃ws' : List (List Spec.Scalc.Kind)⦄, rest.length < ts.length → (∀ x ∈ rest, x ∈ ts) →
        Is .value w → ws'.length = st'.length → (∀ w ∈ ws', Is .value w) → exec A (rest ++ cs) (v :: st') out = some r →
        Is .stack (ws'.reverse.flatten ++ (w ++ rest.map (·.1))) := by
      intro w rest v st' ws' h1 h2 h3 h4 h5 h6
      have := ih rest.length h1 rest rfl (v :: st') (w :: ws') (fun x hx => hf x (h2 x hx)) (by simp [h4])
        (by simpa using ⟨h3, h5⟩) h6
      simpa using this
    clear ih
    match ts, hf, he, push with
    | [], hf, he, push => simpa using base ws.reverse (fun w h => hw w (by simpa using h))
    | (.int, x) :: ts, hf, he, push =>
      by_cases hd : NoDec (ts ++ cs)
      · rw [List.cons_append, exec_int A hd] at he
        exact push (w := [.int]) (by simp) (fun _ h => by simp [h]) .int hlen hw he
      · have : ∃ y r, ts = (.dec, y) :: r := by
          apply Classical.byContradiction
          refine fun h => hd fun y r e => ?_
          cases ts with
          | nil => exact hcs _ _ e
          | cons z ts => cases e; exact h ⟨_, _, rfl⟩
        obtain ⟨y, r', rfl⟩ := this
        rw [List.cons_append, List.cons_append, exec] at he
        exact push (w := [.int, .dec]) (rest := r') (by simp; omega) (fun _ h => by simp [h]) .dec hlen hw he
    | (.dec, x) :: ts, hf, he, push => simp [exec] at he
    | (.uop, x) :: ts, hf, he, push =>
      match st, ws, hlen, hw, he with
      | [], _, _, _, he => simp [exec] at he
      | a :: st, w :: ws, hlen, hw, he =>
        rw [List.cons_append, exec] at he
        obtain ⟨f, -, he⟩ := Option.bind_eq_some_iff.1 he
        have := push (w := w ++ [.uop]) (rest := ts) (ws' := ws) (by simp) (fun _ h => by simp [h])
          (.un (hw w (by simp)) (.op (by simp [operators]))) (by simpa using hlen) (fun w h => hw w (by simp [h])) he
        simpa using this
    | (.bop, x) :: ts, hf, he, push =>
      match st, ws, hlen, hw, he with
      | [], _, _, _, he => simp [exec] at he
      | [a], _, _, _, he => simp [exec] at he
      | b :: a :: st, w :: w' :: ws, hlen, hw, he =>
        rw [List.cons_append, exec] at he
        obtain ⟨f, -, he⟩ := Option.bind_eq_some_iff.1 he
        have := push (w := w' ++ (w ++ [.bop])) (rest := ts) (ws' := ws) (by simp) (fun _ h => by simp [h])
          (.bin (hw w' (by simp)) (hw w (by simp)) (.op (by simp [operators]))) (by simpa using hlen) (fun w h => hw w (by simp [h])) he
        simpa using this
    | (.sop, x) :: ts, hf, he, push | (.smp, x) :: ts, hf, he, push | (.choice, x) :: ts, hf, he, push | (.opening, x) :: ts, hf, he, push | (.closing, x) :: ts, hf, he, push =>
      exact absurd (hf _ (.head _)) (by simp [frag])

/-- Evaluating values. -/
theorem evalAll_ev {A : Arith N} {ks : List (PN Str Str)} {vs : List (PF N)} (h : List.Forall₂ (EV A) ks vs) :
    Out.Returns (fun n => evalAll (evalE A n) ks) vs := by
  induction h with
  | nil => exact returns_const _
  | cons h _ ih => exact returns_bind h.1 (returns_bind ih (returns_const _))

theorem evalStack_ev {A : Arith N} {t : PN Str Str} {ks : List (PN Str Str)} {vs : List (PF N)} (h : List.Forall₂ (EV A) ks vs)
    (ht : (∃ l, l.kind = "Stack".toList ∧ t = .node l ks) ∨ ks = [t]) : Out.Returns (fun n => evalStack A n t) vs := by
  rcases ht with ⟨l, hl, rfl⟩ | rfl
  · refine returns_succ (g := fun n => evalAll (evalE A n) ks) (fun n => ?_) (evalAll_ev h)
    have h0 : (PN.node l ks).kind = "Stack".toList := hl
    rw [evalStack, h0, if_neg (by decide), if_neg (by decide), if_pos rfl]
    rfl
  · cases h with
    | cons h h' =>
      cases h'
      refine returns_succ (g := fun n => (evalE A n t).bind fun v => .ok [v]) (fun n => ?_) (returns_bind h.1 (returns_const _))
      rw [evalStack, if_neg (h.ne (by decide)), if_neg (h.ne (by decide)), if_neg (h.ne (by decide))]

/-- **Evaluating programs of numbers, unary and binary operators.** -/
theorem eval_frag {A : Arith N} {G : Grammar Str} (hg : grmr = .ok G) (hG : SOK G) {ls : List (Lexeme Str Str)} {ts : List Tok}
    (hls : ls.map kv = ts.map tokKv') (hf : ∀ x ∈ ts, Fine A x) : Out.Returns (fun n => evalLexemes A n ls) (exec A ts [] []) := by
  have hk : ls.map (·.kind) = (ts.map (·.1)).map kn := by
    have := congrArg (List.map Prod.fst) hls
    simpa [Function.comp_def, kv, tokKv'] using this
  have ht : ∀ l ∈ ls, G.Term l.kind := by
    intro l hl
    have : l.kind ∈ ls.map (·.kind) := List.mem_map.2 ⟨l, hl, rfl⟩
    rw [hk] at this
    obtain ⟨k, -, e⟩ := List.mem_map.1 this
    rw [← e]
    exact hG.term k
  by_cases hs : G.Sentence (ls.map (·.kind))
  · obtain ⟨t, ⟨K, hK⟩, hp⟩ := Props.Packrat.C20_complete [] G hG.wf ls ht hs
    obtain ⟨t', h1, h2⟩ := run_tree hG hp.2.1 ts (by rw [hp.2.2]; exact hls) hf
    have h0 : G.order.head? = some (pn .stack) := by rw [hG.order]; rfl
    have hk : t.kind = "Stack".toList := by
      have := hp.1
      rw [h0] at this
      exact (Option.some.inj this).symm
    obtain ⟨ks, vs, h3, h4, -, h5⟩ := h2.stack hk
    obtain ⟨J, hJ⟩ := evalStack_ev h3 h4
    have h6 : exec A ts [] [] = some vs := by
      have := h5 [] [] [] (by intro y r e; cases e)
      simpa [exec] using this
    rw [h6]
    refine ⟨max K J, fun n hn => ?_⟩
    simp only [evalLexemes, parseLexemes]
    rw [hg, Out.bind_ok, hK n (by omega), Out.bind_ok, Tree.reduce, h1, Out.bind_ok, Out.bind_ok, Out.bind_ok]
    simp only
    rw [show evalStack A n t' = _ from hJ n (by omega), Out.bind_ok]
  · have h1 := (eval_lexemes A hg hG ht).2 hs
    cases he : exec A ts [] [] with
    | none => exact h1
    | some r =>
      exfalso
      apply hs
      rw [hk, sentence_iff hG]
      simpa using exec_is (cs := []) (out := []) (by intro y r e; cases e) ts [] [] (fun x hx => (hf x hx).frag) rfl (by simp) (by simpa using he)

theorem prec_eq (a b : PF N) : maxPrecision [a, b] = prec a b := by
  simp only [maxPrecision, List.foldl_cons, List.foldl_nil, prec]
  split <;> split <;> omega

theorem un_ok (A : Arith N) : ∀ w, (Spec.Scalc.Kind.uop, w) ∈ words → ∃ f, named (unary A) (nameOf w) = some f ∧ ∀ a, evalUop A a (nameOf w) = ⟨f a.V, a.P⟩ := by
  intro w hw
  simp only [words, List.mem_cons, Prod.mk.injEq, List.not_mem_nil, or_false, reduceCtorEq, false_and, true_and] at hw
  rcases hw with rfl | rfl
  · exact ⟨A.neg, rfl, fun a => rfl⟩
  · refine ⟨fun a => if A.lt a A.zero then A.neg a else a, rfl, fun a => ?_⟩
    show (if A.lt a.V A.zero = true then _ else _) = _
    split
    · next h => simp [h]
    · next h => simp [h]

theorem bin_ok (A : Arith N) : ∀ w, (Spec.Scalc.Kind.bop, w) ∈ words → ∃ f, named (binary A) (nameOf w) = some f ∧ ∀ a b, evalBop A a b (nameOf w) = ⟨f a.V b.V, prec a b⟩ := by
  intro w hw
  simp only [words, List.mem_cons, Prod.mk.injEq, List.not_mem_nil, or_false, reduceCtorEq, false_and, true_and, false_or] at hw
  have fin : ∀ {x : N} {a b : PF N}, (⟨x, maxPrecision [a, b]⟩ : PF N) = ⟨x, prec a b⟩ := fun {x a b} => by rw [prec_eq]
  rcases hw with rfl | rfl | rfl | rfl | rfl | rfl | rfl | rfl | rfl | rfl <;> exact ⟨_, rfl, fun a b => fin⟩

theorem text_fine (A : Arith N) {b : SimpleLexer.Bytes} {ts : List Tok} (h : SText b ts) : ∀ x ∈ ts, x.1 ∈ frag → Fine A x := by
  induction h with
  | done => simp
  | space _ _ ih => exact ih
  | int _ _ _ _ _ ih =>
    intro x hx hf
    rcases List.mem_cons.1 hx with rfl | hx
    · exact ⟨hf, fun e => by simp at e, fun e => by simp at e⟩
    · exact ih x hx hf
  | dec _ _ _ _ ih =>
    intro x hx hf
    rcases List.mem_cons.1 hx with rfl | hx
    · exact ⟨hf, fun e => by simp at e, fun e => by simp at e⟩
    · exact ih x hx hf
  | word h _ _ _ ih =>
    intro x hx hf
    rcases List.mem_cons.1 hx with rfl | hx
    · refine ⟨hf, ?_, ?_⟩
      · rintro rfl
        exact un_ok A _ h
      · rintro rfl
        exact bin_ok A _ h
    · exact ih x hx hf

/-! ### More fuel -/

theorem evalAll_mono {f g : PN Str Str → Out (PF N)} (h : ∀ t, Out.Le (f t) (g t)) : ∀ ts, Out.Le (evalAll f ts) (evalAll g ts)
  | [] => .refl _
  | t :: ts => (h t).bind fun _ => (evalAll_mono h ts).bind fun _ => .refl _

theorem eval_mono (A : Arith N) : ∀ n m, n ≤ m → ∀ t, Out.Le (evalE A n t) (evalE A m t) ∧ Out.Le (evalStack A n t) (evalStack A m t) := by
  intro n
  induction n with
  | zero => intro m _ t; exact ⟨.inl (by rw [evalE]), .inl (by rw [evalStack])⟩
  | succ n ih =>
    intro m hm t
    obtain ⟨m, rfl⟩ : ∃ k, m = k + 1 := ⟨m - 1, by omega⟩
    have ih := ih m (by omega)
    constructor
    · rw [evalE, evalE]
      split
      · exact .refl _
      split
      · exact Out.Le.bind (.refl _) fun a => (ih a).1.bind fun _ => .refl _
      split
      · exact Out.Le.bind (.refl _) fun a => Out.Le.bind (.refl _) fun b => (ih a).1.bind fun _ => (ih b).1.bind fun _ => .refl _
      split
      · exact Out.Le.bind (.refl _) fun a => (ih a).2.bind fun _ => .refl _
      · exact .refl _
    · rw [evalStack, evalStack]
      split
      · refine Out.Le.bind (.refl _) fun c => ?_
        cases c with
        | none => exact .refl _
        | some c =>
          exact (ih c).1.bind fun v => Out.Le.bind (.refl _) fun r => Out.Le.bind (.refl _) fun r => Out.Le.bind (.refl _) fun r => (ih _).2
      split
      · exact evalAll_mono (fun t => (ih t).1) _
      split
      · exact evalAll_mono (fun t => (ih t).1) _
      · exact (ih t).1.bind fun _ => .refl _

theorem evalText_mono (A : Arith N) (l : SimpleLexer.Lexer) (b : SimpleLexer.Bytes) (n m : Nat) (h : n ≤ m) :
    Out.Le (evalText A n l b) (evalText A m l b) := by
  refine (SimpleLexer.lex_mono l b n m h).bind fun r => Out.Le.bind (Out.Le.bind ?_ ?_) fun _ => .refl _
  · exact Out.Le.bind (.refl _) fun g => (Packrat.parse_mono [] g _ n m h).bind fun _ => .refl _
  · intro o
    cases o with
    | none => exact .refl _
    | some t => exact (eval_mono A n m h t).2.bind fun _ => .refl _

end Verif.Scalc
