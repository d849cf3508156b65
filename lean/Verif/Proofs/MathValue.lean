import Verif.Proofs.MathTree
import Verif.Model.MathText
import Mathlib.Tactic.SplitIfs
/-
The value of the tree is that of the expression.
-/
namespace Verif.PMath
open Verif Verif.Spec Verif.Spec.Math Verif.Packrat

/-- The index of a token's kind. -/
def code : Tok → Nat
  | .num _ => 3
  | .plus => 1
  | .minus => 1
  | .times => 2
  | .over => 2
  | .opening => 5
  | .closing => 6

/-- Kind and text of a token as a lexeme. -/
def tokKv : Tok → Str × Str
  | .num s => ("number".toList, s)
  | .plus => ("op2".toList, "+".toList)
  | .minus => ("op2".toList, "-".toList)
  | .times => ("op1".toList, "*".toList)
  | .over => ("op1".toList, "/".toList)
  | .opening => ("(".toList, "(".toList)
  | .closing => (")".toList, ")".toList)

theorem code_1 {t} (h : code t = 1) : t = .plus ∨ t = .minus := by cases t <;> simp [code] at h ⊢
theorem code_2 {t} (h : code t = 2) : t = .times ∨ t = .over := by cases t <;> simp [code] at h ⊢
theorem code_3 {t} (h : code t = 3) : ∃ s, t = .num s := by cases t <;> simp [code] at h ⊢
theorem code_5 {t} (h : code t = 5) : t = .opening := by cases t <;> simp [code] at h ⊢
theorem code_6 {t} (h : code t = 6) : t = .closing := by cases t <;> simp [code] at h ⊢

/-- The tokens from `s` up to `e`. -/
def At (ts : List Tok) (s e : Nat) (us : List Tok) : Prop :=
  ∃ pre post, ts = pre ++ (us ++ post) ∧ pre.length = s ∧ e = s + us.length

variable {ts : List Tok} {N : Type} {A : Arith N}

theorem At.app {s e a o b} (h : At ts s e (a ++ o :: b)) :
    At ts s (s + a.length) a ∧ ts[s + a.length]? = some o ∧ At ts (s + a.length + 1) e b := by
  obtain ⟨pre, post, rfl, rfl, rfl⟩ := h
  refine ⟨⟨pre, o :: b ++ post, by simp, rfl, rfl⟩, by simp, ⟨pre ++ a ++ [o], post, by simp, by simp; omega, by simp; omega⟩⟩

theorem At.one {s e o} (h : At ts s e [o]) : ts[s]? = some o ∧ e = s + 1 := by
  have := h.app (a := [])
  obtain ⟨_, h2, pre, post, _, _, h3⟩ := this
  exact ⟨by simpa using h2, by simpa using h3⟩

theorem At.cons {s e o b} (h : At ts s e (o :: b)) : ts[s]? = some o ∧ At ts (s + 1) e b := by
  have := h.app (a := [])
  exact ⟨by simpa using this.2.1, by simpa using this.2.2⟩

theorem At.snoc {s e a o} (h : At ts s e (a ++ [o])) : ∃ e', e = e' + 1 ∧ At ts s e' a ∧ ts[e']? = some o := by
  obtain ⟨h1, h2, h3⟩ := h.app
  obtain ⟨_, _, _, _, h4⟩ := h3
  exact ⟨_, by simpa using h4, h1, h2⟩

theorem At.glue {s q e a o b} (h : At ts s q a) (ho : ts[q]? = some o) (h' : At ts (q + 1) e b) : At ts s e (a ++ o :: b) := by
  obtain ⟨pre, post, h1, h2, h3⟩ := h
  obtain ⟨pre', post', h4, h5, h6⟩ := h'
  have e1 : pre' = pre ++ a ++ [o] := by
    have l1 : (pre ++ a).length = q := by simp; omega
    have l2 : ts.take (q + 1) = pre' := by rw [h4, ← h5]; simp
    rw [← l2, List.take_add_one, ho]
    congr 1
    rw [h1, ← List.append_assoc, ← l1, List.take_left]
  subst e1
  exact ⟨pre, post', by rw [h4]; simp, h2, by simp; omega⟩

theorem At.single {s o} (h : ts[s]? = some o) : At ts s (s + 1) [o] := by
  obtain ⟨hl, e⟩ := List.getElem?_eq_some_iff.1 h
  refine ⟨ts.take s, ts.drop (s + 1), ?_, by simp; omega, rfl⟩
  rw [← e]
  simp

theorem At.full : At ts 0 ts.length ts := ⟨[], [], by simp, rfl, by simp⟩

theorem At.full_eq {us} (h : At ts 0 ts.length us) : us = ts := by
  obtain ⟨pre, post, h1, h2, h3⟩ := h
  obtain rfl := List.length_eq_zero_iff.1 h2
  have h4 := congrArg List.length h1
  simp only [List.nil_append, List.length_append] at h1 h4
  obtain rfl : post = [] := List.length_eq_zero_iff.1 (by omega)
  simp [h1]

theorem lex_at {q : Nat} {o} (h : ts[q]? = some o) : (ts.map code)[q]? = some (code o) := by rw [List.getElem?_map, h]; rfl

theorem at_lex {q x : Nat} (h : (ts.map code)[q]? = some x) : ∃ o, ts[q]? = some o ∧ code o = x := by
  rw [List.getElem?_map] at h
  cases ho : ts[q]? with
  | none => rw [ho] at h; cases h
  | some o => rw [ho] at h; exact ⟨o, rfl, by simpa using h⟩

/-! ### From readings to spans -/

theorem reads_ex {p us v} (h : Reads A p us v) : ∀ {s e}, At ts s e us →
    Ex (ts.map code) s e ∧ (p = .factor → Atm (ts.map code) s e) := by
  have sum : ∀ {a o b s e}, At ts s e (a ++ o :: b) → code o = 1 ∨ code o = 2 →
      (∀ {s e}, At ts s e a → Ex (ts.map code) s e ∧ True) → (∀ {s e}, At ts s e b → Ex (ts.map code) s e ∧ True) →
      Ex (ts.map code) s e := by
    intro a o b s e h ho ha hb
    obtain ⟨h1, h2, h3⟩ := h.app
    refine (ha h1).1.app ?_ (hb h3).1
    have := lex_at h2
    rcases ho with ho | ho <;> rw [ho] at this
    · exact .inl this
    · exact .inr this
  induction h with
  | num =>
    intro s e h
    obtain ⟨h1, rfl⟩ := h.one
    have h2 : Atm (ts.map code) s (s + 1) := .num (lex_at h1)
    exact ⟨.one h2, fun _ => h2⟩
  | pos | neg =>
    intro s e h
    obtain ⟨h1, h2⟩ := h.cons
    obtain ⟨h3, rfl⟩ := h2.one
    have h2 : Atm (ts.map code) s (s + 2) := .un (lex_at h1) (lex_at h3)
    exact ⟨.one h2, fun _ => h2⟩
  | group _ ih =>
    intro s e h
    obtain ⟨h1, h2⟩ := h.cons
    obtain ⟨e', rfl, h3, h4⟩ := h2.snoc
    have h2 : Atm (ts.map code) s (e' + 1) := .par (lex_at h1) (ih h3).1 (lex_at h4)
    exact ⟨.one h2, fun _ => h2⟩
  | factor _ ih => intro s e h; exact ⟨(ih h).1, fun h => by cases h⟩
  | term _ ih => intro s e h; exact ⟨(ih h).1, fun h => by cases h⟩
  | mul _ _ ih1 ih2 | div _ _ ih1 ih2 =>
    intro s e h
    exact ⟨sum h (.inr rfl) (fun h => ⟨(ih1 h).1, trivial⟩) (fun h => ⟨(ih2 h).1, trivial⟩), fun h => by cases h⟩
  | add _ _ ih1 ih2 | sub _ _ ih1 ih2 =>
    intro s e h
    exact ⟨sum h (.inl rfl) (fun h => ⟨(ih1 h).1, trivial⟩) (fun h => ⟨(ih2 h).1, trivial⟩), fun h => by cases h⟩

/-- A term has no `+` or `-` outside of parentheses, apart from signs. -/
theorem term_no_op2 {p us v} (h : Reads A p us v) : ∀ {s e q}, p ≠ .expr → At ts s e us → Ex (ts.map code) s q →
    (ts.map code)[q]? = some 1 → Ex (ts.map code) (q + 1) e → False := by
  have atom : ∀ {us v s e q}, Reads A .factor us v → At ts s e us → Ex (ts.map code) s q →
    (ts.map code)[q]? = some 1 → Ex (ts.map code) (q + 1) e → False := fun h1 h2 h3 h4 h5 =>
      ((reads_ex h1 h2).2 rfl).not_cmp (h3.split (.inl h4) h5)
  have prod : ∀ {a o b x y s e q}, Reads A .term a x → Reads A .factor b y → code o = 2 → At ts s e (a ++ o :: b) →
      (∀ {s e q}, At ts s e a → Ex (ts.map code) s q → (ts.map code)[q]? = some 1 → Ex (ts.map code) (q + 1) e → False) →
      Ex (ts.map code) s q → (ts.map code)[q]? = some 1 → Ex (ts.map code) (q + 1) e → False := by
    intro a o b x y s e q ha hb ho h ih h1 h2 h3
    obtain ⟨h4, h5, h6⟩ := h.app
    have h5 := lex_at h5
    rw [ho] at h5
    generalize s + a.length = r at *
    have hr := (reads_ex ha h4).1
    rcases Nat.lt_trichotomy q r with hl | hl | hl
    · exact ih h4 h1 h2 (h1.shorter hr hl).2
    · subst hl; rw [h2] at h5; simp at h5
    · exact ((reads_ex hb h6).2 rfl).not_cmp ((hr.shorter h1 hl).2.split (.inl h2) h3)
  induction h with
  | num => intro s e q _; exact atom .num
  | pos => intro s e q _; exact atom .pos
  | neg => intro s e q _; exact atom .neg
  | group h _ => intro s e q _; exact atom (.group h)
  | factor h _ => intro s e q _; exact atom h
  | mul h1 h2 ih _ => intro s e q _ h; exact prod h1 h2 rfl h (ih (by simp))
  | div h1 h2 ih _ => intro s e q _ h; exact prod h1 h2 rfl h (ih (by simp))
  | term | add | sub => intro s e q h; exact absurd rfl h

/-! ### From spans to readings -/

theorem reads_snoc {p us x} (h : Reads A p us x) : ∀ {o b y}, p ≠ .factor → code o = 1 ∨ code o = 2 → Reads A .factor b y →
    ∃ w, Reads A .expr (us ++ o :: b) w ∧ (p = .term → code o = 2 → Reads A .term (us ++ o :: b) w) := by
  have plus : ∀ {us x o b y}, Reads A .expr us x → code o = 1 → Reads A .factor b y → ∃ w, Reads A .expr (us ++ o :: b) w := by
    intro us x o b y h1 ho h2
    rcases code_1 ho with rfl | rfl
    · exact ⟨_, .add h1 (.factor h2)⟩
    · exact ⟨_, .sub h1 (.factor h2)⟩
  have times : ∀ {us x o b y}, Reads A .term us x → code o = 2 → Reads A .factor b y → ∃ w, Reads A .term (us ++ o :: b) w := by
    intro us x o b y h1 ho h2
    rcases code_2 ho with rfl | rfl
    · exact ⟨_, .mul h1 h2⟩
    · exact ⟨_, .div h1 h2⟩
  have term : ∀ {us x o b y}, Reads A .term us x → code o = 1 ∨ code o = 2 → Reads A .factor b y →
      ∃ w, Reads A .expr (us ++ o :: b) w ∧ (Part.term = .term → code o = 2 → Reads A .term (us ++ o :: b) w) := by
    intro us x o b y h1 ho h2
    rcases ho with ho | ho
    · obtain ⟨w, hw⟩ := plus (.term h1) ho h2
      exact ⟨w, hw, fun _ h => by omega⟩
    · obtain ⟨w, hw⟩ := times h1 ho h2
      exact ⟨w, .term hw, fun _ _ => hw⟩
  induction h with
  | num | pos | neg | group => intro o b y h; exact absurd rfl h
  | factor h _ => intro o b y _; exact term (.factor h)
  | mul h1 h2 _ _ => intro o b y _; exact term (.mul h1 h2)
  | div h1 h2 _ _ => intro o b y _; exact term (.div h1 h2)
  | term h _ =>
    intro o b y _ ho h2
    obtain ⟨w, hw, _⟩ := term h ho h2
    exact ⟨w, hw, fun h => by cases h⟩
  | add h1 h2 _ ih =>
    intro o b y _ ho h3
    rcases ho with ho | ho
    · obtain ⟨w, hw⟩ := plus (.add h1 h2) ho h3
      exact ⟨w, hw, fun h => by cases h⟩
    · obtain ⟨w, hw⟩ := times h2 ho h3
      refine ⟨_, by simpa using Reads.add h1 hw, fun h => by cases h⟩
  | sub h1 h2 _ ih =>
    intro o b y _ ho h3
    rcases ho with ho | ho
    · obtain ⟨w, hw⟩ := plus (.sub h1 h2) ho h3
      exact ⟨w, hw, fun h => by cases h⟩
    · obtain ⟨w, hw⟩ := times h2 ho h3
      refine ⟨_, by simpa using Reads.sub h1 hw, fun h => by cases h⟩

theorem ex_reads_aux (A : Arith N) : ∀ n s e, e ≤ s + n →
    (Atm (ts.map code) s e → ∃ us v, At ts s e us ∧ Reads A .factor us v) ∧
    (Ex (ts.map code) s e → ∃ us v, At ts s e us ∧ Reads A .expr us v) := by
  intro n
  induction n with
  | zero => intro s e hn; exact ⟨fun h => by have := h.lt; omega, fun h => by have := h.lt; omega⟩
  | succ n ih =>
    intro s e hn
    have ha : Atm (ts.map code) s e → ∃ us v, At ts s e us ∧ Reads A .factor us v := by
      intro h
      cases h with
      | num h =>
        obtain ⟨o, h1, h2⟩ := at_lex h
        obtain ⟨x, rfl⟩ := code_3 h2
        exact ⟨_, _, .single h1, .num⟩
      | un h h' =>
        obtain ⟨o, h1, h2⟩ := at_lex h
        obtain ⟨o', h3, h4⟩ := at_lex h'
        obtain ⟨x, rfl⟩ := code_3 h4
        have := At.glue (a := []) (s := s) (q := s) ⟨ts.take s, ts.drop s, by simp, by
          have := (List.getElem?_eq_some_iff.1 h1).1
          simp; omega, rfl⟩ h1 (.single h3)
        rcases code_1 h2 with rfl | rfl
        · exact ⟨_, _, this, .pos⟩
        · exact ⟨_, _, this, .neg⟩
      | @par _ e' h1 hx h2 =>
        have := hx.lt
        obtain ⟨us, v, h3, h4⟩ := (ih (s + 1) e' (by omega)).2 hx
        obtain ⟨o, g1, g2⟩ := at_lex h1
        obtain ⟨o', g3, g4⟩ := at_lex h2
        rw [code_5 g2] at g1
        rw [code_6 g4] at g3
        have e1 := At.glue (a := []) (s := s) (q := s) ⟨ts.take s, ts.drop s, by simp, by
          have := (List.getElem?_eq_some_iff.1 g1).1
          simp; omega, rfl⟩ g1 h3
        have := At.glue (b := []) e1 g3 ⟨ts.take (e' + 1), ts.drop (e' + 1), by simp, by
          have := (List.getElem?_eq_some_iff.1 g3).1
          simp; omega, rfl⟩
        exact ⟨_, _, this, by simpa using Reads.group h4⟩
    refine ⟨ha, fun h => ?_⟩
    rcases h.cases' with h | h
    · obtain ⟨us, v, h1, h2⟩ := ha h
      exact ⟨us, v, h1, .term (.factor h2)⟩
    · obtain ⟨r, h1, h2, h3⟩ := h.last_atom
      have := h1.lt
      have := h3.lt
      obtain ⟨us, v, g1, g2⟩ := (ih s r (by omega)).2 h1
      obtain ⟨vs, w, g3, g4⟩ := (ih (r + 1) e (by omega)).1 h3
      obtain ⟨o, g5, g6⟩ : ∃ o, ts[r]? = some o ∧ (code o = 1 ∨ code o = 2) := by
        rcases h2 with h2 | h2
        · obtain ⟨o, a, b⟩ := at_lex h2; exact ⟨o, a, .inl b⟩
        · obtain ⟨o, a, b⟩ := at_lex h2; exact ⟨o, a, .inr b⟩
      obtain ⟨x, hx, _⟩ := reads_snoc g2 (by simp) g6 g4
      exact ⟨_, x, g1.glue g5 g3, hx⟩

theorem ex_reads (A : Arith N) (h : Ex (ts.map code) 0 ts.length) : ∃ v, Reads A .expr ts v := by
  obtain ⟨us, v, h1, h2⟩ := (ex_reads_aux A ts.length 0 ts.length (by omega)).2 h
  rw [h1.full_eq] at h2
  exact ⟨v, h2⟩

/-! ### Trees -/

/-- The tree is reduced to one with this value. -/
def Gives (A : Arith N) (t : PN Str Str) (v : N) : Prop :=
  ∃ t', Tree.rawReduce reducer t () = .ok (t', ()) ∧ eval A t' = .ok v

theorem red_leaf {l : Lexeme Str Str} (h : reducer l.kind = none) :
    Tree.rawReduce reducer (.node l []) () = .ok (.node l [], ()) := by
  simp [Tree.rawReduce, Tree.rawReduces, h]

theorem red_E : reducer "E".toList = some (Tree.lift1 reduceE) := by simp [reducer]
theorem red_P : reducer "P".toList = some (Tree.ROp.red 0 (.replaceWithChild 1)) := by simp [reducer]
theorem red_tok (t : Tok) : reducer (tokKv t).1 = none := by cases t <;> simp [reducer, tokKv]

theorem red_node {a : Lexeme Str Str} {ks ks' t' k} {g : Tree.Fn Unit Str Str} (ha : a.kind = k) (hk : reducer k = some (some g))
    (h : Tree.rawReduces reducer ks () = .ok (ks', ())) (hg : g (.node a ks') () = .ok (t', ())) :
    Tree.rawReduce reducer (.node a ks) () = .ok (t', ()) := by
  rw [Tree.rawReduce, h, Out.bind_ok, ha, hk]
  exact hg

theorem reds_cons {t t' ts ts'} (h : Tree.rawReduce reducer t () = .ok (t', ())) (hs : Tree.rawReduces reducer ts () = .ok (ts', ())) :
    Tree.rawReduces reducer (t :: ts) () = .ok (t' :: ts', ()) := by
  rw [Tree.rawReduces, h, Out.bind_ok, hs, Out.bind_ok]

theorem reds_nil : Tree.rawReduces reducer [] () = .ok ([], ()) := rfl

theorem red_one {a : Lexeme Str Str} {t t'} (ha : a.kind = "E".toList) (h : Tree.rawReduce reducer t () = .ok (t', ())) :
    Tree.rawReduce reducer (.node a [t]) () = .ok (t', ()) := by
  refine red_node ha red_E (reds_cons h reds_nil) ?_
  cases t' with | node l ks => simp [reduceE, Tree.promoteChild, Tree.getIdx, Tree.index, Tree.slice, PN.kids, PN.lx]

theorem red_two {a : Lexeme Str Str} {l t t'} (ha : a.kind = "E".toList) (hl : reducer l.kind = none)
    (h : Tree.rawReduce reducer t () = .ok (t', ())) :
    Tree.rawReduce reducer (.node a [.node l [], t]) () = .ok (.node l [t'], ()) := by
  refine red_node ha red_E (reds_cons (red_leaf hl) (reds_cons h reds_nil)) ?_
  simp [reduceE, Tree.promoteChild, Tree.getIdx, Tree.index, Tree.slice, PN.kids, PN.lx]

theorem red_three {a : Lexeme Str Str} {l t t' u u'} (ha : a.kind = "E".toList) (hl : reducer l.kind = none)
    (h : Tree.rawReduce reducer t () = .ok (t', ())) (h' : Tree.rawReduce reducer u () = .ok (u', ())) :
    Tree.rawReduce reducer (.node a [t, .node l [], u]) () = .ok (.node l [t', u'], ()) := by
  refine red_node ha red_E (reds_cons h (reds_cons (red_leaf hl) (reds_cons h' reds_nil))) ?_
  simp [reduceE, Tree.promoteChild, Tree.getIdx, Tree.index, Tree.slice, PN.kids, PN.lx]

theorem red_par {a : Lexeme Str Str} {l l' t t'} (ha : a.kind = "P".toList) (hl : reducer l.kind = none)
    (hl' : reducer l'.kind = none) (h : Tree.rawReduce reducer t () = .ok (t', ())) :
    Tree.rawReduce reducer (.node a [.node l [], t, .node l' []]) () = .ok (t', ()) := by
  refine red_node ha red_P (reds_cons (red_leaf hl) (reds_cons h (reds_cons (red_leaf hl') reds_nil))) ?_
  simp [Tree.ROp.apply, Tree.replaceWithChild, Tree.getIdx, Tree.index, PN.kids]

variable {f : Nat → Str} {ls : List (Lexeme Str Str)}

theorem lexeme_tok (hls : ls.map (fun l => (l.kind, l.val)) = ts.map tokKv) {q : Nat} {o l} (ho : ts[q]? = some o) (hl : ls[q]? = some l) :
    l.kind = (tokKv o).1 ∧ l.val = (tokKv o).2 := by
  have := congrArg (·[q]?) hls
  simp only [List.getElem?_map, ho, hl, Option.map_some, Option.some.injEq] at this
  exact ⟨congrArg Prod.fst this, congrArg Prod.snd this⟩

theorem eval_leaf {l : Lexeme Str Str} {x} (h : l.kind = "number".toList) (h' : l.val = x) : eval A (.node l []) = .ok (A.num x) := by
  simp [eval, h, h']

theorem eval_bin {l : Lexeme Str Str} {o t t' x y} (h : l.kind = (tokKv o).1) (h' : l.val = (tokKv o).2)
    (ht : eval A t = .ok x) (ht' : eval A t' = .ok y) : 
    (o = .plus → eval A (.node l [t, t']) = .ok (A.add x y)) ∧ (o = .minus → eval A (.node l [t, t']) = .ok (A.sub x y)) ∧
    (o = .times → eval A (.node l [t, t']) = .ok (A.mul x y)) ∧ (o = .over → eval A (.node l [t, t']) = .ok (A.div x y)) := by
  refine ⟨?_, ?_, ?_, ?_⟩ <;> rintro rfl <;> simp [tokKv] at h h' <;> simp [eval, eval1, eval2, h, h', ht, ht']

theorem eval_un {l : Lexeme Str Str} {o t x} (h : l.kind = (tokKv o).1) (h' : l.val = (tokKv o).2) (ht : eval A t = .ok x) :
    (o = .plus → eval A (.node l [t]) = .ok x) ∧ (o = .minus → eval A (.node l [t]) = .ok (A.neg x)) := by
  refine ⟨?_, ?_⟩ <;> rintro rfl <;> simp [tokKv] at h h' <;> simp [eval, eval1, h, h', ht]

/-- The tree has the value that the tokens have. -/
theorem tree_gives (hls : ls.map (fun l => (l.kind, l.val)) = ts.map tokKv) (hE : f 0 = "E".toList) (hP : f 4 = "P".toList)
    {p us v} (h : Reads A p us v) : ∀ {s e t}, At ts s e us → TrE (ts.map code) f ls s e t → Gives A t v := by
  have red : ∀ {q : Nat} {o : Tok} {l : Lexeme Str Str}, ts[q]? = some o → ls[q]? = some l → reducer l.kind = none := by
    intro q o l h1 h2
    rw [(lexeme_tok hls h1 h2).1]
    exact red_tok o
  -- products and sums
  have bin : ∀ {a o b x y s e t i} {pa pb : Part}, Reads A pa a x → Reads A pb b y → code o = i + 1 → i ≤ 1 → At ts s e (a ++ o :: b) →
      (∀ {s e t}, At ts s e a → TrE (ts.map code) f ls s e t → Gives A t x) →
      (∀ {s e t}, At ts s e b → TrE (ts.map code) f ls s e t → Gives A t y) →
      (∀ q, Ex (ts.map code) s q → (ts.map code)[q]? = some 1 → Ex (ts.map code) (q + 1) e → i = 0) →
      (∀ {s e}, At ts s e b → ∀ q, Ex (ts.map code) s q → (ts.map code)[q]? = some (i + 1) → Ex (ts.map code) (q + 1) e → False) →
      TrE (ts.map code) f ls s e t →
      ∃ (l : Lexeme Str Str) (t1 t2 : PN Str Str), l.kind = (tokKv o).1 ∧ l.val = (tokKv o).2 ∧ eval A t1 = .ok x ∧ eval A t2 = .ok y ∧
        Tree.rawReduce reducer t () = .ok (.node l [t1, t2], ()) := by
    intro a o b x y s e t i pa pb ha hb ho hi hat iha ihb hno hlast ht
    obtain ⟨h1, h2, h3⟩ := hat.app
    have h2' := lex_at h2
    rw [ho] at h2'
    have x1 := (reads_ex ha h1).1
    have x2 := (reads_ex hb h3).1
    generalize s + a.length = r at *
    have hc : Cmp (ts.map code) s e := x1.split (op_of hi h2') x2
    cases ht with
    | num h => exact absurd hc (Atm.num h).not_cmp
    | un h h' => exact absurd hc (Atm.un h h').not_cmp
    | par h h' _ _ _ _ ht => exact absurd hc (Atm.par h ht.ex h').not_cmp
    | @bin _ q _ j l c t t' hj hq hl hk hb' ht ht' =>
      have hij : j = i := by
        rcases hb' r i hi x1 h2' x2 with h | ⟨h, _⟩
        · obtain rfl : j = 0 := by omega
          exact (hno q ht.ex hq ht'.ex).symm
        · exact h
      subst hij
      have hle : r ≤ q := by
        rcases hb' r j hi x1 h2' x2 with h | ⟨_, h⟩
        · omega
        · exact h
      have hqr : q = r := by
        rcases Nat.lt_or_ge r q with h | h
        · exact (hlast h3 q (x1.shorter ht.ex h).2 hq ht'.ex).elim
        · omega
      subst hqr
      obtain ⟨t1, g1, g2⟩ := iha h1 ht
      obtain ⟨t2, g3, g4⟩ := ihb h3 ht'
      obtain ⟨e1, e2⟩ := lexeme_tok hls h2 hl
      exact ⟨l, t1, t2, e1, e2, g2, g4, red_three (hk.trans hE) (red h2 hl) g1 g3⟩
  induction h with
  | @num x =>
    intro s e t hat ht
    have ha := (reads_ex (A := A) .num hat).2 rfl
    obtain ⟨h1, rfl⟩ := hat.one
    have h1' := lex_at h1
    generalize he : s + 1 = e at ht
    cases ht with
    | num h hl hk =>
      obtain ⟨e1, e2⟩ := lexeme_tok hls h1 hl
      exact ⟨_, red_one (hk.trans hE) (red_leaf (red h1 hl)), eval_leaf e1 e2⟩
    | un h _ _ _ _ => rw [h1'] at h; simp [code] at h
    | par h _ _ _ _ _ _ => rw [h1'] at h; simp [code] at h
    | bin hi hq _ _ _ ht ht' => subst he; exact absurd (ht.ex.split (op_of hi hq) ht'.ex) ha.not_cmp
  | @pos x =>
    intro s e t hat ht
    have ha := (reads_ex (A := A) .pos hat).2 rfl
    obtain ⟨h1, h2⟩ := hat.cons
    obtain ⟨h5, rfl⟩ := h2.one
    have h1' := lex_at h1
    generalize he : s + 1 + 1 = e at ht
    cases ht with
    | num h hl hk => rw [h1'] at h; simp [code] at h
    | un h _ hl hl' hk =>
      obtain ⟨e1, e2⟩ := lexeme_tok hls h1 hl
      obtain ⟨e3, e4⟩ := lexeme_tok hls h5 hl'
      exact ⟨_, red_two (hk.trans hE) (red h1 hl) (red_leaf (red h5 hl')), (eval_un e1 e2 (eval_leaf e3 e4)).1 rfl⟩
    | par h _ _ _ _ _ _ => rw [h1'] at h; simp [code] at h
    | bin hi hq _ _ _ ht ht' => subst he; exact absurd (ht.ex.split (op_of hi hq) ht'.ex) ha.not_cmp
  | @neg x =>
    intro s e t hat ht
    have ha := (reads_ex (A := A) .neg hat).2 rfl
    obtain ⟨h1, h2⟩ := hat.cons
    obtain ⟨h5, rfl⟩ := h2.one
    have h1' := lex_at h1
    generalize he : s + 1 + 1 = e at ht
    cases ht with
    | num h hl hk => rw [h1'] at h; simp [code] at h
    | un h _ hl hl' hk =>
      obtain ⟨e1, e2⟩ := lexeme_tok hls h1 hl
      obtain ⟨e3, e4⟩ := lexeme_tok hls h5 hl'
      exact ⟨_, red_two (hk.trans hE) (red h1 hl) (red_leaf (red h5 hl')), (eval_un e1 e2 (eval_leaf e3 e4)).2 rfl⟩
    | par h _ _ _ _ _ _ => rw [h1'] at h; simp [code] at h
    | bin hi hq _ _ _ ht ht' => subst he; exact absurd (ht.ex.split (op_of hi hq) ht'.ex) ha.not_cmp
  | @group us v hr ih =>
    intro s e t hat ht
    have ha := (reads_ex (A := A) (.group hr) hat).2 rfl
    obtain ⟨h1, h2⟩ := hat.cons
    obtain ⟨e', rfl, h3, h4⟩ := h2.snoc
    have h1' := lex_at h1
    generalize he : e' + 1 = e at ht
    cases ht with
    | num h _ _ => rw [h1'] at h; simp [code] at h
    | un h _ _ _ _ => rw [h1'] at h; simp [code] at h
    | par h _ hl hl' hk hk' ht =>
      cases he
      obtain ⟨t', g1, g2⟩ := ih h3 ht
      exact ⟨t', red_one (hk.trans hE) (red_par (hk'.trans hP) (red h1 hl) (red h4 hl') g1), g2⟩
    | bin hi hq _ _ _ ht ht' => subst he; exact absurd (ht.ex.split (op_of hi hq) ht'.ex) ha.not_cmp
  | factor _ ih => exact ih
  | term _ ih => exact ih
  | mul h1 h2 ih1 ih2 =>
    intro s e t hat ht
    obtain ⟨l, t1, t2, e1, e2, g1, g2, g3⟩ := bin h1 h2 (i := 1) rfl (by omega) hat ih1 ih2
      (fun q a b c => (term_no_op2 (.mul h1 h2) (by simp) hat a b c).elim)
      (fun hb q a b c => ((reads_ex h2 hb).2 rfl).not_cmp (a.split (op_of (by omega) b) c)) ht
    exact ⟨_, g3, (eval_bin e1 e2 g1 g2).2.2.1 rfl⟩
  | div h1 h2 ih1 ih2 =>
    intro s e t hat ht
    obtain ⟨l, t1, t2, e1, e2, g1, g2, g3⟩ := bin h1 h2 (i := 1) rfl (by omega) hat ih1 ih2
      (fun q a b c => (term_no_op2 (.div h1 h2) (by simp) hat a b c).elim)
      (fun hb q a b c => ((reads_ex h2 hb).2 rfl).not_cmp (a.split (op_of (by omega) b) c)) ht
    exact ⟨_, g3, (eval_bin e1 e2 g1 g2).2.2.2 rfl⟩
  | add h1 h2 ih1 ih2 =>
    intro s e t hat ht
    obtain ⟨l, t1, t2, e1, e2, g1, g2, g3⟩ := bin h1 h2 (i := 0) rfl (by omega) hat ih1 ih2
      (fun _ _ _ _ => rfl) (fun hb q a b c => term_no_op2 h2 (by simp) hb a b c) ht
    exact ⟨_, g3, (eval_bin e1 e2 g1 g2).1 rfl⟩
  | sub h1 h2 ih1 ih2 =>
    intro s e t hat ht
    obtain ⟨l, t1, t2, e1, e2, g1, g2, g3⟩ := bin h1 h2 (i := 0) rfl (by omega) hat ih1 ih2
      (fun _ _ _ _ => rfl) (fun hb q a b c => term_no_op2 h2 (by simp) hb a b c) ht
    exact ⟨_, g3, (eval_bin e1 e2 g1 g2).2.1 rfl⟩

end Verif.PMath
