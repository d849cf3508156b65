import Verif.Model.ReducerDSL
import Verif.Proofs.Numeral
import Verif.Props.Tree
/-
Property C57: a parsed reducer definition means the chains of operations it spells.
-/
namespace Verif.Props.ReducerDSL
open Verif.Spec Verif.Tree Verif.ReducerDSL

/-- Statements of reducer definitions. -/
inductive Stmt where
  | op (o : ROp Str)
  | ifChildIs (i : Int) (k : Str) (t e : List Stmt)
  | skip

mutual
/-- Meaning of a statement: what it does to a node. -/
def exec (fuel : Nat) : Stmt → PN Str Str → Out (PN Str Str)
  | .op o, p => o.apply fuel p
  | .ifChildIs i k t e, p => (childIs p i k).bind fun b => if b then execs fuel t p else execs fuel e p
  | .skip, p => .ok p
/-- Statements in sequence. -/
def execs (fuel : Nat) : List Stmt → PN Str Str → Out (PN Str Str)
  | [], p => .ok p
  | s :: ss, p => (exec fuel s p).bind fun q => execs fuel ss q
end

/-- Argument nodes: a number (0 if there is none or if it is no integer), a list of numbers, a quoted string, a
list of them. -/
def Num (n : PN Str Str) (i : Int) : Prop :=
  (n.kids = [] ∧ i = 0) ∨ ∃ c cs, n.kids = c :: cs ∧ IntOf charNumerals c.lx.val i
def Nums (n : PN Str Str) (is : List Int) : Prop :=
  n.kids.length = is.length ∧ ∀ x ∈ n.kids.zip is, IntOf charNumerals x.1.lx.val x.2
def Quoted (c : PN Str Str) (k : Str) : Prop := c.lx.val = '"' :: k ++ ['"']
def Quoteds (n : PN Str Str) (ks : List Str) : Prop :=
  n.kids.length = ks.length ∧ ∀ x ∈ n.kids.zip ks, Quoted x.1 x.2

/-- The node spells the operation: its kind is the operation's name and its first child the arguments. -/
inductive Spells : PN Str Str → ROp Str → Prop
  | single {n} : n.kind = "PromoteSingleChild".toList → Spells n .promoteSingleChild
  | grand {n} : n.kind = "PromoteGrandChildren".toList → Spells n .promoteGrandChildren
  | removeChildren {n a as is} : n.kind = "RemoveChildren".toList → n.kids = a :: as → Nums a is → Spells n (.removeChildren is)
  | value {n a as i} : n.kind = "PromoteChildValue".toList → n.kids = a :: as → Num a i → Spells n (.promoteChildValue i)
  | removeChild {n a as i} : n.kind = "RemoveChild".toList → n.kids = a :: as → Num a i → Spells n (.removeChild i)
  | replace {n a as i} : n.kind = "ReplaceWithChild".toList → n.kids = a :: as → Num a i → Spells n (.replaceWithChild i)
  | childrenOf {n a as i} : n.kind = "PromoteChildrenOf".toList → n.kids = a :: as → Num a i → Spells n (.promoteChildrenOf i)
  | child {n a as i} : n.kind = "PromoteChild".toList → n.kids = a :: as → Num a i → Spells n (.promoteChild i)
  | removeAll {n a as ks} : n.kind = "RemoveAll".toList → n.kids = a :: as → Quoteds a ks → Spells n (.removeAll ks)

/-- The names of the operations. -/
def opNames : List Str := ["PromoteSingleChild".toList, "RemoveChildren".toList, "PromoteChildValue".toList,
  "RemoveChild".toList, "ReplaceWithChild".toList, "PromoteGrandChildren".toList, "PromoteChildrenOf".toList,
  "RemoveAll".toList, "PromoteChild".toList, "If".toList]

/-- The nodes spell the statements. Nodes of other kinds do nothing (`Nil`) or are separators. -/
inductive SpellsL : List (PN Str Str) → List Stmt → Prop
  | nil : SpellsL [] []
  | op {n ns o ss} : Spells n o → SpellsL ns ss → SpellsL (n :: ns) (.op o :: ss)
  | skip {n ns ss} : n.kind ∉ opNames → SpellsL ns ss → SpellsL (n :: ns) (.skip :: ss)
  | sep {n ns ss} : n.kind ∉ opNames → SpellsL ns ss → SpellsL (n :: ns) ss
  | cond {n ns c a b cs tn en rest i k t e ss} : n.kind = "If".toList → n.kids = c :: tn :: en :: rest →
      c.kind = "ChildIs".toList → c.kids = a :: b :: cs → IntOf charNumerals a.lx.val i → Quoted b k →
      SpellsL tn.kids t → SpellsL en.kids e → SpellsL ns ss → SpellsL (n :: ns) (.ifChildIs i k t e :: ss)

variable {σ : Type}

theorem strip_quoted {c : PN Str Str} {k : Str} (h : Quoted c k) : strip c.lx.val = .ok k := by
  unfold strip
  rw [h]
  unfold slice
  rw [if_pos (by simp; omega)]
  congr 1
  have : ((('"' :: k ++ ['"']).length : Int) - 1).toNat = ('"' :: k).length := by simp
  rw [this, List.take_left]
  rfl

theorem strips_quoted : ∀ (ns : List (PN Str Str)) ks, ns.length = ks.length → (∀ x ∈ ns.zip ks, Quoted x.1 x.2) →
    strips ns = .ok ks := by
  intro ns
  induction ns with
  | nil =>
    intro ks h _
    have : ks = [] := List.length_eq_zero_iff.1 h.symm
    subst this; rfl
  | cons n ns ih =>
    intro ks h hq
    cases ks with
    | nil => simp at h
    | cons k ks =>
      rw [strips, strip_quoted (hq (n, k) (by simp)), Out.bind_ok,
        ih ks (by simpa using h) fun x hx => hq x (by simp [hx])]
      rfl

theorem index_zero {β : Type} (a : β) (as : List β) : index (a :: as) 0 = .ok a := by simp [index]

theorem evalOp_spells {n : PN Str Str} {o} (h : Spells n o) : n.kind ≠ "If".toList ∧ evalOp n = .ok (some o) := by
  have one : ∀ {a : PN Str Str} {i}, Num a i → evalOneNumArg a = i := by
    rintro a i (⟨h1, rfl⟩ | ⟨c, cs, h1, h2⟩)
    · simp [evalOneNumArg, h1]
    · simp [evalOneNumArg, h1, atoi_int h2]
  have many : ∀ (ns : List (PN Str Str)) (is : List Int), ns.length = is.length →
      (∀ x ∈ ns.zip is, IntOf charNumerals x.1.lx.val x.2) → ns.map (fun c => atoi c.lx.val) = is := by
    intro ns
    induction ns with
    | nil => intro is h _; exact (List.length_eq_zero_iff.1 h.symm).symm
    | cons n ns ih =>
      intro is h hq
      cases is with
      | nil => simp at h
      | cons i is =>
        rw [List.map_cons, ih is (by simpa using h) fun x hx => hq x (by simp [hx]), atoi_int (hq (n, i) (by simp))]
  cases h with
  | single h => exact ⟨by rw [h]; decide, by simp [evalOp, h]⟩
  | grand h => exact ⟨by rw [h]; decide, by simp [evalOp, h]⟩
  | removeChildren h1 h2 h3 =>
    refine ⟨by rw [h1]; decide, ?_⟩
    rw [← many _ _ h3.1 h3.2]
    simp [evalOp, h1, h2, index_zero, evalVarNumArgs]
  | removeAll h1 h2 h3 =>
    refine ⟨by rw [h1]; decide, ?_⟩
    simp [evalOp, h1, h2, index_zero, evalVarStrArgs, strips_quoted _ _ h3.1 h3.2]
  | value h1 h2 h3 => exact ⟨by rw [h1]; decide, by simp [evalOp, h1, h2, index_zero, one h3]⟩
  | removeChild h1 h2 h3 => exact ⟨by rw [h1]; decide, by simp [evalOp, h1, h2, index_zero, one h3]⟩
  | replace h1 h2 h3 => exact ⟨by rw [h1]; decide, by simp [evalOp, h1, h2, index_zero, one h3]⟩
  | childrenOf h1 h2 h3 => exact ⟨by rw [h1]; decide, by simp [evalOp, h1, h2, index_zero, one h3]⟩
  | child h1 h2 h3 => exact ⟨by rw [h1]; decide, by simp [evalOp, h1, h2, index_zero, one h3]⟩

theorem evalOp_skip {n : PN Str Str} (h : n.kind ∉ opNames) : n.kind ≠ "If".toList ∧ evalOp n = .ok none := by
  simp only [opNames, List.mem_cons, List.not_mem_nil, or_false, not_or] at h
  obtain ⟨h1, h2, h3, h4, h5, h6, h7, h8, h9, h10⟩ := h
  refine ⟨h10, ?_⟩
  unfold evalOp
  rw [if_neg h1, if_neg h2, if_neg h3, if_neg h4, if_neg h5, if_neg h6, if_neg h7, if_neg h8, if_neg h9]

theorem callIf_childIs (i : Int) (k : Str) (t e : Red σ Str Str) (p : PN Str Str) (s : σ) :
    callIf (ifRed (childIsC i k) t e) p s =
      (childIs p i k).bind fun b => if b then callIf t p s else callIf e p s := by
  show (((childIs p i k).bind fun b => Out.ok (b, p, s)).bind fun r => if r.1 then callIf t r.2.1 r.2.2 else callIf e r.2.1 r.2.2) = _
  rw [Tree.bind_assoc]
  rfl

theorem evalLoop_spells {ns ss} (h : SpellsL ns ss) : ∃ d0, ∀ fuel d, d0 ≤ d → ∀ r : Red σ Str Str,
    ∃ r', evalLoop fuel d r ns = .ok r' ∧ ∀ p s, callIf r' p s =
      (callIf r p s).bind fun q => (execs fuel ss q.1).bind fun t => .ok (t, q.2) := by
  induction h with
  | nil =>
    refine ⟨1, fun fuel d hd r => ⟨r, ?_, fun p s => ?_⟩⟩
    · cases d with
      | zero => omega
      | succ d => rfl
    · simp only [execs, Out.bind_ok]
      cases callIf r p s <;> simp
  | @op n ns o ss h1 _ ih =>
    obtain ⟨d0, ih⟩ := ih
    refine ⟨d0 + 1, fun fuel d hd r => ?_⟩
    cases d with
    | zero => omega
    | succ d =>
      obtain ⟨hne, e⟩ := evalOp_spells h1
      obtain ⟨r', e2, h3⟩ := ih fuel d (by omega) (ROp.then fuel r o)
      refine ⟨r', ?_, fun p s => ?_⟩
      · rw [evalLoop, if_neg hne, e, Out.bind_ok]; exact e2
      · rw [h3, ROp.then, (Tree.C31_chain r (o.red fuel) none).1, Tree.bind_assoc]
        congr 1
        funext q
        simp only [ROp.red, lift1, callIf, execs, exec, Tree.bind_assoc, Out.bind_ok]
  | @skip n ns ss h1 _ ih =>
    obtain ⟨d0, ih⟩ := ih
    refine ⟨d0 + 1, fun fuel d hd r => ?_⟩
    cases d with
    | zero => omega
    | succ d =>
      obtain ⟨hne, e⟩ := evalOp_skip h1
      obtain ⟨r', e2, h3⟩ := ih fuel d (by omega) r
      refine ⟨r', ?_, fun p s => ?_⟩
      · rw [evalLoop, if_neg hne, e, Out.bind_ok]; exact e2
      · rw [h3]
        simp only [execs, exec, Out.bind_ok]
  | @sep n ns ss h1 _ ih =>
    obtain ⟨d0, ih⟩ := ih
    refine ⟨d0 + 1, fun fuel d hd r => ?_⟩
    cases d with
    | zero => omega
    | succ d =>
      obtain ⟨hne, e⟩ := evalOp_skip h1
      obtain ⟨r', e2, h3⟩ := ih fuel d (by omega) r
      refine ⟨r', ?_, h3⟩
      rw [evalLoop, if_neg hne, e, Out.bind_ok]; exact e2
  | @cond n ns c a b cs tn en rest i k t e ss h1 h2 h3 h4 h5 h6 _ _ _ iht ihe ih =>
    obtain ⟨d1, iht⟩ := iht
    obtain ⟨d2, ihe⟩ := ihe
    obtain ⟨d3, ih⟩ := ih
    refine ⟨d1 + d2 + d3 + 1, fun fuel d hd r => ?_⟩
    cases d with
    | zero => omega
    | succ d =>
      obtain ⟨rt, et, ht⟩ := iht fuel d (by omega) none
      obtain ⟨re, ee, he⟩ := ihe fuel d (by omega) none
      obtain ⟨r', e2, h7⟩ := ih fuel d (by omega) (thenIf r (childIsC i k) rt re)
      have ec : evalConditional c = .ok (childIsC (σ := σ) (V := Str) i k) := by
        rw [evalConditional, if_pos h3, h4, index_zero]
        simp only [Out.bind_ok]
        rw [show index (a :: b :: cs) 1 = .ok b from by simp [index]]
        simp [strip_quoted h6, atoi_int h5]
      refine ⟨r', ?_, fun p s => ?_⟩
      · rw [evalLoop, if_pos h1, h2, index_zero]
        simp only [Out.bind_ok, ec]
        rw [show index (c :: tn :: en :: rest) 1 = .ok tn from by simp [index],
          show index (c :: tn :: en :: rest) 2 = .ok en from by simp [index]]
        simp only [Out.bind_ok, et, ee]
        exact e2
      · rw [h7, thenIf, (Tree.C31_chain r (ifRed (childIsC i k) rt re) none).1, Tree.bind_assoc]
        congr 1
        funext q
        rw [callIf_childIs]
        simp only [execs, exec, Tree.bind_assoc]
        cases childIs q.1 i k with
        | panic => rfl
        | fuel => rfl
        | ok bb =>
          simp only [Out.bind_ok]
          cases bb
          · have := he q.1 q.2
            simp only [Bool.false_eq_true, if_false]
            rw [this]
            simp [Tree.bind_assoc, callIf]
          · have := ht q.1 q.2
            simp only [if_true]
            rw [this]
            simp [Tree.bind_assoc, callIf]

/-- **C57**, one rule: nodes that spell a list of statements evaluate (for every sufficient recursion
depth) to a reduction that executes these statements in order, If executing the branch selected by
ChildIs on the node as it is then. -/
theorem C57_rule {ns ss} (h : SpellsL ns ss) : ∃ d0, ∀ fuel d, d0 ≤ d →
    ∃ r : Red σ Str Str, evalReduction fuel d ns = .ok r ∧
      ∀ p s, callIf r p s = (execs fuel ss p).bind fun t => .ok (t, s) := by
  obtain ⟨d0, h⟩ := evalLoop_spells (σ := σ) h
  refine ⟨d0, fun fuel d hd => ?_⟩
  obtain ⟨r, e, h⟩ := h fuel d hd none
  exact ⟨r, e, fun p s => by rw [h]; rfl⟩

/-- The definition's rules: name and statements, in order. -/
inductive SpellsR : List (PN Str Str) → List (Str × List Stmt) → Prop
  | nil : SpellsR [] []
  | rule {n ns ss rs} : n.kind = "Rule".toList → SpellsL n.kids ss → SpellsR ns rs →
      SpellsR (n :: ns) ((n.lx.val, ss) :: rs)
  | other {n ns rs} : n.kind ≠ "Rule".toList → SpellsR ns rs → SpellsR (n :: ns) rs

/-- The last rule with a given name. -/
def lastRule (k : Str) (rs : List (Str × List Stmt)) : Option (List Stmt) :=
  (rs.reverse.find? fun x => x.1 = k).map (·.2)

theorem evalRules_spells {ns rs} (h : SpellsR ns rs) : ∃ d0, ∀ fuel d, d0 ≤ d → ∀ r0 : Reducer σ Str Str,
    ∃ r, evalRules fuel d r0 ns = .ok r ∧ ∀ k,
      match lastRule k rs with
      | none => r k = r0 k
      | some ss => ∃ f, r k = some f ∧ ∀ p s, callIf f p s = (execs fuel ss p).bind fun t => .ok (t, s) := by
  induction h with
  | nil => exact ⟨0, fun fuel d _ r0 => ⟨r0, rfl, fun k => rfl⟩⟩
  | @rule n ns ss rs h1 h2 _ ih =>
    obtain ⟨d1, ih⟩ := ih
    obtain ⟨d2, h2⟩ := C57_rule (σ := σ) h2
    refine ⟨d1 + d2, fun fuel d hd r0 => ?_⟩
    obtain ⟨v, ev, hv⟩ := h2 fuel d (by omega)
    obtain ⟨r, er, hr⟩ := ih fuel d (by omega) (upd r0 n.lx.val (some v))
    refine ⟨r, ?_, fun k => ?_⟩
    · rw [evalRules, if_pos h1, ev]; exact er
    · have h := hr k
      have e : lastRule k ((n.lx.val, ss) :: rs) = (lastRule k rs).or (if n.lx.val = k then some ss else none) := by
        unfold lastRule
        rw [List.reverse_cons, List.find?_append]
        cases rs.reverse.find? (fun x => decide (x.1 = k)) with
        | some x => rfl
        | none =>
          by_cases hk : n.lx.val = k
          · simp [hk]
          · simp [hk]
      rw [e]
      cases e2 : lastRule k rs with
      | some ss' => rw [e2] at h; exact h
      | none =>
        rw [e2] at h
        by_cases hk : n.lx.val = k
        · subst hk
          simp only [upd_same] at h
          simp only [Option.none_or, if_true]
          exact ⟨v, h, hv⟩
        · have hk' : k ≠ n.lx.val := fun e => hk e.symm
          simp only [upd_ne _ _ hk'] at h
          simp only [Option.none_or, if_neg hk]
          exact h
  | @other n ns rs h1 _ ih =>
    obtain ⟨d1, ih⟩ := ih
    refine ⟨d1, fun fuel d hd r0 => ?_⟩
    obtain ⟨r, er, hr⟩ := ih fuel d hd r0
    exact ⟨r, by rw [evalRules, if_neg h1]; exact er, hr⟩

/-- **C57.** A definition whose nodes spell the rules `rs` evaluates to a reducer with a reduction for
exactly the names of `rs`, each executing the statements of the last rule with that name. -/
theorem C57_definition {root : PN Str Str} {rs} (h : SpellsR root.kids rs) : ∃ d0, ∀ fuel d, d0 ≤ d →
    ∃ r : Reducer σ Str Str, eval fuel d root = .ok r ∧
      ∀ k, match lastRule k rs with
        | none => r k = none
        | some ss => ∃ f, r k = some f ∧ ∀ p s, callIf f p s = (execs fuel ss p).bind fun t => .ok (t, s) := by
  obtain ⟨d0, h⟩ := evalRules_spells (σ := σ) h
  exact ⟨d0, fun fuel d hd => h fuel d hd _⟩

/-! ### Example: `E RemoveChild(-1).If(ChildIs(0, "op"), PromoteChild(0), Nil)` -/

def nd (k v : String) (ks : List (PN Str Str)) : PN Str Str := .node ⟨k.toList, v.toList, 0, 0⟩ ks

def exRoot : PN Str Str := nd "Rules" "" [nd "Rule" "E" [
  nd "RemoveChild" "RemoveChild" [nd "OneNumArg" "" [nd "number" "-1" []]],
  nd "If" "If" [nd "ChildIs" "ChildIs" [nd "number" "0" [], nd "string" "\"op\"" []],
    nd "Chain" "" [nd "PromoteChild" "PromoteChild" [nd "OneNumArg" "" [nd "number" "0" []]]],
    nd "Chain" "" [nd "Nil" "Nil" []]]]]

example : SpellsR exRoot.kids [("E".toList, [.op (.removeChild (-1)),
    .ifChildIs 0 "op".toList [.op (.promoteChild 0)] [.skip]])] := by
  have d0 : Digits charNumerals ['0'] 0 := .one (by decide)
  have d1 : Digits charNumerals ['1'] 1 := .one (by decide)
  refine .rule (by decide) (.op (.removeChild (by decide) rfl (.inr ⟨_, _, rfl, .inl ⟨_, .minus d1, by decide, by simp⟩⟩))
    (.cond (by decide) rfl (by decide) rfl (.inl ⟨_, .plain d0, by decide, by simp⟩) (by unfold Quoted; decide +kernel)
      (.op (.child (by decide) rfl (.inr ⟨_, _, rfl, .inl ⟨_, .plain d0, by decide, by simp⟩⟩)) .nil)
      (.skip (by decide +kernel) .nil) .nil)) .nil

/-- A number too large counts for the largest integer, one too small for the smallest. -/
example : IntOf charNumerals "9223372036854775808".toList 9223372036854775807 ∧
    IntOf charNumerals "-99999999999999999999".toList (-9223372036854775808) := by
  have key : ∀ {s : Str} {i : Int}, atoi s = i → IntOf charNumerals s i := by
    intro s i h
    obtain ⟨j, hj⟩ := intOf_ex charNumerals s
    rw [← h, atoi_int hj]
    exact hj
  exact ⟨key (by decide +kernel), key (by decide +kernel)⟩

end Verif.Props.ReducerDSL
