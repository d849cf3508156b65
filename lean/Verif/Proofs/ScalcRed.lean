import Verif.Proofs.ScalcVal
import Verif.Proofs.GrammarText
import Verif.Proofs.Lit
/- The grammar of the stack calculator, and what reduction makes of its derivation trees. -/
namespace Verif.Scalc
open Verif Verif.Spec Verif.Spec.Scalc Verif.Tree

/-- The grammar as a table. -/
def sTable : List (Str × List (List Str)) :=
  [("Stack".toList, [["Stack".toList, "Smp".toList], ["E".toList, "Stack".toList], ["Stack".toList, "P".toList, "Stack".toList], []]),
   ("E".toList, [["Stack".toList, "Sop".toList], ["E".toList, "E".toList, "E".toList, "?".toList], ["E".toList, "Uop".toList],
      ["E".toList, "E".toList, "Bop".toList], ["Number".toList]]),
   ("Number".toList, [["int".toList], ["int".toList, "dec".toList]]),
   ("P".toList, [["(".toList, "Stack".toList, ")".toList]]),
   ("Bop".toList, [["bop".toList], ["Bop".toList, "Bop".toList, "E".toList, "?".toList]]),
   ("Uop".toList, [["uop".toList], ["Uop".toList, "Uop".toList, "E".toList, "?".toList]]),
   ("Sop".toList, [["sop".toList], ["Sop".toList, "Sop".toList, "E".toList, "?".toList]]),
   ("Smp".toList, [["Smp".toList, "Smp".toList, "E".toList, "?".toList], ["smp".toList]])]

/-- What the grammar is. -/
structure SOK (G : Grammar Str) : Prop where
  wf : G.WF
  order : G.order = sTable.map (·.1)
  prods : ∀ x ∈ sTable, G.prods x.1 = some x.2

set_option maxRecDepth 10000 in
theorem grmr_dec : (match grmr with
    | .ok G => decide (G.order = sTable.map (·.1)) && sTable.all (fun x => decide (G.prods x.1 = some x.2))
    | _ => false) = true := by
  unfold grmr grammarText
  simp only [litToList]
  decide +kernel

theorem grmr_ok : ∃ G, grmr = .ok G ∧ SOK G := by
  have h := grmr_dec
  rcases Verif.Grammar.new_spec grammarText with ⟨_, h'⟩ | ⟨g, r, h1, _, h2⟩
  · unfold grmr at h
    rw [h'] at h
    cases h
  · have e : grmr = .ok (Verif.Grammar.view g) := by unfold grmr; rw [h1]
    rw [e] at h
    simp only [Bool.and_eq_true, decide_eq_true_eq, List.all_eq_true] at h
    exact ⟨_, e, by rw [Verif.Grammar.view_rep h2]; exact Verif.Grammar.record_wf r, h.1, h.2⟩

theorem SOK.other {G} (h : SOK G) {x : Str} (hx : x ∉ sTable.map (·.1)) : G.prods x = none := by
  cases e : G.prods x with
  | none => rfl
  | some ps =>
    have := (h.wf x).1 (by rw [e]; rfl)
    rw [h.order] at this
    exact absurd this hx

theorem SOK.inv {G} (h : SOK G) {A : Str} {k : Nat} {p : List Str} (hr : G.Rule A k p) : ∃ ps, (A, ps) ∈ sTable ∧ p ∈ ps := by
  obtain ⟨ps, h1, h2⟩ := hr
  have := (h.wf A).1 (by rw [h1]; rfl)
  rw [h.order] at this
  obtain ⟨⟨A', ps'⟩, hm, rfl⟩ := List.mem_map.1 this
  have h3 := h.prods _ hm
  simp only at h3 h1
  rw [h1] at h3
  obtain rfl := Option.some.inj h3
  exact ⟨ps, hm, List.mem_of_getElem? h2⟩

/-! ### Reducing -/

theorem red_tok {l : Lexeme Str Str} (h : rdcr l.kind = none) : rawReduce rdcr (.node l []) () = .ok (.node l [], ()) := by
  simp [rawReduce, rawReduces, h]

theorem red_node {a : Lexeme Str Str} {ks ks' t' k} {g : Fn Unit Str Str} (ha : a.kind = k) (hk : rdcr k = some (some g))
    (h : rawReduces rdcr ks () = .ok (ks', ())) (hg : g (.node a ks') () = .ok (t', ())) :
    rawReduce rdcr (.node a ks) () = .ok (t', ()) := by
  rw [rawReduce, h, Out.bind_ok, ha, hk]
  exact hg

theorem red_keep {a : Lexeme Str Str} {ks ks' k} (ha : a.kind = k) (hk : rdcr k = none) (h : rawReduces rdcr ks () = .ok (ks', ())) :
    rawReduce rdcr (.node a ks) () = .ok (.node a ks', ()) := by
  rw [rawReduce, h, Out.bind_ok, ha, hk]
  rfl

theorem reds_cons {t t' ts ts'} (h : rawReduce rdcr t () = .ok (t', ())) (hs : rawReduces rdcr ts () = .ok (ts', ())) :
    rawReduces rdcr (t :: ts) () = .ok (t' :: ts', ()) := by
  rw [rawReduces, h, Out.bind_ok, hs, Out.bind_ok]

theorem reds_nil : rawReduces rdcr [] () = .ok ([], ()) := rfl

theorem rd_Stack : rdcr "Stack".toList = some (lift1 stack) := by simp [rdcr]
theorem rd_P : rdcr "P".toList = some (ROp.red 0 (.replaceWithChild 1)) := by simp [rdcr]
theorem rd_Number : rdcr "Number".toList = none := by simp [rdcr]
theorem rd_last : ∀ k ∈ ["E".toList, "Bop".toList, "Uop".toList, "Sop".toList, "Smp".toList],
    rdcr k = some (ROp.red 0 (.promoteChild (-1))) := by
  intro k hk
  simp at hk
  rcases hk with rfl | rfl | rfl | rfl | rfl <;> simp [rdcr]

/-- Nodes whose last child is promoted. -/
theorem red_last {a : Lexeme Str Str} {ks pre : List (PN Str Str)} {c : PN Str Str} {k : Str} (ha : a.kind = k)
    (hk : k ∈ ["E".toList, "Bop".toList, "Uop".toList, "Sop".toList, "Smp".toList])
    (h : rawReduces rdcr ks () = .ok (pre ++ [c], ())) : rawReduce rdcr (.node a ks) () = .ok (.node c.lx (pre ++ c.kids), ()) := by
  refine red_node ha (rd_last k hk) h ?_
  have := promoteChild_sel (l := a) (sel_last pre c)
  simp only [ROp.apply]
  rw [this]
  simp

/-- A node whose children are children of another. -/
theorem Val.kids {t : PN Str Str} (h : Val t) (hk : t.kind = "Stack".toList) : ∀ k ∈ t.kids, Val k := by
  cases h with
  | num h => have : _ = _ := h.symm.trans hk; exact absurd this (by decide)
  | uop h => have : _ = _ := h.symm.trans hk; exact absurd this (by decide)
  | bop h => have : _ = _ := h.symm.trans hk; exact absurd this (by decide)
  | sop h => have : _ = _ := h.symm.trans hk; exact absurd this (by decide)
  | many h hk' => exact hk'
  | cond h => have : _ = _ := h.symm.trans hk; exact absurd this (by decide)

/-! The steps of `stack`. -/

/-- The children after the first two steps of `stack`. -/
def up1 (ks : List (PN Str Str)) : List (PN Str Str) :=
  match ks.getLast? with
  | some c => if c.kind = "Stack".toList then ks.dropLast ++ c.kids else ks
  | none => ks

def up2 : List (PN Str Str) → List (PN Str Str)
  | c :: ks => if c.kind = "Stack".toList then c.kids ++ ks else c :: ks
  | [] => []

def up3 (l : Lexeme Str Str) (ks : List (PN Str Str)) : PN Str Str :=
  match ks.getLast? with
  | some c => if c.kind = "smp".toList ∨ c.kind = "?".toList ∨ ks.length = 1 then .node c.lx (ks.dropLast ++ c.kids) else .node l ks
  | none => .node l ks

theorem list_cases {β : Type} (l : List β) : l = [] ∨ ∃ a c, l = a ++ [c] := by
  rcases List.eq_nil_or_concat l with h | ⟨a, c, h⟩
  · exact .inl h
  · exact .inr ⟨a, c, by rw [h, List.concat_eq_append]⟩

theorem childAt_yes {α V : Type} [DecidableEq α] {l : Lexeme α V} {a b : List (PN α V)} {c : PN α V} {i : Int} {ks : List α}
    (hs : Sel (a ++ c :: b).length i a.length) (h : c.kind ∈ ks) : childAt (.node l (a ++ c :: b)) i ks = .ok true := by
  rw [childAt_sel _ hs]
  exact congrArg Out.ok (decide_eq_true h)

theorem childAt_no {α V : Type} [DecidableEq α] {l : Lexeme α V} {a b : List (PN α V)} {c : PN α V} {i : Int} {ks : List α}
    (hs : Sel (a ++ c :: b).length i a.length) (h : c.kind ∉ ks) : childAt (.node l (a ++ c :: b)) i ks = .ok false := by
  rw [childAt_sel _ hs]
  exact congrArg Out.ok (decide_eq_false h)

theorem stack_eq (l : Lexeme Str Str) (ks : List (PN Str Str)) : stack (.node l ks) = .ok (up3 l (up2 (up1 ks))) := by
  have out : ∀ i : Int, OutOfRange (PN.node l []).kids.length i := by
    intro i
    unfold OutOfRange
    simp [PN.kids]
    omega
  have e1 : ∀ ks : List (PN Str Str), ((childAt (.node l ks) (-1) ["Stack".toList]).bind fun b =>
      if b then (promoteChildrenOf (.node l ks) (-1)).bind fun r => .ok r.1 else .ok (.node l ks)) = .ok (.node l (up1 ks)) := by
    intro ks
    rcases list_cases ks with rfl | ⟨a, c, rfl⟩
    · rw [childAt_out _ (out _), Out.bind_ok]; rfl
    · by_cases h : c.kind = "Stack".toList
      · rw [childAt_yes (sel_last a c) (by rw [h]; simp), Out.bind_ok, promoteChildrenOf_sel (sel_last a c)]
        simp [up1, h]
      · rw [childAt_no (sel_last a c) (by simpa using h), Out.bind_ok, if_neg (by simp)]
        simp only [up1, List.getLast?_append, List.getLast?_singleton, Option.some_or, if_neg h]
  have e2 : ∀ ks : List (PN Str Str), ((childAt (.node l ks) 0 ["Stack".toList]).bind fun b =>
      if b then (promoteChildrenOf (.node l ks) 0).bind fun r => .ok r.1 else .ok (.node l ks)) = .ok (.node l (up2 ks)) := by
    intro ks
    cases ks with
    | nil => rw [childAt_out _ (out _), Out.bind_ok]; rfl
    | cons c b =>
      have hs : Sel ([] ++ c :: b).length 0 ([] : List (PN Str Str)).length := ⟨by simp, .inl rfl⟩
      have h2 := promoteChildrenOf_sel (l := l) hs
      by_cases h : c.kind = "Stack".toList
      · have h1 := childAt_yes (l := l) (ks := ["Stack".toList]) hs (by rw [h]; simp)
        simp only [List.nil_append] at h1 h2
        rw [h1, Out.bind_ok, h2]
        simp [up2, h]
      · have h1 := childAt_no (l := l) (ks := ["Stack".toList]) hs (by simpa using h)
        simp only [List.nil_append] at h1
        rw [h1, Out.bind_ok, if_neg (by simp)]
        simp only [up2, if_neg h]
  have e3 : ∀ ks : List (PN Str Str), ((childAt (.node l ks) (-1) ["smp".toList, "?".toList]).bind fun b =>
      if b then (promoteChild (.node l ks) (-1)).bind fun r => .ok r.1 else (promoteSingleChild (.node l ks)).bind fun r => .ok r.1) =
      .ok (up3 l ks) := by
    intro ks
    rcases list_cases ks with rfl | ⟨a, c, rfl⟩
    · rw [childAt_out _ (out _), Out.bind_ok]; rfl
    · simp only [up3, List.getLast?_append, List.getLast?_singleton, Option.some_or, List.dropLast_concat]
      by_cases h : c.kind = "smp".toList ∨ c.kind = "?".toList
      · have h' : c.kind ∈ ["smp".toList, "?".toList] := by simpa using h
        rw [childAt_yes (sel_last a c) h', Out.bind_ok, if_pos rfl, promoteChild_sel (sel_last a c), if_pos (h.elim .inl (fun h => .inr (.inl h)))]
        simp
      · have h' : c.kind ∉ ["smp".toList, "?".toList] := by simpa using h
        rw [childAt_no (sel_last a c) h', Out.bind_ok, if_neg (by simp)]
        unfold promoteSingleChild
        by_cases hl : a = []
        · subst hl
          have hs : Sel ([] ++ c :: []).length 0 ([] : List (PN Str Str)).length := ⟨by simp, .inl rfl⟩
          have h2 := promoteChild_sel (l := l) hs
          rw [if_pos (by simp [PN.kids]), if_pos (by simp), h2]
          simp
        · have h3 : ¬ (a ++ [c]).length = 1 := by simpa using hl
          rw [if_neg (by simpa [PN.kids] using hl), if_neg (fun e => e.elim (fun e => h (.inl e)) fun e => e.elim (fun e => h (.inr e)) h3), Out.bind_ok]
  unfold stack
  have b2 : ∀ {β γ : Type} {x : Out Bool} {y : Bool → Out β} {r : β} {z : β → Out γ}, (x.bind y) = .ok r →
      (x.bind fun b => (y b).bind z) = z r := by
    intro β γ x y r z h
    obtain ⟨b, h1, h2⟩ := Out.bind_eq_ok.1 h
    rw [h1, Out.bind_ok, h2, Out.bind_ok]
  rw [b2 (e1 ks), b2 (e2 _)]
  exact e3 _

/-- Children that can all be evaluated. -/
theorem up3_val {l : Lexeme Str Str} (hl : l.kind = "Stack".toList) {ks : List (PN Str Str)} (h : ∀ k ∈ ks, Val k) : Val (up3 l ks) := by
  rcases list_cases ks with rfl | ⟨a, c, rfl⟩
  · exact .many (.inl hl) h
  · simp only [up3, List.getLast?_append, List.getLast?_singleton, Option.some_or, List.dropLast_concat]
    split
    · exact (h c (by simp)).ext fun k hk => h k (by simp [hk])
    · exact .many (.inl hl) h

theorem up2_val {ks : List (PN Str Str)} (h : ∀ k ∈ ks, Val k) : ∀ k ∈ up2 ks, Val k := by
  cases ks with
  | nil => exact h
  | cons c ks =>
    rw [up2]
    split
    · next hc =>
      intro k hk
      rcases List.mem_append.1 hk with hk | hk
      · exact (h c (by simp)).kids hc k hk
      · exact h k (by simp [hk])
    · exact h

theorem up1_val {ks : List (PN Str Str)} (h : ∀ k ∈ ks, Val k) : ∀ k ∈ up1 ks, Val k := by
  rcases list_cases ks with rfl | ⟨a, c, rfl⟩
  · exact h
  · simp only [up1, List.getLast?_append, List.getLast?_singleton, Option.some_or, List.dropLast_concat]
    split
    · next hc =>
      intro k hk
      rcases List.mem_append.1 hk with hk | hk
      · exact h k (by simp [hk])
      · exact (h c (by simp)).kids hc k hk
    · exact h

/-- A node for `Stack` all of whose children can be evaluated. -/
theorem red_stack {a : Lexeme Str Str} {ks ks' : List (PN Str Str)} (ha : a.kind = "Stack".toList) (h : rawReduces rdcr ks () = .ok (ks', ())) :
    rawReduce rdcr (.node a ks) () = .ok (up3 a (up2 (up1 ks')), ()) := by
  refine red_node ha rd_Stack h ?_
  rw [stack_eq, Out.bind_ok]

theorem Op.kind {k : Str} {t : PN Str Str} (h : Op k t) : t.kind = k ∨ t.kind = "?".toList := by
  cases h with
  | leaf h => exact .inl h
  | cond h => exact .inr h

/-- A node for `Stack` with a manipulation at the end. -/
theorem smp_val {a : Lexeme Str Str} {s o : PN Str Str} (hs : Val s) (ho : Op "smp".toList o) : Val (up3 a (up2 (up1 [s, o]))) := by
  have e1 : up1 [s, o] = [s, o] := by
    have : o.kind ≠ "Stack".toList := by
      rcases ho.kind with e | e <;> rw [e] <;> decide
    show (if o.kind = "Stack".toList then _ else [s, o]) = _
    rw [if_neg this]
  have e3 : ∀ pre : List (PN Str Str), (∀ k ∈ pre, Val k) → Val (up3 a (pre ++ [o])) := by
    intro pre hp
    simp only [up3, List.getLast?_append, List.getLast?_singleton, Option.some_or, List.dropLast_concat]
    rw [if_pos (ho.kind.elim .inl fun e => .inr (.inl e))]
    exact ho.val fun l hl => .many (.inr hl) hp
  rw [e1, up2]
  split
  · next hk => exact e3 _ (hs.kids hk)
  · exact e3 [s] (by simpa using hs)

/-- What a node is after reduction. -/
def Good (k : Str) (t : PN Str Str) : Prop :=
  (k ∈ ["Stack".toList, "E".toList, "P".toList, "Number".toList] → Val t) ∧ (k = "Bop".toList → Op "bop".toList t) ∧
  (k = "Uop".toList → Op "uop".toList t) ∧ (k = "Sop".toList → Op "sop".toList t) ∧ (k = "Smp".toList → Op "smp".toList t) ∧
  (k ∉ sTable.map (·.1) → ∃ l, t = .node l [] ∧ l.kind = k)

inductive Goods : List Str → List (PN Str Str) → Prop
  | nil : Goods [] []
  | cons {k t ks ts} : Good k t → Goods ks ts → Goods (k :: ks) (t :: ts)

theorem reds_all : ∀ {ks : List (PN Str Str)}, (∀ t ∈ ks, ∃ t', rawReduce rdcr t () = .ok (t', ()) ∧ Good t.kind t') →
    ∃ ks', rawReduces rdcr ks () = .ok (ks', ()) ∧ Goods (ks.map PN.kind) ks'
  | [], _ => ⟨[], rfl, .nil⟩
  | t :: ks, h => by
    obtain ⟨t', h1, h2⟩ := h t (by simp)
    obtain ⟨ks', h3, h4⟩ := reds_all (ks := ks) fun t ht => h t (by simp [ht])
    exact ⟨t' :: ks', reds_cons h1 h3, .cons h2 h4⟩

theorem Good.val {k : Str} {t : PN Str Str} (h : Good k t) (hk : k ∈ ["Stack".toList, "E".toList, "P".toList, "Number".toList]) : Val t := h.1 hk

theorem good_val {k : Str} {t : PN Str Str} (hk : k ∈ ["Stack".toList, "E".toList, "P".toList, "Number".toList]) (h : Val t) : Good k t := by
  refine ⟨fun _ => h, ?_, ?_, ?_, ?_, ?_⟩
  · rintro rfl; exact absurd hk (by decide)
  · rintro rfl; exact absurd hk (by decide)
  · rintro rfl; exact absurd hk (by decide)
  · rintro rfl; exact absurd hk (by decide)
  · intro hn
    exact absurd ((by decide : ∀ k ∈ ["Stack".toList, "E".toList, "P".toList, "Number".toList], k ∈ sTable.map (·.1)) k hk) hn

theorem Val.eta {t : PN Str Str} (h : Val t) : Val (.node t.lx t.kids) := by
  cases t
  exact h

/-- **Reducing.** -/
theorem reduces {G : Grammar Str} (hG : SOK G) {t : PN Str Str} (h : t.Valid G) :
    ∃ t', rawReduce rdcr t () = .ok (t', ()) ∧ Good t.kind t' := by
  induction h with
  | @leaf l hl =>
    have hn : l.kind ∉ sTable.map (·.1) := by
      intro hm
      obtain ⟨x, hx, e⟩ := List.mem_map.1 hm
      have := hG.prods x hx
      rw [e, hl] at this
      cases this
    have hne : ∀ k ∈ sTable.map (·.1), l.kind ≠ k := fun k hk e => hn (e ▸ hk)
    refine ⟨.node l [], red_tok ?_, fun hk => ?_, fun e => ?_, fun e => ?_, fun e => ?_, fun e => ?_, fun _ => ⟨l, rfl, rfl⟩⟩
    · unfold rdcr
      rw [if_neg (hne _ (by decide)), if_neg (hne _ (by decide)), if_neg (hne _ (by decide)), if_neg (hne _ (by decide)),
        if_neg (hne _ (by decide)), if_neg (hne _ (by decide)), if_neg (hne _ (by decide))]
    · exact absurd rfl (hne _ ((by decide : ∀ k ∈ ["Stack".toList, "E".toList, "P".toList, "Number".toList], k ∈ sTable.map (·.1)) _ hk))
    · exact absurd e (hne _ (by decide))
    · exact absurd e (hne _ (by decide))
    · exact absurd e (hne _ (by decide))
    · exact absurd e (hne _ (by decide))
  | @inner l ks k p hr hp _ ih =>
    obtain ⟨ks', h1, h2⟩ := reds_all ih
    rw [hp] at h2
    obtain ⟨ps, h3, h4⟩ := hG.inv hr
    have hk : (PN.node l ks).kind = l.kind := rfl
    rw [hk]
    have lst := @red_last l ks
    have vE : ∀ {t}, Good "E".toList t → Val t := fun h => h.val (by simp)
    have vS : ∀ {t}, Good "Stack".toList t → Val t := fun h => h.val (by simp)
    have leaf : ∀ {k t}, Good k t → k ∉ sTable.map (·.1) → ∃ l, t = .node l [] ∧ l.kind = k := fun h hk => h.2.2.2.2.2 hk
    have opg : ∀ {k k' : Str} {t}, (k, k') ∈ [("Bop".toList, "bop".toList), ("Uop".toList, "uop".toList), ("Sop".toList, "sop".toList), ("Smp".toList, "smp".toList)] →
        (Op k' t → Good k t) ∧ (Good k t → Op k' t) := by
      intro k k' t hm
      simp only [List.mem_cons, Prod.mk.injEq, List.not_mem_nil, or_false] at hm
      rcases hm with ⟨rfl, rfl⟩ | ⟨rfl, rfl⟩ | ⟨rfl, rfl⟩ | ⟨rfl, rfl⟩
      · exact ⟨fun h => ⟨fun e => absurd e (by decide), fun _ => h, fun e => absurd e (by decide), fun e => absurd e (by decide),
          fun e => absurd e (by decide), fun e => absurd e (by decide)⟩, fun h => h.2.1 rfl⟩
      · exact ⟨fun h => ⟨fun e => absurd e (by decide), fun e => absurd e (by decide), fun _ => h, fun e => absurd e (by decide),
          fun e => absurd e (by decide), fun e => absurd e (by decide)⟩, fun h => h.2.2.1 rfl⟩
      · exact ⟨fun h => ⟨fun e => absurd e (by decide), fun e => absurd e (by decide), fun e => absurd e (by decide), fun _ => h,
          fun e => absurd e (by decide), fun e => absurd e (by decide)⟩, fun h => h.2.2.2.1 rfl⟩
      · exact ⟨fun h => ⟨fun e => absurd e (by decide), fun e => absurd e (by decide), fun e => absurd e (by decide),
          fun e => absurd e (by decide), fun _ => h, fun e => absurd e (by decide)⟩, fun h => h.2.2.2.2.1 rfl⟩
    -- operators
    have op1 : ∀ {k k' : Str}, (k, k') ∈ [("Bop".toList, "bop".toList), ("Uop".toList, "uop".toList), ("Sop".toList, "sop".toList), ("Smp".toList, "smp".toList)] →
        k ∈ ["E".toList, "Bop".toList, "Uop".toList, "Sop".toList, "Smp".toList] → k' ∉ sTable.map (·.1) → l.kind = k → Goods [k'] ks' →
        ∃ t', rawReduce rdcr (.node l ks) () = .ok (t', ()) ∧ Good k t' := by
      intro k k' hm hin hno hl hg
      cases hg with
      | cons g hg =>
        cases hg
        obtain ⟨x, rfl, hx⟩ := leaf g hno
        exact ⟨_, lst (pre := []) hl hin h1, (opg hm).1 (.leaf hx)⟩
    have op2 : ∀ {k k' : Str}, (k, k') ∈ [("Bop".toList, "bop".toList), ("Uop".toList, "uop".toList), ("Sop".toList, "sop".toList), ("Smp".toList, "smp".toList)] →
        k ∈ ["E".toList, "Bop".toList, "Uop".toList, "Sop".toList, "Smp".toList] → l.kind = k → Goods [k, k, "E".toList, "?".toList] ks' →
        ∃ t', rawReduce rdcr (.node l ks) () = .ok (t', ()) ∧ Good k t' := by
      intro k k' hm hin hl hg
      cases hg with
      | cons ga hg =>
        cases hg with
        | cons gb hg =>
          cases hg with
          | cons gc hg =>
            cases hg with
            | cons gd hg =>
              cases hg
              obtain ⟨x, rfl, hx⟩ := leaf gd (by decide)
              exact ⟨_, lst (pre := [_, _, _]) hl hin h1, (opg hm).1 (.cond hx ((opg hm).2 ga) ((opg hm).2 gb) (vE gc))⟩
    simp only [sTable, List.mem_cons, Prod.mk.injEq, List.not_mem_nil, or_false] at h3
    rcases h3 with ⟨hl, rfl⟩ | ⟨hl, rfl⟩ | ⟨hl, rfl⟩ | ⟨hl, rfl⟩ | ⟨hl, rfl⟩ | ⟨hl, rfl⟩ | ⟨hl, rfl⟩ | ⟨hl, rfl⟩ <;>
      simp only [List.mem_cons, List.not_mem_nil, or_false] at h4
    · rw [hl]
      have done : (∀ k ∈ ks', Val k) → ∃ t', rawReduce rdcr (.node l ks) () = .ok (t', ()) ∧ Good "Stack".toList t' :=
        fun hv => ⟨_, red_stack hl h1, good_val (by simp) (up3_val hl (up2_val (up1_val hv)))⟩
      rcases h4 with rfl | rfl | rfl | rfl
      · cases h2 with
        | cons ga h2 =>
          cases h2 with
          | cons gb h2 =>
            cases h2
            exact ⟨_, red_stack hl h1, good_val (by simp) (smp_val (vS ga) ((opg (by simp)).2 gb))⟩
      · cases h2 with
        | cons ga h2 =>
          cases h2 with
          | cons gb h2 =>
            cases h2
            exact done (by simpa using ⟨vE ga, vS gb⟩)
      · cases h2 with
        | cons ga h2 =>
          cases h2 with
          | cons gb h2 =>
            cases h2 with
            | cons gc h2 =>
              cases h2
              exact done (by simpa using ⟨vS ga, gb.val (by simp), vS gc⟩)
      · cases h2
        exact done (by simp)
    · rw [hl]
      rcases h4 with rfl | rfl | rfl | rfl | rfl
      · cases h2 with
        | cons ga h2 =>
          cases h2 with
          | cons gb h2 =>
            cases h2
            exact ⟨_, lst (pre := [_]) hl (by simp) h1, good_val (by simp) (((opg (by simp)).2 gb).val fun l hl => .sop hl (vS ga))⟩
      · cases h2 with
        | cons ga h2 =>
          cases h2 with
          | cons gb h2 =>
            cases h2 with
            | cons gc h2 =>
              cases h2 with
              | cons gd h2 =>
                cases h2
                obtain ⟨x, rfl, hx⟩ := leaf gd (by decide)
                refine ⟨_, lst (pre := [_, _, _]) hl (by simp) h1, good_val (by simp) ?_⟩
                refine Val.cond (pre := []) hx (vE gc) ?_ ?_
                · exact (vE ga).eta
                · exact (vE gb).eta
      · cases h2 with
        | cons ga h2 =>
          cases h2 with
          | cons gb h2 =>
            cases h2
            exact ⟨_, lst (pre := [_]) hl (by simp) h1, good_val (by simp) (((opg (by simp)).2 gb).val fun l hl => .uop hl (vE ga))⟩
      · cases h2 with
        | cons ga h2 =>
          cases h2 with
          | cons gb h2 =>
            cases h2 with
            | cons gc h2 =>
              cases h2
              exact ⟨_, lst (pre := [_, _]) hl (by simp) h1, good_val (by simp) (((opg (by simp)).2 gc).val fun l hl => .bop hl (vE ga) (vE gb))⟩
      · cases h2 with
        | @cons _ t _ _ ga h2 =>
          cases h2
          refine ⟨_, lst (pre := []) hl (by simp) h1, good_val (by simp) ?_⟩
          have := ga.val (by simp)
          cases t
          exact this
    · rw [hl]
      exact ⟨_, red_keep hl rd_Number h1, good_val (by simp) (.num hl)⟩
    · rw [hl]
      subst h4
      cases h2 with
      | cons ga h2 =>
        cases h2 with
        | cons gb h2 =>
          cases h2 with
          | cons gc h2 =>
            cases h2
            refine ⟨_, red_node hl rd_P h1 ?_, good_val (by simp) (vS gb)⟩
            rfl
    · rw [hl]
      rcases h4 with rfl | rfl
      · exact op1 (by simp) (by simp) (by decide) hl h2
      · exact op2 (k' := "bop".toList) (by simp) (by simp) hl h2
    · rw [hl]
      rcases h4 with rfl | rfl
      · exact op1 (by simp) (by simp) (by decide) hl h2
      · exact op2 (k' := "uop".toList) (by simp) (by simp) hl h2
    · rw [hl]
      rcases h4 with rfl | rfl
      · exact op1 (by simp) (by simp) (by decide) hl h2
      · exact op2 (k' := "sop".toList) (by simp) (by simp) hl h2
    · rw [hl]
      rcases h4 with rfl | rfl
      · exact op2 (k' := "smp".toList) (by simp) (by simp) hl h2
      · exact op1 (by simp) (by simp) (by decide) hl h2

end Verif.Scalc
