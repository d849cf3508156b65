import Verif.Model.Json
import Verif.Model.RegexGram
import Verif.Proofs.JsonParse
import Verif.Props.RegexGram
import Verif.Props.ReducerDSL
import Verif.Props.RemoveLR
import Verif.Props.Json
/-
Property C65: the JSON formatter from lexemes to text.
-/
namespace Verif.Props.JsonFormat
open Verif.Spec Verif.Spec.Json Verif.Json Verif.RegexGram Verif.Props.ReducerDSL Verif.Props.Grammar

/-- The reductions written in `reduceRules` (examples/parlexjson/json.go:36-45). -/
def reduceRules : List (Str × List Stmt) :=
  [("Value".toList, [.op .promoteSingleChild]),
   ("Object".toList, [.op (.removeChildren [0, -1])]),
   ("Array".toList, [.op (.removeChildren [0, -1])]),
   ("KeyVal".toList, [.op (.promoteChildValue 0), .op (.removeChild 0)]),
   ("MoreVals".toList, [.op (.replaceWithChild 1)]),
   ("MoreKeyVals".toList, [.op (.replaceWithChild 1)])]

theorem parts_rep {x : Rx} (h : .rep x ∈ RxRules.parts grammarRules) : x = .sym "MoreVals".toList ∨ x = .sym "MoreKeyVals".toList := by
  simp [grammarRules, RxRules.parts, Rx.partss, Rx.parts] at h
  exact h

theorem nm_ne : nm (.sym "MoreVals".toList) ≠ nm (.sym "MoreKeyVals".toList) := by decide +kernel

theorem two {L : List Rx} (hs : ∀ x ∈ L, x = .sym "MoreVals".toList ∨ x = .sym "MoreKeyVals".toList) (hn : (L.map nm).Nodup)
    (h1 : .sym "MoreVals".toList ∈ L) (h2 : .sym "MoreKeyVals".toList ∈ L) :
    L = [.sym "MoreVals".toList, .sym "MoreKeyVals".toList] ∨ L = [.sym "MoreKeyVals".toList, .sym "MoreVals".toList] := by
  have hne := nm_ne
  generalize Rx.sym "MoreVals".toList = a at *
  generalize Rx.sym "MoreKeyVals".toList = b at *
  have hab : a ≠ b := fun e => hne (by rw [e])
  match L, hs, hn, h1, h2 with
  | [], _, _, h1, _ => simp at h1
  | [x], _, _, h1, h2 =>
    simp only [List.mem_singleton] at h1 h2
    exact absurd (h1.trans h2.symm) hab
  | [x, y], hs, hn, _, _ =>
    simp only [List.map_cons, List.map_nil, List.nodup_cons, List.mem_singleton] at hn
    rcases hs x (by simp) with rfl | rfl <;> rcases hs y (by simp) with rfl | rfl
    · exact absurd rfl hn.1
    · exact .inl rfl
    · exact .inr rfl
    · exact absurd rfl hn.1
  | x :: y :: z :: L, hs, hn, _, _ =>
    exfalso
    simp only [List.map_cons, List.nodup_cons, List.mem_cons, not_or] at hn
    rcases hs x (by simp) with rfl | rfl <;> rcases hs y (by simp) with rfl | rfl <;> rcases hs z (by simp) with rfl | rfl <;> simp_all

/-- What the grammar and the helpers to unwrap are. -/
theorem grammar_facts {root : PN Str Str} (h : RulesShown [] grammarRules root.kids) {g b G}
    (hr : Out.Returns (fun n => evalGrammar n root) (g, b)) (hG : Shows g G) :
    JG G ∧ G.WF ∧ b "Array".toList = some ["MoreVals*".toList] ∧ b "Object".toList = some ["MoreKeyVals*".toList] ∧
    ∀ k, k ≠ "Array".toList → k ≠ "Object".toList → b k = none := by
  obtain ⟨g', b', tail, h1, h2, h3, h4, ⟨L, rfl, hL⟩, h5⟩ := evalGrammar_spec h
  have e := h1.unique hr
  simp only [Prod.mk.injEq] at e
  obtain ⟨rfl, rfl⟩ := e
  have hGe := Verif.Props.RemoveLR.shows_unique hG (shows_of_rep h2)
  have hmem : ∀ x ∈ L, x = .sym "MoreVals".toList ∨ x = .sym "MoreKeyVals".toList := by
    intro x hx
    obtain ⟨y, hy, e | e⟩ := h3 (nm x, [x, .sym (nm x)]) (List.mem_flatMap.2 ⟨x, hx, by simp⟩)
    · simp only [Prod.mk.injEq, List.cons.injEq] at e
      rw [e.2.1]; exact parts_rep hy
    · simp at e
  have hin : ∀ x, (∃ q ∈ grammarRules, x ∈ topRepss q.2) → (∀ r, (nm x, r) ∉ grammarRules) → ∃ y ∈ L, nm y = nm x := by
    rintro x ⟨q, hq, hx⟩ hn
    obtain ⟨y, _, _, hm, _⟩ := h4 q (List.mem_append_left _ hq) x hx
    rcases List.mem_append.1 hm with hm | hm
    · exact absurd hm (hn _)
    · obtain ⟨z, hz, hm⟩ := List.mem_flatMap.1 hm
      simp only [List.mem_cons, Prod.mk.injEq, List.not_mem_nil, or_false] at hm
      rcases hm with hm | hm
      · exact ⟨z, hz, hm.1.symm⟩
      · exact ⟨z, hz, hm.1.symm⟩
  have hnr : ∀ x, x = Rx.sym "MoreVals".toList ∨ x = .sym "MoreKeyVals".toList → ∀ r, (nm x, r) ∉ grammarRules := by
    intro x hx r hm
    have : ∀ q ∈ grammarRules, q.1 ≠ nm (.sym "MoreVals".toList) ∧ q.1 ≠ nm (.sym "MoreKeyVals".toList) := by
      intro q hq
      have : ∀ s ∈ grammarRules.map (·.1), s ≠ nm (.sym "MoreVals".toList) ∧ s ≠ nm (.sym "MoreKeyVals".toList) := by decide +kernel
      exact this _ (List.mem_map_of_mem hq)
    rcases hx with rfl | rfl
    · exact (this _ hm).1 rfl
    · exact (this _ hm).2 rfl
  have m1 : Rx.sym "MoreVals".toList ∈ L := by
    obtain ⟨y, hy, e⟩ := hin (.sym "MoreVals".toList) ⟨_, List.mem_cons_of_mem _ (List.mem_cons_self ..), by simp [topRepss, topReps]⟩ (hnr _ (.inl rfl))
    rcases hmem y hy with rfl | rfl
    · exact hy
    · exact absurd e.symm nm_ne
  have m2 : Rx.sym "MoreKeyVals".toList ∈ L := by
    obtain ⟨y, hy, e⟩ := hin (.sym "MoreKeyVals".toList) ⟨_, List.mem_cons_of_mem _ (List.mem_cons_of_mem _ (List.mem_cons_of_mem _ (List.mem_cons_self ..))), by simp [topRepss, topReps]⟩ (hnr _ (.inr rfl))
    rcases hmem y hy with rfl | rfl
    · exact absurd e nm_ne
    · exact hy
  have wf : G.WF := by
    rw [hGe]
    exact Verif.Grammar.record_wf _
  have hbl : ∀ bl : List (Str × Str), bl.map (·.1) = ["Array".toList, "Object".toList] → ∀ k, k ≠ "Array".toList →
      k ≠ "Object".toList → blOf bl k = none := by
    intro bl e k h1 h2
    have : (bl.filterMap fun x => if x.1 = k then some x.2 else none) = [] := by
      rw [List.filterMap_eq_nil_iff]
      intro x hx
      have hm : x.1 ∈ bl.map (·.1) := List.mem_map_of_mem hx
      rw [e] at hm
      simp only [List.mem_cons, List.not_mem_nil, or_false] at hm
      refine if_neg ?_
      rcases hm with hm | hm
      · rw [hm]; exact h1.symm
      · rw [hm]; exact h2.symm
    simp only [blOf, this, if_true]
  rcases two hmem hL m1 m2 with rfl | rfl
  · refine ⟨?_, wf, ?_, ?_, ?_⟩
    · rw [hGe]
      constructor <;> decide +kernel
    · rw [h5]; decide +kernel
    · rw [h5]; decide +kernel
    · intro k h1 h2
      rw [h5]
      exact hbl _ (by decide +kernel) k h1 h2
  · refine ⟨?_, wf, ?_, ?_, ?_⟩
    · rw [hGe]
      constructor <;> decide +kernel
    · rw [h5]; decide +kernel
    · rw [h5]; decide +kernel
    · intro k h1 h2
      rw [h5]
      exact hbl _ (by decide +kernel) k h1 h2

/-! ### The reducer -/

/-- The reducer that `Merge` makes, for each bound on the loops. -/
def reducer (b : Str → Option (List Str)) (rroot : PN Str Str) (o1 o2 : List Str) (n : Nat) : Tree.Reducer Unit Str Str :=
  match (Verif.ReducerDSL.eval n n rroot : Out (Tree.Reducer Unit Str Str)) with
  | .ok r => Tree.merge (reducerOf n b) r o1 o2
  | _ => fun _ => none

section
variable {b : Str → Option (List Str)} {rroot : PN Str Str} {o1 o2 : List Str}

theorem reducer_acts (h1 : ∀ k, k ∈ o1 ↔ (b k).isSome) (hs : SpellsR rroot.kids reduceRules)
    (h2 : ∀ k, k ∈ o2 ↔ (lastRule k reduceRules).isSome) {p q : PN Str Str} {ss}
    (hl : lastRule p.kind reduceRules = ss)
    (h : ∃ N, ∀ n ≥ N, (match b p.kind with | none => Out.ok p | some S => bludgeon S n p).bind (execs n (ss.getD [])) = .ok q) :
    Acts (reducer b rroot o1 o2) p q := by
  obtain ⟨N, h⟩ := h
  obtain ⟨d0, hd⟩ := C57_definition (σ := Unit) hs
  refine ⟨max N d0, fun n hn => ?_⟩
  obtain ⟨r, er, hr⟩ := hd n n (by omega)
  have h := h n (by omega)
  have hm := (Verif.Props.Tree.C30_merge (reducerOf n b) r o1 o2 (fun k => by rw [h1 k]; simp [reducerOf]) (fun k => by
    rw [h2 k]
    have := hr k
    cases e : lastRule k reduceRules with
    | none => rw [e] at this; simp [this]
    | some ss => rw [e] at this; obtain ⟨f, e, _⟩ := this; simp [e])).2 p.kind p ()
  have e1 : Verif.Props.Tree.run (reducerOf (σ := Unit) n b p.kind) p () =
      (match b p.kind with | none => Out.ok p | some S => bludgeon S n p).bind fun q => .ok (q, ()) := by
    cases e : b p.kind with
    | none => simp [reducerOf, e, Verif.Props.Tree.run]
    | some S => simp [reducerOf, e, Verif.Props.Tree.run, Tree.lift1]
  have e2 : ∀ q, Verif.Props.Tree.run (r p.kind) q () = (execs n (ss.getD []) q).bind fun q => .ok (q, ()) := by
    intro q
    have := hr p.kind
    rw [hl] at this
    cases ss with
    | none => simp only at this; rw [this]; rfl
    | some ss =>
      obtain ⟨f, e, hf⟩ := this
      rw [e]
      rw [Option.getD_some, ← hf]
      cases f <;> rfl
  rw [e1] at hm
  have e3 : Verif.Props.Tree.run (Tree.merge (reducerOf n b) r o1 o2 p.kind) p () = .ok (q, ()) := by
    rw [hm]
    obtain ⟨x, ex, hx⟩ := Out.bind_eq_ok.1 h
    rw [ex]
    simp only [Out.bind_ok]
    rw [e2, hx]
    rfl
  have e4 : reducer b rroot o1 o2 n = Tree.merge (reducerOf n b) r o1 o2 := by simp only [reducer, er]
  rw [e4]
  unfold Verif.Props.Tree.run at e3
  generalize Tree.merge (reducerOf n b) r o1 o2 p.kind = z at e3 ⊢
  match z, e3 with
  | some (some f), e3 => exact e3
  | some none, e3 => exact e3
  | none, e3 => exact e3

theorem strip_ends (l : Lexeme Str Str) (x y : PN Str Str) (ks) :
    Tree.removeChildren (.node l (x :: (ks ++ [y]))) [0, -1] = .ok (.node l ks) := by
  rw [Verif.Props.Tree.C27_removeChildren]
  congr 2
  simp only [PN.kids]
  rw [List.zipIdx_cons, List.zipIdx_append, List.filter_cons, if_neg (by simp [Spec.Sel]), List.filter_append]
  rw [List.filter_eq_self.2, List.filter_eq_nil_iff.2]
  · simp
  · intro a ha
    simp at ha
    subst ha
    simp [Spec.Sel]
    omega
  · rintro ⟨t, i⟩ ha
    have := List.mem_zipIdx ha
    simp [Spec.Sel]
    omega

theorem reducer_jr (hb1 : b "Array".toList = some ["MoreVals*".toList]) (hb2 : b "Object".toList = some ["MoreKeyVals*".toList])
    (hb : ∀ k, k ≠ "Array".toList → k ≠ "Object".toList → b k = none) (h1 : ∀ k, k ∈ o1 ↔ (b k).isSome)
    (hs : SpellsR rroot.kids reduceRules) (h2 : ∀ k, k ∈ o2 ↔ (lastRule k reduceRules).isSome) :
    JR (reducer b rroot o1 o2) := by
  have other : ∀ k, k ∈ ["Value".toList, "MoreVals".toList, "MoreKeyVals".toList, "KeyVal".toList, "string".toList, "number".toList,
      "bool".toList, "null".toList, "lb".toList, "rb".toList, "lcb".toList, "rcb".toList, "comma".toList, "colon".toList,
      "MoreVals*".toList, "MoreKeyVals*".toList] → b k = none := by
    intro k hk
    have : ∀ k ∈ ["Value".toList, "MoreVals".toList, "MoreKeyVals".toList, "KeyVal".toList, "string".toList, "number".toList,
      "bool".toList, "null".toList, "lb".toList, "rb".toList, "lcb".toList, "rcb".toList, "comma".toList, "colon".toList,
      "MoreVals*".toList, "MoreKeyVals*".toList], k ≠ "Array".toList ∧ k ≠ "Object".toList := by decide
    exact hb k (this k hk).1 (this k hk).2
  constructor
  · intro l c hk
    refine reducer_acts h1 hs h2 (ss := some [.op .promoteSingleChild]) (by rw [show (PN.node l [c]).kind = _ from hk]; rfl) ⟨0, fun n _ => ?_⟩
    rw [show (PN.node l [c]).kind = _ from hk, other _ (by simp)]
    cases c with
    | node lc kc =>
      simp only [Out.bind_ok, Option.getD_some, execs, exec, Tree.ROp.apply, Tree.promoteSingleChild, PN.kids, List.length_cons, List.length_nil, if_true]
      have h := Tree.promoteChild_sel (l := l) (i := 0) (c := .node lc kc) (a := []) (b := []) (by simp [Spec.Sel])
      rw [List.nil_append] at h
      rw [h]
      simp [PN.lx, PN.kids]
  · intro l x y ks hk hx hy
    refine reducer_acts h1 hs h2 (ss := some [.op (.removeChildren [0, -1])]) (by rw [show (PN.node l _).kind = _ from hk]; rfl)
      ⟨counts (x :: (ks ++ [y])) + 1, fun n hn => ?_⟩
    rw [show (PN.node l _).kind = _ from hk, hb1]
    simp only
    rw [bludgeon_eq _ _ _ _ (by omega), flats_keep (by rw [hx]; decide), flats_append, flats_keep (by rw [hy]; decide)]
    simp only [Out.bind_ok, Option.getD_some, execs, exec, flats, Tree.ROp.apply, strip_ends]
  · intro l x y ks hk hx hy
    refine reducer_acts h1 hs h2 (ss := some [.op (.removeChildren [0, -1])]) (by rw [show (PN.node l _).kind = _ from hk]; rfl)
      ⟨counts (x :: (ks ++ [y])) + 1, fun n hn => ?_⟩
    rw [show (PN.node l _).kind = _ from hk, hb2]
    simp only
    rw [bludgeon_eq _ _ _ _ (by omega), flats_keep (by rw [hx]; decide), flats_append, flats_keep (by rw [hy]; decide)]
    simp only [Out.bind_ok, Option.getD_some, execs, exec, flats, Tree.ROp.apply, strip_ends]
  · intro l x y hk
    refine reducer_acts h1 hs h2 (ss := some [.op (.replaceWithChild 1)]) (by rw [show (PN.node l _).kind = _ from hk]; rfl) ⟨0, fun n _ => ?_⟩
    rw [show (PN.node l _).kind = _ from hk, other _ (by simp)]
    rfl
  · intro l x y hk
    refine reducer_acts h1 hs h2 (ss := some [.op (.replaceWithChild 1)]) (by rw [show (PN.node l _).kind = _ from hk]; rfl) ⟨0, fun n _ => ?_⟩
    rw [show (PN.node l _).kind = _ from hk, other _ (by simp)]
    rfl
  · intro l x y z hk
    refine ⟨⟨l.kind, x.lx.val, x.lx.line, x.lx.col⟩, hk, rfl, ?_⟩
    refine reducer_acts h1 hs h2 (ss := some [.op (.promoteChildValue 0), .op (.removeChild 0)]) (by rw [show (PN.node l _).kind = _ from hk]; rfl) ⟨0, fun n _ => ?_⟩
    rw [show (PN.node l _).kind = _ from hk, other _ (by simp)]
    rfl
  · intro l ks hk
    have hk' : lastRule l.kind reduceRules = none := by
      revert hk
      generalize l.kind = k
      have : ∀ k ∈ ["string".toList, "number".toList, "bool".toList, "null".toList, "lb".toList, "rb".toList,
    "lcb".toList, "rcb".toList, "comma".toList, "colon".toList, "MoreVals*".toList, "MoreKeyVals*".toList],
         (lastRule k reduceRules).isNone = true := by decide +kernel
      intro hk
      simpa using this k hk
    refine reducer_acts h1 hs h2 (ss := none) hk' ⟨0, fun n _ => ?_⟩
    rw [show (PN.node l _).kind = l.kind from rfl, other _ (by
      simp only [List.mem_cons, List.not_mem_nil, or_false] at hk ⊢
      simp only [hk, or_true])]
    rfl
end

/-! ### C65 -/

theorem rules_names (k : Str) : (lastRule k reduceRules).isSome ↔ k ∈ reduceRules.map (·.1) := by
  generalize reduceRules = rs
  simp [lastRule]

/-- The facts about everything built when the program starts. -/
theorem start_facts {groot rroot : PN Str Str} {o1 o2 : List Str} (hg : RulesShown [] grammarRules groot.kids)
    (hr : SpellsR rroot.kids reduceRules) (h1 : ∀ k, k ∈ o1 ↔ k = "Array".toList ∨ k = "Object".toList)
    (h2 : ∀ k, k ∈ o2 ↔ k ∈ reduceRules.map (·.1)) :
    ∃ G R, JG G ∧ G.WF ∧ JR R ∧ ∃ N, ∀ n ≥ N, ∀ ls, Json.format n groot rroot o1 o2 ls = formatLexemes n G (R n) ls := by
  obtain ⟨g, b, tail, ⟨N1, e1⟩, h2', _⟩ := evalGrammar_spec hg
  have hG := shows_of_rep h2'
  obtain ⟨jg, wf, b1, b2, b3⟩ := grammar_facts hg ⟨N1, e1⟩ hG
  have hv : Verif.Grammar.view g = _ := Verif.Props.RemoveLR.observe_eq hG
  have jr := reducer_jr (rroot := rroot) (o1 := o1) (o2 := o2) b1 b2 b3 (fun k => by
    rw [h1]
    constructor
    · rintro (rfl | rfl)
      · rw [b1]; rfl
      · rw [b2]; rfl
    · intro h
      apply Classical.byContradiction
      intro hn
      rw [not_or] at hn
      rw [b3 k hn.1 hn.2] at h
      cases h) hr (fun k => by rw [h2, rules_names])
  obtain ⟨x, ⟨N2, e2⟩, hx⟩ := Verif.Props.Topdown.C12_terminates_sound _ wf
  have : x = false := by
    cases x with
    | false => rfl
    | true => exact absurd (hx rfl) (notLR jg wf)
  subst this
  obtain ⟨d0, hd⟩ := C57_definition (σ := Unit) hr
  refine ⟨_, _, jg, wf, jr, max N1 (max N2 d0), fun n hn ls => ?_⟩
  obtain ⟨r, er, _⟩ := hd n n (by omega)
  unfold Json.format
  rw [show evalGrammar n groot = _ from e1 n (by omega), Out.bind_ok, er, Out.bind_ok, hv, Topdown.new, e2 n (by omega)]
  simp only [Out.bind_ok, Bool.not_false, if_true, reducer, er]

theorem stands_unique {t : PN Str Str} {v v'} (h : Stands t v) (h' : Stands t v') : v = v' := by
  induction h generalizing v' with
  | @atom l ks hk =>
    generalize e : PN.node l ks = t at h'
    cases h' with
    | atom _ => cases e; rfl
    | arr hk' => cases e; exact absurd (by rw [hk']; simp) hk
    | obj hk' => cases e; exact absurd (by rw [hk']; simp) hk
  | @arr l ks vs hk hl _ ih =>
    generalize e : PN.node l ks = t at h'
    cases h' with
    | atom hn => cases e; exact absurd (by rw [hk]; simp) hn
    | @arr _ _ vs' hk' hl' h' =>
      cases e
      congr 1
      apply List.ext_getElem (by omega)
      intro i h1 h2
      exact ih i ks[i] vs[i] (by simp) (by simp) (h' i ks[i] vs'[i] (by simp) (by simp))
    | obj hk' => cases e; rw [hk] at hk'; exact absurd hk' (by decide)
  | @obj l ks fs hk hl hkv _ ih =>
    generalize e : (PN.node l (ks.map fun x => PN.node x.1 [x.2])) = t at h'
    cases h' with
    | atom hn => cases e; exact absurd (by rw [hk]; simp) hn
    | arr hk' => cases e; rw [hk] at hk'; exact absurd hk' (by decide)
    | @obj l' ks' fs' hk' hl' hkv' h' =>
      simp only [PN.node.injEq] at e
      have : ks = ks' := by
        refine List.map_injective_iff.2 ?_ e.2
        rintro ⟨a, b⟩ ⟨c, d⟩ e
        simp only [PN.node.injEq, List.cons.injEq, and_true] at e
        rw [e.1, e.2]
      subst this
      have lf : ks.length = fs.length := by simpa using congrArg List.length hl
      have lf' : ks.length = fs'.length := by simpa using congrArg List.length hl'
      congr 1
      apply List.ext_getElem (by omega)
      intro i h1 h2
      have hi : i < ks.length := by omega
      have e2 := ih i ks[i] fs[i] (by simp) (by simp) (h' i ks[i] fs'[i] (by simp) (by simp))
      have e1 : (fs.map (·.1))[i]? = (fs'.map (·.1))[i]? := by rw [← hl, ← hl']
      simp [h1, h2] at e1
      exact Prod.ext e1 e2

section
variable {groot rroot : PN Str Str} {o1 o2 : List Str} {ls : List (Lexeme Str Str)}

/-- **C65.** If the lexemes are a JSON value, `Format` returns its tokens with only white space between them. -/
theorem C65_format (hg : RulesShown [] grammarRules groot.kids)
    (hr : SpellsR rroot.kids reduceRules) (h1 : ∀ k, k ∈ o1 ↔ k = "Array".toList ∨ k = "Object".toList)
    (h2 : ∀ k, k ∈ o2 ↔ k ∈ reduceRules.map (·.1)) {v} (hw : Written (.val v) ls) :
    ∃ s, Out.Returns (fun n => Json.format n groot rroot o1 o2 ls) (some s) ∧ Spaced (tokens v) s := by
  obtain ⟨G, R, jg, wf, jr, N, hN⟩ := start_facts hg hr h1 h2
  obtain ⟨t, t', hc, ⟨N1, hred⟩, hst⟩ := written_accepted (ev := []) jg jr hw
  obtain ⟨N2, hp⟩ := (Verif.Props.Topdown.C15_ordered_choice [] G wf ls _).2 hc
  obtain ⟨s, es, hs⟩ := Verif.Props.Json.C56_format hst
  refine ⟨s, ⟨max N (max N1 N2), fun n hn => ?_⟩, hs⟩
  simp only
  rw [hN n (by omega), formatLexemes, hp n (by omega), Out.bind_ok, Tree.reduce, hred n (by omega)]
  simp only [Out.bind_ok, es]

/-- **C65.** If the lexemes are no JSON value, `Format` returns an error. -/
theorem C65_error (hg : RulesShown [] grammarRules groot.kids)
    (hr : SpellsR rroot.kids reduceRules) (h1 : ∀ k, k ∈ o1 ↔ k = "Array".toList ∨ k = "Object".toList)
    (h2 : ∀ k, k ∈ o2 ↔ k ∈ reduceRules.map (·.1)) (hw : ∀ v, ¬ Written (.val v) ls) :
    Out.Returns (fun n => Json.format n groot rroot o1 o2 ls) none := by
  obtain ⟨G, R, jg, wf, jr, N, hN⟩ := start_facts hg hr h1 h2
  obtain ⟨o, N2, hp⟩ := Verif.Props.Topdown.C16_terminates_partial ([] : Str) G wf (notLR jg wf) ls
  cases o with
  | some t =>
    obtain ⟨v, hv⟩ := written_of_parse jg (Verif.Props.Topdown.C14_sound [] G wf ls (hp N2 (Nat.le_refl _)))
    exact absurd hv (hw v)
  | none =>
    refine ⟨max N N2, fun n hn => ?_⟩
    simp only
    rw [hN n (by omega), formatLexemes, hp n (by omega)]
    rfl

end

/-- The text of the punctuation. -/
def punctuation : List (Str × Str) :=
  [("lb".toList, "[".toList), ("rb".toList, "]".toList), ("lcb".toList, "{".toList), ("rcb".toList, "}".toList),
   ("comma".toList, ",".toList), ("colon".toList, ":".toList)]

/-- Punctuation lexemes have the text the lexer rules give them (examples/parlexjson/json.go:15-26). -/
def Faithful (ls : List (Lexeme Str Str)) : Prop := ∀ l ∈ ls, ∀ p ∈ punctuation, l.kind = p.1 → l.val = p.2

/-- The tokens of a part of a value. -/
def partTokens : Part → List Str
  | .val v => tokens v
  | .items vs => tokensL vs false
  | .field k v => [k, ":".toList] ++ tokens v
  | .fields fs => tokensF fs false

theorem written_tokens {x ls} (h : Written x ls) : Faithful ls → ls.map (·.val) = partTokens x := by
  have sub : ∀ {a b : List (Lexeme Str Str)}, (∀ l ∈ a, l ∈ b) → Faithful b → Faithful a := fun h hb l hl => hb l (h l hl)
  have pt : ∀ {ls} {l : Lexeme Str Str} {p}, Faithful ls → l ∈ ls → p ∈ punctuation → l.kind = p.1 → l.val = p.2 :=
    fun hf hl hp e => hf _ hl _ hp e
  induction h with
  | atom h => intro _; rfl
  | @noItems a b ha hb =>
    intro hf
    simp [partTokens, tokens, tokensL, pt (p := ("lb".toList, "[".toList)) hf (l := a) (by simp) (by simp [punctuation]) ha,
      pt (p := ("rb".toList, "]".toList)) hf (l := b) (by simp) (by simp [punctuation]) hb]
  | @arr a b v vs x y ha hb _ _ ih1 ih2 =>
    intro hf
    have e1 := ih1 (sub (fun l hl => by simp [hl]) hf)
    have e2 := ih2 (sub (fun l hl => by simp [hl]) hf)
    simp [partTokens, tokens, tokensL, pt (p := ("lb".toList, "[".toList)) hf (l := a) (by simp) (by simp [punctuation]) ha,
      pt (p := ("rb".toList, "]".toList)) hf (l := b) (by simp) (by simp [punctuation]) hb] at e1 e2 ⊢
    simp [e1, e2]
  | @noFields a b ha hb =>
    intro hf
    simp [partTokens, tokens, tokensF, pt (p := ("lcb".toList, "{".toList)) hf (l := a) (by simp) (by simp [punctuation]) ha,
      pt (p := ("rcb".toList, "}".toList)) hf (l := b) (by simp) (by simp [punctuation]) hb]
  | @obj a b k v vs x y ha hb _ _ ih1 ih2 =>
    intro hf
    have e1 := ih1 (sub (fun l hl => by simp [hl]) hf)
    have e2 := ih2 (sub (fun l hl => by simp [hl]) hf)
    simp [partTokens, tokens, tokensF, pt (p := ("lcb".toList, "{".toList)) hf (l := a) (by simp) (by simp [punctuation]) ha,
      pt (p := ("rcb".toList, "}".toList)) hf (l := b) (by simp) (by simp [punctuation]) hb] at e1 e2 ⊢
    simp [e1, e2]
  | itemsEnd => intro _; rfl
  | @item c v vs x y hc _ _ ih1 ih2 =>
    intro hf
    have e1 := ih1 (sub (fun l hl => by simp [hl]) hf)
    have e2 := ih2 (sub (fun l hl => by simp [hl]) hf)
    simp [partTokens, tokensL, pt (p := ("comma".toList, ",".toList)) hf (l := c) (by simp) (by simp [punctuation]) hc] at e1 e2 ⊢
    simp [e1, e2]
  | @field l c v x hl hc _ ih =>
    intro hf
    have e1 := ih (sub (fun l hl => by simp [hl]) hf)
    simp [partTokens, pt (p := ("colon".toList, ":".toList)) hf (l := c) (by simp) (by simp [punctuation]) hc] at e1 ⊢
    exact e1
  | fieldsEnd => intro _; rfl
  | @moreFields c k v fs x y hc _ _ ih1 ih2 =>
    intro hf
    have e1 := ih1 (sub (fun l hl => by simp [hl]) hf)
    have e2 := ih2 (sub (fun l hl => by simp [hl]) hf)
    simp [partTokens, tokensF, pt (p := ("comma".toList, ",".toList)) hf (l := c) (by simp) (by simp [punctuation]) hc] at e1 e2 ⊢
    simp [e1, e2]

/-- **C65.** With the punctuation's text as the lexer has it, the output is the input with other white
space. -/
theorem C65_only_whitespace {groot rroot : PN Str Str} {o1 o2 : List Str} {ls : List (Lexeme Str Str)}
    (hg : RulesShown [] grammarRules groot.kids) (hr : SpellsR rroot.kids reduceRules)
    (h1 : ∀ k, k ∈ o1 ↔ k = "Array".toList ∨ k = "Object".toList) (h2 : ∀ k, k ∈ o2 ↔ k ∈ reduceRules.map (·.1))
    (hf : Faithful ls) :
    Out.Returns (fun n => Json.format n groot rroot o1 o2 ls) none ∨
    ∃ s, Out.Returns (fun n => Json.format n groot rroot o1 o2 ls) (some s) ∧ Spaced (ls.map (·.val)) s := by
  by_cases h : ∃ v, Written (.val v) ls
  · obtain ⟨v, hv⟩ := h
    obtain ⟨s, e, hs⟩ := C65_format hg hr h1 h2 hv
    have := written_tokens hv hf
    exact .inr ⟨s, e, by rw [this]; exact hs⟩
  · exact .inl (C65_error hg hr h1 h2 fun v hv => h ⟨v, hv⟩)

/-! ### Concrete case -/

def exRules : PN Str Str := nd "Rules" "" [
  nd "Rule" "Value" [nd "PromoteSingleChild" "PromoteSingleChild" []],
  nd "Rule" "Object" [nd "RemoveChildren" "RemoveChildren" [nd "VarNumArgs" "" [nd "number" "0" [], nd "number" "-1" []]]],
  nd "Rule" "Array" [nd "RemoveChildren" "RemoveChildren" [nd "VarNumArgs" "" [nd "number" "0" [], nd "number" "-1" []]]],
  nd "Rule" "KeyVal" [nd "PromoteChildValue" "PromoteChildValue" [nd "OneNumArg" "" [nd "number" "0" []]],
    nd "RemoveChild" "RemoveChild" [nd "OneNumArg" "" [nd "number" "0" []]]],
  nd "Rule" "MoreVals" [nd "ReplaceWithChild" "ReplaceWithChild" [nd "OneNumArg" "" [nd "number" "1" []]]],
  nd "Rule" "MoreKeyVals" [nd "ReplaceWithChild" "ReplaceWithChild" [nd "OneNumArg" "" [nd "number" "1" []]]]]

theorem num {a : String} {n : Int} {l} (h : IntOf charNumerals a.toList n) : Num (nd l "" [nd "number" a []]) n :=
  .inr ⟨_, _, rfl, h⟩

theorem n0 : IntOf charNumerals "0".toList 0 := .inl ⟨_, .plain (show Digits charNumerals ['0'] 0 from .one (by decide)), by decide, by simp⟩
theorem n1 : IntOf charNumerals "1".toList 1 := .inl ⟨_, .plain (show Digits charNumerals ['1'] 1 from .one (by decide)), by decide, by simp⟩
theorem n2 : IntOf charNumerals "-1".toList (-1) := .inl ⟨_, .minus (show Digits charNumerals ['1'] 1 from .one (by decide)), by decide, by simp⟩

theorem exRules_spells : SpellsR exRules.kids reduceRules := by
  have hn : Nums (nd "VarNumArgs" "" [nd "number" "0" [], nd "number" "-1" []]) [0, -1] := by
    refine ⟨rfl, fun x hx => ?_⟩
    simp only [nd, PN.kids, List.zip_cons_cons, List.zip_nil_right, List.mem_cons, List.not_mem_nil, or_false] at hx
    rcases hx with rfl | rfl
    · exact n0
    · exact n2
  refine .rule rfl (.op (.single rfl) .nil) (.rule rfl (.op (.removeChildren rfl rfl hn) .nil)
    (.rule rfl (.op (.removeChildren rfl rfl hn) .nil)
    (.rule rfl (.op (.value rfl rfl (num n0)) (.op (.removeChild rfl rfl (num n0)) .nil))
    (.rule rfl (.op (.replace rfl rfl (num n1)) .nil) (.rule rfl (.op (.replace rfl rfl (num n1)) .nil) .nil)))))

/-- The value is determined by the lexemes. -/
theorem written_unique {ls v v'} (h : Written (.val v) ls) (h' : Written (.val v') ls) : v = v' := by
  obtain ⟨G, R, jg, wf, jr, N, hN⟩ := start_facts (o1 := ["Array".toList, "Object".toList]) (o2 := reduceRules.map (·.1))
    (Verif.Props.RegexGram.rootOf_shows grammarRules) exRules_spells (by simp) (by simp)
  obtain ⟨t, t', hc, ⟨N1, hred⟩, hst⟩ := written_accepted (ev := []) jg jr h
  obtain ⟨u, u', hc', ⟨N1', hred'⟩, hst'⟩ := written_accepted (ev := []) jg jr h'
  have := Verif.Props.Topdown.C15_unique _ _ wf _ hc hc'
  cases this
  have := (hred (max N1 N1') (by omega)).symm.trans (hred' (max N1 N1') (by omega))
  cases this
  exact stands_unique hst hst'

def lxm (k v : String) : Lexeme Str Str := ⟨k.toList, v.toList, 0, 0⟩

/-- The lexemes of `{"a":[1,[]]}`. -/
def exLexemes : List (Lexeme Str Str) := [lxm "lcb" "{", lxm "string" "\"a\"",
  lxm "colon" ":", lxm "lb" "[", lxm "number" "1", lxm "comma" ",", lxm "lb" "[", lxm "rb" "]", lxm "rb" "]", lxm "rcb" "}"]

theorem exLexemes_written : Written (.val (.obj [("\"a\"".toList, .arr [.atom "1".toList, .arr []])])) exLexemes := by
  have ht : Written (.val (.atom "1".toList)) [lxm "number" "1"] := .atom (l := lxm "number" "1") (by decide)
  have he : Written (.val (.arr [])) [lxm "lb" "[", lxm "rb" "]"] := .noItems rfl rfl
  have hi : Written (.items [.arr []]) [lxm "comma" ",", lxm "lb" "[", lxm "rb" "]"] := .item (c := lxm "comma" ",") rfl he .itemsEnd
  have ha := Written.arr (a := lxm "lb" "[") (b := lxm "rb" "]") rfl rfl ht hi
  have hf := Written.field (l := lxm "string" "\"a\"") (c := lxm "colon" ":") rfl rfl ha
  exact Written.obj (a := lxm "lcb" "{") (b := lxm "rcb" "}") rfl rfl hf .fieldsEnd

/-- The hypotheses hold of it. -/
theorem ex_hypotheses : RulesShown [] grammarRules (Verif.Props.RegexGram.rootOf grammarRules).kids ∧
    SpellsR exRules.kids reduceRules ∧ (∀ k, k ∈ ["Object".toList, "Array".toList] ↔ k = "Array".toList ∨ k = "Object".toList) ∧
    Faithful exLexemes :=
  ⟨Verif.Props.RegexGram.rootOf_shows grammarRules, exRules_spells, by simp [or_comm],
   show ∀ l ∈ exLexemes, ∀ p ∈ punctuation, l.kind = p.1 → l.val = p.2 by decide +kernel⟩

/-- What the program returns for it. -/
theorem ex_output : Json.format 100 (Verif.Props.RegexGram.rootOf grammarRules) exRules ["Object".toList, "Array".toList]
    (reduceRules.map (·.1)) exLexemes = .ok (some "{\"a\": [1,\n  []\n]}".toList) := by
  decide +kernel

/-- Without the last lexeme it is an error. -/
theorem ex_no_output : Json.format 100 (Verif.Props.RegexGram.rootOf grammarRules) exRules ["Object".toList, "Array".toList]
    (reduceRules.map (·.1)) exLexemes.dropLast = .ok none := by
  decide +kernel

end Verif.Props.JsonFormat
