import Verif.Spec.Json
import Verif.Props.Topdown
import Verif.Proofs.RegexGramReduce
/-
The JSON grammar under ordered choice and its reductions, for any grammar and reducer that have the
stated rules.
-/
namespace Verif.Json
open Verif.Spec Verif.Spec.Json Verif.RegexGram

/-- The rules of the grammar, as far as they matter for values. -/
structure JG (G : Grammar Str) : Prop where
  start : G.order.head? = some "Value".toList
  order : ∀ A ∈ G.order, A ∈ ["Value".toList, "Array".toList, "MoreVals".toList, "Object".toList, "MoreKeyVals".toList,
    "KeyVal".toList, "MoreVals*".toList, "MoreKeyVals*".toList]
  value : G.prods "Value".toList = some [["string".toList], ["number".toList], ["bool".toList], ["null".toList],
    ["Array".toList], ["Object".toList]]
  array : G.prods "Array".toList = some [["lb".toList, "Value".toList, "MoreVals*".toList, "rb".toList],
    ["lb".toList, "rb".toList]]
  more : G.prods "MoreVals".toList = some [["comma".toList, "Value".toList]]
  object : G.prods "Object".toList = some [["lcb".toList, "KeyVal".toList, "MoreKeyVals*".toList, "rcb".toList],
    ["lcb".toList, "rcb".toList]]
  moreKV : G.prods "MoreKeyVals".toList = some [["comma".toList, "KeyVal".toList]]
  keyVal : G.prods "KeyVal".toList = some [["string".toList, "colon".toList, "Value".toList]]
  mores : G.prods "MoreVals*".toList = some [["MoreVals".toList, "MoreVals*".toList], []]
  moreKVs : G.prods "MoreKeyVals*".toList = some [["MoreKeyVals".toList, "MoreKeyVals*".toList], []]
  term : ∀ t ∈ ["string".toList, "number".toList, "bool".toList, "null".toList, "lb".toList, "rb".toList,
    "lcb".toList, "rcb".toList, "comma".toList, "colon".toList], G.Term t

theorem atom_tok : ∀ X ∈ atomKinds, X ∈ ["string".toList, "number".toList, "bool".toList, "null".toList, "lb".toList, "rb".toList,
    "lcb".toList, "rcb".toList, "comma".toList, "colon".toList] := by decide

/-- Reduction of a tree, for all sufficient bounds on loops. -/
def Reds (R : Nat → Tree.Reducer Unit Str Str) (t t' : PN Str Str) : Prop :=
  ∃ N, ∀ n ≥ N, Tree.rawReduce (R n) t () = .ok (t', ())

/-- Reduction of trees. -/
inductive RedsL (R : Nat → Tree.Reducer Unit Str Str) : List (PN Str Str) → List (PN Str Str) → Prop
  | nil : RedsL R [] []
  | cons {t t' ts ts'} : Reds R t t' → RedsL R ts ts' → RedsL R (t :: ts) (t' :: ts')

/-- What the reducer does with one node whose children are reduced. -/
def Acts (R : Nat → Tree.Reducer Unit Str Str) (p p' : PN Str Str) : Prop :=
  ∃ N, ∀ n ≥ N, (match (R n p.kind).join with | none => .ok (p, ()) | some f => f p ()) = Out.ok (p', ())

/-- The reductions, as far as they matter for values. -/
structure JR (R : Nat → Tree.Reducer Unit Str Str) : Prop where
  value : ∀ {l : Lexeme Str Str} {c}, l.kind = "Value".toList → Acts R (.node l [c]) c
  array : ∀ {l : Lexeme Str Str} {a b ks}, l.kind = "Array".toList → a.kind = "lb".toList → b.kind = "rb".toList →
    Acts R (.node l (a :: (ks ++ [b]))) (.node l (flats ["MoreVals*".toList] ks))
  object : ∀ {l : Lexeme Str Str} {a b ks}, l.kind = "Object".toList → a.kind = "lcb".toList → b.kind = "rcb".toList →
    Acts R (.node l (a :: (ks ++ [b]))) (.node l (flats ["MoreKeyVals*".toList] ks))
  more : ∀ {l : Lexeme Str Str} {a b}, l.kind = "MoreVals".toList → Acts R (.node l [a, b]) b
  moreKV : ∀ {l : Lexeme Str Str} {a b}, l.kind = "MoreKeyVals".toList → Acts R (.node l [a, b]) b
  keyVal : ∀ {l : Lexeme Str Str} {a b c}, l.kind = "KeyVal".toList → ∃ l', l'.kind = "KeyVal".toList ∧ l'.val = a.lx.val ∧
    Acts R (.node l [a, b, c]) (.node l' [c])
  keep : ∀ {l : Lexeme Str Str} {ks}, l.kind ∈ ["string".toList, "number".toList, "bool".toList, "null".toList, "lb".toList, "rb".toList,
    "lcb".toList, "rcb".toList, "comma".toList, "colon".toList, "MoreVals*".toList, "MoreKeyVals*".toList] →
    Acts R (.node l ks) (.node l ks)

variable {R : Nat → Tree.Reducer Unit Str Str} {G : Grammar Str}

theorem RedsL.raw {ts ts'} (h : RedsL R ts ts') : ∃ N, ∀ n ≥ N, Tree.rawReduces (R n) ts () = .ok (ts', ()) := by
  induction h with
  | nil => exact ⟨0, fun n _ => rfl⟩
  | cons h _ ih =>
    obtain ⟨N1, h⟩ := h
    obtain ⟨N2, ih⟩ := ih
    refine ⟨max N1 N2, fun n hn => ?_⟩
    rw [Tree.rawReduces, h n (by omega)]
    simp only [Out.bind_ok]
    rw [ih n (by omega)]
    rfl

theorem Reds.node {l : Lexeme Str Str} {ks ks' q} (h : RedsL R ks ks') (ha : Acts R (.node l ks') q) : Reds R (.node l ks) q := by
  obtain ⟨N1, h⟩ := h.raw
  obtain ⟨N2, ha⟩ := ha
  refine ⟨max N1 N2, fun n hn => ?_⟩
  have h2 := ha n (by omega)
  rw [Tree.rawReduce, h n (by omega)]
  simp only [Out.bind_ok]
  rw [show (PN.node l ks').kind = l.kind from rfl] at h2
  cases hj : (R n l.kind).join with
  | none => rw [hj] at h2; exact h2
  | some f => rw [hj] at h2; exact h2

theorem Reds.leaf (hr : JR R) {l : Lexeme Str Str} (h : l.kind ∈ ["string".toList, "number".toList, "bool".toList, "null".toList, "lb".toList, "rb".toList,
    "lcb".toList, "rcb".toList, "comma".toList, "colon".toList, "MoreVals*".toList, "MoreKeyVals*".toList]) :
    Reds R (.node l []) (.node l []) := .node .nil (hr.keep h)

/-! ### Matching -/

variable {ev : Str} {inp : List (Lexeme Str Str)}

/-- The first of some one symbol productions that matches. -/
theorem match_alts {A X : Str} {i j t} : ∀ {before after : List Str}, (∀ Y ∈ before, Match G ev inp (.sym Y) i none) →
    Match G ev inp (.sym X) i (some (j, [t])) →
    Match G ev inp (.alts A ((before ++ X :: after).map fun Y => [Y])) i (some (j, [.node ⟨A, ev, -1, 0⟩ [t]]))
  | [], after, _, h => .alts_ok (.seq_cons (ts' := []) h .seq_nil)
  | Y :: before, after, hb, h => .alts_no (.seq_no (hb Y (by simp))) (match_alts (fun Z hZ => hb Z (by simp [hZ])) h)

theorem match_alts_no {A : Str} {i} : ∀ {ps : List Str}, (∀ Y ∈ ps, Match G ev inp (.sym Y) i none) →
    Match G ev inp (.alts A (ps.map fun Y => [Y])) i none
  | [], _ => .alts_nil
  | Y :: ps, hb => .alts_no (.seq_no (hb Y (by simp))) (match_alts_no fun Z hZ => hb Z (by simp [hZ]))

theorem match_whole {A X : Str} {t} : ∀ {before after : List Str}, (∀ Y ∈ before, Match G ev inp (.sym Y) 0 none) →
    Match G ev inp (.sym X) 0 (some (inp.length, [t])) →
    Whole G ev inp A ((before ++ X :: after).map fun Y => [Y]) (some (.node ⟨A, ev, -1, 0⟩ [t]))
  | [], after, _, h => .hit (.seq_cons (ts' := []) h .seq_nil)
  | Y :: before, after, hb, h => .miss (.seq_no (hb Y (by simp))) (by simp) (match_whole (fun Z hZ => hb Z (by simp [hZ])) h)

theorem tok (hg : JG G) {i : Nat} {l : Lexeme Str Str} {t : Str} (hl : inp[i]? = some l) (hk : l.kind = t)
    (ht : t ∈ ["string".toList, "number".toList, "bool".toList, "null".toList, "lb".toList, "rb".toList,
    "lcb".toList, "rcb".toList, "comma".toList, "colon".toList]) : Match G ev inp (.sym t) i (some (i + 1, [.node l []])) :=
  .term_ok (hg.term t ht) hl hk

theorem notok (hg : JG G) {i : Nat} {t : Str} (hl : ∀ l, inp[i]? = some l → l.kind ≠ t)
    (ht : t ∈ ["string".toList, "number".toList, "bool".toList, "null".toList, "lb".toList, "rb".toList,
    "lcb".toList, "rcb".toList, "comma".toList, "colon".toList]) : Match G ev inp (.sym t) i none :=
  .term_no (hg.term t ht) hl

theorem noArray (hg : JG G) {i : Nat} (hl : ∀ l, inp[i]? = some l → l.kind ≠ "lb".toList) :
    Match G ev inp (.sym "Array".toList) i none :=
  .nonterm hg.array (.alts_no (.seq_no (notok hg hl (by decide))) (.alts_no (.seq_no (notok hg hl (by decide))) .alts_nil))

theorem noObject (hg : JG G) {i : Nat} (hl : ∀ l, inp[i]? = some l → l.kind ≠ "lcb".toList) :
    Match G ev inp (.sym "Object".toList) i none :=
  .nonterm hg.object (.alts_no (.seq_no (notok hg hl (by decide))) (.alts_no (.seq_no (notok hg hl (by decide))) .alts_nil))

/-- Nothing but the five kinds of beginnings begins a value. -/
theorem noSym (hg : JG G) {i : Nat} {l : Lexeme Str Str} {k Y : Str} (hl : inp[i]? = some l) (hk : l.kind = k)
    (h : (Y = "Array".toList ∧ k ≠ "lb".toList) ∨ (Y = "Object".toList ∧ k ≠ "lcb".toList) ∨
      (Y ∈ atomKinds ∧ k ≠ Y)) : Match G ev inp (.sym Y) i none := by
  have key : ∀ t, k ≠ t → ∀ l, inp[i]? = some l → l.kind ≠ t := by
    intro t ht l' hl'
    rw [hl] at hl'
    cases hl'
    rw [hk]; exact ht
  rcases h with ⟨rfl, h⟩ | ⟨rfl, h⟩ | ⟨hY, h⟩
  · exact noArray hg (key _ h)
  · exact noObject hg (key _ h)
  · exact notok hg (key _ h) (atom_tok Y hY)

theorem noValue (hg : JG G) {i : Nat} {l : Lexeme Str Str} {k : Str} (hl : inp[i]? = some l) (hk : l.kind = k)
    (h : k ∉ atomKinds ∧ k ≠ "lb".toList ∧ k ≠ "lcb".toList) : Match G ev inp (.sym "Value".toList) i none := by
  refine .nonterm hg.value (match_alts_no (ps := ["string".toList, "number".toList, "bool".toList, "null".toList,
    "Array".toList, "Object".toList]) ?_)
  have ha : ∀ Y ∈ atomKinds, k ≠ Y := fun Y hY e => h.1 (e ▸ hY)
  intro Y hY
  simp only [List.mem_cons, List.not_mem_nil, or_false] at hY
  refine noSym hg hl hk ?_
  rcases hY with rfl | rfl | rfl | rfl | rfl | rfl
  · exact .inr (.inr ⟨by decide, ha _ (by decide)⟩)
  · exact .inr (.inr ⟨by decide, ha _ (by decide)⟩)
  · exact .inr (.inr ⟨by decide, ha _ (by decide)⟩)
  · exact .inr (.inr ⟨by decide, ha _ (by decide)⟩)
  · exact .inl ⟨rfl, h.2.1⟩
  · exact .inr (.inl ⟨rfl, h.2.2⟩)

/-! ### Reading a value -/

theorem flats_keep {S : List Str} {t : PN Str Str} {ts} (h : t.kind ∉ S) : flats S (t :: ts) = t :: flats S ts := by
  cases t with
  | node l ks =>
    have h' : ¬ l.kind ∈ S := h
    simp only [flats, flat, if_neg h', List.singleton_append]

theorem flats_self {S : List Str} {l : Lexeme Str Str} {ks} (h : l.kind ∈ S) : flats S [.node l ks] = flats S ks := by
  simp only [flats, flat, if_pos h, List.append_nil]

/-- Trees for values. -/
inductive StandsL : List (PN Str Str) → List Val → Prop
  | nil : StandsL [] []
  | cons {t v ts vs} : Stands t v → StandsL ts vs → StandsL (t :: ts) (v :: vs)

/-- Lexemes and trees for fields. -/
inductive StandsF : List (Lexeme Str Str × PN Str Str) → List (Str × Val) → Prop
  | nil : StandsF [] []
  | cons {l t v ts vs} : l.kind = "KeyVal".toList → Stands t v → StandsF ts vs → StandsF ((l, t) :: ts) ((l.val, v) :: vs)

theorem StandsL.arr {l : Lexeme Str Str} {ts vs} (hk : l.kind = "Array".toList) (h : StandsL ts vs) : Stands (.node l ts) (.arr vs) := by
  have : ts.length = vs.length ∧ ∀ (i : Nat) t v, ts[i]? = some t → vs[i]? = some v → Stands t v := by
    induction h with
    | nil => simp
    | cons h _ ih =>
      refine ⟨by simp [ih.1], fun i t v a b => ?_⟩
      cases i with
      | zero => cases a; cases b; exact h
      | succ i => exact ih.2 i t v a b
  exact .arr hk this.1 this.2

theorem StandsF.obj {l : Lexeme Str Str} {ts fs} (hk : l.kind = "Object".toList) (h : StandsF ts fs) :
    Stands (.node l (ts.map fun x => .node x.1 [x.2])) (.obj fs) := by
  have : ts.map (·.1.val) = fs.map (·.1) ∧ (∀ x ∈ ts, x.1.kind = "KeyVal".toList) ∧
      ∀ (i : Nat) x f, ts[i]? = some x → fs[i]? = some f → Stands x.2 f.2 := by
    induction h with
    | nil => simp
    | cons hk h _ ih =>
      refine ⟨by simp [ih.1], ?_, fun i t v a b => ?_⟩
      · intro x hx
        rcases List.mem_cons.1 hx with rfl | hx
        · exact hk
        · exact ih.2.1 x hx
      · cases i with
        | zero => cases a; cases b; exact h
        | succ i => exact ih.2.2 i t v a b
  exact .obj hk this.1 this.2.1 this.2.2

/-- What is shown of one part. -/
def Reads (G : Grammar Str) (ev : Str) (R : Nat → Tree.Reducer Unit Str Str) (inp : List (Lexeme Str Str)) (i j : Nat) : Part → Prop
  | .val v => ∃ before X after t t', ["string".toList, "number".toList, "bool".toList, "null".toList,
      "Array".toList, "Object".toList] = before ++ X :: after ∧
      (∀ Y ∈ before, Match G ev inp (.sym Y) i none) ∧ Match G ev inp (.sym X) i (some (j, [t])) ∧
      Reds R t t' ∧ Stands t' v ∧ t'.kind ∉ ["MoreVals*".toList, "MoreKeyVals*".toList]
  | .items vs => (∀ l, inp[j]? = some l → l.kind ≠ "comma".toList) →
      ∃ t t', Match G ev inp (.sym "MoreVals*".toList) i (some (j, [t])) ∧
      Reds R t t' ∧ StandsL (flats ["MoreVals*".toList] [t']) vs
  | .field k v => ∃ t l c, Match G ev inp (.sym "KeyVal".toList) i (some (j, [t])) ∧
      Reds R t (.node l [c]) ∧ l.kind = "KeyVal".toList ∧ l.val = k ∧ Stands c v
  | .fields fs => (∀ l, inp[j]? = some l → l.kind ≠ "comma".toList) →
      ∃ t t' xs, Match G ev inp (.sym "MoreKeyVals*".toList) i (some (j, [t])) ∧
      Reds R t t' ∧ flats ["MoreKeyVals*".toList] [t'] = xs.map (fun x => .node x.1 [x.2]) ∧ StandsF xs fs

theorem Reads.value (hg : JG G) (hr : JR R) {i j v} (h : Reads G ev R inp i j (.val v)) :
    ∃ t t', Match G ev inp (.sym "Value".toList) i (some (j, [t])) ∧ Reds R t t' ∧ Stands t' v ∧
      t'.kind ∉ ["MoreVals*".toList, "MoreKeyVals*".toList] := by
  obtain ⟨before, X, after, t, t', e, hb, hm, h1, h2, h3⟩ := h
  refine ⟨.node ⟨"Value".toList, ev, -1, 0⟩ [t], t', .nonterm hg.value ?_, ?_, h2, h3⟩
  · have := match_alts (A := "Value".toList) (after := after) hb hm
    rw [← e] at this
    exact this
  · exact .node (.cons h1 .nil) (hr.value rfl)

theorem at_mid {β : Type} (pre : List β) (a : β) (rest : List β) : (pre ++ a :: rest)[pre.length]? = some a := by simp

theorem at_mid' {β : Type} (pre : List β) (a : β) (rest : List β) (n : Nat) (h : n = pre.length) : (pre ++ a :: rest)[n]? = some a := by
  subst h; simp

set_option maxHeartbeats 1000000 in
theorem written_reads (hg : JG G) (hr : JR R) {x ls} (h : Written x ls) : ∀ inp pre post, inp = pre ++ ls ++ post →
    Reads G ev R inp pre.length (pre.length + ls.length) x := by
  induction h with
  | @atom l hk =>
    intro inp pre post e
    have hl : inp[pre.length]? = some l := by rw [e]; simp
    have hst : Stands (.node l []) (.atom l.val) := by
      refine .atom ?_
      revert hk
      generalize l.kind = k
      intro hk
      simp only [atomKinds, List.mem_cons, List.not_mem_nil, or_false] at hk
      rcases hk with rfl | rfl | rfl | rfl <;> decide
    have hns : l.kind ∉ ["MoreVals*".toList, "MoreKeyVals*".toList] := by
      simp only [atomKinds, List.mem_cons, List.not_mem_nil, or_false] at hk
      rcases hk with h | h | h | h <;> rw [h] <;> decide
    have hrd : Reds R (.node l []) (.node l []) := by
      refine Reds.leaf hr ?_
      simp only [atomKinds, List.mem_cons, List.not_mem_nil, or_false] at hk ⊢
      tauto
    have key : ∀ before X after, ["string".toList, "number".toList, "bool".toList, "null".toList,
        "Array".toList, "Object".toList] = before ++ X :: after → l.kind = X → X ∈ atomKinds →
        (∀ Y ∈ before, Y ∈ atomKinds ∧ X ≠ Y) → Reads G ev R inp pre.length (pre.length + [l].length) (.val (.atom l.val)) := by
      intro before X after e1 e2 hX hb
      refine ⟨before, X, after, .node l [], .node l [], e1, ?_, ?_, hrd, hst, hns⟩
      · intro Y hY
        exact noSym hg hl e2 (.inr (.inr (hb Y hY)))
      · exact tok hg hl e2 (atom_tok X hX)
    simp only [atomKinds, List.mem_cons, List.not_mem_nil, or_false] at hk
    rcases hk with h | h | h | h
    · exact key [] _ _ rfl h (by decide) (by simp)
    · exact key ["string".toList] _ _ rfl h (by decide) (by decide)
    · exact key ["string".toList, "number".toList] _ _ rfl h (by decide) (by decide)
    · exact key ["string".toList, "number".toList, "bool".toList] _ _ rfl h (by decide) (by decide)
  | @noItems a b ha hb =>
    intro inp pre post e
    have h0 : inp[pre.length]? = some a := by rw [e]; simp
    have h1 : inp[pre.length + 1]? = some b := by
      rw [e, show pre ++ [a, b] ++ post = (pre ++ [a]) ++ b :: post by simp]
      exact at_mid' _ _ _ _ (by simp)
    refine ⟨["string".toList, "number".toList, "bool".toList, "null".toList], "Array".toList, ["Object".toList],
      .node ⟨"Array".toList, ev, -1, 0⟩ [.node a [], .node b []], .node ⟨"Array".toList, ev, -1, 0⟩ [], rfl, ?_, ?_, ?_, ?_, show "Array".toList ∉ ["MoreVals*".toList, "MoreKeyVals*".toList] by decide⟩
    · intro Y hY
      refine noSym hg h0 ha (.inr (.inr ?_))
      revert Y; decide
    · refine .nonterm hg.array (.alts_no (.seq_rest_no (tok hg h0 ha (by decide)) (.seq_no (noValue hg h1 hb (by decide)))) ?_)
      exact .alts_ok (.seq_cons (tok hg h0 ha (by decide)) (.seq_cons (tok hg h1 hb (by decide)) .seq_nil))
    · refine .node (.cons (Reds.leaf hr (by rw [ha]; decide)) (.cons (Reds.leaf hr (by rw [hb]; decide)) .nil)) ?_
      have := hr.array (l := ⟨"Array".toList, ev, -1, 0⟩) (a := .node a []) (b := .node b []) (ks := []) rfl ha hb
      exact this
    · exact StandsL.arr rfl .nil
  | @arr a b v vs x y ha hb _ _ ih1 ih2 =>
    intro inp pre post e
    have h0 : inp[pre.length]? = some a := by rw [e]; simp
    have r1 := ih1 inp (pre ++ [a]) (y ++ b :: post) (by rw [e]; simp)
    have r2 := ih2 inp (pre ++ a :: x) (b :: post) (by rw [e]; simp)
    have hb' : inp[(pre ++ a :: x).length + y.length]? = some b := by
      rw [e, show pre ++ (a :: (x ++ y ++ [b])) ++ post = (pre ++ a :: x ++ y) ++ b :: post by simp]
      exact at_mid' _ _ _ _ (by simp; omega)
    obtain ⟨t1, t1', m1, d1, s1, k1⟩ := r1.value hg hr
    obtain ⟨t2, t2', m2, d2, s2⟩ := r2 (by
      intro l hl
      rw [hb'] at hl
      cases hl
      rw [hb]; decide)
    have e1 : (pre ++ [a]).length = pre.length + 1 := by simp
    have e2 : (pre ++ [a]).length + x.length = (pre ++ a :: x).length := by simp; omega
    have e3 : (pre ++ a :: x).length + y.length + 1 = pre.length + (a :: (x ++ y ++ [b])).length := by simp; omega
    rw [e2, e1] at m1
    refine ⟨["string".toList, "number".toList, "bool".toList, "null".toList], "Array".toList, ["Object".toList],
      .node ⟨"Array".toList, ev, -1, 0⟩ [.node a [], t1, t2, .node b []],
      .node ⟨"Array".toList, ev, -1, 0⟩ (flats ["MoreVals*".toList] [t1', t2']), rfl, ?_, ?_, ?_, ?_, ?_⟩
    · intro Y hY
      refine noSym hg h0 ha (.inr (.inr ?_))
      revert Y; decide
    · refine .nonterm hg.array (.alts_ok ?_)
      rw [← e3]
      exact .seq_cons (tok hg h0 ha (by decide)) (.seq_cons m1 (.seq_cons m2 (.seq_cons (tok hg hb' hb (by decide)) .seq_nil)))
    · refine .node (.cons (Reds.leaf hr (by rw [ha]; decide)) (.cons d1 (.cons d2 (.cons (Reds.leaf hr (by rw [hb]; decide)) .nil)))) ?_
      exact hr.array (l := ⟨"Array".toList, ev, -1, 0⟩) (a := .node a []) (b := .node b []) (ks := [t1', t2']) rfl ha hb
    · refine StandsL.arr rfl ?_
      have : flats ["MoreVals*".toList] [t1', t2'] = t1' :: flats ["MoreVals*".toList] [t2'] := by
        exact flats_keep fun hm => k1 (by rw [List.mem_singleton.1 hm]; decide)
      rw [this]
      exact .cons s1 s2
    · show "Array".toList ∉ ["MoreVals*".toList, "MoreKeyVals*".toList]
      decide
  | @noFields a b ha hb =>
    intro inp pre post e
    have h0 : inp[pre.length]? = some a := by rw [e]; simp
    have h1 : inp[pre.length + 1]? = some b := by
      rw [e, show pre ++ [a, b] ++ post = (pre ++ [a]) ++ b :: post by simp]
      exact at_mid' _ _ _ _ (by simp)
    have hnk : Match G ev inp (.sym "KeyVal".toList) (pre.length + 1) none := by
      refine .nonterm hg.keyVal (.alts_no (.seq_no (notok hg ?_ (by decide))) .alts_nil)
      intro l hl
      rw [h1] at hl
      cases hl
      rw [hb]; decide
    refine ⟨["string".toList, "number".toList, "bool".toList, "null".toList, "Array".toList], "Object".toList, [],
      .node ⟨"Object".toList, ev, -1, 0⟩ [.node a [], .node b []], .node ⟨"Object".toList, ev, -1, 0⟩ [], rfl, ?_, ?_, ?_, ?_, show "Object".toList ∉ ["MoreVals*".toList, "MoreKeyVals*".toList] by decide⟩
    · intro Y hY
      refine noSym hg h0 ha ?_
      revert Y; decide
    · refine .nonterm hg.object (.alts_no (.seq_rest_no (tok hg h0 ha (by decide)) (.seq_no hnk)) ?_)
      exact .alts_ok (.seq_cons (tok hg h0 ha (by decide)) (.seq_cons (tok hg h1 hb (by decide)) .seq_nil))
    · refine .node (.cons (Reds.leaf hr (by rw [ha]; decide)) (.cons (Reds.leaf hr (by rw [hb]; decide)) .nil)) ?_
      exact hr.object (l := ⟨"Object".toList, ev, -1, 0⟩) (a := .node a []) (b := .node b []) (ks := []) rfl ha hb
    · exact StandsF.obj rfl .nil
  | @obj a b k v fs x y ha hb _ _ ih1 ih2 =>
    intro inp pre post e
    have h0 : inp[pre.length]? = some a := by rw [e]; simp
    have r1 := ih1 inp (pre ++ [a]) (y ++ b :: post) (by rw [e]; simp)
    have r2 := ih2 inp (pre ++ a :: x) (b :: post) (by rw [e]; simp)
    have hb' : inp[(pre ++ a :: x).length + y.length]? = some b := by
      rw [e, show pre ++ (a :: (x ++ y ++ [b])) ++ post = (pre ++ a :: x ++ y) ++ b :: post by simp]
      exact at_mid' _ _ _ _ (by simp; omega)
    obtain ⟨t1, l1, c1, m1, d1, k1, v1, s1⟩ := r1
    obtain ⟨t2, t2', xs, m2, d2, f2, s2⟩ := r2 (by
      intro l hl
      rw [hb'] at hl
      cases hl
      rw [hb]; decide)
    have e1 : (pre ++ [a]).length = pre.length + 1 := by simp
    have e2 : (pre ++ [a]).length + x.length = (pre ++ a :: x).length := by simp; omega
    have e3 : (pre ++ a :: x).length + y.length + 1 = pre.length + (a :: (x ++ y ++ [b])).length := by simp; omega
    rw [e2, e1] at m1
    have ef : flats ["MoreKeyVals*".toList] [.node l1 [c1], t2'] = ((l1, c1) :: xs).map (fun x => .node x.1 [x.2]) := by
      have hn : ¬ l1.kind ∈ ["MoreKeyVals*".toList] := by rw [k1]; decide
      have : flats ["MoreKeyVals*".toList] [.node l1 [c1], t2'] = .node l1 [c1] :: flats ["MoreKeyVals*".toList] [t2'] := by
        exact flats_keep hn
      rw [this, f2]; rfl
    refine ⟨["string".toList, "number".toList, "bool".toList, "null".toList, "Array".toList], "Object".toList, [],
      .node ⟨"Object".toList, ev, -1, 0⟩ [.node a [], t1, t2, .node b []],
      .node ⟨"Object".toList, ev, -1, 0⟩ (((l1, c1) :: xs).map (fun x => .node x.1 [x.2])), rfl, ?_, ?_, ?_, ?_, ?_⟩
    · intro Y hY
      refine noSym hg h0 ha ?_
      revert Y; decide
    · refine .nonterm hg.object (.alts_ok ?_)
      rw [← e3]
      exact .seq_cons (tok hg h0 ha (by decide)) (.seq_cons m1 (.seq_cons m2 (.seq_cons (tok hg hb' hb (by decide)) .seq_nil)))
    · refine .node (.cons (Reds.leaf hr (by rw [ha]; decide)) (.cons d1 (.cons d2 (.cons (Reds.leaf hr (by rw [hb]; decide)) .nil)))) ?_
      have := hr.object (l := ⟨"Object".toList, ev, -1, 0⟩) (a := .node a []) (b := .node b []) (ks := [.node l1 [c1], t2']) rfl ha hb
      rw [ef] at this
      exact this
    · refine StandsF.obj rfl ?_
      rw [← v1]
      exact .cons k1 s1 s2
    · show "Object".toList ∉ ["MoreVals*".toList, "MoreKeyVals*".toList]
      decide
  | itemsEnd =>
    intro inp pre post e hc
    simp only [List.length_nil, Nat.add_zero] at hc ⊢
    refine ⟨.node ⟨"MoreVals*".toList, ev, -1, 0⟩ [], .node ⟨"MoreVals*".toList, ev, -1, 0⟩ [], ?_, Reds.leaf hr (by simp), ?_⟩
    · refine .nonterm hg.mores (.alts_no (.seq_no ?_) (.alts_ok .seq_nil))
      exact .nonterm hg.more (.alts_no (.seq_no (notok hg hc (by decide))) .alts_nil)
    · rw [show flats ["MoreVals*".toList] [.node ⟨"MoreVals*".toList, ev, -1, 0⟩ []] = [] by rw [flats_self (by simp)]; rfl]
      exact .nil
  | @item c v vs x y hc _ _ ih1 ih2 =>
    intro inp pre post e hn
    have h0 : inp[pre.length]? = some c := by rw [e]; simp
    have r1 := ih1 inp (pre ++ [c]) (y ++ post) (by rw [e]; simp)
    have r2 := ih2 inp (pre ++ c :: x) post (by rw [e]; simp)
    have e1 : (pre ++ [c]).length = pre.length + 1 := by simp
    have e2 : (pre ++ [c]).length + x.length = (pre ++ c :: x).length := by simp; omega
    have e3 : (pre ++ c :: x).length + y.length = pre.length + (c :: (x ++ y)).length := by simp; omega
    obtain ⟨t1, t1', m1, d1, s1, k1⟩ := r1.value hg hr
    rw [e3] at r2
    obtain ⟨t2, t2', m2, d2, s2⟩ := r2 hn
    rw [e2, e1] at m1
    refine ⟨.node ⟨"MoreVals*".toList, ev, -1, 0⟩ [.node ⟨"MoreVals".toList, ev, -1, 0⟩ [.node c [], t1], t2],
      .node ⟨"MoreVals*".toList, ev, -1, 0⟩ [t1', t2'], ?_, ?_, ?_⟩
    · refine .nonterm hg.mores (.alts_ok (.seq_cons (ts := [_]) ?_ (.seq_cons m2 .seq_nil)))
      exact .nonterm hg.more (.alts_ok (.seq_cons (tok hg h0 hc (by decide)) (.seq_cons m1 .seq_nil)))
    · refine .node (.cons ?_ (.cons d2 .nil)) (hr.keep (by simp))
      exact .node (.cons (Reds.leaf hr (by rw [hc]; decide)) (.cons d1 .nil)) (hr.more rfl)
    · have : flats ["MoreVals*".toList] [.node ⟨"MoreVals*".toList, ev, -1, 0⟩ [t1', t2']] = t1' :: flats ["MoreVals*".toList] [t2'] := by
        rw [flats_self (by simp)]
        exact flats_keep fun hm => k1 (by rw [List.mem_singleton.1 hm]; decide)
      rw [this]
      exact .cons s1 s2
  | @field l c v x hl hc _ ih =>
    intro inp pre post e
    have h0 : inp[pre.length]? = some l := by rw [e]; simp
    have h1 : inp[pre.length + 1]? = some c := by
      rw [e, show pre ++ (l :: c :: x) ++ post = (pre ++ [l]) ++ c :: (x ++ post) by simp]
      exact at_mid' _ _ _ _ (by simp)
    have r1 := ih inp (pre ++ [l, c]) post (by rw [e]; simp)
    have e1 : (pre ++ [l, c]).length = pre.length + 1 + 1 := by simp
    have e2 : (pre ++ [l, c]).length + x.length = pre.length + (l :: c :: x).length := by simp; omega
    obtain ⟨t1, t1', m1, d1, s1, k1⟩ := r1.value hg hr
    rw [e2, e1] at m1
    obtain ⟨l', hk, hv, hact⟩ := hr.keyVal (l := ⟨"KeyVal".toList, ev, -1, 0⟩) (a := .node l []) (b := .node c []) (c := t1') rfl
    refine ⟨.node ⟨"KeyVal".toList, ev, -1, 0⟩ [.node l [], .node c [], t1], l', t1', ?_, ?_, hk, hv, s1⟩
    · exact .nonterm hg.keyVal (.alts_ok (.seq_cons (tok hg h0 hl (by decide)) (.seq_cons (tok hg h1 hc (by decide)) (.seq_cons m1 .seq_nil))))
    · exact .node (.cons (Reds.leaf hr (by rw [hl]; decide)) (.cons (Reds.leaf hr (by rw [hc]; decide)) (.cons d1 .nil))) hact
  | fieldsEnd =>
    intro inp pre post e hc
    simp only [List.length_nil, Nat.add_zero] at hc ⊢
    refine ⟨.node ⟨"MoreKeyVals*".toList, ev, -1, 0⟩ [], .node ⟨"MoreKeyVals*".toList, ev, -1, 0⟩ [], [], ?_, Reds.leaf hr (by simp), ?_, .nil⟩
    · refine .nonterm hg.moreKVs (.alts_no (.seq_no ?_) (.alts_ok .seq_nil))
      exact .nonterm hg.moreKV (.alts_no (.seq_no (notok hg hc (by decide))) .alts_nil)
    · rw [flats_self (by simp)]; rfl
  | @moreFields c k v fs x y hc _ _ ih1 ih2 =>
    intro inp pre post e hn
    have h0 : inp[pre.length]? = some c := by rw [e]; simp
    have r1 := ih1 inp (pre ++ [c]) (y ++ post) (by rw [e]; simp)
    have r2 := ih2 inp (pre ++ c :: x) post (by rw [e]; simp)
    have e1 : (pre ++ [c]).length = pre.length + 1 := by simp
    have e2 : (pre ++ [c]).length + x.length = (pre ++ c :: x).length := by simp; omega
    have e3 : (pre ++ c :: x).length + y.length = pre.length + (c :: (x ++ y)).length := by simp; omega
    obtain ⟨t1, l1, c1, m1, d1, k1, v1, s1⟩ := r1
    rw [e3] at r2
    obtain ⟨t2, t2', xs, m2, d2, f2, s2⟩ := r2 hn
    rw [e2, e1] at m1
    refine ⟨.node ⟨"MoreKeyVals*".toList, ev, -1, 0⟩ [.node ⟨"MoreKeyVals".toList, ev, -1, 0⟩ [.node c [], t1], t2],
      .node ⟨"MoreKeyVals*".toList, ev, -1, 0⟩ [.node l1 [c1], t2'], (l1, c1) :: xs, ?_, ?_, ?_, ?_⟩
    · refine .nonterm hg.moreKVs (.alts_ok (.seq_cons (ts := [_]) ?_ (.seq_cons m2 .seq_nil)))
      exact .nonterm hg.moreKV (.alts_ok (.seq_cons (tok hg h0 hc (by decide)) (.seq_cons m1 .seq_nil)))
    · refine .node (.cons ?_ (.cons d2 .nil)) (hr.keep (by simp))
      exact .node (.cons (Reds.leaf hr (by rw [hc]; decide)) (.cons d1 .nil)) (hr.moreKV rfl)
    · have hn : ¬ l1.kind ∈ ["MoreKeyVals*".toList] := by rw [k1]; decide
      have : flats ["MoreKeyVals*".toList] [.node ⟨"MoreKeyVals*".toList, ev, -1, 0⟩ [.node l1 [c1], t2']] = .node l1 [c1] :: flats ["MoreKeyVals*".toList] [t2'] := by
        rw [flats_self (by simp)]
        exact flats_keep hn
      rw [this, f2]; rfl
    · rw [← v1]
      exact .cons k1 s1 s2

/-- What is written as a value is accepted, and its reduced tree stands for the value. -/
theorem written_accepted (hg : JG G) (hr : JR R) {v ls} (h : Written (.val v) ls) :
    ∃ t t', OrderedChoice G ev ls (some t) ∧ Reds R t t' ∧ Stands t' v := by
  obtain ⟨before, X, after, t, t', e, hb, hm, h1, h2, h3⟩ := written_reads (ev := ev) hg hr h ls [] [] (by simp)
  refine ⟨.node ⟨"Value".toList, ev, -1, 0⟩ [t], t', ?_, .node (.cons h1 .nil) (hr.value rfl), h2⟩
  unfold OrderedChoice
  rw [hg.start]
  refine ⟨_, hg.value, ?_⟩
  simp only [List.length_nil, Nat.zero_add] at hb hm
  have := match_whole (A := "Value".toList) (after := after) hb hm
  rw [← e] at this
  exact this

end Verif.Json

namespace Verif.Json
open Verif.Spec Verif.Spec.Json

/-! ### Only values are accepted -/

/-- Leaves with terminal kinds. -/
abbrev fr (G : Grammar Str) (t : PN Str Str) : List (Lexeme Str Str) := t.fringe (fun s => (G.prods s).isNone)

/-- What is shown of a derivation tree, by its kind. -/
def Sound (G : Grammar Str) (t : PN Str Str) : Prop :=
  (t.kind ∈ ["Value".toList, "Array".toList, "Object".toList] → ∃ v, Written (.val v) (fr G t)) ∧
  (t.kind = "MoreVals".toList → ∃ c v x, fr G t = c :: x ∧ c.kind = "comma".toList ∧ Written (.val v) x) ∧
  (t.kind = "MoreVals*".toList → ∃ vs, Written (.items vs) (fr G t)) ∧
  (t.kind = "KeyVal".toList → ∃ k v, Written (.field k v) (fr G t)) ∧
  (t.kind = "MoreKeyVals".toList → ∃ c k v x, fr G t = c :: x ∧ c.kind = "comma".toList ∧ Written (.field k v) x) ∧
  (t.kind = "MoreKeyVals*".toList → ∃ fs, Written (.fields fs) (fr G t)) ∧
  (G.Term t.kind → fr G t = [t.lx])

theorem fr_node {G : Grammar Str} {l ks} (h : ¬ G.Term l.kind) : fr G (.node l ks) = PN.fringes (fun s => (G.prods s).isNone) ks := by
  rw [fr, PN.fringe, if_neg (by simpa [Grammar.Term, Option.isNone_iff_eq_none] using h)]

theorem frs_cons {G : Grammar Str} {t ts} : PN.fringes (fun s => (G.prods s).isNone) (t :: ts) =
    fr G t ++ PN.fringes (fun s => (G.prods s).isNone) ts := by rw [PN.fringes]

theorem rule_mem {G : Grammar Str} {A k p ps} (hr : G.Rule A k p) (h : G.prods A = some ps) : p ∈ ps := by
  obtain ⟨ps', e, hk⟩ := hr
  rw [h] at e
  cases e
  exact List.mem_of_getElem? hk

/-- The children of a node, given their kinds. -/
theorem kids_cons {ks : List (PN Str Str)} {X p} (h : ks.map PN.kind = X :: p) : ∃ t ts, ks = t :: ts ∧ t.kind = X ∧ ts.map PN.kind = p := by
  cases ks with
  | nil => cases h
  | cons t ts =>
    rw [List.map_cons, List.cons.injEq] at h
    exact ⟨t, ts, rfl, h.1, h.2⟩

theorem kids_nil {ks : List (PN Str Str)} (h : ks.map PN.kind = []) : ks = [] := List.map_eq_nil_iff.1 h

set_option maxHeartbeats 2000000 in
theorem sound_valid {G : Grammar Str} (hg : JG G) {t : PN Str Str} (h : t.Valid G) : Sound G t := by
  induction h with
  | @leaf l ht =>
    have hne : ∀ A ps, G.prods A = some ps → l.kind ≠ A := by
      intro A ps h e
      rw [Grammar.Term, e, h] at ht
      cases ht
    refine ⟨?_, ?_, ?_, ?_, ?_, ?_, ?_⟩
    · intro h
      exfalso
      simp only [List.mem_cons, List.not_mem_nil, or_false] at h
      rcases h with h | h | h
      · exact hne _ _ hg.value h
      · exact hne _ _ hg.array h
      · exact hne _ _ hg.object h
    · exact fun h => absurd h (hne _ _ hg.more)
    · exact fun h => absurd h (hne _ _ hg.mores)
    · exact fun h => absurd h (hne _ _ hg.keyVal)
    · exact fun h => absurd h (hne _ _ hg.moreKV)
    · exact fun h => absurd h (hne _ _ hg.moreKVs)
    · intro h
      have h' : (G.prods l.kind).isNone = true := by simpa [Grammar.Term, PN.kind, PN.lx] using h
      rw [fr, PN.fringe, if_pos h']; rfl
  | @inner l ks k p hr hk _ ih =>
    have hnt : ¬ G.Term l.kind := by
      intro h
      obtain ⟨ps, e, _⟩ := hr
      rw [h] at e
      cases e
    have tk : ∀ t ∈ ks, t.kind ∈ ["string".toList, "number".toList, "bool".toList, "null".toList, "lb".toList, "rb".toList,
        "lcb".toList, "rcb".toList, "comma".toList, "colon".toList] → fr G t = [t.lx] :=
      fun t ht h => (ih t ht).2.2.2.2.2.2 (hg.term _ h)
    refine ⟨?_, ?_, ?_, ?_, ?_, ?_, fun h => absurd h hnt⟩
    · intro h
      simp only [List.mem_cons, List.not_mem_nil, or_false] at h
      rw [fr_node hnt]
      rcases h with h | h | h
      · have hm := rule_mem hr (by rw [show l.kind = _ from h]; exact hg.value)
        simp only [List.mem_cons, List.not_mem_nil, or_false] at hm
        have atom : ∀ X ∈ atomKinds, p = [X] → ∃ v, Written (.val v) (PN.fringes (fun s => (G.prods s).isNone) ks) := by
          intro X hX e
          rw [e] at hk
          obtain ⟨t, ts, rfl, hX', h2⟩ := kids_cons hk
          rw [kids_nil h2, frs_cons, tk t (by simp) (by rw [hX']; exact atom_tok X hX)]
          exact ⟨_, .atom (by show t.kind ∈ _; rw [hX']; exact hX)⟩
        have comp : ∀ X ∈ ["Value".toList, "Array".toList, "Object".toList], p = [X] →
            ∃ v, Written (.val v) (PN.fringes (fun s => (G.prods s).isNone) ks) := by
          intro X hX e
          rw [e] at hk
          obtain ⟨t, ts, rfl, hX', h2⟩ := kids_cons hk
          rw [kids_nil h2, frs_cons, PN.fringes, List.append_nil]
          exact (ih t (by simp)).1 (by rw [hX']; exact hX)
        rcases hm with e | e | e | e | e | e
        · exact atom _ (by decide) e
        · exact atom _ (by decide) e
        · exact atom _ (by decide) e
        · exact atom _ (by decide) e
        · exact comp _ (by decide) e
        · exact comp _ (by decide) e
      · have hm := rule_mem hr (by rw [show l.kind = _ from h]; exact hg.array)
        simp only [List.mem_cons, List.not_mem_nil, or_false] at hm
        rcases hm with e | e
        · rw [e] at hk
          obtain ⟨t1, ts, rfl, k1, h2⟩ := kids_cons hk
          obtain ⟨t2, ts, rfl, k2, h2⟩ := kids_cons h2
          obtain ⟨t3, ts, rfl, k3, h2⟩ := kids_cons h2
          obtain ⟨t4, ts, rfl, k4, h2⟩ := kids_cons h2
          rw [kids_nil h2, frs_cons, frs_cons, frs_cons, frs_cons, PN.fringes, tk t1 (by simp) (by rw [k1]; decide),
            tk t4 (by simp) (by rw [k4]; decide)]
          obtain ⟨v, hv⟩ := (ih t2 (by simp)).1 (by rw [k2]; decide)
          obtain ⟨vs, hvs⟩ := (ih t3 (by simp)).2.2.1 k3
          refine ⟨.arr (v :: vs), ?_⟩
          have := Written.arr (a := t1.lx) (b := t4.lx) k1 k4 hv hvs
          simpa using this
        · rw [e] at hk
          obtain ⟨t1, ts, rfl, k1, h2⟩ := kids_cons hk
          obtain ⟨t2, ts, rfl, k2, h2⟩ := kids_cons h2
          rw [kids_nil h2, frs_cons, frs_cons, PN.fringes, tk t1 (by simp) (by rw [k1]; decide),
            tk t2 (by simp) (by rw [k2]; decide)]
          exact ⟨.arr [], .noItems k1 k2⟩
      · have hm := rule_mem hr (by rw [show l.kind = _ from h]; exact hg.object)
        simp only [List.mem_cons, List.not_mem_nil, or_false] at hm
        rcases hm with e | e
        · rw [e] at hk
          obtain ⟨t1, ts, rfl, k1, h2⟩ := kids_cons hk
          obtain ⟨t2, ts, rfl, k2, h2⟩ := kids_cons h2
          obtain ⟨t3, ts, rfl, k3, h2⟩ := kids_cons h2
          obtain ⟨t4, ts, rfl, k4, h2⟩ := kids_cons h2
          rw [kids_nil h2, frs_cons, frs_cons, frs_cons, frs_cons, PN.fringes, tk t1 (by simp) (by rw [k1]; decide),
            tk t4 (by simp) (by rw [k4]; decide)]
          obtain ⟨kk, v, hv⟩ := (ih t2 (by simp)).2.2.2.1 k2
          obtain ⟨fs, hfs⟩ := (ih t3 (by simp)).2.2.2.2.2.1 k3
          refine ⟨.obj ((kk, v) :: fs), ?_⟩
          have := Written.obj (a := t1.lx) (b := t4.lx) k1 k4 hv hfs
          simpa using this
        · rw [e] at hk
          obtain ⟨t1, ts, rfl, k1, h2⟩ := kids_cons hk
          obtain ⟨t2, ts, rfl, k2, h2⟩ := kids_cons h2
          rw [kids_nil h2, frs_cons, frs_cons, PN.fringes, tk t1 (by simp) (by rw [k1]; decide),
            tk t2 (by simp) (by rw [k2]; decide)]
          exact ⟨.obj [], .noFields k1 k2⟩
    · intro h
      rw [fr_node hnt]
      have hm := rule_mem hr (by rw [show l.kind = _ from h]; exact hg.more)
      rw [List.mem_singleton.1 hm] at hk
      obtain ⟨t1, ts, rfl, k1, h2⟩ := kids_cons hk
      obtain ⟨t2, ts, rfl, k2, h2⟩ := kids_cons h2
      obtain ⟨v, hv⟩ := (ih t2 (by simp)).1 (by rw [k2]; decide)
      rw [kids_nil h2, frs_cons, frs_cons, PN.fringes, tk t1 (by simp) (by rw [k1]; decide), List.append_nil]
      exact ⟨t1.lx, v, _, rfl, k1, hv⟩
    · intro h
      rw [fr_node hnt]
      have hm := rule_mem hr (by rw [show l.kind = _ from h]; exact hg.mores)
      simp only [List.mem_cons, List.not_mem_nil, or_false] at hm
      rcases hm with e | e
      · rw [e] at hk
        obtain ⟨t1, ts, rfl, k1, h2⟩ := kids_cons hk
        obtain ⟨t2, ts, rfl, k2, h2⟩ := kids_cons h2
        obtain ⟨c, v, x, e1, hc, hv⟩ := (ih t1 (by simp)).2.1 k1
        obtain ⟨vs, hvs⟩ := (ih t2 (by simp)).2.2.1 k2
        rw [kids_nil h2, frs_cons, frs_cons, PN.fringes, e1, List.append_nil]
        exact ⟨v :: vs, .item hc hv hvs⟩
      · rw [e] at hk
        rw [kids_nil hk, PN.fringes]
        exact ⟨[], .itemsEnd⟩
    · intro h
      rw [fr_node hnt]
      have hm := rule_mem hr (by rw [show l.kind = _ from h]; exact hg.keyVal)
      rw [List.mem_singleton.1 hm] at hk
      obtain ⟨t1, ts, rfl, k1, h2⟩ := kids_cons hk
      obtain ⟨t2, ts, rfl, k2, h2⟩ := kids_cons h2
      obtain ⟨t3, ts, rfl, k3, h2⟩ := kids_cons h2
      obtain ⟨v, hv⟩ := (ih t3 (by simp)).1 (by rw [k3]; decide)
      rw [kids_nil h2, frs_cons, frs_cons, frs_cons, PN.fringes, tk t1 (by simp) (by rw [k1]; decide),
        tk t2 (by simp) (by rw [k2]; decide), List.append_nil]
      exact ⟨t1.lx.val, v, .field k1 k2 hv⟩
    · intro h
      rw [fr_node hnt]
      have hm := rule_mem hr (by rw [show l.kind = _ from h]; exact hg.moreKV)
      rw [List.mem_singleton.1 hm] at hk
      obtain ⟨t1, ts, rfl, k1, h2⟩ := kids_cons hk
      obtain ⟨t2, ts, rfl, k2, h2⟩ := kids_cons h2
      obtain ⟨kk, v, hv⟩ := (ih t2 (by simp)).2.2.2.1 k2
      rw [kids_nil h2, frs_cons, frs_cons, PN.fringes, tk t1 (by simp) (by rw [k1]; decide), List.append_nil]
      exact ⟨t1.lx, kk, v, _, rfl, k1, hv⟩
    · intro h
      rw [fr_node hnt]
      have hm := rule_mem hr (by rw [show l.kind = _ from h]; exact hg.moreKVs)
      simp only [List.mem_cons, List.not_mem_nil, or_false] at hm
      rcases hm with e | e
      · rw [e] at hk
        obtain ⟨t1, ts, rfl, k1, h2⟩ := kids_cons hk
        obtain ⟨t2, ts, rfl, k2, h2⟩ := kids_cons h2
        obtain ⟨c, kk, v, x, e1, hc, hv⟩ := (ih t1 (by simp)).2.2.2.2.1 k1
        obtain ⟨fs, hfs⟩ := (ih t2 (by simp)).2.2.2.2.2.1 k2
        rw [kids_nil h2, frs_cons, frs_cons, PN.fringes, e1, List.append_nil]
        exact ⟨(kk, v) :: fs, .moreFields hc hv hfs⟩
      · rw [e] at hk
        rw [kids_nil hk, PN.fringes]
        exact ⟨[], .fieldsEnd⟩

/-- A derivation tree has the lexemes of a value. -/
theorem written_of_parse {G : Grammar Str} (hg : JG G) {ls t} (h : IsParse G ls t) : ∃ v, Written (.val v) ls := by
  obtain ⟨h1, h2, h3⟩ := h
  rw [hg.start] at h1
  have hk : t.kind = "Value".toList := (Option.some.inj h1).symm
  rw [← h3]
  exact (sound_valid hg h2).1 (by rw [hk]; simp)

end Verif.Json

namespace Verif.Json
open Verif.Spec Verif.Spec.Json Grammar

/-! ### The grammar is not left recursive -/

/-- The table of productions. -/
def table : List (Str × List (List Str)) :=
  [("Value".toList, [["string".toList], ["number".toList], ["bool".toList], ["null".toList], ["Array".toList], ["Object".toList]]),
   ("Array".toList, [["lb".toList, "Value".toList, "MoreVals*".toList, "rb".toList], ["lb".toList, "rb".toList]]),
   ("MoreVals".toList, [["comma".toList, "Value".toList]]),
   ("Object".toList, [["lcb".toList, "KeyVal".toList, "MoreKeyVals*".toList, "rcb".toList], ["lcb".toList, "rcb".toList]]),
   ("MoreKeyVals".toList, [["comma".toList, "KeyVal".toList]]),
   ("KeyVal".toList, [["string".toList, "colon".toList, "Value".toList]]),
   ("MoreVals*".toList, [["MoreVals".toList, "MoreVals*".toList], []]),
   ("MoreKeyVals*".toList, [["MoreKeyVals".toList, "MoreKeyVals*".toList], []])]

theorem rule_table {G : Spec.Grammar Str} (hg : JG G) (hw : G.WF) {A k p} (hr : G.Rule A k p) : ∃ r ∈ table, r.1 = A ∧ p ∈ r.2 := by
  obtain ⟨ps, e, hk⟩ := hr
  have hA := hg.order A ((hw A).1 (by rw [e]; rfl))
  have hp := List.mem_of_getElem? hk
  simp only [List.mem_cons, List.not_mem_nil, or_false] at hA
  have key : ∀ B qs, (B, qs) ∈ table → A = B → G.prods B = some qs → ∃ r ∈ table, r.1 = A ∧ p ∈ r.2 := by
    intro B qs hm hB hq
    rw [hB, hq] at e
    cases e
    exact ⟨_, hm, hB.symm, hp⟩
  rcases hA with h | h | h | h | h | h | h | h
  · exact key _ _ (by simp [table]) h hg.value
  · exact key _ _ (by simp [table]) h hg.array
  · exact key _ _ (by simp [table]) h hg.more
  · exact key _ _ (by simp [table]) h hg.object
  · exact key _ _ (by simp [table]) h hg.moreKV
  · exact key _ _ (by simp [table]) h hg.keyVal
  · exact key _ _ (by simp [table]) h hg.mores
  · exact key _ _ (by simp [table]) h hg.moreKVs

theorem nullable {G : Spec.Grammar Str} (hg : JG G) (hw : G.WF) {ss w} (h : G.Derives ss w) : w = [] →
    ∀ x ∈ ss, x ∈ ["MoreVals*".toList, "MoreKeyVals*".toList] := by
  induction h with
  | nil => simp
  | term => intro h; cases h
  | @nonterm A k p ss u v hr _ _ ih1 ih2 =>
    intro e
    obtain ⟨rfl, rfl⟩ := List.append_eq_nil_iff.1 e
    intro x hx
    rcases List.mem_cons.1 hx with rfl | hx
    · obtain ⟨r, hm, rfl, hp⟩ := rule_table hg hw hr
      have h := ih1 rfl
      clear ih1 ih2 e
      revert h
      have : ∀ r ∈ table, ∀ p ∈ r.2, (∀ x ∈ p, x ∈ ["MoreVals*".toList, "MoreKeyVals*".toList]) →
          r.1 ∈ ["MoreVals*".toList, "MoreKeyVals*".toList] := by decide +kernel
      exact this r hm p hp
    · exact ih2 rfl x hx

theorem notLR {G : Spec.Grammar Str} (hg : JG G) (hw : G.WF) : ¬ G.LeftRecursive := by
  let rank : Str → Nat := fun x => if x = "Value".toList ∨ x = "MoreVals*".toList ∨ x = "MoreKeyVals*".toList then 2 else
    if x = "Array".toList ∨ x = "Object".toList ∨ x = "MoreVals".toList ∨ x = "MoreKeyVals".toList ∨ x = "KeyVal".toList then 1 else 0
  have one : ∀ A B, G.LeftStep A B → rank B < rank A := by
    rintro A B ⟨k, pre, post, hr, hn⟩
    have hn := nullable hg hw hn rfl
    obtain ⟨r, hm, rfl, hp⟩ := rule_table hg hw hr
    have key : ∀ r ∈ table, ∀ p ∈ r.2, ∀ i < p.length, (∀ x ∈ p.take i, x ∈ ["MoreVals*".toList, "MoreKeyVals*".toList]) →
      ∀ B ∈ p[i]?, rank B < rank r.1 := by decide +kernel
    exact key r hm _ hp pre.length (by simp) (by simpa using hn) B (by simp)
  have all : ∀ A B, Plus G.LeftStep A B → rank B < rank A := by
    intro A B h
    induction h with
    | one h => exact one _ _ h
    | step h _ ih => exact Nat.lt_trans ih (one _ _ h)
  rintro ⟨A, hA⟩
  exact Nat.lt_irrefl _ (all A A hA)

end Verif.Json
