import Verif.Proofs.ReducerGram
import Verif.Proofs.JsonParse
import Verif.Props.JsonFormat
/-
Reading reducer definitions: every derivation tree of their grammar reduces to a tree that spells rules, and
its leaves are these rules written.
-/
namespace Verif.ReducerDSL
open Verif Verif.Spec Verif.RegexGram Verif.Tree Verif.Json
open Verif.Props.ReducerDSL

/-- The helpers to unwrap in nodes of a kind. -/
def helpsOf (k : Str) : List Str := rdHelps.filterMap fun x => if x.1 = k then some x.2 else none

theorem mem_helpsOf {k n : Str} : n ∈ helpsOf k ↔ (k, n) ∈ rdHelps := by
  simp only [helpsOf, List.mem_filterMap, Option.ite_none_right_eq_some, Option.some.injEq, Prod.exists]
  constructor
  · rintro ⟨a, b, h, rfl, rfl⟩; exact h
  · intro h; exact ⟨k, n, h, rfl, rfl⟩

mutual
theorem flat_congr {S S' : List Str} (h : ∀ n, n ∈ S ↔ n ∈ S') : ∀ t : PN Str Str, flat S t = flat S' t
  | .node l ks => by
    rw [flat, flat, flats_congr h ks]
    by_cases hk : l.kind ∈ S
    · rw [if_pos hk, if_pos ((h _).1 hk)]
    · rw [if_neg hk, if_neg fun h' => hk ((h _).2 h')]
theorem flats_congr {S S' : List Str} (h : ∀ n, n ∈ S ↔ n ∈ S') : ∀ ts : List (PN Str Str), flats S ts = flats S' ts
  | [] => rfl
  | t :: ts => by rw [flats, flats, flat_congr h t, flats_congr h ts]
end

/-- Names the second part of the reducer knows. -/
def tableNames : List Str :=
  ["Rule".toList, "Reduction".toList, "VarNumArg".toList, "VarStrArg".toList, "OneNumArg".toList, "Condition".toList]

theorem table_some (n : Nat) (k : Str) : (table n k).isSome ↔ k ∈ tableNames := by
  unfold table tableNames
  simp only [List.mem_cons, List.not_mem_nil, or_false]
  by_cases h1 : k = "Rule".toList
  · rw [if_pos h1]; exact ⟨fun _ => .inl h1, fun _ => rfl⟩
  by_cases h2 : k = "Reduction".toList
  · rw [if_neg h1, if_pos h2]; exact ⟨fun _ => .inr (.inl h2), fun _ => rfl⟩
  by_cases h3 : k = "VarNumArg".toList
  · rw [if_neg h1, if_neg h2, if_pos h3]; exact ⟨fun _ => .inr (.inr (.inl h3)), fun _ => rfl⟩
  by_cases h4 : k = "VarStrArg".toList
  · rw [if_neg h1, if_neg h2, if_neg h3, if_pos h4]; exact ⟨fun _ => .inr (.inr (.inr (.inl h4))), fun _ => rfl⟩
  by_cases h5 : k = "OneNumArg".toList
  · rw [if_neg h1, if_neg h2, if_neg h3, if_neg h4, if_pos h5]; exact ⟨fun _ => .inr (.inr (.inr (.inr (.inl h5)))), fun _ => rfl⟩
  by_cases h6 : k = "Condition".toList
  · rw [if_neg h1, if_neg h2, if_neg h3, if_neg h4, if_neg h5, if_pos h6]; exact ⟨fun _ => .inr (.inr (.inr (.inr (.inr h6)))), fun _ => rfl⟩
  · rw [if_neg h1, if_neg h2, if_neg h3, if_neg h4, if_neg h5, if_neg h6]
    constructor
    · intro h; cases h
    · rintro (h | h | h | h | h | h)
      · exact absurd h h1
      · exact absurd h h2
      · exact absurd h h3
      · exact absurd h h4
      · exact absurd h h5
      · exact absurd h h6

/-- The orders in which `Merge` ranges over the two maps. -/
structure Orders (o1 o2 : List Str) : Prop where
  first : ∀ k, k ∈ o1 ↔ k ∈ rdHelps.map (·.1)
  second : ∀ k, k ∈ o2 ↔ k ∈ tableNames

section
variable {b : Str → Option (List Str)} {o1 o2 : List Str}

theorem acts_of (hb : DB b) (ho : Orders o1 o2) {l : Lexeme Str Str} {ks : List (PN Str Str)} {q : PN Str Str}
    (h : ∃ N, ∀ n ≥ N, Verif.Props.Tree.run (table n l.kind) (.node l (flats (helpsOf l.kind) ks)) () = .ok (q, ())) :
    Acts (fun n => rdcr n b o1 o2) (.node l ks) q := by
  obtain ⟨N, h⟩ := h
  refine ⟨max N (counts ks + 1), fun n hn => ?_⟩
  have hm := (Verif.Props.Tree.C30_merge (reducerOf (σ := Unit) n b) (table n) o1 o2 (fun k => by rw [ho.first, ← hb.some]; simp [reducerOf])
    (fun k => by rw [ho.second, table_some])).2 l.kind (.node l ks) ()
  have e1 : Verif.Props.Tree.run (reducerOf (σ := Unit) n b l.kind) (.node l ks) () = .ok (.node l (flats (helpsOf l.kind) ks), ()) := by
    have hc : flats (helpsOf l.kind) ks = flats ((b l.kind).getD []) ks :=
      flats_congr (fun n => by rw [mem_helpsOf, hb.mem]) ks
    rw [hc]
    cases e : b l.kind with
    | none => simp [reducerOf, e, Verif.Props.Tree.run, flats_nil]
    | some S => simp [reducerOf, e, Verif.Props.Tree.run, Tree.lift1, bludgeon_eq S l ks n (by omega)]
  rw [e1, Out.bind_ok, h n (by omega)] at hm
  rw [show (PN.node l ks).kind = l.kind from rfl]
  show (match (Tree.merge (reducerOf n b) (table n) o1 o2 l.kind).join with | none => _ | some f => _) = _
  unfold Verif.Props.Tree.run at hm
  generalize Tree.merge (reducerOf n b) (table n) o1 o2 l.kind = z at hm ⊢
  match z, hm with
  | some (some f), hm => exact hm
  | some none, hm => exact hm
  | none, hm => exact hm

/-! ### What the reducer does with the nodes of each kind -/

theorem run_red (n : Nat) (o : ROp Str) (p : PN Str Str) :
    Verif.Props.Tree.run (some (ROp.red n o)) p () = (o.apply n p).bind fun q => .ok (q, ()) := rfl

theorem run_then (n : Nat) (r : Red Unit Str Str) (o : ROp Str) (p : PN Str Str) :
    Verif.Props.Tree.run (some (ROp.then n r o)) p () =
      (Verif.Props.Tree.run (some r) p ()).bind fun q => (o.apply n q.1).bind fun t => .ok (t, q.2) := by
  have : ∀ (r : Red Unit Str Str) p, Verif.Props.Tree.run (some r) p () = callIf r p () := by
    intro r p; cases r <;> rfl
  rw [this, this, ROp.then, (Verif.Props.Tree.C31_chain r (o.red n) none).1]
  rfl

theorem apply_removeAll (ks : List Str) (p : PN Str Str) : ∃ N, ∀ n ≥ N,
    (ROp.removeAll ks).apply n p = .ok (.node p.lx (p.kids.filter fun c => c.kind ∉ ks)) := by
  obtain ⟨N, h⟩ := Verif.Props.Tree.C27_removeAll p ks
  exact ⟨N, fun n hn => (h n hn).trans (by congr 3; funext c; exact decide_eq_decide.2 Iff.rfl)⟩

theorem acts_keep (hb : DB b) (ho : Orders o1 o2) {l : Lexeme Str Str} {ks : List (PN Str Str)} (h : l.kind ∉ tableNames)
    (h' : l.kind ∉ rdHelps.map (·.1)) : Acts (fun n => rdcr n b o1 o2) (.node l ks) (.node l ks) := by
  refine acts_of hb ho ⟨0, fun n _ => ?_⟩
  have e : helpsOf l.kind = [] := by
    cases e : helpsOf l.kind with
    | nil => rfl
    | cons x xs => exact absurd (List.mem_map.2 ⟨(l.kind, x), mem_helpsOf.1 (by rw [e]; simp), rfl⟩) h'
  have e2 : table n l.kind = none := by
    cases e : table n l.kind with
    | none => rfl
    | some f => exact absurd ((table_some n _).1 (by rw [e]; rfl)) h
  rw [e, flats_nil, e2]
  rfl

/-- Nodes whose only reduction is to unwrap. -/
theorem acts_unwrap (hb : DB b) (ho : Orders o1 o2) {l : Lexeme Str Str} {ks : List (PN Str Str)} {k h : Str} (hk : l.kind = k)
    (ht : k ∉ tableNames) (hh : helpsOf k = [h]) : Acts (fun n => rdcr n b o1 o2) (.node l ks) (.node l (flats [h] ks)) := by
  refine acts_of hb ho ⟨0, fun n _ => ?_⟩
  have e2 : table n l.kind = none := by
    cases e : table n l.kind with
    | none => rfl
    | some f => exact absurd ((table_some n _).1 (by rw [e]; rfl)) (hk ▸ ht)
  rw [e2, hk, hh]
  rfl

theorem acts_rule (hb : DB b) (ho : Orders o1 o2) {l : Lexeme Str Str} {a c : PN Str Str} (hk : l.kind = "Rule".toList) :
    Acts (fun n => rdcr n b o1 o2) (.node l [a, c])
      (.node ⟨"Rule".toList, a.lx.val, a.lx.line, a.lx.col⟩ (c.kids.filter fun c => c.kind ∉ ["period".toList])) := by
  obtain ⟨N, hN⟩ := apply_removeAll ["period".toList] (.node ⟨"Rule".toList, a.lx.val, a.lx.line, a.lx.col⟩ c.kids)
  refine acts_of hb ho ⟨N, fun n hn => ?_⟩
  have e : table n l.kind = some (ROp.then n (ROp.then n (ROp.red n (.promoteChildValue 0)) (.promoteChildrenOf 0))
      (.removeAll ["period".toList])) := by rw [hk]; rfl
  have eh : helpsOf l.kind = [] := by rw [hk]; rfl
  rw [e, eh, flats_nil, run_then, run_then, run_red]
  have e1 : (ROp.promoteChildValue 0).apply n (.node l [a, c]) = .ok (.node ⟨"Rule".toList, a.lx.val, a.lx.line, a.lx.col⟩ [c]) := by
    rw [← hk]; rfl
  have e2 : ∀ l : Lexeme Str Str, (ROp.promoteChildrenOf 0).apply n (.node l [c]) = .ok (.node l c.kids) := fun l => rfl
  rw [e1]
  simp only [Out.bind_ok]
  rw [e2]
  simp only [Out.bind_ok]
  rw [hN n hn]
  rfl

theorem acts_first (hb : DB b) (ho : Orders o1 o2) {l : Lexeme Str Str} {a : PN Str Str} {ks : List (PN Str Str)}
    (hk : l.kind = "Reduction".toList ∨ l.kind = "Condition".toList)
    (ha : a.kind ∉ ["comma".toList, "lp".toList, "rp".toList]) :
    Acts (fun n => rdcr n b o1 o2) (.node l (a :: ks))
      (.node a.lx (a.kids ++ ks.filter fun c => c.kind ∉ ["comma".toList, "lp".toList, "rp".toList])) := by
  obtain ⟨N, hN⟩ := apply_removeAll ["comma".toList, "lp".toList, "rp".toList] (.node l (a :: ks))
  refine acts_of hb ho ⟨N, fun n hn => ?_⟩
  have e : table n l.kind = some (ROp.then n (ROp.red n (.removeAll ["comma".toList, "lp".toList, "rp".toList])) (.promoteChild 0)) := by
    rcases hk with hk | hk <;> rw [hk] <;> rfl
  have eh : helpsOf l.kind = [] := by rcases hk with hk | hk <;> rw [hk] <;> rfl
  rw [e, eh, flats_nil, run_then, run_red, hN n hn]
  simp only [Out.bind_ok]
  have e2 : (PN.node l (a :: ks)).kids.filter (fun c => c.kind ∉ ["comma".toList, "lp".toList, "rp".toList]) =
      [] ++ a :: ks.filter (fun c => c.kind ∉ ["comma".toList, "lp".toList, "rp".toList]) := by
    rw [show (PN.node l (a :: ks)).kids = a :: ks from rfl, List.filter_cons_of_pos (by simpa using ha)]
    rfl
  rw [e2, ROp.apply, promoteChild_sel (by simp [Spec.Sel])]
  simp

theorem acts_args (hb : DB b) (ho : Orders o1 o2) {l : Lexeme Str Str} {x y : PN Str Str} {ks : List (PN Str Str)} {k h : Str}
    (hk : l.kind = k) (hh : (k = "VarNumArg".toList ∧ h = "(number_comma)*".toList) ∨ (k = "VarStrArg".toList ∧ h = "(string_comma)*".toList))
    (hx : x.kind = "lp".toList) (hy : y.kind = "rp".toList) :
    Acts (fun n => rdcr n b o1 o2) (.node l (x :: (ks ++ [y])))
      (.node l ((flats [h] ks).filter fun c => c.kind ∉ ["comma".toList])) := by
  obtain ⟨N, hN⟩ := apply_removeAll ["comma".toList] (.node l (flats [h] ks))
  refine acts_of hb ho ⟨N, fun n hn => ?_⟩
  have e : table n l.kind = some (ROp.then n (ROp.red n (.removeChildren [0, -1])) (.removeAll ["comma".toList])) := by
    rw [hk]; rcases hh with ⟨rfl, -⟩ | ⟨rfl, -⟩ <;> rfl
  have eh : helpsOf l.kind = [h] := by
    rw [hk]; rcases hh with ⟨rfl, rfl⟩ | ⟨rfl, rfl⟩ <;> rfl
  have hn1 : "lp".toList ∉ [h] := by rcases hh with ⟨-, rfl⟩ | ⟨-, rfl⟩ <;> decide
  have hn2 : "rp".toList ∉ [h] := by rcases hh with ⟨-, rfl⟩ | ⟨-, rfl⟩ <;> decide
  rw [e, eh, run_then, run_red, flats_keep (by rw [hx]; exact hn1), flats_append, flats_keep (by rw [hy]; exact hn2), flats]
  rw [show (ROp.removeChildren [0, -1]).apply n (.node l (x :: (flats [h] ks ++ [y]))) = Tree.removeChildren _ _ from rfl,
    Verif.Props.JsonFormat.strip_ends]
  simp only [Out.bind_ok]
  rw [hN n hn]
  rfl

theorem acts_one (hb : DB b) (ho : Orders o1 o2) {l : Lexeme Str Str} {x y c : PN Str Str} (hk : l.kind = "OneNumArg".toList) :
    Acts (fun n => rdcr n b o1 o2) (.node l [x, c, y]) (.node l [c]) := by
  refine acts_of hb ho ⟨0, fun n hn => ?_⟩
  have e : table n l.kind = some (ROp.red n (.removeChildren [0, -1])) := by rw [hk]; rfl
  have eh : helpsOf l.kind = [] := by rw [hk]; rfl
  rw [e, eh, flats_nil, run_red]
  rfl

/-! ### Derivation trees -/

theorem rdSpells_append {a b : List RdTok} : ∀ {x y : List (Lexeme Str Str)}, RdSpells a x → RdSpells b y → RdSpells (a ++ b) (x ++ y) := by
  induction a with
  | nil => intro x y h1 h2; cases h1; exact h2
  | cons t ts ih =>
    intro x y h1 h2
    cases h1 with
    | cons h h1 => exact .cons h (ih h1 h2)

theorem spellsL_append {a b : List (PN Str Str)} {s t : List Stmt} (h : SpellsL a s) (h' : SpellsL b t) : SpellsL (a ++ b) (s ++ t) := by
  induction h with
  | nil => exact h'
  | op h _ ih => exact .op h ih
  | skip h _ ih => exact .skip h ih
  | sep h _ ih => exact .sep h ih
  | cond h1 h2 h3 h4 h5 h6 h7 h8 _ _ _ ih => exact .cond h1 h2 h3 h4 h5 h6 h7 h8 ih

theorem spellsR_append {a b : List (PN Str Str)} {s t} (h : SpellsR a s) (h' : SpellsR b t) : SpellsR (a ++ b) (s ++ t) := by
  induction h with
  | nil => exact h'
  | rule h1 h2 _ ih => exact .rule h1 h2 ih
  | other h _ ih => exact .other h ih

/-- The productions of a symbol. -/
def rowsOf (A : Str) : List (List Str) := (rdAdds.filter fun r => r.1 = A).map (·.2)

theorem mem_rowsOf {A : Str} {p} : p ∈ rowsOf A ↔ (A, p) ∈ rdAdds := by
  simp only [rowsOf, List.mem_map, List.mem_filter, decide_eq_true_eq]
  constructor
  · rintro ⟨⟨_, _⟩, ⟨h, rfl⟩, rfl⟩; exact h
  · intro h; exact ⟨(A, p), ⟨h, rfl⟩, rfl⟩

/-- Without commas. -/
abbrev noComma (ts : List (PN Str Str)) : List (PN Str Str) := ts.filter fun c => c.kind ∉ ["comma".toList]
/-- Without periods. -/
abbrev noPeriod (ts : List (PN Str Str)) : List (PN Str Str) := ts.filter fun c => c.kind ∉ ["period".toList]

/-- What a derivation tree is reduced to and what its leaves spell, by its kind. -/
structure Reads (R : Nat → Reducer Unit Str Str) (G : Spec.Grammar Str) (t : PN Str Str) : Prop where
  tok : G.Term t.kind → Reds R t t ∧ t.kids = [] ∧ Json.fr G t = [t.lx]
  str : t.kind = "string".toList → ∃ k, Quoted t k
  noArgs : t.kind = "NoArgs".toList → ∃ t', Reds R t t' ∧ t'.kind = "NoArgs".toList ∧ RdSpells [.lp, .rp] (Json.fr G t)
  one : t.kind = "OneNumArg".toList → ∃ t' c, Reds R t t' ∧ t'.kind = "OneNumArg".toList ∧ t'.kids = [c] ∧
    RdSpells [.lp, .number c.lx.val, .rp] (Json.fr G t)
  nums : t.kind = "(number_comma)*".toList → ∃ t', Reds R t t' ∧
    RdSpells ((noComma (flats ["(number_comma)*".toList] [t'])).flatMap fun c => [.number c.lx.val, .comma]) (Json.fr G t)
  strs : t.kind = "(string_comma)*".toList → ∃ t' ks, Reds R t t' ∧
    List.Forall₂ Quoted (noComma (flats ["(string_comma)*".toList] [t'])) ks ∧
    RdSpells (ks.flatMap fun k => [inQuotes k, .comma]) (Json.fr G t)
  varNum : t.kind = "VarNumArg".toList → ∃ t', Reds R t t' ∧ t'.kind = "VarNumArg".toList ∧ t'.kids ≠ [] ∧
    RdSpells (.lp :: (commas (t'.kids.map fun c => .number c.lx.val) ++ [.rp])) (Json.fr G t)
  varStr : t.kind = "VarStrArg".toList → ∃ t' ks, Reds R t t' ∧ t'.kind = "VarStrArg".toList ∧ ks ≠ [] ∧
    List.Forall₂ Quoted t'.kids ks ∧ RdSpells (.lp :: (commas (ks.map inQuotes) ++ [.rp])) (Json.fr G t)
  cond : t.kind = "Condition".toList → ∃ t' a b k, Reds R t t' ∧ t'.kind = "ChildIs".toList ∧ t'.kids = [a, b] ∧ Quoted b k ∧
    RdSpells [.word "ChildIs".toList, .lp, .number a.lx.val, .comma, inQuotes k, .rp] (Json.fr G t)
  red : t.kind = "Reduction".toList → ∃ t' s w, Reds R t t' ∧ SpellsL [t'] [s] ∧ t'.kind ∉ ["period".toList] ∧
    t'.kind ∉ ["(Reduction_period)*".toList] ∧ Wr (.one s) w ∧ RdSpells w (Json.fr G t)
  reds : t.kind = "(Reduction_period)*".toList → ∃ t' ss w, Reds R t t' ∧
    SpellsL (flats ["(Reduction_period)*".toList] [t']) ss ∧
    SpellsL (noPeriod (flats ["(Reduction_period)*".toList] [t'])) ss ∧
    (∀ ss' w', Wr (.seq ss') w' → Wr (.seq (ss ++ ss')) (w ++ w')) ∧ RdSpells w (Json.fr G t)
  chain : t.kind = "Chain".toList → ∃ t' ss w, Reds R t t' ∧ t'.kind = "Chain".toList ∧ SpellsL t'.kids ss ∧
    SpellsL (noPeriod t'.kids) ss ∧ Wr (.seq ss) w ∧ RdSpells w (Json.fr G t)
  rule : t.kind = "Rule".toList → ∃ t' ss w, Reds R t t' ∧ t'.kind = "Rule".toList ∧ SpellsL t'.kids ss ∧
    Wr (.seq ss) w ∧ RdSpells (.rule t'.lx.val :: w) (Json.fr G t)
  rulesStar : t.kind = "Rule*".toList → ∃ t' D w, Reds R t t' ∧ SpellsR (flats ["Rule*".toList] [t']) D ∧ DefWr D w ∧
    RdSpells w (Json.fr G t)
  rules : t.kind = "Rules".toList → ∃ t' D w, Reds R t t' ∧ SpellsR t'.kids D ∧ DefWr D w ∧ RdSpells w (Json.fr G t)

theorem int_ex (v : Str) : ∃ i, IntOf charNumerals v i := intOf_ex _ v

theorem nums_ex (ks : List (PN Str Str)) : ∃ is, ks.length = is.length ∧ (∀ x ∈ ks.zip is, IntOf charNumerals x.1.lx.val x.2) ∧
    IntsOf (ks.map fun c => c.lx.val) is := by
  induction ks with
  | nil => exact ⟨[], rfl, by simp, .nil⟩
  | cons c ks ih =>
    obtain ⟨is, h1, h2, h3⟩ := ih
    obtain ⟨i, hi⟩ := int_ex c.lx.val
    refine ⟨i :: is, by simp [h1], ?_, .cons hi h3⟩
    intro x hx
    rcases List.mem_cons.1 hx with rfl | hx
    · exact hi
    · exact h2 x hx

theorem quoteds_of {ns : List (PN Str Str)} {ks : List Str} (h : List.Forall₂ Quoted ns ks) :
    ns.length = ks.length ∧ ∀ x ∈ ns.zip ks, Quoted x.1 x.2 := by
  induction h with
  | nil => exact ⟨rfl, by simp⟩
  | cons h _ ih =>
    refine ⟨by simp [ih.1], ?_⟩
    intro x hx
    rcases List.mem_cons.1 hx with rfl | hx
    · exact h
    · exact ih.2 x hx

theorem commas_snoc (f : List RdTok) (x : RdTok) : commas (f ++ [x]) = (f.flatMap fun t => [t, .comma]) ++ [x] := by
  induction f with
  | nil => rfl
  | cons t f ih =>
    cases f with
    | nil => rfl
    | cons u f => 
      rw [List.cons_append, List.cons_append, commas, ← List.cons_append, ih]
      rfl
end

end Verif.ReducerDSL
