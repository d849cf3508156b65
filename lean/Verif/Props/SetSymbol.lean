import Verif.Proofs.SetSymbol
/-
C01–C04: the interning table of symbol/setsymbol/set.go.
The specification of a history is the list of strings it interns, in call order.
-/
namespace Verif.Props.SetSymbol
open Verif Verif.SetSymbol
variable {α : Type} [DecidableEq α]

/-- Specification: the strings interned by a history, in call order (queries intern nothing). -/
def interned (h : List (Op α)) : List α :=
  h.flatMap fun
    | .str x => [x]
    | .symbol (.other x) => [x]
    | .cast p => p
    | _ => []

omit [DecidableEq α] in
private theorem interned_eq (h : List (Op α)) : interned h = h.flatMap Op.strs := by
  unfold interned
  congr 1

private theorem run_inv (h : List (Op α)) : Inv (run h) := foldl_inv inv_new h

private theorem run_table (h : List (Op α)) : (run h).symb2str = (interned h).foldl ins [] := by
  rw [interned_eq]; exact foldl_table inv_new h

/-- C01(a): after any history `Str` gives two strings the same index iff they are equal, where the
second string may be interned any number of calls later. -/
theorem C01_str_injective (h : List (Op α)) (x y : α) (mid : List (Op α)) :
    (str (run h) x).2 = (str (mid.foldl step (str (run h) x).1) y).2 ↔ x = y := by
  have i1 := run_inv h
  have i2 := inv_str i1 x
  have i3 := foldl_inv i2 mid
  have gx := str_idx i1 x
  have gx' := prefix_getElem? ((foldl_prefix _ mid).trans (str_prefix _ y)) gx
  have gy := str_idx i3 y
  constructor
  · intro e; rw [e, gy] at gx'; exact (Option.some.inj gx').symm
  · intro e
    subst e
    have := (inv_str i3 x).nodup
    obtain ⟨h1, e1⟩ := List.getElem?_eq_some_iff.1 gx'
    obtain ⟨h2, e2⟩ := List.getElem?_eq_some_iff.1 gy
    exact (List.getElem_inj this).1 (e1.trans e2.symm)

/-- C01(b): the symbols of the set are exactly the indices `0 .. Size()-1`: an index has a string
iff it is below the size, different indices have different strings, and a string is in the table
iff some call interned it. -/
theorem C01_table_bijective (h : List (Op α)) :
    (∀ i : Nat, (∃ x, symString (run h) i = .ok x) ↔ i < size (run h)) ∧
    (∀ i j : Nat, ∀ x, symString (run h) i = .ok x → symString (run h) j = .ok x → i = j) ∧
    (∀ x, (∃ i : Nat, symString (run h) i = .ok x) ↔ x ∈ interned h) := by
  have hs : ∀ (i : Nat) (x : α), symString (run h) i = .ok x ↔ (run h).symb2str[i]? = some x := by
    intro i x
    unfold symString
    rw [if_neg (by omega)]
    simp only [Int.toNat_natCast]
    cases (run h).symb2str[i]? <;> simp
  refine ⟨?_, ?_, ?_⟩
  · intro i
    simp only [hs, size]
    constructor
    · rintro ⟨x, e⟩; exact (List.getElem?_eq_some_iff.1 e).1
    · intro hi; exact ⟨_, List.getElem?_eq_getElem hi⟩
  · intro i j x e1 e2
    rw [hs] at e1 e2
    obtain ⟨h1, e1⟩ := List.getElem?_eq_some_iff.1 e1
    obtain ⟨h2, e2⟩ := List.getElem?_eq_some_iff.1 e2
    exact (List.getElem_inj (run_inv h).nodup).1 (e1.trans e2.symm)
  · intro x
    simp only [hs]
    rw [← List.mem_iff_getElem?, run_table, mem_foldl_ins]
    simp

/-- C01(c): indices follow the order of first appearance in the history. -/
theorem C01_first_appearance_order (h : List (Op α)) (x y : α) (i j : Nat)
    (hx : symString (run h) i = .ok x) (hy : symString (run h) j = .ok y) :
    i < j ↔ (interned h).idxOf x < (interned h).idxOf y := by
  have hs : ∀ (i : Nat) (x : α), symString (run h) i = .ok x → (run h).symb2str[i]? = some x := by
    intro i x
    unfold symString
    rw [if_neg (by omega)]
    simp only [Int.toNat_natCast]
    cases (run h).symb2str[i]? <;> simp
  have ex := hs i x hx
  have ey := hs j y hy
  have nd := (run_inv h).nodup
  have idx : ∀ (i : Nat) (x : α), (run h).symb2str[i]? = some x → (run h).symb2str.idxOf x = i := by
    intro i x e
    obtain ⟨h1, e1⟩ := List.getElem?_eq_some_iff.1 e
    subst e1
    exact List.Nodup.idxOf_getElem nd i h1
  rw [← idx i x ex, ← idx j y ey]
  have mx := List.mem_of_getElem? ex
  have my := List.mem_of_getElem? ey
  rw [run_table] at mx my ⊢
  have := foldl_ins_idxOf (interned h) [] List.nodup_nil x y mx my
  simpa using this

/-- C01(d): no later call changes the string of an earlier symbol, and interning the string again
gives back the same index. -/
theorem C01_stable (h more : List (Op α)) (x : α) (i : Nat) (hx : symString (run h) i = .ok x) :
    symString (run (h ++ more)) i = .ok x ∧ (str (run (h ++ more)) x).2 = i ∧
      size (str (run (h ++ more)) x).1 = size (run (h ++ more)) := by
  have e : (run h).symb2str[i]? = some x := by
    revert hx
    unfold symString
    rw [if_neg (by omega)]
    simp only [Int.toNat_natCast]
    cases (run h).symb2str[i]? <;> simp
  have e' : (run (h ++ more)).symb2str[i]? = some x := by
    unfold run
    rw [List.foldl_append]
    exact prefix_getElem? (foldl_prefix _ more) e
  have inv := run_inv (h ++ more)
  have hm := (inv.map x i).2 e'
  refine ⟨?_, ?_, ?_⟩
  · unfold symString
    rw [if_neg (by omega)]
    simp [e']
  · simp [str, hm]
  · simp [str, hm]

/-- C02: `Has`, `HasSymbol`, `Idx` succeed exactly for strings interned earlier, and report the
index under which the string can be read back; `Idx` of a string never interned is `-1`. -/
theorem C02_queries (h : List (Op α)) (x : α) :
    (has (run h) x = true ↔ x ∈ interned h) ∧
    (∀ i : Nat, hasSymbol (run h) (.other x) = .ok (some i) ↔ symString (run h) i = .ok x) ∧
    (hasSymbol (run h) (.other x) = .ok none ↔ x ∉ interned h) ∧
    (∀ i : Nat, idx (run h) (.other x) = .ok i ↔ symString (run h) i = .ok x) ∧
    (idx (run h) (.other x) = .ok (-1) ↔ x ∉ interned h) := by
  have inv := run_inv h
  have hs : ∀ (i : Nat) (x : α), symString (run h) i = .ok x ↔ (run h).symb2str[i]? = some x := by
    intro i x
    unfold symString
    rw [if_neg (by omega)]
    simp only [Int.toNat_natCast]
    cases (run h).symb2str[i]? <;> simp
  have hm : x ∈ (run h).symb2str ↔ x ∈ interned h := by
    rw [run_table, mem_foldl_ins]; simp
  refine ⟨?_, ?_, ?_, ?_, ?_⟩
  · rw [← hm, ← inv.mem]; rfl
  · intro i; rw [hs, ← inv.map]; simp [hasSymbol]
  · rw [← hm, ← inv.none]; simp [hasSymbol]
  · intro i; rw [hs, ← inv.map]
    simp only [idx]
    cases hv : (run h).str2sym x with
    | none => simp
    | some v => simp; omega
  · rw [← hm, ← inv.none]
    simp only [idx]
    cases hv : (run h).str2sym x with
    | none => simp
    | some v => simp

/-- C02: the table depends only on the strings interned, not on queries in between. -/
theorem C02_only_interned_matters (h h' : List (Op α)) (e : interned h = interned h') :
    (run h).symb2str = (run h').symb2str := by
  rw [run_table, run_table, e]

/-- Two histories differing only by queries. -/
example : interned [Op.str "a", .has "zz", .idx (.other "q"), .str "b", .str "a"]
    = interned [Op.str "a", .cast ["b", "a"]] := by decide
example : (run [Op.str "a", .has "zz", .str "b", .cast ["a", "c"]]).symb2str = ["a", "b", "c"] := by
  decide

/-- C03 fails as stated: for every history, `ByIdx(Size())` is a non-nil symbol whose `String()`
panics. -/
theorem C03_refuted (h : List (Op α)) :
    byIdx (run h) (size (run h)) = some (size (run h) : Int) ∧
      symString (run h) (size (run h)) = .panic := by
  refine ⟨by simp [byIdx, size], ?_⟩
  unfold symString
  rw [if_neg (by omega)]
  simp [size]

/-- C03, the part that holds: for every non-negative index other than `Size()` itself the result is
nil iff the index is out of range, and a non-nil result can be printed.
Missing: `i = Size()` (false, see `C03_refuted`) and negative indices, for which the code returns a
symbol whose `String()` panics as well (`C03_negative`). -/
theorem C03_byIdx_partial (h : List (Op α)) (i : Nat) (hi : i ≠ size (run h)) :
    (byIdx (run h) i = none ↔ size (run h) ≤ i) ∧
    (∀ k, byIdx (run h) i = some k → ∃ x, symString (run h) k = .ok x) := by
  unfold byIdx size at *
  constructor
  · split
    · simp; omega
    · simp; omega
  · intro k
    split
    · simp
    · intro e
      simp only [Option.some.injEq] at e
      subst e
      have : i < (run h).symb2str.length := by omega
      refine ⟨(run h).symb2str[i], ?_⟩
      unfold symString
      rw [if_neg (by omega)]
      simp [this]

/-- Negative indices are handed out as symbols too, and printing them panics. -/
theorem C03_negative (h : List (Op α)) (i : Int) (hi : i < 0) :
    byIdx (run h) i = some i ∧ symString (run h) i = .panic := by
  constructor
  · unfold byIdx; rw [if_neg (by omega)]
  · simp [symString, hi]

example : byIdx (run [Op.str "a", .str "b"]) 1 = some 1 ∧
    symString (run [Op.str "a", .str "b"]) 1 = .ok "b" ∧
    byIdx (run [Op.str "a", .str "b"]) 3 = none ∧
    byIdx (run [Op.str "a", .str "b"]) 2 = some 2 := by decide

omit [DecidableEq α] in
private theorem readSyms_ok (s : SymSet α) (p : List Nat) (xs : List α)
    (e : p.map (fun i => s.symb2str[i]?) = xs.map some) : readSyms s p = .ok xs := by
  induction p generalizing xs with
  | nil => cases xs <;> simp_all [readSyms]
  | cons v vs ih =>
    cases xs with
    | nil => simp at e
    | cons x xs =>
      simp only [List.map_cons, List.cons.injEq] at e
      have h1 : symString s v = .ok x := by
        unfold symString
        rw [if_neg (by omega)]
        simp [e.1]
      simp [readSyms, h1, ih xs e.2]

/-- C04: a production cast into a set (after any history) and read back later (after any further
calls) has the same symbols in the same order; in particular reading never panics. -/
theorem C04_cast_roundtrip (h more : List (Op α)) (p : List α) :
    readSyms (more.foldl step (castSyms (run h) p).1) (castSyms (run h) p).2 = .ok p := by
  apply readSyms_ok
  have := castSyms_get (run_inv h) p
  have key : ∀ (q : List Nat) (xs : List α),
      q.map (fun i => (castSyms (run h) p).1.symb2str[i]?) = xs.map some →
      q.map (fun i => (more.foldl step (castSyms (run h) p).1).symb2str[i]?) = xs.map some := by
    intro q
    induction q with
    | nil => intro xs e; cases xs <;> simp_all
    | cons v vs ih =>
      intro xs e
      cases xs with
      | nil => simp at e
      | cons x xs =>
        simp only [List.map_cons, List.cons.injEq] at e ⊢
        exact ⟨prefix_getElem? (foldl_prefix _ more) e.1, ih xs e.2⟩
  exact key _ _ this

/-- C04: casting the same production again gives the same representation and adds nothing. -/
theorem C04_cast_idempotent (h : List (Op α)) (p : List α) :
    castSyms (castSyms (run h) p).1 p = castSyms (run h) p := by
  have inv := castSyms_inv (run_inv h) p
  have get := castSyms_get (run_inv h) p
  generalize ht : castSyms (run h) p = r at *
  obtain ⟨t, q0⟩ := r
  dsimp only at *
  have key : ∀ (xs : List α) (q : List Nat), q.map (fun i => t.symb2str[i]?) = xs.map some →
      castSyms t xs = (t, q) := by
    intro xs
    induction xs with
    | nil => intro q e; cases q <;> simp_all [castSyms]
    | cons x xs ih =>
      intro q e
      cases q with
      | nil => simp at e
      | cons v vs =>
        simp only [List.map_cons, List.cons.injEq] at e
        have hv : str t x = (t, v) := by
          have := (inv.map x v).2 e.1
          simp [str, this]
        simp [castSyms, hv, ih vs e.2]
  exact key p _ get

example : (castSyms (run [Op.str "x", .str "b"]) ["a", "b", "a"]).2 = [2, 1, 2] := by decide

end Verif.Props.SetSymbol
