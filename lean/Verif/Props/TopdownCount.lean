import Verif.Proofs.TopdownCount
import Verif.Props.Topdown
/-
The work of the top-down parser (C88).

`parseC ev g ls fuel` is `parse ev g ls fuel` together with the number of calls of `accept` and of `acceptProd`. The specification is
`Size`, the number of places in the productions of a grammar.
-/
namespace Verif.Props.TopdownCount
open Verif.Spec Verif.Spec.Grammar Verif.Topdown Verif.SetSymbol Verif.Props.Topdown
open Verif.Packrat (loadSet loadSet_ok SetOK symIdx nm nm_symIdx idxProds idxProds_symIdx nameTree symIdx_get)

variable {α V : Type} [DecidableEq α]

/-- The size of a grammar: for each nonterminal and each of its productions, the number of symbols and one more. -/
def Size (g : Grammar α) : Nat := (g.order.map fun A => (((g.prods A).getD []).map fun p => p.length + 1).sum).sum

/-- C88: counting changes nothing. -/
theorem C88_same (ev : V) (g : Grammar α) (ls : List (Lexeme α V)) (n : Nat) : forget (parseC ev g ls n) = parse ev g ls n := by
  unfold parseC parse
  cases g.order with
  | nil => rfl
  | cons S rest =>
    simp only
    cases loadSet g ls with
    | panic => rfl
    | fuel => rfl
    | ok s =>
      simp only [Out.bind_ok]
      rw [← acceptC_forget]
      refine forget_bind (C := Unit) fun r => ?_
      obtain ⟨⟨m, r⟩, c⟩ := r
      cases r with
      | none => rfl
      | some a =>
        simp only
        cases nameTree s a.tree <;> rfl

theorem sum_le_of_nodup {A : Type} [DecidableEq A] (f : A → Nat) : ∀ (xs ys : List A), xs.Nodup → (∀ x ∈ xs, f x ≠ 0 → x ∈ ys) →
    (xs.map f).sum ≤ (ys.map f).sum
  | [], _, _, _ => by simp
  | x :: xs, ys, hn, h => by
    have hn' := List.nodup_cons.1 hn
    by_cases hx : f x = 0
    · have := sum_le_of_nodup f xs ys hn'.2 (fun y hy => h y (by simp [hy]))
      simp only [List.map_cons, List.sum_cons]
      omega
    · have hmem := h x (by simp) hx
      have := sum_le_of_nodup f xs (ys.erase x) hn'.2 (fun y hy hne => by
        refine (List.mem_erase_of_ne ?_).2 (h y (by simp [hy]) hne)
        rintro rfl; exact hn'.1 hy)
      have e : (ys.map f).sum = f x + ((ys.erase x).map f).sum := by
        rw [((List.perm_cons_erase hmem).map f).sum_nat]
        simp
      simp only [List.map_cons, List.sum_cons]
      omega

theorem sum_range (xs : List α) (f : α → Nat) (h : Nat → Nat) (e : ∀ (i : Nat) x, xs[i]? = some x → h i = f x) :
    ((List.range xs.length).map h).sum = (xs.map f).sum := by
  congr 1
  refine List.ext_getElem? fun i => ?_
  simp only [List.getElem?_map]
  by_cases hi : i < xs.length
  · rw [List.getElem?_eq_getElem hi, List.getElem?_range hi]
    simp [e i _ (List.getElem?_eq_getElem hi)]
  · rw [List.getElem?_eq_none (l := xs) (by omega), List.getElem?_eq_none (l := List.range xs.length) (by rw [List.length_range]; omega)]
    rfl

theorem sum_flatMap_const {A : Type} (f : A → Nat) (k : Nat) : ∀ xs : List A,
    ((xs.flatMap fun x => (List.range k).map fun i => (x, i)).map fun y => f y.1).sum = k * (xs.map f).sum
  | [] => by simp
  | x :: xs => by
    have ih := sum_flatMap_const f k xs
    simp only [List.flatMap_cons, List.map_append, List.sum_append, List.map_map, List.map_cons, List.sum_cons] at ih ⊢
    rw [ih, Nat.mul_add]
    congr 1
    have : ((fun y : A × Nat => f y.1) ∘ fun i => (x, i)) = fun _ => f x := rfl
    rw [this]
    simp

/-- C88: whenever Parse returns, it has made at most `1 + (n + 2) * Size g` calls of `accept` and `acceptProd`, where `n` is the number
of lexemes: linear in the input for each grammar. -/
theorem C88_linear (ev : V) (g : Grammar α) (hg : g.WF) (ls : List (Lexeme α V)) {n r c} (h : parseC ev g ls n = .ok (r, c)) :
    c ≤ 1 + (ls.length + 2) * Size g := by
  cases ho : g.order with
  | nil => simp only [parseC, ho] at h; cases h; omega
  | cons S rest =>
    obtain ⟨s, es, hs, hls, h0⟩ := loadSet_ok g hg ls
    have h0 := h0 S (by simp [ho])
    have hS : S ∈ s.symb2str := List.mem_of_getElem? h0
    obtain ⟨ps, hps⟩ := Option.isSome_iff_exists.1 ((hg S).2 (by simp [ho] : S ∈ g.order))
    have hpi : idxProds g s (symIdx s S) = some (ps.map (·.map (symIdx s))) := by
      rw [idxProds_symIdx hs.inv hS, hps]; rfl
    have hdown := renames_down hs S
    let gi : Grammar Nat := ⟨[], idxProds g s⟩
    let inp : List (Lexeme Nat V) := ls.map (rLx (symIdx s))
    have hlen : inp.length = ls.length := by simp [inp]
    simp only [parseC, ho, es, Out.bind_ok] at h
    obtain ⟨⟨⟨m, q⟩, c'⟩, e, h⟩ := Out.bind_eq_ok.1 h
    have hc : c = c' := by
      cases q with
      | none => cases h; rfl
      | some a =>
        obtain ⟨t, _, h⟩ := Out.bind_eq_ok.1 h
        cases h; rfl
    subst hc
    have e : acceptC ev gi.prods inp n (fun _ => none) (symIdx s S) 0 true = .ok ((m, q), c) := e
    let keys : List (Nat × Nat) := (List.range s.symb2str.length).flatMap fun x => (List.range (inp.length + 1)).map fun i => (x, i)
    have hmem : ∀ X i, (X, i) ∈ keys ↔ X < s.symb2str.length ∧ i ≤ inp.length := by
      intro X i
      simp only [keys, List.mem_flatMap, List.mem_range, List.mem_map, Prod.mk.injEq]
      constructor
      · rintro ⟨x, h1, j, h2, rfl, rfl⟩; exact ⟨h1, by omega⟩
      · rintro ⟨h1, h2⟩; exact ⟨X, h1, i, by omega, rfl, rfl⟩
    have hK : Keys gi inp keys (· < s.symb2str.length) :=
      ⟨fun X i h1 h2 => (hmem X i).2 ⟨h1, h2⟩, hdown.closed⟩
    have hk : ∀ k ∈ keys, k.2 ≤ inp.length := fun k h => ((hmem k.1 k.2).1 h).2
    -- the potential at the start
    have htodo : todo gi.prods keys (fun _ => none : Memo Nat V) ≤ (inp.length + 1) * Size g := by
      have : todo gi.prods keys (fun _ => none : Memo Nat V) =
          (inp.length + 1) * ((List.range s.symb2str.length).map fun x => workOf (gi.prods x)).sum := by
        rw [← sum_flatMap_const]
        simp [todo, keys]
      rw [this]
      refine Nat.mul_le_mul_left _ ?_
      rw [sum_range s.symb2str (fun A => workOf (g.prods A))]
      · refine sum_le_of_nodup _ _ _ hs.inv.nodup fun x _ hx => ?_
        by_contra hno
        have : g.prods x = none := by
          cases hp : g.prods x with
          | none => rfl
          | some _ => exact absurd ((hg x).1 (by simp [hp])) hno
        exact hx (by rw [this]; rfl)
      · intro i x hi
        show workOf (idxProds g s i) = _
        unfold idxProds workOf
        simp only [hi]
        cases g.prods x with
        | none => rfl
        | some qs => simp [Function.comp_def]
    have hstart : workOf (some (ps.map (·.map (symIdx s)))) ≤ Size g := by
      unfold Size
      have hSo : S ∈ g.order := by simp [ho]
      have : workOf (some (ps.map (·.map (symIdx s)))) = (((g.prods S).getD []).map fun p => p.length + 1).sum := by
        rw [hps]; simp [workOf, List.map_map, Function.comp_def]
      rw [this]
      exact List.le_sum_of_mem (List.mem_map.2 ⟨S, hSo, rfl⟩)
    cases n with
    | zero => cases e
    | succ f =>
      rw [acceptC] at e
      simp only at e
      obtain ⟨⟨⟨m1, r1⟩, c1⟩, e1, e⟩ := Out.bind_eq_ok.1 e
      cases e
      unfold tryAcceptC at e1
      have e1 : prodsLoopC ev (fun m X p => acceptC ev gi.prods inp f m X p false) inp.length (symIdx s S) 0 true (fun _ => none)
          (ps.map (·.map (symIdx s))) = .ok ((m1, r1), c1) := by
        rw [show gi.prods (symIdx s S) = _ from hpi] at e1
        exact e1
      have := all_pays hK hk f (symIdx s S) _ _ _ _ _ (hdown.closed _ _ hpi) (fun _ _ _ h => by simp at h) e1
      have hmul : (ls.length + 2) * Size g = (inp.length + 1) * Size g + Size g := by
        rw [hlen, ← Nat.succ_mul]
      simp only
      omega

/-- C88, for grammars without left recursion: Parse returns having made at most that many calls. -/
theorem C88_total (ev : V) (g : Grammar α) (hg : g.WF) (hlr : ¬ g.LeftRecursive) (ls : List (Lexeme α V)) :
    ∃ r, Out.Returns (parse ev g ls) r ∧ ∃ N, ∀ n ≥ N, ∃ c, parseC ev g ls n = .ok (r, c) ∧ c ≤ 1 + (ls.length + 2) * Size g := by
  obtain ⟨r, N, hN⟩ := C16_terminates_partial ev g hg hlr ls
  refine ⟨r, ⟨N, hN⟩, N, fun n hn => ?_⟩
  have := C88_same ev g ls n
  rw [hN n hn] at this
  obtain ⟨⟨r', c⟩, e, e'⟩ := Out.bind_eq_ok.1 this
  cases e'
  exact ⟨c, e, C88_linear ev g hg ls e⟩

/-- A grammar whose alternatives begin alike: `S → A 1 | A 2`, `A → 0 A 1 | 0 A 2 | 3`. Terminals are 0 to 3. -/
def gEx : Grammar Nat where
  order := [10, 11]
  prods := fun x => if x = 10 then some [[11, 1], [11, 2]] else if x = 11 then some [[0, 11, 1], [0, 11, 2], [3]] else none

/-- The lexemes of a word. -/
def lex (w : List Nat) : List (Lexeme Nat Nat) := w.map fun k => ⟨k, 0, 0, 0⟩

theorem gEx_wf : gEx.WF := by
  intro x
  simp only [gEx]
  by_cases h1 : x = 10
  · simp [h1]
  · by_cases h2 : x = 11
    · simp [h2]
    · simp [h1, h2]

theorem gEx_not_lr : ¬ gEx.LeftRecursive := by
  have hn : ∀ A k, ¬ gEx.Rule A k [] := by
    rintro A k ⟨ps, h, hk⟩
    have hk := List.mem_of_getElem? hk
    simp only [gEx] at h
    split at h
    · cases h; simp at hk
    · split at h
      · cases h; simp at hk
      · cases h
  intro h
  have := (C13_exact_noempty_partial gEx gEx_wf hn (n := 3) (b := false) (by decide +kernel)).2 h
  cases this

/-- The number of calls, if Parse returns a tree. -/
def calls (w : List Nat) : Option Nat :=
  match parseC 0 gEx (lex w) 20 with
  | .ok (some _, c) => some c
  | _ => none

example : Size gEx = 16 := by decide +kernel

/-- The hypotheses of C88 are met, and each `0` adds 8 calls. Without the memo each of them would double the number. -/
theorem C88_said : gEx.WF ∧ ¬ gEx.LeftRecursive ∧ calls [3, 2] = some 13 ∧ calls [0, 3, 2, 2] = some 21 ∧
    calls [0, 0, 3, 2, 2, 2] = some 29 ∧ calls [0, 0, 0, 3, 2, 2, 2, 2] = some 37 :=
  ⟨gEx_wf, gEx_not_lr, by decide +kernel, by decide +kernel, by decide +kernel, by decide +kernel⟩

end Verif.Props.TopdownCount
