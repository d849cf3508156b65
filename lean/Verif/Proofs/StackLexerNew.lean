import Verif.Model.StackLexerNew
import Verif.Proofs.SetSymbol
import Verif.Spec.Inherit
/-
Proofs about `New` of the stack lexer: it always returns; what the sub-lexers are when the
inheritance is acyclic and the regexps compile.
-/
namespace Verif.StackLexer
open Verif Verif.SetSymbol Verif.Spec
open Verif.SimpleLexer (Bytes)

/-- A rule without kind and priority. -/
structure Body where
  re : Re
  discard : Bool
  push : Bytes
  pop : Nat
  submatches : Option (List Submatch)

def bodyOf (r : Rule) : Body := ⟨r.re, r.discard, r.push, r.pop, r.submatches⟩

/-- `addRule` on a sub-lexer that nothing inherits from. -/
def addRule1 (sl : SubS) (r : Rule) : SubS :=
  let rules := sl.rules ++ List.replicate (1 + r.kind - sl.rules.length) none
  match rules[r.kind]? with
  | some none => { sl with
      counter := sl.counter + 1
      rules := rules.set r.kind (some { r with priority := (sl.counter : Int) })
      order := sl.order ++ [r.kind] }
  | _ => { sl with rules := rules }

theorem addRule1_name (sl : SubS) (r : Rule) : (addRule1 sl r).name = sl.name := by
  unfold addRule1; simp only; split <;> rfl

theorem addRule1_by (sl : SubS) (r : Rule) : (addRule1 sl r).by_ = sl.by_ := by
  unfold addRule1; simp only; split <;> rfl

theorem addRule_eq {n : Nat} {st : St} {id : Nat} (r : Rule) (h : (st.subs id).by_ = []) :
    addRule (n + 1) st id r = .ok { st with subs := upd st.subs id (addRule1 (st.subs id) r) } := by
  unfold addRule addRule1
  simp only
  split
  · next e => simp only [e, h, List.foldl_nil]
  · next e =>
    congr 3
    split
    · next e' => exact absurd e' e
    · rfl

/-- The entries of a sub-lexer `sl` in order of priority, by the names of the kinds. -/
structure Reads (set : SymSet Bytes) (sl : SubS) (v : List (Bytes × Body)) : Prop where
  len : sl.counter = v.length
  keys : (v.map Prod.fst).Nodup
  rules : ∀ (k : Nat) (r : Rule), sl.rules[k]? = some (some r) → r.kind = k ∧ ∃ (i : Nat) (w : Bytes),
    r.priority = (i : Int) ∧ set.symb2str[k]? = some w ∧ v[i]? = some (w, bodyOf r)
  all : ∀ (i : Nat) (w : Bytes) (b : Body), v[i]? = some (w, b) → ∃ (k : Nat) (r : Rule),
    sl.rules[k]? = some (some r) ∧ r.priority = (i : Int) ∧ set.symb2str[k]? = some w ∧ bodyOf r = b

theorem Reads.mono {set set' : SymSet Bytes} {sl : SubS} {v : List (Bytes × Body)} (h : Reads set sl v)
    (hp : set.symb2str <+: set'.symb2str) : Reads set' sl v := by
  refine ⟨h.len, h.keys, fun k r hr => ?_, fun i w b hb => ?_⟩
  · obtain ⟨h1, i, w, h2, h3, h4⟩ := h.rules k r hr
    exact ⟨h1, i, w, h2, prefix_getElem? hp h3, h4⟩
  · obtain ⟨k, r, h1, h2, h3, h4⟩ := h.all i w b hb
    exact ⟨k, r, h1, h2, prefix_getElem? hp h3, h4⟩

theorem Reads.congr {set : SymSet Bytes} {sl sl' : SubS} {v : List (Bytes × Body)} (h : Reads set sl v)
    (hr : sl'.rules = sl.rules) (hc : sl'.counter = sl.counter) : Reads set sl' v := by
  refine ⟨hc.trans h.len, h.keys, ?_, ?_⟩
  · rw [hr]; exact h.rules
  · rw [hr]; exact h.all

private theorem nodup_idx {l : List Bytes} (h : l.Nodup) {i j : Nat} {x : Bytes} (hi : l[i]? = some x)
    (hj : l[j]? = some x) : i = j := by
  obtain ⟨h1, h2⟩ := List.getElem?_eq_some_iff.1 hi
  obtain ⟨h3, h4⟩ := List.getElem?_eq_some_iff.1 hj
  exact (List.Nodup.getElem_inj_iff h).1 (h2.trans h4.symm)

/-- The grown slice: its old entries, and the one of the new kind. -/
private theorem grown_get (l : List (Option Rule)) (k j : Nat) (r : Rule) :
    (l ++ List.replicate (1 + k - l.length) none)[j]? = some (some r) ↔ l[j]? = some (some r) := by
  by_cases hj : j < l.length
  · rw [List.getElem?_append_left hj]
  · rw [List.getElem?_append_right (by omega), List.getElem?_eq_none (l := l) (by omega),
      List.getElem?_replicate]
    split <;> simp

private theorem grown_lt (l : List (Option Rule)) (k : Nat) :
    k < (l ++ List.replicate (1 + k - l.length) none).length := by
  rw [List.length_append, List.length_replicate]; omega

/-- Adding a rule adds an entry. -/
theorem Reads.add {set : SymSet Bytes} (hs : Inv set) {sl : SubS} {v : List (Bytes × Body)}
    (h : Reads set sl v) (r : Rule) {w : Bytes} (hw : set.symb2str[r.kind]? = some w) :
    Reads set (addRule1 sl r) (addEntry v (w, bodyOf r)) := by
  unfold addRule1
  simp only
  generalize hg : sl.rules ++ List.replicate (1 + r.kind - sl.rules.length) none = rules
  have hget : ∀ (j : Nat) (r' : Rule), rules[j]? = some (some r') ↔ sl.rules[j]? = some (some r') := by
    intro j r'; rw [← hg]; exact grown_get _ _ _ _
  have hlt : r.kind < rules.length := by rw [← hg]; exact grown_lt _ _
  split
  · next e =>
    -- a new kind
    have hnew : w ∉ v.map Prod.fst := by
      intro hm
      obtain ⟨⟨w', b⟩, hm', rfl⟩ := List.mem_map.1 hm
      obtain ⟨i, hi⟩ := List.mem_iff_getElem?.1 hm'
      obtain ⟨k, r', h1, -, h3, -⟩ := h.all i w' b hi
      have := nodup_idx hs.nodup h3 hw
      subst this
      rw [(hget _ _).2 h1] at e
      cases e
    unfold addEntry
    rw [if_neg hnew]
    refine ⟨by simp [h.len], ?_, ?_, ?_⟩
    · have := addEntry_keys (e := (w, bodyOf r)) h.keys
      unfold addEntry at this
      rwa [if_neg hnew] at this
    · intro k r' hr'
      simp only at hr'
      rw [List.getElem?_set] at hr'
      by_cases hk : r.kind = k
      · rw [if_pos hk, if_pos hlt] at hr'
        simp only [Option.some.injEq] at hr'
        subst hr'
        refine ⟨hk, v.length, w, by simp [h.len], by rw [← hk]; exact hw, ?_⟩
        rw [List.getElem?_append_right (Nat.le_refl _)]
        simp [bodyOf]
      · rw [if_neg hk] at hr'
        obtain ⟨h1, i, w', h2, h3, h4⟩ := h.rules k r' ((hget _ _).1 hr')
        refine ⟨h1, i, w', h2, h3, ?_⟩
        rw [List.getElem?_append_left (List.getElem?_eq_some_iff.1 h4).1]
        exact h4
    · intro i w' b hb
      by_cases hi : i < v.length
      · rw [List.getElem?_append_left hi] at hb
        obtain ⟨k, r', h1, h2, h3, h4⟩ := h.all i w' b hb
        refine ⟨k, r', ?_, h2, h3, h4⟩
        simp only
        rw [List.getElem?_set]
        by_cases hk : r.kind = k
        · subst hk
          rw [(hget _ _).2 h1] at e
          cases e
        · rw [if_neg hk]; exact (hget _ _).2 h1
      · rw [List.getElem?_append_right (by omega)] at hb
        have h0 : i - v.length = 0 := by
          have := (List.getElem?_eq_some_iff.1 hb).1
          simp at this
          omega
        rw [h0] at hb
        simp only [List.getElem?_cons_zero, Option.some.injEq, Prod.mk.injEq] at hb
        obtain ⟨rfl, rfl⟩ := hb
        refine ⟨r.kind, _, List.getElem?_set_self hlt, ?_, hw, rfl⟩
        simp only [h.len]
        congr 1
        omega
  · next e =>
    -- the kind is there
    have : ∃ r', rules[r.kind]? = some (some r') := by
      cases hx : rules[r.kind]? with
      | none => exact absurd (List.getElem?_eq_none_iff.1 hx) (by omega)
      | some y =>
        cases y with
        | none => exact absurd hx e
        | some r' => exact ⟨r', rfl⟩
    obtain ⟨r', hr'⟩ := this
    obtain ⟨-, i, w', -, h3, h4⟩ := h.rules _ r' ((hget _ _).1 hr')
    have : w' = w := Option.some.inj (h3.symm.trans hw)
    subst this
    unfold addEntry
    rw [if_pos (List.mem_map.2 ⟨_, List.mem_of_getElem? h4, rfl⟩)]
    refine ⟨h.len, h.keys, ?_, ?_⟩
    · intro k r hr; exact h.rules k r ((hget _ _).1 hr)
    · intro i w b hb
      obtain ⟨k, r, h1, h2⟩ := h.all i w b hb
      exact ⟨k, r, (hget _ _).2 h1, h2⟩

/-- The entry of a rule. -/
def entryOf (set : SymSet Bytes) (r : Rule) : Bytes × Body := ((set.symb2str[r.kind]?).getD [], bodyOf r)

/-- The rules in the order of their kinds are the entries in some order. -/
theorem Reads.perm {set : SymSet Bytes} (hs : Inv set) {sl : SubS} {v : List (Bytes × Body)}
    (h : Reads set sl v) : (sl.rules.filterMap fun o => o.map (entryOf set)).Perm v := by
  refine (List.perm_ext_iff_of_nodup ?_ (List.Nodup.of_map _ h.keys)).2 ?_
  · rw [List.Nodup, List.pairwise_filterMap]
    rw [List.pairwise_iff_getElem]
    intro i j hi hj hij a ha b hb e
    subst e
    cases hx : sl.rules[i] with
    | none => rw [hx] at ha; cases ha
    | some r =>
      cases hy : sl.rules[j] with
      | none => rw [hy] at hb; cases hb
      | some r' =>
        rw [hx] at ha; rw [hy] at hb
        simp only [Option.map_some, Option.some.injEq] at ha hb
        obtain ⟨h1, -, w, -, h2, -⟩ := h.rules i r (by rw [List.getElem?_eq_getElem hi, hx])
        obtain ⟨h1', -, w', -, h2', -⟩ := h.rules j r' (by rw [List.getElem?_eq_getElem hj, hy])
        have e1 : a.1 = w := by rw [← ha]; simp [entryOf, h1, h2]
        have e2 : a.1 = w' := by rw [← hb]; simp [entryOf, h1', h2']
        rw [← e1] at h2; rw [← e2] at h2'
        have := nodup_idx hs.nodup h2 h2'
        omega
  · intro a
    rw [List.mem_filterMap]
    constructor
    · rintro ⟨o, ho, ha⟩
      cases o with
      | none => cases ha
      | some r =>
        simp only [Option.map_some, Option.some.injEq] at ha
        obtain ⟨k, hk⟩ := List.mem_iff_getElem?.1 ho
        obtain ⟨h1, i, w, -, h2, h3⟩ := h.rules k r hk
        rw [← ha]
        have : entryOf set r = (w, bodyOf r) := by simp [entryOf, h1, h2]
        rw [this]
        exact List.mem_of_getElem? h3
    · intro ha
      obtain ⟨i, hi⟩ := List.mem_iff_getElem?.1 ha
      obtain ⟨k, r, h1, h2, h3, h4⟩ := h.all i a.1 a.2 hi
      refine ⟨some r, List.mem_of_getElem? h1, ?_⟩
      obtain ⟨h5, -⟩ := h.rules k r h1
      simp [entryOf, h5, h3, h4]

theorem filterMap_sublist {γ κ : Type} {f : γ → κ} : ∀ {rs : List (Option γ)} {names : List κ},
    (∀ (k : Nat) (r : γ), rs[k]? = some (some r) → names[k]? = some (f r)) → (rs.filterMap fun o => o.map f).Sublist names
  | [], _, _ => List.nil_sublist _
  | o :: rs, [], h => by
    have h0 : o = none := by
      cases o with
      | none => rfl
      | some r => have := h 0 r rfl; simp at this
    subst h0
    rw [List.filterMap_cons_none rfl]
    exact filterMap_sublist fun k r hr => by have := h (k + 1) r hr; simp at this
  | o :: rs, n :: names, h => by
    have h1 : (rs.filterMap fun o => o.map f).Sublist names := filterMap_sublist fun k r hr => h (k + 1) r hr
    cases o with
    | none => rw [List.filterMap_cons_none rfl]; exact h1.cons _
    | some r =>
      have : n = f r := by simpa using h 0 r rfl
      change (f r :: rs.filterMap fun o => o.map f).Sublist _
      rw [← this]
      exact h1.cons_cons _

/-- The rules come in the order of their kinds in the set. -/
theorem Reads.sorted {set : SymSet Bytes} {sl : SubS} {v : List (Bytes × Body)} (h : Reads set sl v) :
    ((sl.rules.filterMap fun o => o.map (entryOf set)).map Prod.fst).Sublist set.symb2str := by
  rw [List.map_filterMap]
  have : (fun o : Option Rule => Option.map Prod.fst (o.map (entryOf set))) = fun o => o.map fun r => (entryOf set r).1 := by
    funext o; cases o <;> rfl
  rw [this]
  refine filterMap_sublist (names := set.symb2str) fun k r hr => ?_
  obtain ⟨h1, i, w, -, h2, -⟩ := h.rules k r hr
  simp [entryOf, h1, h2]

/-- Adding the rules of a list. -/
def addRules1 (sl : SubS) (rs : List (Option Rule)) : SubS :=
  rs.foldl (fun sl r => match r with | none => sl | some r => addRule1 sl r) sl

theorem addRules1_name (rs : List (Option Rule)) : ∀ sl, (addRules1 sl rs).name = sl.name := by
  induction rs with
  | nil => intro sl; rfl
  | cons r rs ih =>
    intro sl
    cases r with
    | none => exact ih sl
    | some r => exact (ih _).trans (addRule1_name sl r)

theorem addRules1_by (rs : List (Option Rule)) : ∀ sl, (addRules1 sl rs).by_ = sl.by_ := by
  induction rs with
  | nil => intro sl; rfl
  | cons r rs ih =>
    intro sl
    cases r with
    | none => exact ih sl
    | some r => exact (ih _).trans (addRule1_by sl r)

theorem Reads.addRules {set : SymSet Bytes} (hs : Inv set) (rs : List (Option Rule))
    (hk : ∀ (r : Rule), some r ∈ rs → r.kind < set.symb2str.length) : ∀ {sl : SubS} {v : List (Bytes × Body)},
    Reads set sl v →
    Reads set (addRules1 sl rs) ((rs.filterMap fun o => o.map (entryOf set)).foldl addEntry v) := by
  induction rs with
  | nil => intro sl v h; exact h
  | cons r rs ih =>
    intro sl v h
    have ih := @ih (fun r hr => hk r (List.mem_cons_of_mem _ hr))
    cases r with
    | none => exact ih h
    | some r =>
      have hr := List.getElem?_eq_getElem (hk r (List.mem_cons_self ..))
      have : entryOf set r = (set.symb2str[r.kind]'(hk r (List.mem_cons_self ..)), bodyOf r) := by
        simp [entryOf, hr]
      have h1 := ih (h.add hs r hr)
      rw [← this] at h1
      exact h1

theorem foldl_addRule {n heir : Nat} (rs : List (Option Rule)) : ∀ {st : St}, (st.subs heir).by_ = [] →
    rs.foldl (fun (o : Out St) r => o.bind fun st =>
      match r with
      | none => Out.ok st
      | some r => addRule (n + 1) st heir r) (Out.ok st) =
    Out.ok { st with subs := upd st.subs heir (addRules1 (st.subs heir) rs) } := by
  induction rs with
  | nil =>
    intro st h
    have : upd st.subs heir (st.subs heir) = st.subs := by
      funext i; unfold upd; split
      · next e => rw [e]
      · rfl
    simp only [List.foldl_nil, addRules1, this]
  | cons r rs ih =>
    intro st h
    rw [List.foldl_cons]
    cases r with
    | none => exact ih h
    | some r =>
      simp only [Out.bind_ok]
      rw [addRule_eq r h]
      refine (ih (st := { st with subs := upd st.subs heir (addRule1 (st.subs heir) r) }) ?_).trans ?_
      · simp only [upd_same, addRule1_by, h]
      · simp only [upd_same]
        congr 2
        funext i
        unfold upd
        split <;> rfl

/-- The inherited rules come last into the heir. -/
theorem inherit_eq {n : Nat} {st : St} {id heir : Nat} (hne : id ≠ heir) (h : (st.subs heir).by_ = []) :
    ∃ st', inherit (n + 1) st id heir = .ok st' ∧ st'.set = st.set ∧ st'.done = st.done ∧ st'.stack = st.stack ∧
      (∀ j, j ≠ id → j ≠ heir → st'.subs j = st.subs j) ∧
      st'.subs id = { st.subs id with by_ := (st.subs id).by_ ++ [heir] } ∧
      st'.subs heir = addRules1 { st.subs heir with from_ := (st.subs heir).from_ ++ [id] } (st.subs id).rules := by
  unfold inherit
  simp only
  refine ⟨_, foldl_addRule _ ?_, rfl, rfl, rfl, ?_, ?_, ?_⟩
  · simp only [upd_same, upd_ne _ _ (Ne.symm hne), h]
  · intro j h1 h2
    simp only [upd_ne _ _ h2, upd_ne _ _ h1]
  · simp only [upd_ne _ _ hne, upd_same]
  · simp only [upd_ne _ _ hne, upd_ne _ _ (Ne.symm hne), upd_same]

/-! ### Names -/

theorem find_last {α : Type} (p : α → Bool) (l : List α) {y : α} (h : l.reverse.find? p = some y) :
    y ∈ l ∧ p y = true :=
  ⟨List.mem_reverse.1 (List.mem_of_find?_eq_some h), List.find?_some h⟩

theorem lexersOf_some {d : Defs} {x : Bytes} {i : Nat} (h : lexersOf d x = some i) :
    ∃ ls, d[i]? = some (x, ls) := by
  unfold lexersOf at h
  rw [Option.map_eq_some_iff] at h
  obtain ⟨y, hy, rfl⟩ := h
  obtain ⟨hm, hp⟩ := find_last _ _ hy
  have := List.mem_zipIdx_iff_getElem?.1 hm
  refine ⟨y.1.2, ?_⟩
  have hx : y.1.1 = x := by simpa using hp
  rw [this, ← hx]

theorem lexersOf_isSome {d : Defs} {x : Bytes} : (∃ i, lexersOf d x = some i) ↔ x ∈ d.map Prod.fst := by
  constructor
  · rintro ⟨i, h⟩
    obtain ⟨ls, h⟩ := lexersOf_some h
    exact List.mem_map.2 ⟨_, List.mem_of_getElem? h, rfl⟩
  · intro h
    obtain ⟨y, hy, rfl⟩ := List.mem_map.1 h
    obtain ⟨i, hi⟩ := List.mem_iff_getElem?.1 hy
    unfold lexersOf
    cases hf : d.zipIdx.reverse.find? fun z => z.1.1 == y.1 with
    | some z => exact ⟨z.2, rfl⟩
    | none =>
      rw [List.find?_eq_none] at hf
      have := hf (y, i) (List.mem_reverse.2 (List.mem_zipIdx_iff_getElem?.2 hi))
      simp at this

theorem initSubs_name {d : Defs} {x : Bytes} {i : Nat} (h : lexersOf d x = some i) : (initSubs d i).name = x := by
  obtain ⟨ls, h⟩ := lexersOf_some h
  simp [initSubs, h]

theorem linesOf_mem {d : Defs} (hd : (d.map Prod.fst).Nodup) {x : Bytes} {ls : List Line} (h : (x, ls) ∈ d) :
    linesOf d x = ls := by
  unfold linesOf
  cases hf : d.reverse.find? fun y => y.1 == x with
  | none =>
    rw [List.find?_eq_none] at hf
    have := hf (x, ls) (List.mem_reverse.2 h)
    simp at this
  | some y =>
    obtain ⟨hm, hp⟩ := find_last _ _ hf
    have hx : y.1 = x := by simpa using hp
    have := List.inj_on_of_nodup_map hd hm h hx
    simp [this]

/-! ### The invariant -/

/-- What a line of a definition stands for: an inherited sub-lexer or a rule of its own. -/
inductive Denotes (compile : Bytes → Option Re) (d : Defs) (m : Line) : Item Bytes Bytes Body → Prop
  | inh : m.word ∈ d.map Prod.fst → Denotes compile d m (.inh m.word)
  | own {re} : m.word ∉ d.map Prod.fst → compile (if m.re = [] then m.word else m.re) = some re →
      Denotes compile d m (.own (m.word, ⟨re, m.minus, (moveOfText m.move).1, (moveOfText m.move).2,
        parseSubmatches m.subs⟩))

/-- The definitions are acyclic, and their regexps compile; `items` is what they stand for. -/
structure GoodDefs (compile : Bytes → Option Re) (d : Defs) (items : Bytes → List (Item Bytes Bytes Body))
    (rank : Bytes → Nat) : Prop where
  lines : ∀ x, List.Forall₂ (Denotes compile d) (linesOf d x) (items x)
  acyclic : ∀ x y, Item.inh y ∈ items x → rank y < rank x

structure InvS (d : Defs) (st : St) : Prop where
  names : ∀ i, (st.subs i).name = (initSubs d i).name
  set : Inv st.set
  by_ : ∀ i, (st.subs i).by_ ≠ [] → st.done (st.subs i).name = true ∧ st.stack (st.subs i).name = false
  stack : ∀ x, st.stack x = true → st.done x = true
  reads : ∀ i, ∃ v, Reads st.set (st.subs i) v
  new : ∀ i, st.done (st.subs i).name = false → (st.subs i).rules = [] ∧ (st.subs i).counter = 0

def Sem (d : Defs) (items : Bytes → List (Item Bytes Bytes Body)) (st : St) : Prop :=
  ∀ x i, lexersOf d x = some i → st.done x = true → st.stack x = false →
    ∃ v, Reads st.set (st.subs i) v ∧ CollectsBy st.set.symb2str items (items x) [] v

/-- From `st` to `st'` nothing is undone, and the sub-lexers that satisfy `p` keep their rules. -/
structure Step (p : Nat → Prop) (st st' : St) : Prop where
  done : ∀ x, st.done x = true → st'.done x = true
  pre : st.set.symb2str <+: st'.set.symb2str
  stack : st'.stack = st.stack
  core : ∀ j, p j → (st'.subs j).rules = (st.subs j).rules ∧ (st'.subs j).counter = (st.subs j).counter

theorem Step.refl {p : Nat → Prop} {st : St} : Step p st st :=
  ⟨fun _ h => h, List.prefix_refl _, rfl, fun _ _ => ⟨rfl, rfl⟩⟩

theorem Step.trans {p q : Nat → Prop} {st st' st'' : St} (h : Step p st st') (h' : Step q st' st'')
    (hq : ∀ j, p j → q j) : Step p st st'' :=
  ⟨fun x hx => h'.done x (h.done x hx), h.pre.trans h'.pre, h'.stack.trans h.stack,
    fun j hj => ⟨(h'.core j (hq j hj)).1.trans (h.core j hj).1, (h'.core j (hq j hj)).2.trans (h.core j hj).2⟩⟩

/-- The names not yet done. -/
def undone (d : Defs) (st : St) : Nat := ((d.map Prod.fst).filter fun x => !st.done x).length

theorem undone_le {d : Defs} {st st' : St} (h : ∀ x, st.done x = true → st'.done x = true) :
    undone d st' ≤ undone d st := by
  unfold undone
  refine List.Sublist.length_le (List.monotone_filter_right _ fun x hx => ?_)
  cases hd : st.done x with
  | false => rfl
  | true => rw [h x hd] at hx; simp at hx

theorem undone_lt {d : Defs} {st : St} {x : Bytes} (hx : x ∈ d.map Prod.fst) (hd : st.done x = false)
    {st' : St} (h : st'.done = upd st.done x true) : undone d st' < undone d st := by
  unfold undone
  rw [h]
  induction d with
  | nil => simp at hx
  | cons y d ih =>
    rw [List.map_cons]
    by_cases hy : y.1 = x
    · rw [List.filter_cons_of_neg (by simp [hy, upd]), List.filter_cons_of_pos (by simp [hy, hd]), List.length_cons]
      refine Nat.lt_succ_of_le (List.Sublist.length_le (List.monotone_filter_right _ fun z hz => ?_))
      by_cases hz' : z = x
      · subst hz'; simp [upd] at hz
      · simpa [upd, hz'] using hz
    · have hx' : x ∈ d.map Prod.fst := by
        rw [List.map_cons, List.mem_cons] at hx
        exact hx.resolve_left (Ne.symm hy)
      have := ih hx'
      by_cases hyd : st.done y.1 = true
      · rw [List.filter_cons_of_neg (by simp [hy, upd, hyd]), List.filter_cons_of_neg (by simp [hyd])]
        exact this
      · rw [List.filter_cons_of_pos (by simp [hy, upd, hyd]), List.filter_cons_of_pos (by simp [hyd]),
          List.length_cons, List.length_cons]
        omega

/-- `Sem` only looks at finished sub-lexers. -/
theorem Sem.frame {d : Defs} {items : Bytes → List (Item Bytes Bytes Body)} {st st' : St} {id : Nat}
    (h : Sem d items st) (hi : ∀ x, lexersOf d x = some id → st.stack x = true)
    (hs : Step (fun j => j ≠ id) st st') (hd : st'.done = st.done) : Sem d items st' := by
  intro x i hx hdx hsx
  rw [hd] at hdx
  rw [hs.stack] at hsx
  obtain ⟨v, hv, hc⟩ := h x i hx hdx hsx
  have hne : i ≠ id := by
    rintro rfl
    rw [hi x hx] at hsx
    cases hsx
  exact ⟨v, (hv.congr (hs.core i hne).1 (hs.core i hne).2).mono hs.pre, hc.mono hs.pre.sublist⟩

/-! ### The loop over the lines of a sub-lexer -/

/-- What a run on sub-lexer `id` achieves in general. -/
structure ParseRes (d : Defs) (id : Nat) (st st' : St) (e : Bool) : Prop where
  inv : InvS d st'
  step : Step (fun j => st.done (st.subs j).name = true) st st'
  fin : e = false → st'.done (st'.subs id).name = true ∧ st'.stack (st'.subs id).name = false

/-- One line, given what `parse` does. -/
def lineStep (compile : Bytes → Option Re) (lexers : Bytes → Option Nat) (n : Nat)
    (rec : St → Nat → Out (St × Bool)) (id : Nat) (m : Line) (st : St) : Out (St × Bool) :=
  match lexers m.word with
  | some base => (rec st base).bind fun x =>
      if x.2 then .ok (x.1, true) else (inherit n x.1 base id).bind fun st => .ok (st, false)
  | none => addMatch compile n st id m

theorem parseLines_cons (compile : Bytes → Option Re) (lexers : Bytes → Option Nat) (n : Nat)
    (rec : St → Nat → Out (St × Bool)) (id : Nat) (m : Line) (ms : List Line) (st : St) :
    parseLines compile lexers n rec id (m :: ms) st =
    (lineStep compile lexers n rec id m st).bind fun x =>
      if x.2 then .ok (x.1, true) else parseLines compile lexers n rec id ms x.1 := by
  rw [parseLines]; rfl

/-- What a line does to the sub-lexer `id` being parsed. -/
structure LineRes (d : Defs) (id : Nat) (st st' : St) : Prop where
  inv : InvS d st'
  step : Step (fun j => j ≠ id ∧ st.done (st.subs j).name = true) st st'

/-- The rule made of a line. -/
def ruleOf (m : Line) (k : Nat) (re : Re) : Rule :=
  ⟨k, re, m.minus, 0, (moveOfText m.move).1, (moveOfText m.move).2, parseSubmatches m.subs⟩

theorem str_names {s : SymSet Bytes} (h : Inv s) (x : Bytes) :
    (str s x).1.symb2str = if x ∈ s.symb2str then s.symb2str else s.symb2str ++ [x] := by
  unfold str
  cases hx : s.str2sym x with
  | none => rw [if_neg ((h.none x).1 hx)]
  | some v => rw [if_pos (List.mem_of_getElem? ((h.map x v).1 hx))]

theorem addMatch_spec {compile : Bytes → Option Re} {d : Defs} {st : St} {id : Nat} (m : Line)
    (hi : InvS d st) (hst : st.stack (st.subs id).name = true) {re : Re}
    (hc : compile (if m.re = [] then m.word else m.re) = some re) :
    ∃ st', (∀ n, addMatch compile (n + 1) st id m = .ok (st', false)) ∧ InvS d st' ∧
      Step (fun j => j ≠ id) st st' ∧ st'.done = st.done ∧
      st'.set.symb2str = (if m.word ∈ st.set.symb2str then st.set.symb2str else st.set.symb2str ++ [m.word]) ∧
      ∀ v, Reads st.set (st.subs id) v →
        Reads st'.set (st'.subs id) (addEntry v (m.word, bodyOf (ruleOf m 0 re))) := by
  have hby : (st.subs id).by_ = [] := by
    by_contra h
    rw [(hi.by_ id h).2] at hst
    cases hst
  refine ⟨{ st with set := (str st.set m.word).1, subs := upd st.subs id (addRule1 (st.subs id) (ruleOf m (str st.set m.word).2 re)) }, ?_, ?_, ?_, rfl, str_names hi.set _, ?_⟩
  · intro n
    unfold addMatch
    rw [hc]
    simp only
    rw [addRule_eq _ (by exact hby)]
    rfl
  · have hpre := str_prefix st.set m.word
    have hname : ∀ j, (upd st.subs id (addRule1 (st.subs id) (ruleOf m (str st.set m.word).2 re)) j).name = (st.subs j).name := by
      intro j
      by_cases hj : j = id
      · subst hj; rw [upd_same, addRule1_name]
      · rw [upd_ne _ _ hj]
    refine ⟨?_, inv_str hi.set _, ?_, hi.stack, ?_, ?_⟩
    · intro i; exact (hname i).trans (hi.names i)
    · intro i h
      simp only at h ⊢
      rw [hname]
      refine hi.by_ i ?_
      by_cases hj : i = id
      · subst hj; rwa [upd_same, addRule1_by] at h
      · rwa [upd_ne _ _ hj] at h
    · intro i
      obtain ⟨v, hv⟩ := hi.reads i
      by_cases hj : i = id
      · subst hj
        simp only [upd_same]
        exact ⟨_, (hv.mono hpre).add (inv_str hi.set _) _ (str_idx hi.set _)⟩
      · simp only [upd_ne _ _ hj]
        exact ⟨v, hv.mono hpre⟩
    · intro i h
      simp only at h ⊢
      rw [hname] at h
      have hj : i ≠ id := by
        rintro rfl
        rw [hi.stack _ hst] at h; cases h
      rw [upd_ne _ _ hj]
      exact hi.new i h
  · refine ⟨fun _ h => h, str_prefix st.set m.word, rfl, fun j hj => ?_⟩
    simp only [upd_ne _ _ hj, and_self]
  · intro v hv
    simp only [upd_same]
    exact (hv.mono (str_prefix st.set m.word)).add (inv_str hi.set _) _ (str_idx hi.set _)

theorem inherit_spec {d : Defs} {st : St} {base id : Nat} (hi : InvS d st) (hne : base ≠ id)
    (hst : st.stack (st.subs id).name = true)
    (hb : st.done (st.subs base).name = true ∧ st.stack (st.subs base).name = false) :
    ∃ st', (∀ n, inherit (n + 1) st base id = .ok st') ∧ InvS d st' ∧
      Step (fun j => j ≠ id) st st' ∧ st'.done = st.done ∧ st'.set = st.set ∧
      ∀ v u, Reads st.set (st.subs id) v → Reads st.set (st.subs base) u →
        ∃ u' : List (Bytes × Body), u'.Perm u ∧ (u'.map Prod.fst).Sublist st.set.symb2str ∧ Reads st'.set (st'.subs id) (u'.foldl addEntry v) := by
  have hby : (st.subs id).by_ = [] := by
    by_contra h
    rw [(hi.by_ id h).2] at hst
    cases hst
  obtain ⟨st', -, h1, h2, h3, h4, h5, h6⟩ := inherit_eq (n := 0) hne hby
  have heq : ∀ n, inherit (n + 1) st base id = .ok st' := by
    intro n
    obtain ⟨st'', g0, g1, g2, g3, g4, g5, g6⟩ := inherit_eq (n := n) hne hby
    rw [g0]
    congr 1
    have : st''.subs = st'.subs := by
      funext j
      by_cases hj : j = base
      · subst hj; rw [g5, h5]
      · by_cases hj' : j = id
        · subst hj'; rw [g6, h6]
        · rw [g4 j hj hj', h4 j hj hj']
    cases st'; cases st''
    simp only at *
    subst h1 h2 h3 g1 g2 g3 this
    rfl
  have hname : ∀ j, (st'.subs j).name = (st.subs j).name := by
    intro j
    by_cases hj : j = base
    · subst hj; rw [h5]
    · by_cases hj' : j = id
      · subst hj'; rw [h6, addRules1_name]
      · rw [h4 j hj hj']
  have hkinds : ∀ u, Reads st.set (st.subs base) u → ∀ (r : Rule), some r ∈ (st.subs base).rules →
      r.kind < st.set.symb2str.length := by
    intro u hu r hr
    obtain ⟨k, hk⟩ := List.mem_iff_getElem?.1 hr
    obtain ⟨e, i, w, -, hw, -⟩ := hu.rules k r hk
    rw [e]
    exact (List.getElem?_eq_some_iff.1 hw).1
  have hread : ∀ v u, Reads st.set (st.subs id) v → Reads st.set (st.subs base) u →
      ∃ u' : List (Bytes × Body), u'.Perm u ∧ (u'.map Prod.fst).Sublist st.set.symb2str ∧ Reads st'.set (st'.subs id) (u'.foldl addEntry v) := by
    intro v u hv hu
    refine ⟨_, hu.perm hi.set, hu.sorted, ?_⟩
    rw [h6, h1]
    exact Reads.addRules hi.set _ (hkinds u hu) (hv.congr rfl rfl)
  have hcore : ∀ j, j ≠ id → (st'.subs j).rules = (st.subs j).rules ∧ (st'.subs j).counter = (st.subs j).counter := by
    intro j hj
    by_cases hj' : j = base
    · subst hj'; rw [h5]; exact ⟨rfl, rfl⟩
    · rw [h4 j hj' hj]; exact ⟨rfl, rfl⟩
  refine ⟨st', heq, ⟨?_, by rw [h1]; exact hi.set, ?_, by rw [h2, h3]; exact hi.stack, ?_, ?_⟩,
    ⟨by rw [h2]; exact fun _ h => h, by rw [h1]; exact List.prefix_refl _, h3, hcore⟩, h2, h1, hread⟩
  · intro i; rw [hname]; exact hi.names i
  · intro i h
    rw [hname, h2, h3]
    by_cases hj : i = base
    · subst hj; exact hb
    · refine hi.by_ i ?_
      by_cases hj' : i = id
      · subst hj'; rw [h6, addRules1_by] at h; exact h
      · rwa [h4 i hj hj'] at h
  · intro i
    obtain ⟨v, hv⟩ := hi.reads i
    by_cases hj : i = id
    · subst hj
      obtain ⟨u, hu⟩ := hi.reads base
      obtain ⟨u', -, -, h⟩ := hread v u hv hu
      exact ⟨_, h⟩
    · refine ⟨v, ?_⟩
      rw [h1]
      exact hv.congr (hcore i hj).1 (hcore i hj).2
  · intro i h
    rw [hname, h2] at h
    have hj : i ≠ id := by
      rintro rfl
      rw [hi.stack _ hst] at h; cases h
    rw [(hcore i hj).1, (hcore i hj).2]
    exact hi.new i h

theorem InvS.name_eq {d : Defs} {st st' : St} (h : InvS d st) (h' : InvS d st') (i : Nat) :
    (st'.subs i).name = (st.subs i).name := (h'.names i).trans (h.names i).symm

/-- The list of the sub-lexers that are done or begun. -/
def Seen (st : St) (D : List Bytes) : Prop := ∀ x, st.done x = true ↔ x ∈ D

/-- What `parse` does on every sub-lexer, if at most `k` are not done. -/
def ParseSpec (compile : Bytes → Option Re) (d : Defs) (k : Nat) : Prop :=
  ∀ (st : St) (id : Nat), InvS d st → undone d st ≤ k → lexersOf d (st.subs id).name = some id →
    ∃ st' e, (∀ n, k < n → parse compile (lexersOf d) (linesOf d) n st id = .ok (st', e)) ∧
      ParseRes d id st st' e ∧
      ∀ items rank, GoodDefs compile d items rank → Sem d items st →
        (∀ y, st.stack y = true → rank (st.subs id).name < rank y) → e = false ∧ Sem d items st' ∧
          ∀ D, Seen st D → ∃ D', Seen st' D' ∧ Visits items D st.set.symb2str [.inh (st.subs id).name] D' st'.set.symb2str

theorem parseLines_spec {compile : Bytes → Option Re} {d : Defs} {k : Nat} (hrec : ParseSpec compile d k)
    {id : Nat} : ∀ (ms : List Line) (st : St), InvS d st → undone d st ≤ k →
    lexersOf d (st.subs id).name = some id → st.stack (st.subs id).name = true →
    ∃ st' e, (∀ n, k < n → parseLines compile (lexersOf d) (n + 1)
        (parse compile (lexersOf d) (linesOf d) n) id ms st = .ok (st', e)) ∧
      LineRes d id st st' ∧
      ∀ items rank, GoodDefs compile d items rank → Sem d items st →
        (∀ y, st.stack y = true → rank (st.subs id).name ≤ rank y) →
        ∀ is, List.Forall₂ (Denotes compile d) ms is →
        (∀ y, Item.inh y ∈ is → rank y < rank (st.subs id).name) →
        ∀ v, Reads st.set (st.subs id) v → e = false ∧ Sem d items st' ∧
          (∃ w, Reads st'.set (st'.subs id) w ∧ CollectsBy st'.set.symb2str items is v w) ∧
          ∀ D, Seen st D → ∃ D', Seen st' D' ∧ Visits items D st.set.symb2str is D' st'.set.symb2str := by
  intro ms
  induction ms with
  | nil =>
    intro st hi _ _ _
    refine ⟨st, false, fun n _ => rfl, ⟨hi, Step.refl⟩, ?_⟩
    intro items rank _ hsem _ is his _ v hv
    cases his
    exact ⟨rfl, hsem, ⟨v, hv, .nil⟩, fun D hD => ⟨D, hD, .nil⟩⟩
  | cons m ms ih =>
    intro st hi hk hid hst
    have huniq : ∀ x, lexersOf d x = some id → st.stack x = true := by
      intro x hx
      have h1 := initSubs_name hx
      rw [← hi.names id] at h1
      rw [← h1]; exact hst
    cases hm : lexersOf d m.word with
    | none =>
      have hnot : m.word ∉ d.map Prod.fst := by
        rw [← lexersOf_isSome]
        rintro ⟨i, hi⟩
        rw [hm] at hi; cases hi
      cases hc : compile (if m.re = [] then m.word else m.re) with
      | none =>
        refine ⟨st, true, ?_, ⟨hi, Step.refl⟩, ?_⟩
        · intro n _
          rw [parseLines_cons, lineStep, hm]
          simp only [addMatch, hc, Out.bind_ok, if_true]
        · intro items rank _ _ _ is his
          cases his with
          | cons h _ =>
            cases h with
            | inh h => exact absurd h hnot
            | own _ h => rw [hc] at h; cases h
      | some re =>
        obtain ⟨st1, h1, hi1, hs1, hd1, hm1, hr1⟩ := addMatch_spec m hi hst hc
        have hn1 := fun i => hi.name_eq hi1 i
        obtain ⟨st', e, h2, hr2, hg2⟩ := ih st1 hi1 (by
            refine Nat.le_trans (undone_le fun x hx => ?_) hk
            rw [hd1]; exact hx)
          (by rw [hn1]; exact hid) (by rw [hn1, hs1.stack]; exact hst)
        refine ⟨st', e, ?_, ⟨hr2.inv, ?_⟩, ?_⟩
        · intro n hn
          rw [parseLines_cons, lineStep, hm]
          simp only [h1, Out.bind_ok]
          exact h2 n hn
        · refine Step.trans (st' := st1) (q := fun j => j ≠ id ∧ st1.done (st1.subs j).name = true)
            ⟨hs1.done, hs1.pre, hs1.stack, fun j hj => hs1.core j hj.1⟩ hr2.step ?_
          rintro j ⟨hj, hj'⟩
          refine ⟨hj, ?_⟩
          rw [hn1, hd1]; exact hj'
        · intro items rank hgood hsem hrank is his hlt v hv
          cases his with
          | cons h his =>
            cases h with
            | inh h => exact absurd h hnot
            | @own re' _ h =>
              rw [hc] at h
              cases h
              obtain ⟨g1, g2, ⟨w, g3, g4⟩, g5⟩ := hg2 items rank hgood (hsem.frame huniq hs1 hd1)
                (by rw [hs1.stack, hn1]; exact hrank) _ his
                (by rw [hn1]; exact fun y hy => hlt y (List.mem_cons_of_mem _ hy)) _ (hr1 v hv)
              refine ⟨g1, g2, ⟨w, g3, .own g4⟩, fun D hD => ?_⟩
              obtain ⟨D', h5, h6⟩ := g5 D (fun x => by rw [hd1]; exact hD x)
              rw [hm1] at h6
              refine ⟨D', h5, .own ?_⟩
              convert h6
    | some base =>
      have hbn : (st.subs base).name = m.word := by rw [hi.names]; exact initSubs_name hm
      have hin : m.word ∈ d.map Prod.fst := lexersOf_isSome.1 ⟨base, hm⟩
      obtain ⟨st1, e1, h1, hr1, hg1⟩ := hrec st base hi hk (by rw [hbn]; exact hm)
      have hn1 := fun i => hi.name_eq hr1.inv i
      cases e1 with
      | true =>
        refine ⟨st1, true, ?_, ⟨hr1.inv, ?_⟩, ?_⟩
        · intro n hn
          rw [parseLines_cons, lineStep, hm]
          simp only [h1 n hn, Out.bind_ok, if_true]
        · exact ⟨hr1.step.done, hr1.step.pre, hr1.step.stack, fun j hj => hr1.step.core j hj.2⟩
        · intro items rank hgood hsem hrank is his hlt v hv
          cases his with
          | cons h his =>
            cases h with
            | own h _ => exact absurd hin h
            | inh _ =>
              have := (hg1 items rank hgood hsem (by
                intro y hy
                rw [hbn]
                exact Nat.lt_of_lt_of_le (hlt _ (List.mem_cons_self ..)) (hrank y hy))).1
              cases this
      | false =>
        obtain ⟨hf1, hf2⟩ := hr1.fin rfl
        have hst1 : st1.stack (st1.subs id).name = true := by rw [hn1, hr1.step.stack]; exact hst
        have hne : base ≠ id := by
          rintro rfl
          rw [hst1] at hf2; cases hf2
        obtain ⟨st2, h2, hi2, hs2, hd2, hm2, hr2⟩ := inherit_spec hr1.inv hne hst1 ⟨hf1, hf2⟩
        have hn2 := fun i => hr1.inv.name_eq hi2 i
        obtain ⟨st', e, h3, hr3, hg3⟩ := ih st2 hi2 (by
            refine Nat.le_trans (undone_le fun x hx => ?_) hk
            rw [hd2]; exact hr1.step.done x hx)
          (by rw [hn2, hn1]; exact hid) (by rw [hn2, hs2.stack]; exact hst1)
        refine ⟨st', e, ?_, ⟨hr3.inv, ?_⟩, ?_⟩
        · intro n hn
          rw [parseLines_cons, lineStep, hm]
          simp only [h1 n hn, Out.bind_ok, h2 n]
          exact h3 n hn
        · refine Step.trans (st' := st1) (q := fun j => j ≠ id ∧ st1.done (st1.subs j).name = true)
            ⟨hr1.step.done, hr1.step.pre, hr1.step.stack, fun j hj => hr1.step.core j hj.2⟩ ?_ ?_
          · refine Step.trans (st' := st2) (q := fun j => j ≠ id ∧ st2.done (st2.subs j).name = true)
              ⟨hs2.done, hs2.pre, hs2.stack, fun j hj => hs2.core j hj.1⟩ hr3.step ?_
            rintro j ⟨hj, hj'⟩
            refine ⟨hj, ?_⟩
            rw [hn2, hd2]; exact hj'
          · rintro j ⟨hj, hj'⟩
            refine ⟨hj, ?_⟩
            rw [hn1]; exact hr1.step.done _ hj'
        · intro items rank hgood hsem hrank is his hlt v hv
          cases his with
          | cons h his =>
            cases h with
            | own h _ => exact absurd hin h
            | inh _ =>
              obtain ⟨-, hsem1, hvis1⟩ := (hg1 items rank hgood hsem (by
                intro y hy
                rw [hbn]
                exact Nat.lt_of_lt_of_le (hlt _ (List.mem_cons_self ..)) (hrank y hy)))
              have hcore := hr1.step.core id (hi.stack _ hst)
              have hv1 : Reads st1.set (st1.subs id) v := (hv.congr hcore.1 hcore.2).mono hr1.step.pre
              obtain ⟨u, hu, hcu⟩ := hsem1 m.word base hm (by rw [← hbn, ← hn1]; exact hf1)
                (by rw [← hbn, ← hn1]; exact hf2)
              obtain ⟨u', hp, hsub, hv2⟩ := hr2 v u hv1 hu
              have huniq1 : ∀ x, lexersOf d x = some id → st1.stack x = true := by
                rw [hr1.step.stack]; exact huniq
              obtain ⟨g1, g2, ⟨w, g3, g4⟩, g5⟩ := hg3 items rank hgood (hsem1.frame huniq1 hs2 hd2)
                (by rw [hs2.stack, hn2, hn1, hr1.step.stack]; exact hrank) _ his
                (by rw [hn2, hn1]; exact fun y hy => hlt y (List.mem_cons_of_mem _ hy)) _ hv2
              have hpre := (hs2.pre.trans hr3.step.pre).sublist
              refine ⟨g1, g2, ⟨w, g3, .inh (hcu.mono hpre) hp (hsub.trans hpre) g4⟩, fun D hD => ?_⟩
              obtain ⟨D1, h5, h6⟩ := hvis1 D hD
              obtain ⟨D', h7, h8⟩ := g5 D1 (fun x => by rw [hd2]; exact h5 x)
              rw [hm2] at h8
              rw [hbn] at h6
              exact ⟨D', h7, h6.seq h8⟩

theorem reads_nil {set : SymSet Bytes} {sl : SubS} (h : sl.rules = []) (hc : sl.counter = 0) : Reads set sl [] :=
  ⟨hc, by simp, by intro k r hr; rw [h] at hr; simp at hr, by intro i w b hb; simp at hb⟩

theorem parse_spec (compile : Bytes → Option Re) (d : Defs) : ∀ k, ParseSpec compile d k := by
  intro k
  induction k with
  | zero =>
    intro st id hi hk hid
    have hin : (st.subs id).name ∈ d.map Prod.fst := lexersOf_isSome.1 ⟨id, hid⟩
    have hdone : st.done (st.subs id).name = true := by
      by_contra h
      have := undone_lt hin (by simpa using h) (st' := { st with done := upd st.done (st.subs id).name true }) rfl
      omega
    exact parse_old hi hdone
  | succ k ih =>
    intro st id hi hk hid
    by_cases hdone : st.done (st.subs id).name = true
    · exact parse_old hi hdone
    · have hdone : st.done (st.subs id).name = false := by simpa using hdone
      have hstk : st.stack (st.subs id).name = false := by
        by_contra h
        rw [hi.stack _ (by simpa using h)] at hdone; cases hdone
      have hin : (st.subs id).name ∈ d.map Prod.fst := lexersOf_isSome.1 ⟨id, hid⟩
      generalize hx : (st.subs id).name = x at *
      generalize hst1 : ({ st with done := upd st.done x true, stack := upd st.stack x true } : St) = st1
      have hsubs : st1.subs = st.subs := by rw [← hst1]
      have hset : st1.set = st.set := by rw [← hst1]
      have hd1 : st1.done = upd st.done x true := by rw [← hst1]
      have hs1 : st1.stack = upd st.stack x true := by rw [← hst1]
      have hinv1 : InvS d st1 := by
        refine ⟨by rw [hsubs]; exact hi.names, by rw [hset]; exact hi.set, ?_, ?_, by rw [hsubs, hset]; exact hi.reads, ?_⟩
        · intro i h
          rw [hsubs] at h ⊢
          obtain ⟨h1, h2⟩ := hi.by_ i h
          have : (st.subs i).name ≠ x := by rintro e; rw [e, hdone] at h1; cases h1
          rw [hd1, hs1, upd_ne _ _ this, upd_ne _ _ this]
          exact ⟨h1, h2⟩
        · intro y hy
          rw [hs1] at hy
          rw [hd1]
          by_cases e : y = x
          · subst e; exact upd_same ..
          · rw [upd_ne _ _ e] at hy ⊢; exact hi.stack y hy
        · intro i h
          rw [hsubs, hd1] at h
          rw [hsubs]
          refine hi.new i ?_
          by_cases e : (st.subs i).name = x
          · rw [e, upd_same] at h; cases h
          · rwa [upd_ne _ _ e] at h
      have hk1 : undone d st1 ≤ k := by have := undone_lt hin hdone hd1; omega
      obtain ⟨st2, e, h2, hr2, hg2⟩ := parseLines_spec ih (id := id) (linesOf d x) st1 hinv1 hk1
        (by rw [hsubs, hx]; exact hid) (by rw [hsubs, hx, hs1]; exact upd_same ..)
      have hn2 := fun i => hinv1.name_eq hr2.inv i
      have hstack : upd st2.stack x false = st.stack := by
        rw [hr2.step.stack, hs1]
        funext y
        by_cases e : y = x
        · subst e; rw [upd_same, hstk]
        · rw [upd_ne _ _ e, upd_ne _ _ e]
      have hdone1 : ∀ y, st.done y = true → st1.done y = true := by
        intro y hy
        rw [hd1]
        by_cases e : y = x
        · subst e; exact upd_same ..
        · rw [upd_ne _ _ e]; exact hy
      have hx2 : st2.done x = true := hr2.step.done x (by rw [hd1]; exact upd_same ..)
      refine ⟨{ st2 with stack := upd st2.stack x false }, e, ?_, ⟨?_, ?_, ?_⟩, ?_⟩
      · intro n hn
        obtain ⟨n, rfl⟩ := Nat.exists_eq_add_of_lt hn
        rw [parse]
        simp only [hx, hstk, hdone, hst1, Bool.false_eq_true, if_false]
        rw [h2 (k + 1 + n) (by omega)]
        rfl
      · refine ⟨hr2.inv.names, hr2.inv.set, ?_, ?_, hr2.inv.reads, hr2.inv.new⟩
        · intro i h
          obtain ⟨h1, h2⟩ := hr2.inv.by_ i h
          refine ⟨h1, ?_⟩
          simp only
          by_cases e : (st2.subs i).name = x
          · rw [e, upd_same]
          · rw [upd_ne _ _ e]; exact h2
        · intro y hy
          simp only [hstack] at hy
          exact hr2.inv.stack y (by
            rw [hr2.step.stack, hs1]
            by_cases e : y = x
            · subst e; exact upd_same ..
            · rw [upd_ne _ _ e]; exact hy)
      · refine ⟨fun y hy => hr2.step.done y (hdone1 y hy), by rw [← hset]; exact hr2.step.pre, hstack, ?_⟩
        intro j hj
        have hne : j ≠ id := by rintro rfl; rw [hx, hdone] at hj; cases hj
        have := hr2.step.core j ⟨hne, by rw [hsubs]; exact hdone1 _ hj⟩
        rwa [hsubs] at this
      · intro _
        simp only [hn2, hsubs, hx, hx2, upd_same, and_self]
      · intro items rank hgood hsem hrank
        have hsem1 : Sem d items st1 := by
          intro y i hy h1 h2
          rw [hs1] at h2
          rw [hd1] at h1
          rw [hsubs, hset]
          by_cases e : y = x
          · subst e; rw [upd_same] at h2; cases h2
          · rw [upd_ne _ _ e] at h1 h2; exact hsem y i hy h1 h2
        obtain ⟨h1, h2⟩ := hi.new id (by rw [hx]; exact hdone)
        obtain ⟨g1, g2, ⟨w, g3, g4⟩, g5⟩ := hg2 items rank hgood hsem1 (by
            rw [hs1, hsubs, hx]
            intro y hy
            by_cases e : y = x
            · subst e; exact Nat.le_refl _
            · rw [upd_ne _ _ e] at hy; exact Nat.le_of_lt (hrank y hy))
          (items x) (hgood.lines x) (by rw [hsubs, hx]; exact hgood.acyclic x) [] (by
            rw [hsubs]; exact reads_nil h1 h2)
        refine ⟨g1, ?_, fun D hD => ?_⟩
        rotate_left
        · obtain ⟨D', h5, h6⟩ := g5 (x :: D) (fun y => by
            rw [hd1, List.mem_cons, ← hD y]
            by_cases e : y = x
            · subst e; simp [upd]
            · rw [upd_ne _ _ e]; simp [e])
          rw [hset] at h6
          exact ⟨D', h5, .new (fun hm => by rw [(hD x).2 hm] at hdone; cases hdone) h6 .nil⟩
        intro y i hy hdy hsy
        by_cases e : y = x
        · subst e
          have : id = i := Option.some.inj (hid.symm.trans hy)
          subst this
          exact ⟨w, g3, g4⟩
        · simp only [upd_ne _ _ e] at hsy
          exact g2 y i hy hdy hsy
where
  parse_old {k : Nat} {st : St} {id : Nat} (hi : InvS d st) (hdone : st.done (st.subs id).name = true) :
    ∃ st' e, (∀ n, k < n → parse compile (lexersOf d) (linesOf d) n st id = .ok (st', e)) ∧
      ParseRes d id st st' e ∧
      ∀ items rank, GoodDefs compile d items rank → Sem d items st →
        (∀ y, st.stack y = true → rank (st.subs id).name < rank y) → e = false ∧ Sem d items st' ∧
          ∀ D, Seen st D → ∃ D', Seen st' D' ∧ Visits items D st.set.symb2str [.inh (st.subs id).name] D' st'.set.symb2str := by
    cases hs : st.stack (st.subs id).name with
    | true =>
      refine ⟨st, true, ?_, ⟨hi, Step.refl, by intro h; cases h⟩, ?_⟩
      · intro n hn
        obtain ⟨n, rfl⟩ := Nat.exists_eq_add_of_lt hn
        rw [parse]
        simp only [hs, if_true]
      · intro items rank _ _ hr
        exact absurd (hr _ hs) (Nat.lt_irrefl _)
    | false =>
      refine ⟨st, false, ?_, ⟨hi, Step.refl, fun _ => ⟨hdone, hs⟩⟩, fun items rank _ h _ => ⟨rfl, h, fun D hD => ⟨D, hD, .old ((hD _).1 hdone) .nil⟩⟩⟩
      intro n hn
      obtain ⟨n, rfl⟩ := Nat.exists_eq_add_of_lt hn
      rw [parse]
      simp only [hs, hdone, if_true]
      rfl

/-! ### `New` -/

/-- The memory before any sub-lexer is parsed. -/
def initSt (d : Defs) : St := ⟨initSubs d, SetSymbol.new, fun _ => false, fun _ => false⟩

theorem initSt_inv (d : Defs) : InvS d (initSt d) :=
  ⟨fun _ => rfl, inv_new, fun _ h => absurd rfl h, fun _ h => (by cases h), fun _ => ⟨[], reads_nil rfl rfl⟩,
    fun _ _ => ⟨rfl, rfl⟩⟩

theorem parseAll_spec (compile : Bytes → Option Re) (d : Defs) : ∀ (ord : List Bytes) (st : St), InvS d st →
    st.stack = (fun _ => false) →
    ∃ st', (∀ n, undone d st < n → parseAll compile d n ord st = .ok st') ∧ InvS d st' ∧
      Step (fun j => st.done (st.subs j).name = true) st st' ∧
      ∀ items rank, GoodDefs compile d items rank → Sem d items st → Sem d items st' ∧
        (∀ x ∈ ord, x ∈ d.map Prod.fst → st'.done x = true) ∧
        ∀ D, Seen st D → ∃ D', Seen st' D' ∧
          Visits items D st.set.symb2str ((ord.filter fun x => decide (x ∈ d.map Prod.fst)).map Item.inh) D' st'.set.symb2str := by
  intro ord
  induction ord with
  | nil =>
    intro st hi _
    exact ⟨st, fun _ _ => rfl, hi, Step.refl, fun _ _ _ h => ⟨h, fun x hx => (by cases hx), fun D hD => ⟨D, hD, .nil⟩⟩⟩
  | cons x ord ih =>
    intro st hi hs
    cases hx : lexersOf d x with
    | none =>
      obtain ⟨st', h1, h2, h3, h4⟩ := ih st hi hs
      refine ⟨st', ?_, h2, h3, ?_⟩
      · intro n hn
        rw [parseAll, hx]; exact h1 n hn
      · intro items rank hg hsem
        refine ⟨(h4 items rank hg hsem).1, ?_, fun D hD => ?_⟩
        rotate_left
        · have : ¬ x ∈ d.map Prod.fst := fun h => by
            obtain ⟨i, hi⟩ := lexersOf_isSome.2 h
            rw [hx] at hi; cases hi
          rw [List.filter_cons_of_neg (by simpa using this)]
          exact (h4 items rank hg hsem).2.2 D hD
        intro y hy hyd
        rcases List.mem_cons.1 hy with e | hy
        · subst e
          obtain ⟨i, hi⟩ := lexersOf_isSome.2 hyd
          rw [hx] at hi; cases hi
        · exact (h4 items rank hg hsem).2.1 y hy hyd
    | some id =>
      have hname : (st.subs id).name = x := by rw [hi.names]; exact initSubs_name hx
      obtain ⟨st1, e, h1, hr1, hg1⟩ := parse_spec compile d (undone d st) st id hi (Nat.le_refl _)
        (by rw [hname]; exact hx)
      obtain ⟨st', h2, h3, h4, h5⟩ := ih st1 hr1.inv (by rw [hr1.step.stack]; exact hs)
      have hn1 := fun i => hi.name_eq hr1.inv i
      refine ⟨st', ?_, h3, ?_, ?_⟩
      · intro n hn
        rw [parseAll, hx]
        simp only [h1 n hn, Out.bind_ok]
        exact h2 n (Nat.lt_of_le_of_lt (undone_le hr1.step.done) hn)
      · refine hr1.step.trans h4 ?_
        intro j hj
        rw [hn1]; exact hr1.step.done _ hj
      · intro items rank hg hsem
        obtain ⟨g1, g2, g5⟩ := hg1 items rank hg hsem (by intro y hy; rw [hs] at hy; cases hy)
        obtain ⟨g3, g4, g6⟩ := h5 items rank hg g2
        refine ⟨g3, ?_, fun D hD => ?_⟩
        rotate_left
        · obtain ⟨D1, h6, h7⟩ := g5 D hD
          obtain ⟨D', h8, h9⟩ := g6 D1 h6
          rw [hname] at h7
          rw [List.filter_cons_of_pos (by simpa using lexersOf_isSome.1 ⟨id, hx⟩), List.map_cons]
          exact ⟨D', h8, h7.seq h9⟩
        intro y hy hyd
        rcases List.mem_cons.1 hy with e | hy
        · subst e
          have := (hr1.fin g1).1
          rw [hn1, hname] at this
          exact h4.done _ this
        · exact g4 y hy hyd

end Verif.StackLexer
