import Verif.Model.Packrat
/- The fuel of the packrat model only bounds the length of the run: more fuel never changes an
outcome. -/
namespace Verif.Packrat
open Verif.Spec Out

variable {V : Type}

theorem compareKids_mono {c1 c2 : Def → Def → Out Int} (h : ∀ a b, Le (c1 a b) (c2 a b)) (get) :
    ∀ k1 k2, Le (compareKids c1 get k1 k2) (compareKids c2 get k1 k2) := by
  intro k1
  induction k1 with
  | nil => intro k2; simp only [compareKids]; exact .refl _
  | cons a k1 ih =>
    intro k2
    cases k2 with
    | nil => simp only [compareKids]; exact .refl _
    | cons b k2 =>
      simp only [compareKids]
      split
      · exact ih k2
      · refine (h _ _).bind fun p => ?_
        split
        · exact .refl _
        · exact ih k2

theorem comparePriority_mono (get) : ∀ n m, n ≤ m → ∀ a b,
    Le (comparePriority get n a b) (comparePriority get m a b) := by
  intro n
  induction n with
  | zero => intro m _ a b; exact .inl rfl
  | succ n ih =>
    intro m hm a b
    obtain ⟨m, rfl⟩ : ∃ k, m = k + 1 := ⟨m - 1, by omega⟩
    simp only [comparePriority]
    split
    · exact .refl _
    · exact compareKids_mono (ih m (by omega)) _ _ _

theorem circKids_mono {c1 c2 : Def → Out Bool} (h : ∀ a, Le (c1 a) (c2 a)) (get root) :
    ∀ ks, Le (circKids c1 get root ks) (circKids c2 get root ks) := by
  intro ks
  induction ks with
  | nil => exact .refl _
  | cons a ks ih =>
    simp only [circKids]
    split
    · exact .refl _
    · refine (h _).bind fun b => ?_
      split
      · exact .refl _
      · exact ih

theorem circ_mono (get root) : ∀ n m, n ≤ m → ∀ a,
    Le (createsCircularDep get root n a) (createsCircularDep get root m a) := by
  intro n
  induction n with
  | zero => intro m _ a; exact .inl rfl
  | succ n ih =>
    intro m hm a
    obtain ⟨m, rfl⟩ : ∃ k, m = k + 1 := ⟨m - 1, by omega⟩
    exact circKids_mono (ih m (by omega)) _ _ _

theorem addToMemo_mono {n m} (h : n ≤ m) (st td) : Le (addToMemo n st td) (addToMemo m st td) := by
  unfold addToMemo
  split
  · exact .refl _
  · refine (comparePriority_mono _ n m h _ _).bind fun c => ?_
    split
    · exact (circ_mono _ _ n m h _).bind fun b => .refl _
    · exact .refl _

theorem checkNonTerminal_mono {n m} (h : n ≤ m) (env st mk) :
    Le (checkNonTerminal env n st mk) (checkNonTerminal env m st mk) := by
  unfold checkNonTerminal
  split
  · exact (addToMemo_mono h _ _).bind fun _ => .refl _
  · exact .refl _

theorem addPartialPre_mono {n m} (h : n ≤ m) (env st tp req) :
    Le (addPartialPre env n st tp req) (addPartialPre env m st tp req) := by
  unfold addPartialPre
  refine Le.bind ?_ fun _ => .refl _
  split
  · exact .refl _
  · exact (checkNonTerminal_mono h _ _ _).bind fun _ => .refl _

theorem addProdsLoop_mono {n m} (h : n ≤ m) (env) {r1 r2 : St → Marker → Out St}
    (hr : ∀ s k, Le (r1 s k) (r2 s k)) (root) : ∀ ps st k,
    Le (addProdsLoop env n r1 root st k ps) (addProdsLoop env m r2 root st k ps) := by
  intro ps
  induction ps with
  | nil => intro st k; exact .refl _
  | cons p ps ih =>
    intro st k
    cases p with
    | nil => exact (addToMemo_mono h _ _).bind fun _ => ih _ _
    | cons X p =>
      exact (addPartialPre_mono h _ _ _ _).bind fun _ => (hr _ _).bind fun _ => ih _ _

theorem addProds_mono {n m} (h : n ≤ m) (env) : ∀ d e, d ≤ e → ∀ st root,
    Le (addProds env n d st root) (addProds env m e st root) := by
  intro d
  induction d with
  | zero => intro e _ st root; exact .inl rfl
  | succ d ih =>
    intro e he st root
    obtain ⟨e, rfl⟩ : ∃ k, e = k + 1 := ⟨e - 1, by omega⟩
    simp only [addProds]
    split
    · exact .refl _
    · split
      · exact .refl _
      · exact addProdsLoop_mono h env (ih e (by omega)) _ _ _ _

theorem addPartial_mono {n m} (h : n ≤ m) (env st tp req) :
    Le (addPartial env n st tp req) (addPartial env m st tp req) :=
  (addPartialPre_mono h _ _ _ _).bind fun _ => addProds_mono h _ n m h _ _

theorem update_mono {n m} (h : n ≤ m) (env) : ∀ d e, d ≤ e → ∀ st tp k,
    Le (update env n d st tp k) (update env m e st tp k) := by
  intro d
  induction d with
  | zero => intro e _ st tp k; exact .inl rfl
  | succ d ih =>
    intro e he st tp k
    obtain ⟨e, rfl⟩ : ∃ k, e = k + 1 := ⟨e - 1, by omega⟩
    simp only [update]
    split
    · exact addToMemo_mono h _ _
    · split
      · exact .refl _
      · refine (checkNonTerminal_mono h _ _ _).bind fun r => ?_
        split
        · exact ih e (by omega) _ _ _
        · exact addPartial_mono h _ _ _ _

theorem loop_mono {n m} (h : n ≤ m) (env) : ∀ d e, d ≤ e → ∀ st,
    Le (loop env n d st) (loop env m e st) := by
  intro d
  induction d with
  | zero => intro e _ st; exact .inl rfl
  | succ d ih =>
    intro e he st
    obtain ⟨e, rfl⟩ : ∃ k, e = k + 1 := ⟨e - 1, by omega⟩
    simp only [loop]
    split
    · exact .refl _
    · exact (update_mono h env n m h _ _ _).bind fun _ => ih e (by omega) _

theorem kidsPN_mono {r1 r2 : Def → Out (PN Nat V)} (h : ∀ d, Le (r1 d) (r2 d)) (get) : ∀ ks,
    Le (kidsPN r1 get ks) (kidsPN r2 get ks) := by
  intro ks
  induction ks with
  | nil => exact .refl _
  | cons k ks ih => exact (h _).bind fun _ => ih.bind fun _ => .refl _

theorem toPN_mono (ev : V) (lxms get) : ∀ n m, n ≤ m → ∀ d,
    Le (toPN ev lxms get n d) (toPN ev lxms get m d) := by
  intro n
  induction n with
  | zero => intro m _ d; exact .inl rfl
  | succ n ih =>
    intro m hm d
    obtain ⟨m, rfl⟩ : ∃ k, m = k + 1 := ⟨m - 1, by omega⟩
    exact (kidsPN_mono (ih m (by omega)) _ _).bind fun _ => .refl _

theorem parseIdx_mono (ev : V) (env s lxms) {n m} (h : n ≤ m) :
    Le (parseIdx ev env s lxms n) (parseIdx ev env s lxms m) := by
  refine (addProds_mono h env n m h _ _).bind fun st0 => (loop_mono h env n m h _).bind fun st => ?_
  dsimp only
  split
  · exact .refl _
  · exact (toPN_mono ev _ _ n m h _).bind fun _ => .refl _

theorem parse_mono {α : Type} [DecidableEq α] (ev : V) (g : Grammar α) (ls) : ∀ n m, n ≤ m →
    Le (parse ev g ls n) (parse ev g ls m) := by
  intro n m h
  unfold parse
  split
  · exact .refl _
  · exact (Le.refl _).bind fun s => (parseIdx_mono ev _ _ _ h).bind fun _ => .refl _

end Verif.Packrat
