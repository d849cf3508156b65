import Verif.Model.TreeText
import Verif.Model.Regexp
/-
The matcher of Model/TreeText and the expression of tree/parsetree.go as Model/Regexp compiles it.
-/
namespace Verif.TreeLine
open Verif Verif.Spec Verif.TreeText

abbrev St := Str × Caps Char

variable {R : Type}

/-- The first result of a match that the rest accepts. -/
def try' (r : Rex) (K : St → Option R) (st : St) : Option R := (r.run one st).findSome? K

theorem findSome_flatMap {α β γ : Type} (f : α → List β) (K : β → Option γ) : ∀ l : List α,
    (l.flatMap f).findSome? K = l.findSome? fun a => (f a).findSome? K
  | [] => rfl
  | a :: l => by
    rw [List.flatMap_cons, List.findSome?_append, findSome_flatMap f K l, List.findSome?_cons]
    cases (f a).findSome? K <;> rfl

theorem try_seq (a b : Rex) (K : St → Option R) (st : St) : try' (.seq a b) K st = try' a (try' b K) st := findSome_flatMap _ _ _

theorem try_alt (a b : Rex) (K : St → Option R) (st : St) : try' (.alt a b) K st = (try' a K st).or (try' b K st) := List.findSome?_append

theorem try_cap (n : Nat) (a : Rex) (K : St → Option R) (st : St) :
    try' (.cap n a) K st = try' a (fun q => K (q.1, (n, st.1.take (st.1.length - q.1.length)) :: q.2)) st := by
  unfold try'
  rw [Rex.run, List.findSome?_map]
  rfl

theorem try_eps (K : St → Option R) (st : St) : try' .eps K st = K st := by
  show [st].findSome? K = _
  simp only [List.findSome?_cons, List.findSome?_nil]
  cases K st <;> rfl

theorem try_fin (K : St → Option R) (st : St) : try' .fin K st = if st.1 = [] then K st else none := by
  unfold try'
  rw [Rex.run]
  by_cases h : st.1 = []
  · rw [if_pos (by rw [h]; rfl), if_pos h]
    exact try_eps K st
  · rw [if_neg (fun e => h (List.eq_nil_of_length_eq_zero e)), if_neg h]
    rfl

theorem try_cls (c : Cls) (K : St → Option R) (s : Str) (k : Caps Char) : try' (.cls c) K (s, k) =
    match s with
    | [] => none
    | x :: t => if c.has x.toNat then K (t, k) else none := by
  cases s with
  | nil => rfl
  | cons x t =>
    show (if c.has x.toNat then [(t, k)] else []).findSome? K = _
    show _ = if c.has x.toNat then K (t, k) else none
    split
    · exact try_eps K (t, k)
    · rfl

/-! ### Repetition -/

theorem many_congr (p : Char → Bool) {k k' : Str → Str → Option R} : ∀ (s acc : Str), (∀ w t, w ++ t = acc ++ s → k w t = k' w t) →
    many p k acc s = many p k' acc s
  | [], acc, h => h acc [] rfl
  | x :: xs, acc, h => by
    unfold many
    rw [h acc (x :: xs) rfl, many_congr p xs (acc ++ [x]) fun w t e => h w t (by rw [e, List.append_assoc]; rfl)]

theorem again_many {c : Cls} {p : Char → Bool} (hp : ∀ x : Char, c.has x.toNat = p x) (K : St → Option R) (k : Caps Char) :
    ∀ (n : Nat) (s acc : Str), s.length ≤ n →
      (again ((Rex.cls c).run one) n (s, k)).findSome? K = many p (fun _ t => K (t, k)) acc s
  | 0, s, acc, h => by
    have : s = [] := List.eq_nil_of_length_eq_zero (Nat.le_zero.mp h)
    subst this
    exact try_eps K ([], k)
  | n + 1, [], acc, _ => by
    show ((List.filter _ []).flatMap _ ++ [([], k)]).findSome? K = _
    exact try_eps K ([], k)
  | n + 1, x :: t, acc, h => by
    show (((if c.has x.toNat then [(t, k)] else []).filter _).flatMap _ ++ [(x :: t, k)]).findSome? K = _
    unfold many
    rw [hp x]
    cases p x
    · exact try_eps K _
    · rw [if_pos rfl, if_pos rfl, List.findSome?_append, List.filter_cons_of_pos (by simp), List.filter_nil, List.flatMap_cons, List.flatMap_nil,
        List.append_nil, again_many hp K k n t (acc ++ [x]) (by simpa using h)]
      congr 1
      exact try_eps K _

theorem try_many {c : Cls} {p : Char → Bool} (hp : ∀ x : Char, c.has x.toNat = p x) (K : St → Option R) (k : Caps Char) (s acc : Str) :
    try' (.star (.cls c)) K (s, k) = many p (fun _ t => K (t, k)) acc s := again_many hp K k _ s acc (Nat.le_refl _)

theorem take_of {w t s : Str} (h : w ++ t = s) : s.take (s.length - t.length) = w := by
  subst h
  simp

/-! ### The classes -/

/-- `\s`. -/
def cS : Cls := ⟨false, [(9, 10), (12, 13), (32, 32)]⟩
/-- The class of kinds. -/
def cK : Cls := ⟨true, [(125, 125), (123, 123), (58, 58), (34, 34), (9, 10), (12, 13), (32, 32)]⟩
/-- Characters other than quotes and backslashes. -/
def cQ : Cls := ⟨true, [(34, 34), (92, 92)]⟩
/-- Characters other than newlines. -/
def cL : Cls := ⟨true, [(10, 10)]⟩
/-- One character. -/
def ch (c : Char) : Rex := .cls ⟨false, [(c.toNat, c.toNat)]⟩

theorem char_eq (x c : Char) : (x = c) ↔ x.toNat = c.toNat := Char.toNat_inj.symm

theorem hasS (x : Char) : cS.has x.toNat = isS x := by
  unfold cS Cls.has isS
  rw [Bool.eq_iff_iff]
  simp [char_eq]
  omega

theorem hasK (x : Char) : cK.has x.toNat = isK x := by
  unfold cK Cls.has isK
  rw [Bool.eq_iff_iff]
  simp [char_eq, isS]
  omega

theorem hasQ (x : Char) : cQ.has x.toNat = decide (x ≠ '"' ∧ x ≠ '\\') := by
  unfold cQ Cls.has
  rw [Bool.eq_iff_iff]
  simp [char_eq]
  omega

theorem hasL (x : Char) : cL.has x.toNat = decide (x ≠ '\n') := by
  unfold cL Cls.has
  rw [Bool.eq_iff_iff]
  simp [char_eq]
  omega

theorem has_ch (x c : Char) : Cls.has ⟨false, [(c.toNat, c.toNat)]⟩ x.toNat = decide (x = c) := by
  unfold Cls.has
  rw [Bool.eq_iff_iff]
  simp [char_eq]
  omega

theorem try_ch (c : Char) (K : St → Option R) (s : Str) (k : Caps Char) : try' (ch c) K (s, k) =
    match s with
    | [] => none
    | x :: t => if x = c then K (t, k) else none := by
  unfold ch
  rw [try_cls]
  cases s with
  | nil => rfl
  | cons x t => simp only [has_ch, decide_eq_true_eq]

/-! ### The parts of the expression -/

/-- A character or an escaped one. -/
def rItem : Rex := .alt (.cls cQ) (.seq (ch '\\') (.cls cL))

theorem item_run (s : Str) (k : Caps Char) : rItem.run one (s, k) =
    match s with
    | [] => []
    | [x] => if x ≠ '"' ∧ x ≠ '\\' then [([], k)] else []
    | x :: y :: ys => if x ≠ '"' ∧ x ≠ '\\' then [(y :: ys, k)] else if x = '\\' ∧ y ≠ '\n' then [(ys, k)] else [] := by
  cases s with
  | nil => rfl
  | cons x t =>
    have h1 : rItem.run one (x :: t, k) = (if cQ.has x.toNat then [(t, k)] else []) ++
        ((if Cls.has ⟨false, [('\\'.toNat, '\\'.toNat)]⟩ x.toNat then [(t, k)] else []).flatMap ((Rex.cls cL).run one)) := rfl
    rw [h1, hasQ, has_ch]
    cases t with
    | nil =>
      by_cases hb : x = '\\'
      · subst hb; rfl
      · by_cases hq : x = '"'
        · subst hq; rfl
        · simp [hb, hq]
    | cons y ys =>
      by_cases hb : x = '\\'
      · subst hb
        simp only [ne_eq, not_true_eq_false, and_false, decide_false, Bool.false_eq_true, if_false, decide_true, if_true, true_and,
          List.nil_append, List.flatMap_cons, List.flatMap_nil, List.append_nil]
        show (if cL.has y.toNat then [(ys, k)] else []) = _
        rw [hasL]
        simp
      · by_cases hq : x = '"'
        · subst hq; rfl
        · simp [hb, hq]

theorem manyQ_congr {k k' : Str → Str → Option R} : ∀ (n : Nat) (s acc : Str), s.length ≤ n → (∀ w t, w ++ t = acc ++ s → k w t = k' w t) →
    manyQ k acc s = manyQ k' acc s
  | n, [], acc, _, h => by
    unfold manyQ
    exact h acc [] rfl
  | n, [x], acc, _, h => by
    unfold manyQ
    rw [h acc [x] rfl, h (acc ++ [x]) [] (by simp)]
  | n + 1, x :: y :: ys, acc, hn, h => by
    unfold manyQ
    rw [h acc (x :: y :: ys) rfl, manyQ_congr n (y :: ys) (acc ++ [x]) (by simpa using hn) fun w t e => h w t (by rw [e, List.append_assoc]; rfl),
      manyQ_congr n ys (acc ++ [x, y]) (by simp at hn; omega) fun w t e => h w t (by rw [e, List.append_assoc]; rfl)]

theorem again_manyQ (K : St → Option R) (k : Caps Char) : ∀ (n : Nat) (s acc : Str), s.length ≤ n →
      (again (rItem.run one) n (s, k)).findSome? K = manyQ (fun _ t => K (t, k)) acc s
  | 0, s, acc, h => by
    have : s = [] := List.eq_nil_of_length_eq_zero (Nat.le_zero.mp h)
    subst this
    unfold manyQ
    exact try_eps K ([], k)
  | n + 1, s, acc, h => by
    rw [again, item_run]
    match s with
    | [] =>
      unfold manyQ
      exact try_eps K ([], k)
    | [x] =>
      unfold manyQ
      simp only
      split
      · rw [List.findSome?_append, List.filter_cons_of_pos (by simp), List.filter_nil, List.flatMap_cons, List.flatMap_nil,
          List.append_nil, again_manyQ K k n [] [] (by simp)]
        unfold manyQ
        congr 1
        exact try_eps K _
      · exact try_eps K _
    | x :: y :: ys =>
      unfold manyQ
      simp only
      split
      · rw [List.findSome?_append, List.filter_cons_of_pos (by simp), List.filter_nil, List.flatMap_cons, List.flatMap_nil,
          List.append_nil, again_manyQ K k n (y :: ys) (acc ++ [x]) (by simpa using h)]
        congr 1
        exact try_eps K _
      · split
        · rw [List.findSome?_append, List.filter_cons_of_pos (by simp; omega), List.filter_nil, List.flatMap_cons, List.flatMap_nil,
            List.append_nil, again_manyQ K k n ys (acc ++ [x, y]) (by simp at h; omega)]
          congr 1
          exact try_eps K _
        · exact try_eps K _

theorem try_manyQ (K : St → Option R) (k : Caps Char) (s acc : Str) :
    try' (.star rItem) K (s, k) = manyQ (fun _ t => K (t, k)) acc s := again_manyQ K k _ s acc (Nat.le_refl _)

/-- White space. -/
def rS : Rex := .star (.cls cS)

theorem try_S (K : St → Option R) (k : Caps Char) (s : Str) : try' rS K (s, k) = many isS (fun _ t => K (t, k)) [] s := try_many hasS K k s []

/-- An optional character, captured. -/
def rOpt (n : Nat) (c : Char) : Rex := .cap n (.alt (ch c) .eps)

theorem try_opt (n : Nat) (c : Char) (K : St → Option R) (k : Caps Char) (s : Str) :
    try' (rOpt n c) K (s, k) = opt c (fun b t => K (t, (n, if b then [c] else []) :: k)) s := by
  unfold rOpt
  rw [try_cap, try_alt, try_eps, try_ch]
  cases s with
  | nil => rfl
  | cons x t =>
    unfold opt
    simp only
    by_cases h : x = c
    · subst h
      rw [if_pos rfl, if_pos rfl]
      congr <;> simp
    · rw [if_neg h, if_neg h]
      simp

/-- `\s*(\{?)$`. -/
def rTail : Rex := .seq rS (.seq (rOpt 4 '{') .fin)
/-- `(?:\:\s*\"((?:[^\"\\]|(?:\\.))*)\")?`. -/
def rVal : Rex := .alt (.seq (ch ':') (.seq rS (.seq (ch '"') (.seq (.cap 3 (.star rItem)) (ch '"'))))) .eps
/-- What follows the kind. -/
def rAfter : Rex := .seq rS (.seq rVal rTail)
/-- The kind. -/
def rKind : Rex := .cap 2 (.alt (.seq (.cls cK) (.star (.cls cK))) .fin)
/-- The expression. -/
def rTree : Rex := .seq rS (.seq (rOpt 1 '}') (.seq rS (.seq rKind rAfter)))

/-- The captures. -/
def caps (k : Caps Char) : Bool × Str × Str × Bool := (decide (group k 1 = ['}']), group k 2, group k 3, decide (group k 4 = ['{']))

/-- What the code reads. -/
def read (q : St) : Option (Bool × Str × Str × Bool) := some (caps q.2)

theorem try_tail (k : Caps Char) (s : Str) :
    try' rTail read (s, k) = tailRe (decide (group k 1 = ['}'])) (group k 2) (group k 3) s := by
  unfold rTail tailRe
  rw [try_seq, try_S]
  congr 1
  funext _ t
  rw [try_seq, try_opt]
  congr 1
  funext b u
  rw [try_fin]
  cases u with
  | nil =>
    rw [if_pos rfl]
    cases b <;> rfl
  | cons x u => rfl

theorem try_val (K : St → Option R) (k : Caps Char) (s : Str) :
    try' rVal K (s, k) = ((match s with
    | [] => none
    | x :: xs =>
      if x = ':' then
        many isS (fun _ s =>
          match s with
          | [] => none
          | y :: ys => if y = '"' then
              manyQ (fun cap s =>
                match s with
                | [] => none
                | z :: zs => if z = '"' then K (zs, (3, cap) :: k) else none) [] ys
            else none) [] xs
      else none).or (K (s, k))) := by
  unfold rVal
  rw [try_alt, try_eps, try_seq, try_ch]
  congr 1
  cases s with
  | nil => rfl
  | cons x xs =>
    simp only
    congr 1
    rw [try_seq, try_S]
    congr 1
    funext _ t
    rw [try_seq, try_ch]
    cases t with
    | nil => rfl
    | cons y ys =>
      simp only
      congr 1
      rw [try_seq, try_cap, try_manyQ _ _ _ []]
      refine manyQ_congr _ _ _ (Nat.le_refl _) fun w u e => ?_
      rw [try_ch, take_of (w := w) (by simpa using e)]

theorem try_after (k : Caps Char) (h3 : group k 3 = []) (s : Str) :
    try' rAfter read (s, k) = afterKind (decide (group k 1 = ['}'])) (group k 2) s := by
  unfold rAfter afterKind
  rw [try_seq, try_S]
  congr 1
  funext _ t
  rw [try_seq, try_val]
  unfold valueGroup
  rw [try_tail, h3]
  congr 1
  have e : ∀ cap zs, try' rTail read (zs, (3, cap) :: k) = tailRe (decide (group k 1 = ['}'])) (group k 2) cap zs := by
    intro cap zs
    rw [try_tail]
    rfl
  simp only [e]
  rfl

theorem try_kind (k : Caps Char) (h3 : group k 3 = []) (s : Str) :
    try' (.seq rKind rAfter) read (s, k) = kindRe (decide (group k 1 = ['}'])) s := by
  have e : ∀ kind t, try' rAfter read (t, (2, kind) :: k) = afterKind (decide (group k 1 = ['}'])) kind t := by
    intro kind t
    rw [try_after _ (by exact h3)]
    rfl
  unfold rKind kindRe
  rw [try_seq, try_cap, try_alt, try_seq, try_cls, try_fin]
  congr 1
  · cases s with
    | nil => rfl
    | cons x xs =>
      simp only [hasK]
      congr 1
      rw [try_many hasK _ _ _ [x]]
      refine many_congr _ _ _ fun w t h => ?_
      rw [take_of (w := w) (by simpa using h), e]
  · cases s with
    | nil =>
      rw [if_pos rfl]
      exact e [] []
    | cons x xs => rfl

theorem treeLine_try (line : Str) : try' rTree read (line, []) = treeLine line := by
  unfold rTree treeLine
  rw [try_seq, try_S]
  congr 1
  funext _ t
  rw [try_seq, try_opt]
  congr 1
  funext b u
  rw [try_seq, try_S]
  congr 1
  funext _ v
  rw [try_kind _ rfl]
  cases b <;> rfl

/-! ### The search -/

theorem ends_fin {a b : Rex} (h : ∀ st q, q ∈ b.run one st → q.1 = []) : ∀ st q, q ∈ (Rex.seq a b).run one st → q.1 = [] := by
  intro st q hq
  rw [Rex.run, List.mem_flatMap] at hq
  obtain ⟨x, _, hx⟩ := hq
  exact h x q hx

theorem tree_ends : ∀ st q, q ∈ rTree.run one st → q.1 = [] := by
  have h : ∀ st q, q ∈ Rex.fin.run one st → q.1 = [] := by
    intro st q hq
    rw [Rex.run] at hq
    split at hq
    · rename_i h
      rw [List.mem_singleton] at hq
      subst hq
      exact List.eq_nil_of_length_eq_zero h
    · cases hq
  exact ends_fin (ends_fin (ends_fin (ends_fin (ends_fin (ends_fin (ends_fin (ends_fin h)))))))

theorem treeLine_first (line : Str) : treeLine line = (rTree.first one line).map fun q => caps q.2 := by
  rw [← treeLine_try]
  unfold try' Rex.first
  cases rTree.run one (line, []) <;> rfl

theorem first_end {line : Str} {q : St} (h : rTree.first one line = some q) : q.1 = [] :=
  tree_ends _ _ (List.mem_of_mem_head? h)

theorem find_le : ∀ (n : Nat) (s : Str), s.length ≤ n → ∃ m, rTree.find one n s = some m ∧ m.1.length ≤ s.length
  | 0, s, h => by
    have : s = [] := List.eq_nil_of_length_eq_zero (Nat.le_zero.mp h)
    subst this
    exact ⟨_, rfl, Nat.le_refl _⟩
  | n + 1, s, h => by
    unfold Rex.find
    split
    · exact ⟨_, rfl, by simp⟩
    · rename_i h0
      cases s with
      | nil => exact absurd h0 (by decide)
      | cons x t =>
        obtain ⟨m, h1, h2⟩ := find_le n t (by simpa using h)
        exact ⟨m, h1, by simp; omega⟩

theorem treeLine_find (line : Str) : ∃ m, rTree.find one line.length line = some m ∧
    treeLine line = if line.length ≠ m.1.length then none else some (caps m.2) := by
  rw [treeLine_first]
  cases h : rTree.first one line with
  | some q =>
    refine ⟨(line, q.2), ?_, by simp⟩
    cases line with
    | nil =>
      rw [List.length_nil, Rex.find, h]
      simp
    | cons x t =>
      rw [List.length_cons, Rex.find, h]
      simp [first_end h]
  | none =>
    cases line with
    | nil => exact absurd h (by decide)
    | cons x t =>
      obtain ⟨m, h1, h2⟩ := find_le t.length t (Nat.le_refl _)
      refine ⟨m, ?_, ?_⟩
      · rw [List.length_cons, Rex.find, h]
        exact h1
      · rw [if_pos (by simp; omega)]
        rfl

end Verif.TreeLine
