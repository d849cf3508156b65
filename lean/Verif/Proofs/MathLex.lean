import Verif.Proofs.LexText
import Verif.Proofs.Lit
import Verif.Proofs.RegexpMore
import Verif.Proofs.ReducerLex
import Verif.Proofs.MathValue
/-
The lexer of examples/parlexmath cuts texts as Spec/Math.lean says.
-/
namespace Verif.PMath
open Verif Verif.Spec Verif.Spec.Math Verif.SimpleLexer Verif.Props.SimpleLexer
open Verif.RegexGram (cS byte_cS len_of_rest dropWhile_stop noHead_drop take_drop)

def rSp : Rex := .seq (.cls cS) (.star (.cls cS))

/-- The rules of the lexer. -/
def mRules : Rules :=
  [(bytes "space".toList, rSp, true),
   (bytes "number".toList, rNum, false),
   (bytes "op1".toList, .cls ⟨false, [(42, 42), (47, 47)]⟩, false),
   (bytes "op2".toList, .cls ⟨false, [(43, 43), (45, 45)]⟩, false),
   (bytes "(".toList, .cls ⟨false, [(40, 40)]⟩, false),
   (bytes ")".toList, .cls ⟨false, [(41, 41)]⟩, false)]

set_option maxRecDepth 10000 in
theorem mRules_said : (Regexp.compile lexStr).map (fun re => saidBy re (lines (bytes lexerText))) =
    some (mRules.map (fun x => (x.1, some x.2.1, x.2.2))) := by
  unfold lexStr lexerText mRules
  simp only [litToList]
  decide +kernel

theorem mRules_nodup : (mRules.map (·.1)).Nodup := by decide +kernel

theorem mRules_fine : mRules.fine = true := by decide +kernel

theorem lxr_eq : lxr = .ok (addAll mRules.adds) := by
  rw [lxr, new_rules mRules_nodup mRules_said]
  rfl

theorem lxr_ready : ∃ l, lxr = .ok l ∧ Ready mRules [] [] l := ⟨_, lxr_eq, ready_first mRules_nodup⟩

theorem rule0 : mRules[0]? = some (bytes "space".toList, rSp, true) := rfl
theorem rule1 : mRules[1]? = some (bytes "number".toList, rNum, false) := rfl

theorem alive_digit {x : UInt8} (h : RxByte.digit x = true) : mRules.alive x = [1] := by
  have := all_bytes (p := fun x => !RxByte.digit x || decide (mRules.alive x = [1])) (by decide +kernel) x
  simpa [h] using this
theorem alive_space {x : UInt8} (h : RxByte.space x = true) : mRules.alive x = [0] := by
  have := all_bytes (p := fun x => !RxByte.space x || decide (mRules.alive x = [0])) (by decide +kernel) x
  simpa [h] using this
theorem alive_dot : mRules.alive 46 = [1] := by decide +kernel
theorem alive_other {x : UInt8} (h1 : RxByte.digit x = false) (h2 : RxByte.space x = false) (h3 : sign x = none)
    (h4 : x ≠ 46) : mRules.alive x = [] := by
  have := all_bytes (p := fun x => RxByte.digit x || RxByte.space x || decide (sign x ≠ none) || decide (x = 46) ||
    decide (mRules.alive x = [])) (by decide +kernel) x
  simpa [h1, h2, h3, h4] using this

/-! ### Pieces -/

theorem takes_space {w s : Bytes} (ne : w ≠ []) (h : ∀ x ∈ w, RxByte.space x = true) (stop : NoHead RxByte.space s) :
    Takes mRules.ms (w ++ s) 0 w.length := by
  cases w with
  | nil => exact absurd rfl ne
  | cons x w =>
    have hx := h x (by simp)
    rw [List.cons_append, takes_single mRules_fine (alive_space hx) rule0]
    refine ⟨rfl, ?_⟩
    have := len_of_rest (r := rSp) (v := x :: w) (s := s) (by
      rw [List.cons_append, rSp, plus_rest (by decide) rfl, byte_cS, if_pos hx]
      congr 1
      exact dropWhile_stop (fun y hy => by rw [byte_cS]; exact h y (by simp [hy])) (fun y t e => by rw [byte_cS]; exact stop y t e))
    exact this

theorem takes_int {d s : Bytes} (ne : d ≠ []) (h : ∀ x ∈ d, RxByte.digit x = true) (stop : NoHead RxByte.digit s) (nf : NoFrac s) :
    Takes mRules.ms (d ++ s) 1 d.length := by
  cases d with
  | nil => exact absurd rfl ne
  | cons x d =>
    rw [List.cons_append, takes_single mRules_fine (alive_digit (h x (by simp))) rule1]
    exact ⟨rfl, len_of_rest (v := x :: d) (num_int ne h stop nf)⟩

theorem takes_frac {d f s : Bytes} (hd : ∀ x ∈ d, RxByte.digit x = true) (ne : f ≠ [])
    (hf : ∀ x ∈ f, RxByte.digit x = true) (stop : NoHead RxByte.digit s) :
    Takes mRules.ms (d ++ 46 :: (f ++ s)) 1 (d ++ 46 :: f).length := by
  have e : d ++ 46 :: (f ++ s) = (d ++ 46 :: f) ++ s := by simp
  have hl : rNum.len (d ++ 46 :: (f ++ s)) = some (d ++ 46 :: f).length := by
    rw [e]
    apply len_of_rest
    rw [← e]
    exact num_frac hd ne hf stop
  cases d with
  | nil =>
    rw [List.nil_append, takes_single mRules_fine alive_dot rule1]
    exact ⟨rfl, hl⟩
  | cons x d =>
    rw [List.cons_append, takes_single mRules_fine (alive_digit (hd x (by simp))) rule1]
    exact ⟨rfl, hl⟩

/-- A period alone begins nothing. -/
theorem no_dot {s : Bytes} (h : NoHead RxByte.digit s) {i n : Nat} : ¬ Takes mRules.ms (46 :: s) i n := by
  rw [takes_single mRules_fine alive_dot rule1]
  rintro ⟨-, h'⟩
  have h' : rNum.len (46 :: s) = some n := h'
  rw [len_rest, rest_none.2 (num_none (by intro x t e; cases e; decide) (by
    intro x t e
    injection e with _ e
    exact h x t e))] at h'
  cases h'

/-- The number of the rule for a token of one character. -/
def oneIdx : UInt8 → Nat
  | 42 => 2
  | 47 => 2
  | 43 => 3
  | 45 => 3
  | 40 => 4
  | _ => 5

def oneCls : UInt8 → Cls
  | 42 => ⟨false, [(42, 42), (47, 47)]⟩
  | 47 => ⟨false, [(42, 42), (47, 47)]⟩
  | 43 => ⟨false, [(43, 43), (45, 45)]⟩
  | 45 => ⟨false, [(43, 43), (45, 45)]⟩
  | 40 => ⟨false, [(40, 40)]⟩
  | _ => ⟨false, [(41, 41)]⟩

theorem takes_one {x : UInt8} {t : Tok} (h : sign x = some t) (s : Bytes) : Takes mRules.ms (x :: s) (oneIdx x) 1 := by
  have ha : mRules.alive x = [oneIdx x] := by
    have := all_bytes (p := fun x => decide (sign x = none) || decide (mRules.alive x = [oneIdx x])) (by decide +kernel) x
    simpa [h] using this
  have hr : mRules[oneIdx x]? = some ((mRules.map (·.1))[oneIdx x]?.getD [], .cls (oneCls x), false) := by
    have := all_bytes (p := fun x => decide (sign x = none) ||
      decide (mRules[oneIdx x]? = some ((mRules.map (·.1))[oneIdx x]?.getD [], .cls (oneCls x), false))) (by decide +kernel) x
    simpa [h] using this
  have hx : x.toNat < 0x80 ∧ (oneCls x).byte x = true := by
    have := all_bytes (p := fun x => decide (sign x = none) || decide (x.toNat < 0x80 ∧ (oneCls x).byte x = true)) (by decide +kernel) x
    simpa [h] using this
  rw [takes_single mRules_fine ha hr]
  refine ⟨rfl, ?_⟩
  have := len_of_rest (r := .cls (oneCls x)) (v := [x]) (s := s) (by
    rw [List.singleton_append, Rex.rest, ends_ascii hx.1, hx.2]
    rfl)
  exact this

/-! ### The text as a whole -/

theorem mRules_kinds : mRules.map (fun r => (chars r.1, r.2.2)) =
    [("space".toList, true), ("number".toList, false), ("op1".toList, false), ("op2".toList, false), ("(".toList, false),
     (")".toList, false)] := by decide +kernel

theorem kept_at (i : Nat) (v : Bytes) : mRules.kept (i, v) =
    (([("space".toList, true), ("number".toList, false), ("op1".toList, false), ("op2".toList, false), ("(".toList, false),
     (")".toList, false)] : List (Str × Bool))[i]?).bind (fun r => if r.2 then none else some (r.1, nameOf v)) := by
  rw [← mRules_kinds, Rules.kept, List.getElem?_map]
  cases mRules[i]? <;> rfl

theorem kept0 (v : Bytes) : mRules.kept (0, v) = none := by rw [kept_at]; rfl
theorem kept1 (v : Bytes) : mRules.kept (1, v) = some (tokKv (.num (nameOf v))) := by rw [kept_at]; rfl
theorem kept_one {x : UInt8} {t : Tok} (h : sign x = some t) : mRules.kept (oneIdx x, [x]) = some (tokKv t) := by
  rw [kept_at]
  unfold sign at h
  split at h <;> cases h <;> decide +kernel

theorem cut_of_text {s : Bytes} {ts : List Tok} (h : MText s ts) : ∃ c, Cut mRules.ms s c ∧ c.filterMap mRules.kept = ts.map tokKv := by
  induction h with
  | done => exact ⟨[], .done, rfl⟩
  | @space x s ts h rest ih =>
    obtain ⟨c, h1, h2⟩ := ih
    obtain ⟨v, u, rfl, hv, hu⟩ := take_drop RxByte.space s
    cases v with
    | nil => exact ⟨(0, [x]) :: c, .tok (v := [x]) (takes_space (by simp) (by simpa using h) hu) h1, by rw [← h2, List.filterMap_cons, kept0]⟩
    | cons y v =>
      have ht : Takes mRules.ms (x :: (y :: v ++ u)) 0 (x :: y :: v).length :=
        takes_space (w := x :: y :: v) (by simp) (by
          intro z hz
          rcases List.mem_cons.1 hz with rfl | hz
          · exact h
          · exact hv z hz) hu
      have ht' : Takes mRules.ms (y :: v ++ u) 0 (y :: v).length := takes_space (by simp) hv hu
      generalize e : y :: v ++ u = z at h1
      cases h1 with
      | done => simp at e
      | @tok i v' s' segs h3 h4 =>
        rw [e] at ht'
        obtain ⟨rfl, hl⟩ := takes_unique ht' h3
        obtain ⟨rfl, rfl⟩ := List.append_inj e hl
        exact ⟨(0, x :: y :: v) :: segs, .tok (v := x :: y :: v) ht h4, by
          rw [← h2, List.filterMap_cons, kept0, List.filterMap_cons, kept0]⟩
  | int ne h stop nf rest ih =>
    obtain ⟨c, h1, h2⟩ := ih
    exact ⟨_, .tok (takes_int ne h stop nf) h1, by rw [List.filterMap_cons, kept1, List.map_cons, ← h2]⟩
  | @frac d f s ts hd ne hf stop rest ih =>
    obtain ⟨c, h1, h2⟩ := ih
    have := Cut.tok (v := d ++ 46 :: f) (s := s) (by
      have := takes_frac hd ne hf stop
      simpa only [List.append_assoc, List.cons_append] using this) h1
    simp only [List.append_assoc, List.cons_append] at this
    exact ⟨_, this, by rw [List.filterMap_cons, kept1, List.map_cons, ← h2]⟩
  | @one x t s ts h rest ih =>
    obtain ⟨c, h1, h2⟩ := ih
    exact ⟨_, .tok (v := [x]) (takes_one h _) h1, by rw [List.filterMap_cons, kept_one h, List.map_cons, ← h2]⟩

theorem text_space {s : Bytes} {ts : List Tok} (h : MText s ts) : ∀ v : Bytes, (∀ y ∈ v, RxByte.space y = true) → MText (v ++ s) ts
  | [], _ => h
  | _ :: v, hv => .space (hv _ (by simp)) (text_space h v fun y hy => hv y (by simp [hy]))

/-- What the piece is that is taken. -/
theorem piece {v s w u : Bytes} {x : UInt8} {i j n : Nat} (h : Takes mRules.ms (x :: (v ++ s)) i (x :: v).length) (e : v ++ s = w ++ u)
    (ht : Takes mRules.ms (x :: (w ++ u)) j n) (hn : n = w.length + 1) : i = j ∧ v = w ∧ s = u := by
  rw [e] at h
  obtain ⟨rfl, hl⟩ := takes_unique h ht
  rw [List.length_cons] at hl
  obtain ⟨rfl, rfl⟩ := List.append_inj e (by omega)
  exact ⟨rfl, rfl, rfl⟩

theorem text_of_cut {s : Bytes} {c : List (Nat × Bytes)} (h : Cut mRules.ms s c) : ∃ ts, MText s ts ∧ c.filterMap mRules.kept = ts.map tokKv := by
  induction h with
  | done => exact ⟨[], .done, rfl⟩
  | @tok i v s c h rest ih =>
    obtain ⟨ts, ih, hk⟩ := ih
    cases v with
    | nil => exact absurd h.1 (by simp)
    | cons x v =>
      rw [List.cons_append] at h
      by_cases hd : RxByte.digit x = true
      · obtain ⟨w, u, e, h1, h2⟩ := take_drop RxByte.digit (v ++ s)
        have hall : ∀ y ∈ x :: w, RxByte.digit y = true := by simpa [hd] using h1
        rcases Verif.ReducerDSL.frac_or u with nf | ⟨f, s', rfl, ne, hf, stop⟩
        · obtain ⟨rfl, rfl, rfl⟩ := piece h e (takes_int (d := x :: w) (by simp) hall h2 nf) rfl
          rw [List.filterMap_cons, kept1]
          exact ⟨_, .int (d := x :: v) (by simp) hall h2 nf ih, by rw [hk]; rfl⟩
        · have ht := takes_frac (d := x :: w) hall ne hf stop
          have e' : v ++ s = (w ++ 46 :: f) ++ s' := by rw [e]; simp
          obtain ⟨rfl, rfl, rfl⟩ := piece (w := w ++ 46 :: f) h e' (by simpa using ht) rfl
          rw [List.filterMap_cons, kept1]
          have := MText.frac (d := x :: w) hall ne hf stop ih
          simp only [List.cons_append, List.append_assoc] at this ⊢
          exact ⟨_, this, by rw [hk]; rfl⟩
      by_cases hs : RxByte.space x = true
      · obtain ⟨w, u, e, h1, h2⟩ := take_drop RxByte.space (v ++ s)
        have hall : ∀ y ∈ x :: w, RxByte.space y = true := by simpa [hs] using h1
        obtain ⟨rfl, rfl, rfl⟩ := piece h e (takes_space (w := x :: w) (by simp) hall h2) rfl
        rw [List.filterMap_cons, kept0]
        exact ⟨ts, text_space ih (x :: v) hall, hk⟩
      cases ho : sign x with
      | some t =>
        obtain ⟨rfl, rfl, -⟩ := piece (w := []) h rfl (takes_one ho _) rfl
        rw [List.filterMap_cons, kept_one ho]
        exact ⟨_, .one ho ih, by rw [hk]; rfl⟩
      | none =>
        by_cases h46 : x = 46
        · subst h46
          obtain ⟨f, u, e, hf, h2⟩ := take_drop RxByte.digit (v ++ s)
          by_cases ne : f = []
          · subst ne
            exact absurd h (no_dot (by rw [e]; exact h2))
          · have ht := takes_frac (d := []) (by simp) ne hf h2
            obtain ⟨rfl, rfl, rfl⟩ := piece h e ht rfl
            rw [List.filterMap_cons, kept1]
            exact ⟨_, MText.frac (d := []) (by simp) ne hf h2 ih, by rw [hk]; rfl⟩
        exact absurd h (takes_none mRules_fine (alive_other (by simpa using hd) (by simpa using hs) ho h46))

theorem tokKv_inj {t t' : Tok} (h : tokKv t = tokKv t') : t = t' := by
  cases t <;> cases t' <;> simp [tokKv] at h ⊢
  exact h

theorem text_unique {s : Bytes} {ts ts' : List Tok} (h : MText s ts) (h' : MText s ts') : ts = ts' := by
  obtain ⟨c, h1, h2⟩ := cut_of_text h
  obtain ⟨c', h3, h4⟩ := cut_of_text h'
  rw [cut_unique h1 h3, h4] at h2
  exact (List.map_injective_iff.2 fun _ _ h => tokKv_inj h) h2.symm

end Verif.PMath
