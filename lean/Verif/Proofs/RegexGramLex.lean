import Verif.Proofs.LexText
import Verif.Proofs.Lit
import Verif.Model.RegexGramText
import Verif.Spec.RegexGramLayout
/-
The lexer of grammar/regexgram cuts texts as Spec/RegexGramLayout.lean says.
-/
namespace Verif.RegexGram
open Verif Verif.Spec Verif.SimpleLexer Verif.Props.SimpleLexer

def cW : Cls := ⟨false, [(48, 57), (65, 90), (95, 95), (97, 122)]⟩
def cB : Cls := ⟨false, [(32, 32), (9, 9)]⟩
def cE : Cls := ⟨false, [(10, 10), (13, 13)]⟩
def cS : Cls := ⟨false, [(9, 10), (12, 13), (32, 32)]⟩
def cN : Cls := ⟨true, [(10, 10), (13, 13)]⟩

/-- The rules of the lexer. -/
def rgRules : Rules :=
  [(bytes "rarr".toList, Rex.word [45, 62], false),
   (bytes "symbol".toList, .seq (.cls cW) (.star (.cls cW)), false),
   (bytes "repeats".toList, Rex.word [42], false),
   (bytes "optional".toList, Rex.word [63], false),
   (bytes "or".toList, Rex.word [124], false),
   (bytes "(".toList, Rex.word [40], false),
   (bytes ")".toList, Rex.word [41], false),
   (bytes "comment".toList, .seq (.cls cE) (.seq (.star (.cls cS)) (.seq (.cls ⟨false, [(47, 47)]⟩) (.seq (.cls ⟨false, [(47, 47)]⟩) (.star (.cls cN))))), true),
   (bytes "nl".toList, .seq (.cls cE) (.star (.cls cS)), false),
   (bytes "space".toList, .seq (.cls cB) (.star (.cls cB)), true)]

set_option maxRecDepth 10000 in
theorem rgRules_said : (Regexp.compile lexStr).map (fun re => saidBy re (lines (bytes lexerProductions))) =
    some (rgRules.map (fun x => (x.1, some x.2.1, x.2.2))) := by
  unfold lexStr lexerProductions rgRules
  simp only [litToList]
  decide +kernel

theorem rgRules_nodup : (rgRules.map (·.1)).Nodup := by decide +kernel

theorem rgRules_fine : rgRules.fine = true := by decide +kernel

theorem lxr_eq : lxr = .ok (insertStart (addAll rgRules.adds) (bytes "nl".toList) [10]) := by
  rw [lxr, new_rules rgRules_nodup rgRules_said]
  rfl

theorem lxr_ready : ∃ l, lxr = .ok l ∧ Ready rgRules (bytes "nl".toList) [10] l :=
  ⟨_, lxr_eq, ready_insert (ready_first rgRules_nodup) _ _⟩

theorem alive_word {x : UInt8} (h : RxByte.word x = true) : rgRules.alive x = [1] := by
  have := all_bytes (p := fun x => !RxByte.word x || decide (rgRules.alive x = [1])) (by decide +kernel) x
  simpa [h] using this
theorem alive_blank {x : UInt8} (h : RxByte.blank x = true) : rgRules.alive x = [9] := by
  have := all_bytes (p := fun x => !RxByte.blank x || decide (rgRules.alive x = [9])) (by decide +kernel) x
  simpa [h] using this
theorem alive_eol {x : UInt8} (h : RxByte.eol x = true) : rgRules.alive x = [7, 8] := by
  have := all_bytes (p := fun x => !RxByte.eol x || decide (rgRules.alive x = [7, 8])) (by decide +kernel) x
  simpa [h] using this
theorem alive_other {x : UInt8} (h1 : RxByte.word x = false) (h2 : RxByte.blank x = false) (h3 : RxByte.eol x = false)
    (h4 : RxTok.ofByte x = none) (h5 : x ≠ 45) : rgRules.alive x = [] := by
  have := all_bytes (p := fun x => RxByte.word x || RxByte.blank x || RxByte.eol x || decide (RxTok.ofByte x ≠ none) || decide (x = 45) ||
    decide (rgRules.alive x = [])) (by decide +kernel) x
  simpa [h1, h2, h3, h4, h5] using this

theorem byte_cW (x : UInt8) : cW.byte x = RxByte.word x := by
  have := all_bytes (p := fun x => cW.byte x == RxByte.word x) (by decide +kernel) x
  simpa using this
theorem byte_cB (x : UInt8) : cB.byte x = RxByte.blank x := by
  have := all_bytes (p := fun x => cB.byte x == RxByte.blank x) (by decide +kernel) x
  simpa using this
theorem byte_cE (x : UInt8) : cE.byte x = RxByte.eol x := by
  have := all_bytes (p := fun x => cE.byte x == RxByte.eol x) (by decide +kernel) x
  simpa using this
theorem byte_cS (x : UInt8) : cS.byte x = RxByte.space x := by
  have := all_bytes (p := fun x => cS.byte x == RxByte.space x) (by decide +kernel) x
  simpa using this
theorem byte_cN (x : UInt8) : cN.byte x = !RxByte.eol x := by
  have := all_bytes (p := fun x => cN.byte x == !RxByte.eol x) (by decide +kernel) x
  simpa using this

theorem len_of_rest {r : Rex} {v s : Bytes} (h : r.rest decode (v ++ s) = some s) : r.len (v ++ s) = some v.length := by
  rw [len_rest, h]
  simp

theorem dropWhile_stop {p : UInt8 → Bool} {v s : Bytes} (hv : ∀ y ∈ v, p y = true) (hs : NoHead p s) : (v ++ s).dropWhile p = s := by
  rw [List.dropWhile_append_of_pos hv]
  cases s with
  | nil => rfl
  | cons y t => rw [List.dropWhile_cons_of_neg (by simp [hs y t rfl])]

theorem noHead_drop (p : UInt8 → Bool) (s : Bytes) : NoHead p (s.dropWhile p) := by
  intro x t h
  have := List.head?_dropWhile_not p s
  rw [h] at this
  simpa using this

theorem take_drop (p : UInt8 → Bool) (s : Bytes) : ∃ v u, s = v ++ u ∧ (∀ y ∈ v, p y = true) ∧ NoHead p u :=
  ⟨s.takeWhile p, s.dropWhile p, (List.takeWhile_append_dropWhile).symm, fun y hy => by
    have := List.all_takeWhile (p := p) (l := s)
    exact List.all_eq_true.1 this y hy, noHead_drop p s⟩

theorem takes_word {w s : Bytes} (ne : w ≠ []) (h : ∀ x ∈ w, RxByte.word x = true) (stop : NoHead RxByte.word s) :
    Takes rgRules.ms (w ++ s) 1 w.length := by
  cases w with
  | nil => exact absurd rfl ne
  | cons x w =>
    have hx := h x (by simp)
    rw [List.cons_append, takes_single rgRules_fine (alive_word hx) rfl]
    refine ⟨rfl, ?_⟩
    rw [← List.cons_append]
    apply len_of_rest
    rw [List.cons_append]
    show Rex.rest decode (.seq (.cls cW) (.star (.cls cW))) _ = _
    rw [plus_rest (by decide) rfl, byte_cW, if_pos hx]
    congr 1
    exact dropWhile_stop (fun y hy => by rw [byte_cW]; exact h y (by simp [hy])) (fun y t e => by rw [byte_cW]; exact stop y t e)

theorem takes_blank {w s : Bytes} (ne : w ≠ []) (h : ∀ x ∈ w, RxByte.blank x = true) (stop : NoHead RxByte.blank s) :
    Takes rgRules.ms (w ++ s) 9 w.length := by
  cases w with
  | nil => exact absurd rfl ne
  | cons x w =>
    have hx := h x (by simp)
    rw [List.cons_append, takes_single rgRules_fine (alive_blank hx) rfl]
    refine ⟨rfl, ?_⟩
    rw [← List.cons_append]
    apply len_of_rest
    rw [List.cons_append]
    show Rex.rest decode (.seq (.cls cB) (.star (.cls cB))) _ = _
    rw [plus_rest (by decide) rfl, byte_cB, if_pos hx]
    congr 1
    exact dropWhile_stop (fun y hy => by rw [byte_cB]; exact h y (by simp [hy])) (fun y t e => by rw [byte_cB]; exact stop y t e)

theorem alive_arrow : rgRules.alive 45 = [0] := by decide +kernel

theorem takes_arrow (s : Bytes) : Takes rgRules.ms (45 :: 62 :: s) 0 2 := by
  rw [takes_single rgRules_fine alive_arrow rfl]
  refine ⟨rfl, ?_⟩
  have := len_of_rest (r := Rex.word [45, 62]) (v := [45, 62]) (s := s) (by
    rw [word_rest (by decide)]
    simp)
  exact this

theorem no_arrow {s : Bytes} (h : ∀ t, s ≠ 62 :: t) {i n : Nat} : ¬ Takes rgRules.ms (45 :: s) i n := by
  rw [takes_single rgRules_fine alive_arrow rfl]
  rintro ⟨-, h2⟩
  rw [len_rest] at h2
  have e : Rex.rest decode (Rex.word [45, 62]) (45 :: s) = none := by
    rw [word_rest (by decide), if_neg]
    cases s with
    | nil => simp
    | cons y t =>
      have hy : ¬ 62 = y.toNat := by
        intro hy
        exact h t (by rw [show y = 62 from UInt8.toNat_inj.1 hy.symm])
      simp [hy]
  have : Rex.rest decode (Rex.word [45, 62]) (45 :: s) = none := e
  rw [show (bytes "rarr".toList, Rex.word [45, 62], false).2.1 = Rex.word [45, 62] from rfl, this] at h2
  cases h2

/-- The number of the rule for a token of one character. -/
def oneIdx : UInt8 → Nat
  | 42 => 2
  | 63 => 3
  | 124 => 4
  | 40 => 5
  | _ => 6

theorem takes_one {x : UInt8} {t : RxTok} (h : RxTok.ofByte x = some t) (s : Bytes) : Takes rgRules.ms (x :: s) (oneIdx x) 1 := by
  have ha : rgRules.alive x = [oneIdx x] := by
    have := all_bytes (p := fun x => decide (RxTok.ofByte x = none) || decide (rgRules.alive x = [oneIdx x])) (by decide +kernel) x
    simpa [h] using this
  have hr : rgRules[oneIdx x]? = some ((rgRules.map (·.1))[oneIdx x]?.getD [], Rex.word [x.toNat], false) := by
    have := all_bytes (p := fun x => decide (RxTok.ofByte x = none) ||
      decide (rgRules[oneIdx x]? = some ((rgRules.map (·.1))[oneIdx x]?.getD [], Rex.word [x.toNat], false))) (by decide +kernel) x
    simpa [h] using this
  have hx : x.toNat < 0x80 := by
    have := all_bytes (p := fun x => decide (RxTok.ofByte x = none) || decide (x.toNat < 0x80)) (by decide +kernel) x
    simpa [h] using this
  rw [takes_single rgRules_fine ha hr]
  refine ⟨rfl, ?_⟩
  have := len_of_rest (r := Rex.word [x.toNat]) (v := [x]) (s := s) (by
    rw [word_rest (by simpa using hx)]
    simp)
  exact this

theorem len_nl {x : UInt8} {v s : Bytes} (h : RxByte.eol x = true) (hv : ∀ y ∈ v, RxByte.space y = true) (stop : NoHead RxByte.space s) :
    Rex.len (.seq (.cls cE) (.star (.cls cS))) (x :: (v ++ s)) = some (v.length + 1) := by
  have := len_of_rest (r := .seq (.cls cE) (.star (.cls cS))) (v := x :: v) (s := s) (by
    refine seq_rest (t := v ++ s) ?_ ?_
    · rw [List.cons_append, Rex.rest, ends_pos (by decide) rfl, byte_cE, h]; rfl
    · rw [star_rest (by decide)]
      congr 1
      exact dropWhile_stop (fun y hy => by rw [byte_cS]; exact hv y hy) (fun y t e => by rw [byte_cS]; exact stop y t e))
  simpa using this

/-- The rest of the expression for comments. -/
def rSlash : Rex := .seq (.cls ⟨false, [(47, 47)]⟩) (.seq (.cls ⟨false, [(47, 47)]⟩) (.star (.cls cN)))

theorem slash_none {s : Bytes} (no : ∀ u, s ≠ 47 :: 47 :: u) : rSlash.ends decode s = [] := by
  rw [rSlash, Rex.ends, one_rest (by omega)]
  cases s with
  | nil => rfl
  | cons y t =>
    by_cases hy : y.toNat = 47
    · simp only [hy, if_true, List.flatMap_cons, List.flatMap_nil, List.append_nil]
      rw [Rex.ends, one_rest (by omega)]
      cases t with
      | nil => rfl
      | cons z t =>
        have hz : ¬ z.toNat = 47 := by
          intro hz
          exact no t (by rw [show y = 47 from UInt8.toNat_inj.1 hy, show z = 47 from UInt8.toNat_inj.1 hz])
        simp [hz]
    · simp [hy]

theorem comment_none {x : UInt8} {v s : Bytes} (hv : ∀ y ∈ v, RxByte.space y = true) (stop : NoHead RxByte.space s)
    (no : ∀ u, s ≠ 47 :: 47 :: u) : Rex.len (.seq (.cls cE) (.seq (.star (.cls cS)) rSlash)) (x :: (v ++ s)) = none := by
  rw [len_rest, rest_none.2]
  · rfl
  · refine seq_none fun t ht => seq_none fun u hu => slash_none fun w e => ?_
    rw [ends_pos (by decide) rfl] at ht
    split at ht
    · rw [List.mem_singleton] at ht
      subst ht
      obtain ⟨p, e2, hp⟩ := star_ends (by decide) hu
      have h1 : (v ++ s).dropWhile RxByte.space = s := dropWhile_stop hv stop
      have h2 : (p ++ u).dropWhile RxByte.space = u := dropWhile_stop (fun y hy => by rw [← byte_cS]; exact hp y hy) (by
        intro y t e3
        rw [e] at e3
        cases e3
        decide)
      rw [e2, h2] at h1
      exact no w (by rw [← h1, e])
    · cases ht

theorem len_comment {x : UInt8} {v c s : Bytes} (h : RxByte.eol x = true) (hv : ∀ y ∈ v, RxByte.space y = true)
    (hc : ∀ y ∈ c, RxByte.eol y = false) (stop : ∀ y u, s = y :: u → RxByte.eol y = true) :
    Rex.len (.seq (.cls cE) (.seq (.star (.cls cS)) rSlash)) (x :: (v ++ 47 :: 47 :: (c ++ s))) = some (v.length + c.length + 3) := by
  have := len_of_rest (r := .seq (.cls cE) (.seq (.star (.cls cS)) rSlash)) (v := x :: (v ++ 47 :: 47 :: c)) (s := s) (by
    simp only [List.cons_append, List.append_assoc]
    refine seq_rest (t := v ++ 47 :: 47 :: (c ++ s)) ?_ (seq_rest (t := 47 :: 47 :: (c ++ s)) ?_ ?_)
    · rw [Rex.rest, ends_pos (by decide) rfl, byte_cE, h]; rfl
    · rw [star_rest (by decide)]
      congr 1
      exact dropWhile_stop (fun y hy => by rw [byte_cS]; exact hv y hy) (by
        intro y t e
        cases e
        decide)
    · refine seq_rest (t := 47 :: (c ++ s)) ?_ (seq_rest (t := c ++ s) ?_ ?_)
      · rw [Rex.rest, one_rest (by omega)]; rfl
      · rw [Rex.rest, one_rest (by omega)]; rfl
      · rw [star_rest (by decide)]
        congr 1
        exact dropWhile_stop (fun y hy => by rw [byte_cN, hc y hy]; rfl) (fun y t e => by rw [byte_cN, stop y t e]; rfl))
  simp only [List.cons_append, List.append_assoc, List.length_cons, List.length_append] at this
  rw [this]
  congr 1

theorem takes_brk {x : UInt8} {v s : Bytes} (h : RxByte.eol x = true) (hv : ∀ y ∈ v, RxByte.space y = true) (stop : NoHead RxByte.space s)
    (no : ∀ u, s ≠ 47 :: 47 :: u) : Takes rgRules.ms (x :: (v ++ s)) 8 (v.length + 1) := by
  rw [takes_two rgRules_fine (alive_eol h) (by omega) rfl rfl]
  refine .inr ⟨rfl, len_nl h hv stop, fun n' hn => ?_⟩
  have := comment_none (x := x) hv stop no
  have hn : Rex.len (.seq (.cls cE) (.seq (.star (.cls cS)) rSlash)) (x :: (v ++ s)) = some n' := hn
  rw [this] at hn
  cases hn

theorem takes_comment {x : UInt8} {v c s : Bytes} (h : RxByte.eol x = true) (hv : ∀ y ∈ v, RxByte.space y = true)
    (hc : ∀ y ∈ c, RxByte.eol y = false) (stop : ∀ y u, s = y :: u → RxByte.eol y = true) :
    Takes rgRules.ms (x :: (v ++ 47 :: 47 :: (c ++ s))) 7 (v.length + c.length + 3) := by
  rw [takes_two rgRules_fine (alive_eol h) (by omega) rfl rfl]
  refine .inl ⟨rfl, len_comment h hv hc stop, fun n' hn => ?_⟩
  have hn : Rex.len (.seq (.cls cE) (.star (.cls cS))) (x :: (v ++ 47 :: 47 :: (c ++ s))) = some n' := hn
  rw [len_nl h hv (by intro y t e; cases e; decide)] at hn
  cases hn
  omega

/-! ### The text as a whole -/

/-- The token of a piece. -/
def tokOf : Nat × Bytes → Option RxTok
  | (0, _) => some .rarr
  | (1, v) => some (.sym (nameOf v))
  | (2, _) => some .rep
  | (3, _) => some .opt
  | (4, _) => some .or
  | (5, _) => some .lp
  | (6, _) => some .rp
  | (8, _) => some .nl
  | _ => none

theorem tokOf_one {x : UInt8} {t : RxTok} (h : RxTok.ofByte x = some t) (v : Bytes) : tokOf (oneIdx x, v) = some t := by
  have e : tokOf (oneIdx x, v) = tokOf (oneIdx x, []) := by
    have := all_bytes (p := fun x => decide (oneIdx x = 2) || decide (oneIdx x = 3) || decide (oneIdx x = 4) || decide (oneIdx x = 5) || decide (oneIdx x = 6)) (by decide +kernel) x
    simp only [Bool.or_eq_true, decide_eq_true_eq] at this
    rcases this with (((h | h) | h) | h) | h <;> rw [h] <;> rfl
  have := all_bytes (p := fun x => decide (RxTok.ofByte x = none) || decide (tokOf (oneIdx x, []) = RxTok.ofByte x)) (by decide +kernel) x
  rw [e]
  simp only [Bool.or_eq_true, decide_eq_true_eq, h] at this
  simpa using this

theorem cut_of_text {s : Bytes} {ts : List RxTok} (h : RxText s ts) : ∃ c, Cut rgRules.ms s c ∧ c.filterMap tokOf = ts := by
  induction h with
  | done => exact ⟨[], .done, rfl⟩
  | @blank x s ts h rest ih =>
    obtain ⟨c, h1, h2⟩ := ih
    obtain ⟨v, u, rfl, hv, hu⟩ := take_drop RxByte.blank s
    cases v with
    | nil => exact ⟨(9, [x]) :: c, .tok (v := [x]) (takes_blank (by simp) (by simpa using h) hu) h1, by rw [← h2]; rfl⟩
    | cons y v =>
      have ht : Takes rgRules.ms (x :: (y :: v ++ u)) 9 (x :: y :: v).length :=
        takes_blank (w := x :: y :: v) (by simp) (by
          intro z hz
          rcases List.mem_cons.1 hz with rfl | hz
          · exact h
          · exact hv z hz) hu
      have ht' : Takes rgRules.ms (y :: v ++ u) 9 (y :: v).length := takes_blank (by simp) hv hu
      generalize e : y :: v ++ u = z at h1
      cases h1 with
      | done => simp at e
      | @tok i v' s' segs h3 h4 =>
        rw [e] at ht'
        obtain ⟨rfl, hl⟩ := takes_unique ht' h3
        obtain ⟨rfl, rfl⟩ := List.append_inj e hl
        exact ⟨(9, x :: y :: v) :: segs, .tok (v := x :: y :: v) ht h4, by rw [← h2]; rfl⟩
  | name ne h stop rest ih =>
    obtain ⟨c, h1, rfl⟩ := ih
    exact ⟨_, .tok (takes_word ne h stop) h1, rfl⟩
  | arrow rest ih =>
    obtain ⟨c, h1, rfl⟩ := ih
    exact ⟨_, .tok (v := [45, 62]) (takes_arrow _) h1, rfl⟩
  | @one x t s ts h rest ih =>
    obtain ⟨c, h1, rfl⟩ := ih
    exact ⟨_, .tok (v := [x]) (takes_one h _) h1, by rw [List.filterMap_cons, tokOf_one h]⟩
  | @brk x v s ts h hv stop no rest ih =>
    obtain ⟨c, h1, rfl⟩ := ih
    exact ⟨_, .tok (v := x :: v) (takes_brk h hv stop no) h1, rfl⟩
  | @comment x v c s ts h hv hc stop rest ih =>
    obtain ⟨c', h1, rfl⟩ := ih
    have := Cut.tok (ms := rgRules.ms) (i := 7) (v := x :: (v ++ 47 :: 47 :: c)) (s := s) (by
      have := takes_comment h hv hc stop
      simp only [List.cons_append, List.append_assoc, List.length_cons, List.length_append]
      rw [show v.length + (c.length + 1 + 1) + 1 = v.length + c.length + 3 by omega]
      exact this) h1
    simp only [List.cons_append, List.append_assoc] at this
    exact ⟨_, this, rfl⟩

theorem text_blank {s : Bytes} {ts : List RxTok} (h : RxText s ts) : ∀ v : Bytes, (∀ y ∈ v, RxByte.blank y = true) → RxText (v ++ s) ts
  | [], _ => h
  | _ :: v, hv => .blank (hv _ (by simp)) (text_blank h v fun y hy => hv y (by simp [hy]))

theorem text_of_cut {s : Bytes} {c : List (Nat × Bytes)} (h : Cut rgRules.ms s c) : RxText s (c.filterMap tokOf) := by
  induction h with
  | done => exact .done
  | @tok i v s c h rest ih =>
    cases v with
    | nil => exact absurd h.1 (by simp)
    | cons x v =>
      rw [List.cons_append] at h
      by_cases hw : RxByte.word x = true
      · obtain ⟨w, u, e, h1, h2⟩ := take_drop RxByte.word (v ++ s)
        rw [e] at h
        have ht := takes_word (w := x :: w) (s := u) (by simp) (by simpa [hw] using h1) h2
        obtain ⟨rfl, hl⟩ := takes_unique h ht
        simp only [List.length_cons, Nat.add_right_cancel_iff] at hl
        obtain ⟨rfl, rfl⟩ := List.append_inj e hl
        exact .name (w := x :: v) (by simp) (by simpa [hw] using h1) h2 ih
      by_cases hb : RxByte.blank x = true
      · obtain ⟨w, u, e, h1, h2⟩ := take_drop RxByte.blank (v ++ s)
        rw [e] at h
        have ht := takes_blank (w := x :: w) (s := u) (by simp) (by simpa [hb] using h1) h2
        obtain ⟨rfl, hl⟩ := takes_unique h ht
        simp only [List.length_cons, Nat.add_right_cancel_iff] at hl
        obtain ⟨rfl, rfl⟩ := List.append_inj e hl
        exact text_blank ih (x :: v) (by simpa [hb] using h1)
      by_cases he : RxByte.eol x = true
      · obtain ⟨w, u, e, h1, h2⟩ := take_drop RxByte.space (v ++ s)
        by_cases hs : ∃ u', u = 47 :: 47 :: u'
        · obtain ⟨u', rfl⟩ := hs
          obtain ⟨d, u, rfl, h3, h4⟩ := take_drop (fun y => !RxByte.eol y) u'
          rw [e] at h
          have h4' : ∀ y t, u = y :: t → RxByte.eol y = true := fun y t e => by simpa using h4 y t e
          have h3' : ∀ y ∈ d, RxByte.eol y = false := fun y hy => by simpa using h3 y hy
          obtain ⟨rfl, hl⟩ := takes_unique h (takes_comment he h1 h3' h4')
          simp only [List.length_cons] at hl
          have e' : v ++ s = (w ++ 47 :: 47 :: d) ++ u := by rw [e]; simp
          obtain ⟨rfl, rfl⟩ := List.append_inj e' (by simp only [List.length_append, List.length_cons]; omega)
          have := RxText.comment he h1 h3' h4' ih
          simp only [List.cons_append, List.append_assoc]
          exact this
        · have no : ∀ u', u ≠ 47 :: 47 :: u' := fun u' e => hs ⟨u', e⟩
          rw [e] at h
          obtain ⟨rfl, hl⟩ := takes_unique h (takes_brk he h1 h2 no)
          simp only [List.length_cons, Nat.add_right_cancel_iff] at hl
          obtain ⟨rfl, rfl⟩ := List.append_inj e hl
          exact .brk he h1 h2 no ih
      cases ho : RxTok.ofByte x with
      | some t =>
        obtain ⟨rfl, hl⟩ := takes_unique h (takes_one ho _)
        have : v = [] := by simpa using hl
        subst this
        rw [List.filterMap_cons, tokOf_one ho]
        exact .one ho ih
      | none =>
        by_cases h45 : x = 45
        · subst h45
          by_cases hs : ∃ u, v ++ s = 62 :: u
          · obtain ⟨u, e⟩ := hs
            rw [e] at h
            obtain ⟨rfl, hl⟩ := takes_unique h (takes_arrow u)
            simp only [List.length_cons] at hl
            have e' : v ++ s = [62] ++ u := e
            obtain ⟨rfl, rfl⟩ := List.append_inj e' (by simp only [List.length_cons, List.length_nil]; omega)
            exact .arrow ih
          · exact absurd h (no_arrow fun t e => hs ⟨t, e⟩)
        · exact absurd h (takes_none rgRules_fine (alive_other (by simpa using hw) (by simpa using hb) (by simpa using he) ho h45))

theorem text_unique {s : Bytes} {ts ts' : List RxTok} (h : RxText s ts) (h' : RxText s ts') : ts = ts' := by
  obtain ⟨c, h1, rfl⟩ := cut_of_text h
  obtain ⟨c', h2, rfl⟩ := cut_of_text h'
  rw [cut_unique h1 h2]

end Verif.RegexGram
