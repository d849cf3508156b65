import Verif.Model.TreeText
import Verif.Proofs.GrammarText
import Verif.Spec.Tree
/- Printing and reading trees. -/
namespace Verif.TreeText
open Verif.Spec Verif.Grammar

variable {R : Type}

theorem many_all {c : Char → Bool} {k : Str → Str → Option R} {r : R} : ∀ (a rest acc : Str),
    (∀ x ∈ a, c x = true) → (∀ x, rest.head? = some x → c x = false) → k (acc ++ a) rest = some r →
    many c k acc (a ++ rest) = some r := by
  intro a
  induction a with
  | nil =>
    intro rest acc _ hr hk
    simp only [List.append_nil] at hk
    cases rest with
    | nil => simpa [many] using hk
    | cons x xs => simp [many, hr x rfl, hk]
  | cons x a ih =>
    intro rest acc ha hr hk
    rw [List.cons_append, many, if_pos (ha x (by simp)), ih rest (acc ++ [x]) (fun y hy => ha y (by simp [hy])) hr
      (by simpa using hk)]
    rfl

theorem opt_ne {x : Char} {k : Bool → Str → Option R} {s : Str} (h : ∀ y, s.head? = some y → y ≠ x) :
    opt x k s = k false s := by
  cases s with
  | nil => rfl
  | cons y ys => simp [opt, h y rfl]

theorem opt_eq {x : Char} {k : Bool → Str → Option R} {s : Str} {r : R} (h : k true s = some r) :
    opt x k (x :: s) = some r := by simp [opt, h]

/-- Sequences of unescaped and escaped characters. -/
inductive Items : Str → Prop
  | nil : Items []
  | plain {x s} : x ≠ '"' → x ≠ '\\' → Items s → Items (x :: s)
  | esc {y s} : y ≠ '\n' → Items s → Items ('\\' :: y :: s)

theorem Items.append {a b} (h : Items a) (hb : Items b) : Items (a ++ b) := by
  induction h with
  | nil => exact hb
  | plain h1 h2 _ ih => exact .plain h1 h2 ih
  | esc h1 _ ih => exact .esc h1 ih

theorem manyQ_all {k : Str → Str → Option R} {r : R} {a : Str} (h : Items a) : ∀ (rest acc : Str),
    k (acc ++ a) ('"' :: rest) = some r → manyQ k acc (a ++ '"' :: rest) = some r := by
  induction h with
  | nil =>
    intro rest acc hk
    simp only [List.append_nil] at hk
    cases rest with
    | nil => simpa [manyQ] using hk
    | cons y ys => simpa [manyQ] using hk
  | @plain x s h1 h2 _ ih =>
    intro rest acc hk
    have := ih rest (acc ++ [x]) (by simpa using hk)
    cases s with
    | nil =>
      simp only [List.nil_append, List.cons_append] at this ⊢
      rw [manyQ, if_pos ⟨h1, h2⟩, this]; rfl
    | cons y s =>
      simp only [List.cons_append] at this ⊢
      rw [manyQ, if_pos ⟨h1, h2⟩, this]; rfl
  | @esc y s h1 _ ih =>
    intro rest acc hk
    have := ih rest (acc ++ ['\\', y]) (by simpa using hk)
    simp only [List.cons_append]
    rw [manyQ, if_neg (by simp), if_pos ⟨rfl, h1⟩, this]; rfl

theorem hex_mem (n : Nat) : hex n ∈ ['0', '1', '2', '3', '4', '5', '6', '7', '8', '9', 'a', 'b', 'c', 'd', 'e', 'f'] := by
  unfold hex
  have h : n % 16 < 16 := Nat.mod_lt _ (by decide)
  have key : ∀ m : Fin 16, (['0', '1', '2', '3', '4', '5', '6', '7', '8', '9', 'a', 'b', 'c', 'd', 'e', 'f'][m.val]?).getD '0' ∈
    ['0', '1', '2', '3', '4', '5', '6', '7', '8', '9', 'a', 'b', 'c', 'd', 'e', 'f'] := by decide
  exact key ⟨n % 16, h⟩

theorem hex_plain (n : Nat) : hex n ≠ '"' ∧ hex n ≠ '\\' ∧ hex n ≠ '\n' := by
  have h := hex_mem n
  generalize hex n = c at h
  simp only [List.mem_cons, List.not_mem_nil, or_false] at h
  rcases h with rfl | rfl | rfl | rfl | rfl | rfl | rfl | rfl | rfl | rfl | rfl | rfl | rfl | rfl | rfl | rfl <;> decide

/-- A character that survives quoting and reading. -/
def OkChar (isPrint : Char → Bool) (c : Char) : Prop := isPrint c = true ∨ c = '\n' ∨ c = '"' ∨ c = '\\'

/-- What `quoteChar` can produce. -/
theorem quoteChar_cases (isPrint : Char → Bool) (hp : isPrint '\n' = false) (c : Char) :
    (quoteChar isPrint c = [c] ∧ isPrint c = true ∧ c ≠ '"' ∧ c ≠ '\\') ∨
    (quoteChar isPrint c = ['\\', c] ∧ (c = '"' ∨ c = '\\')) ∨
    (quoteChar isPrint c = ['\\', 'n'] ∧ c = '\n') ∨
    (¬ OkChar isPrint c ∧ ∃ y t, quoteChar isPrint c = '\\' :: y :: t ∧
      (y ≠ '\\' ∧ y ≠ 'n' ∧ y ≠ '"' ∧ y ≠ '\n') ∧ ∀ z ∈ t, z ≠ '"' ∧ z ≠ '\\' ∧ z ≠ '\n') := by
  unfold OkChar
  by_cases h1 : c = '"' ∨ c = '\\'
  · exact .inr (.inl ⟨by rw [quoteChar, if_pos h1], h1⟩)
  · by_cases h2 : isPrint c = true
    · refine .inl ⟨by rw [quoteChar, if_neg h1, if_pos h2], h2, fun h => h1 (.inl h), fun h => h1 (.inr h)⟩
    · by_cases h3 : c = '\n'
      · subst h3
        refine .inr (.inr (.inl ⟨?_, rfl⟩))
        simp [quoteChar, hp]
      · refine .inr (.inr (.inr ⟨?_, ?_⟩))
        · rintro (h | h | h | h)
          · exact h2 h
          · exact h3 h
          · exact h1 (.inl h)
          · exact h1 (.inr h)
        · rw [quoteChar, if_neg h1, if_neg h2]
          by_cases e1 : c.toNat = 7
          · exact ⟨_, _, by rw [if_pos e1], by decide, by simp⟩
          by_cases e2 : c.toNat = 8
          · exact ⟨_, _, by rw [if_neg e1, if_pos e2], by decide, by simp⟩
          by_cases e3 : c.toNat = 12
          · exact ⟨_, _, by rw [if_neg e1, if_neg e2, if_pos e3], by decide, by simp⟩
          by_cases e4 : c = '\r'
          · exact ⟨_, _, by rw [if_neg e1, if_neg e2, if_neg e3, if_neg h3, if_pos e4], by decide, by simp⟩
          by_cases e5 : c = '\t'
          · exact ⟨_, _, by rw [if_neg e1, if_neg e2, if_neg e3, if_neg h3, if_neg e4, if_pos e5], by decide, by simp⟩
          by_cases e6 : c.toNat = 11
          · exact ⟨_, _, by rw [if_neg e1, if_neg e2, if_neg e3, if_neg h3, if_neg e4, if_neg e5, if_pos e6], by decide, by simp⟩
          rw [if_neg e1, if_neg e2, if_neg e3, if_neg h3, if_neg e4, if_neg e5, if_neg e6]
          have hx : ∀ (l : List Nat), ∀ z ∈ l.map hex, z ≠ '"' ∧ z ≠ '\\' ∧ z ≠ '\n' := by
            intro l z hz
            obtain ⟨n, _, rfl⟩ := List.mem_map.1 hz
            exact hex_plain n
          split
          · exact ⟨_, _, rfl, by decide, hx [_, _]⟩
          · split
            · exact ⟨_, _, rfl, by decide, hx [_, _, _, _]⟩
            · exact ⟨_, _, rfl, by decide, hx [_, _, _, _, _, _, _, _]⟩

variable {isPrint : Char → Bool}

theorem quoteChar_items (hp : isPrint '\n' = false) (c : Char) : Items (quoteChar isPrint c) := by
  rcases quoteChar_cases isPrint hp c with ⟨e, _, h1, h2⟩ | ⟨e, h⟩ | ⟨e, h⟩ | ⟨_, y, t, e, hy, ht⟩ <;> rw [e]
  · exact .plain h1 h2 .nil
  · exact .esc (by rcases h with rfl | rfl <;> decide) .nil
  · exact .esc (by decide) .nil
  · refine .esc hy.2.2.2 ?_
    clear e
    induction t with
    | nil => exact .nil
    | cons z t ih =>
      exact .plain (ht z (by simp)).1 (ht z (by simp)).2.1 (ih fun z hz => ht z (by simp [hz]))

theorem body_items (hp : isPrint '\n' = false) (v : Str) : Items (v.flatMap (quoteChar isPrint)) := by
  induction v with
  | nil => exact .nil
  | cons c v ih => rw [List.flatMap_cons]; exact (quoteChar_items hp c).append ih

theorem quoteChar_noline (hp : isPrint '\n' = false) (c : Char) : '\n' ∉ quoteChar isPrint c := by
  rcases quoteChar_cases isPrint hp c with ⟨e, h0, h1, h2⟩ | ⟨e, h⟩ | ⟨e, h⟩ | ⟨_, y, t, e, hy, ht⟩ <;> rw [e] <;> intro hm
  · simp at hm; subst hm; rw [hp] at h0; cases h0
  · simp at hm; subst hm; simp at h
  · simp at hm
  · simp only [List.mem_cons] at hm
    rcases hm with hm | hm | hm
    · revert hm; decide
    · exact hy.2.2.2 hm.symm
    · exact (ht _ hm).2.2 rfl

theorem handleSlash_plain {c : Char} (h : c ≠ '\\') (s : Str) : handleSlash (c :: s) = c :: handleSlash s := by
  cases s with
  | nil => rfl
  | cons y ys => simp [handleSlash, h]

theorem handleSlash_plains : ∀ (t s : Str), (∀ z ∈ t, z ≠ '\\') → handleSlash (t ++ s) = t ++ handleSlash s := by
  intro t
  induction t with
  | nil => intro s _; rfl
  | cons z t ih =>
    intro s h
    rw [List.cons_append, handleSlash_plain (h z (by simp)), ih s fun z hz => h z (by simp [hz])]
    rfl

theorem handleSlash_quoteChar (hp : isPrint '\n' = false) (c : Char) (s : Str) :
    (OkChar isPrint c → handleSlash (quoteChar isPrint c ++ s) = c :: handleSlash s) ∧
    (¬ OkChar isPrint c → handleSlash (quoteChar isPrint c ++ s) = quoteChar isPrint c ++ handleSlash s ∧
      2 ≤ (quoteChar isPrint c).length) := by
  rcases quoteChar_cases isPrint hp c with ⟨e, h0, h1, h2⟩ | ⟨e, h⟩ | ⟨e, h⟩ | ⟨h, y, t, e, hy, ht⟩ <;> rw [e]
  · exact ⟨fun _ => handleSlash_plain h2 s, fun h => absurd (.inl h0) h⟩
  · refine ⟨fun _ => ?_, fun h' => ?_⟩
    · rcases h with rfl | rfl <;> simp [handleSlash]
    · exact absurd (h.elim (fun h => .inr (.inr (.inl h))) fun h => .inr (.inr (.inr h))) h'
  · subst h
    exact ⟨fun _ => by simp [handleSlash], fun h' => absurd (.inr (.inl rfl)) h'⟩
  · refine ⟨fun h' => absurd h' h, fun _ => ⟨?_, by simp⟩⟩
    rw [List.cons_append, List.cons_append, handleSlash, if_neg (by simp [hy.1]), if_neg (by simp [hy.2.1]),
      if_neg (by simp [hy.2.2.1]), handleSlash_plain hy.1, handleSlash_plains t s fun z hz => (ht z hz).2.1]
    rfl

/-- Reading back a quoted value gives the value iff all its characters survive. -/
theorem unquote_iff (hp : isPrint '\n' = false) (v : Str) :
    (handleSlash (v.flatMap (quoteChar isPrint)) = v ↔ ∀ c ∈ v, OkChar isPrint c) ∧
    v.length ≤ (handleSlash (v.flatMap (quoteChar isPrint))).length := by
  induction v with
  | nil => simp [handleSlash]
  | cons c v ih =>
    rw [List.flatMap_cons]
    obtain ⟨h1, h2⟩ := handleSlash_quoteChar hp c (v.flatMap (quoteChar isPrint))
    by_cases hc : OkChar isPrint c
    · rw [h1 hc]
      refine ⟨?_, by simp [ih.2]⟩
      simp only [List.cons.injEq, true_and, List.mem_cons, forall_eq_or_imp, hc]
      exact ih.1
    · obtain ⟨h3, h4⟩ := h2 hc
      rw [h3]
      refine ⟨⟨fun e => ?_, fun h => absurd (h c (by simp)) hc⟩, ?_⟩
      · have := congrArg List.length e
        simp at this
        have := ih.2
        omega
      · simp
        have := ih.2
        omega

/-! ### Lines -/

/-- A kind that survives printing and reading. -/
def GoodKind (k : Str) : Prop := k ≠ [] ∧ ∀ c ∈ k, isK c = true

theorem isK_not_isS {c : Char} (h : isK c = true) : isS c = false := by
  simp [isK] at h; simpa using h.2.2.2.2

/-- The value part of a line. -/
def valPart (isPrint : Char → Bool) (v : Str) : Str := if v ≠ [] then [':', ' '] ++ quote isPrint v else []

/-- The end of a line. -/
def opPart (op : Bool) : Str := if op then [' ', '{'] else []

theorem tailRe_op (close : Bool) (kind val : Str) (op : Bool) :
    tailRe close kind val (opPart op) = some (close, kind, val, op) := by
  cases op
  · rfl
  · simp [tailRe, opPart, many, isS, opt, atEnd]

theorem valueGroup_val (hp : isPrint '\n' = false) (close : Bool) (kind v : Str) (op : Bool) :
    afterKind close kind (valPart isPrint v ++ opPart op) =
      some (close, kind, v.flatMap (quoteChar isPrint), op) := by
  by_cases hv : v = []
  · subst hv
    cases op
    · simp [afterKind, valPart, opPart, many, valueGroup, tailRe, opt, atEnd]
    · simp [afterKind, valPart, opPart, many, valueGroup, tailRe, opt, atEnd, isS]
  · rw [valPart, if_pos hv]
    unfold afterKind
    refine many_all [] _ [] (by simp) ?_ ?_
    · intro x hx; simp at hx; subst hx; rfl
    · have e : ([':', ' '] ++ quote isPrint v) ++ opPart op =
          ':' :: ([' '] ++ ('"' :: (v.flatMap (quoteChar isPrint) ++ '"' :: opPart op))) := by
        simp [quote]
      show valueGroup (fun val s => tailRe close kind val s) ([':', ' '] ++ quote isPrint v ++ opPart op) = _
      rw [e]
      unfold valueGroup
      simp only [if_pos]
      rw [many_all (r := (close, kind, v.flatMap (quoteChar isPrint), op)) [' '] _ [] (by simp [isS])
        (by intro x hx; simp at hx; subst hx; rfl)]
      · rfl
      · simp only [if_pos]
        exact manyQ_all (body_items hp v) _ _ (by simp [tailRe_op])

theorem treeLine_node (hp : isPrint '\n' = false) (n : Nat) (kind v : Str) (op : Bool) (hk : GoodKind kind) :
    treeLine (List.replicate n '\t' ++ kind ++ valPart isPrint v ++ opPart op) =
      some (false, kind, v.flatMap (quoteChar isPrint), op) := by
  obtain ⟨hne, hk⟩ := hk
  cases kind with
  | nil => exact absurd rfl hne
  | cons x xs =>
    have hx := hk x (by simp)
    have hxs := isK_not_isS hx
    rw [show List.replicate n '\t' ++ (x :: xs) ++ valPart isPrint v ++ opPart op =
      List.replicate n '\t' ++ (x :: (xs ++ (valPart isPrint v ++ opPart op))) from by simp]
    unfold treeLine
    refine many_all _ _ [] ?_ ?_ ?_
    · intro c hc; rw [List.mem_replicate] at hc; rw [hc.2]; rfl
    · intro c hc; simp at hc; subst hc; exact hxs
    · rw [opt_ne]
      · refine many_all [] _ [] (by simp) ?_ ?_
        · intro c hc; simp at hc; subst hc; exact hxs
        · unfold kindRe
          simp only [hx, if_true]
          rw [many_all (r := (false, x :: xs, v.flatMap (quoteChar isPrint), op)) xs _ [x]]
          · rfl
          · exact fun y hy => hk y (by simp [hy])
          · intro y hy
            by_cases hv : v = []
            · subst hv
              cases op
              · simp [valPart, opPart] at hy
              · simp [valPart, opPart] at hy; subst hy; rfl
            · rw [valPart, if_pos hv] at hy
              simp at hy; subst hy; rfl
          · exact valueGroup_val hp false (x :: xs) v op
      · intro y hy
        simp at hy
        subst hy
        simp [isK] at hx
        exact hx.1

theorem treeLine_close (n : Nat) : treeLine (List.replicate n '\t' ++ ['}']) = some (true, [], [], false) := by
  unfold treeLine
  refine many_all _ _ [] ?_ ?_ ?_
  · intro c hc; rw [List.mem_replicate] at hc; rw [hc.2]; rfl
  · intro c hc; simp at hc; subst hc; rfl
  · simp [opt, many, kindRe, afterKind, valueGroup, tailRe, atEnd]

theorem treeLine_nil : treeLine [] = some (false, [], [], false) := by
  simp [treeLine, opt, many, kindRe, afterKind, valueGroup, tailRe, atEnd]

/-! ### The lines of a tree -/

/-- The line of a node. -/
def nodeLine (isPrint : Char → Bool) (n : Nat) (l : Lexeme Str Str) (op : Bool) : Str :=
  List.replicate n '\t' ++ l.kind ++ valPart isPrint l.val ++ opPart op

mutual
/-- The lines printed for a tree. -/
def lines (isPrint : Char → Bool) (n : Nat) : PN Str Str → List Str
  | .node l [] => [nodeLine isPrint n l false]
  | .node l (t :: ts) => nodeLine isPrint n l true :: (lines isPrint (n + 1) t ++ linesL isPrint (n + 1) ts) ++
      [List.replicate n '\t' ++ ['}']]
/-- The lines printed for a list of trees. -/
def linesL (isPrint : Char → Bool) (n : Nat) : List (PN Str Str) → List Str
  | [] => []
  | t :: ts => lines isPrint n t ++ linesL isPrint n ts
end

theorem lines_node (n : Nat) (l : Lexeme Str Str) {ks : List (PN Str Str)} (h : ks ≠ []) :
    lines isPrint n (.node l ks) = nodeLine isPrint n l true :: linesL isPrint (n + 1) ks ++
      [List.replicate n '\t' ++ ['}']] := by
  cases ks with
  | nil => exact absurd rfl h
  | cons t ts => rw [lines, linesL]

/-- Text of lines, each ended by a newline. -/
def text (ls : List Str) : Str := ls.flatMap (· ++ ['\n'])

theorem text_append (a b : List Str) : text (a ++ b) = text a ++ text b := by simp [text]

mutual
theorem segs_text (n : Nat) : ∀ (t : PN Str Str) (s : List Str),
    (segs isPrint (List.replicate n '\t') t s).flatten = s.flatten ++ text (lines isPrint n t)
  | .node l [], s => by
    rw [segs, lines]
    by_cases hv : l.val = []
    · simp [hv, text, nodeLine, valPart, opPart]
    · simp [hv, text, nodeLine, valPart, opPart, quote]
  | .node l (t :: ts), s => by
    have e : List.replicate n '\t' ++ ['\t'] = List.replicate (n + 1) '\t' := by rw [List.replicate_succ']
    rw [segs, lines_node _ _ (by simp)]
    simp only [List.length_cons, gt_iff_lt, Nat.zero_lt_succ, if_true, e, List.flatten_append]
    rw [segsL_text (n + 1) (t :: ts)]
    rw [text_append]
    by_cases hv : l.val = []
    · simp [hv, text, nodeLine, valPart, opPart]
    · simp [hv, text, nodeLine, valPart, opPart, quote]
theorem segsL_text (n : Nat) : ∀ (ts : List (PN Str Str)) (s : List Str),
    (segsL isPrint (List.replicate n '\t') ts s).flatten = s.flatten ++ text (linesL isPrint n ts)
  | [], s => by simp [segsL, linesL, text]
  | t :: ts, s => by
    rw [segsL, segsL_text n ts, segs_text n t, linesL, text_append, List.append_assoc]
end

/-- Every kind in the tree survives printing and reading. -/
def GoodKinds (t : PN Str Str) : Prop := ∀ l ∈ t.postorder, GoodKind l.kind

mutual
/-- What reading back a printed tree gives: values as read back, no positions. -/
def back (isPrint : Char → Bool) : PN Str Str → PN Str Str
  | .node l ks => .node ⟨l.kind, handleSlash (l.val.flatMap (quoteChar isPrint)), -1, 0⟩ (backs isPrint ks)
/-- The same for lists. -/
def backs (isPrint : Char → Bool) : List (PN Str Str) → List (PN Str Str)
  | [] => []
  | t :: ts => back isPrint t :: backs isPrint ts
end

mutual
theorem lines_noline (hp : isPrint '\n' = false) (n : Nat) : ∀ t : PN Str Str, (∀ l ∈ t.postorder, GoodKind l.kind) →
    ∀ s ∈ lines isPrint n t, '\n' ∉ s
  | .node l ks, h, s, hs => by
    have hl : ∀ op, '\n' ∉ nodeLine isPrint n l op := by
      intro op hm
      have hk := (h l (by rw [PN.postorder]; simp)).2
      simp only [nodeLine, List.mem_append, List.mem_replicate] at hm
      rcases hm with ((hm | hm) | hm) | hm
      · exact absurd hm.2 (by decide)
      · have := hk _ hm; revert this; decide
      · unfold valPart at hm
        split at hm
        · simp only [quote, List.mem_append, List.mem_cons, List.not_mem_nil, or_false, List.mem_flatMap] at hm
          rcases hm with (hm | hm) | (hm | ⟨c, _, hm⟩) | hm
          · revert hm; decide
          · revert hm; decide
          · revert hm; decide
          · exact quoteChar_noline hp c hm
          · revert hm; decide
        · cases hm
      · cases op <;> revert hm <;> decide
    by_cases hks : ks = []
    · subst hks
      rw [lines] at hs
      simp at hs; subst hs; exact hl false
    · rw [lines_node _ _ hks] at hs
      simp only [List.mem_append, List.mem_cons, List.not_mem_nil, or_false] at hs
      rcases hs with (rfl | hs) | rfl
      · exact hl true
      · exact linesL_noline hp (n + 1) ks (fun l hl => h l (by rw [PN.postorder]; simp [hl])) s hs
      · intro hm
        simp at hm
theorem linesL_noline (hp : isPrint '\n' = false) (n : Nat) : ∀ ts : List (PN Str Str),
    (∀ l ∈ postorders ts, GoodKind l.kind) → ∀ s ∈ linesL isPrint n ts, '\n' ∉ s
  | [], _, s, hs => by rw [linesL] at hs; cases hs
  | t :: ts, h, s, hs => by
    rw [linesL, List.mem_append] at hs
    rcases hs with hs | hs
    · exact lines_noline hp n t (fun l hl => h l (by rw [postorders]; simp [hl])) s hs
    · exact linesL_noline hp n ts (fun l hl => h l (by rw [postorders]; simp [hl])) s hs
end

mutual
theorem newLoop_lines (hp : isPrint '\n' = false) (n : Nat) : ∀ (t : PN Str Str) (ks) (ups) (rest : List Str),
    (∀ l ∈ t.postorder, GoodKind l.kind) →
    newLoop (some (ks, ups)) (lines isPrint n t ++ rest) = newLoop (some (ks ++ [back isPrint t], ups)) rest
  | .node l [], ks, ups, rest, h => by
    have hk := h l (by rw [PN.postorder]; simp)
    rw [lines, List.singleton_append, newLoop, nodeLine, treeLine_node hp n l.kind l.val false hk]
    simp only [Out.bind_ok, Bool.false_eq_true, if_false, if_pos hk.1, addNode, back, backs]
  | .node l (t :: ts), ks, ups, rest, h => by
    have hk := h l (by rw [PN.postorder]; simp)
    rw [lines_node _ _ (by simp), List.cons_append, List.cons_append, newLoop, nodeLine,
      treeLine_node hp n l.kind l.val true hk]
    simp only [Out.bind_ok, Bool.false_eq_true, if_false, addNode, if_true]
    rw [if_pos hk.1]
    simp only [Out.bind_ok]
    rw [List.append_assoc, newLoop_linesL hp (n + 1) (t :: ts) [] _ _ (fun l hl => h l (by rw [PN.postorder]; simp [hl]))]
    rw [List.singleton_append, newLoop, treeLine_close]
    simp [up, back]
theorem newLoop_linesL (hp : isPrint '\n' = false) (n : Nat) : ∀ (ts : List (PN Str Str)) (ks) (ups) (rest : List Str),
    (∀ l ∈ postorders ts, GoodKind l.kind) →
    newLoop (some (ks, ups)) (linesL isPrint n ts ++ rest) = newLoop (some (ks ++ backs isPrint ts, ups)) rest
  | [], ks, ups, rest, _ => by simp [linesL, backs]
  | t :: ts, ks, ups, rest, h => by
    rw [linesL, List.append_assoc, newLoop_lines hp n t _ _ _ (fun l hl => h l (by rw [postorders]; simp [hl])),
      newLoop_linesL hp n ts _ _ _ (fun l hl => h l (by rw [postorders]; simp [hl])), backs]
    simp
end

theorem pieces_text : ∀ ls : List Str, (∀ l ∈ ls, '\n' ∉ l) → Pieces '\n' (text ls) (ls ++ [[]]) := by
  intro ls
  induction ls with
  | nil => intro _; exact ⟨rfl, by simp⟩
  | cons l ls ih =>
    intro h
    have hl := ih fun l hl => h l (by simp [hl])
    cases hls : ls ++ [[]] with
    | nil => simp at hls
    | cons p ps =>
      rw [List.cons_append, hls]
      rw [hls] at hl
      exact ⟨text ls, by simp [text], h l (by simp), hl⟩

/-- Printing and reading a tree with good kinds. -/
theorem new_string (hp : isPrint '\n' = false) (t : PN Str Str) (h : GoodKinds t) :
    new (string isPrint t) = .ok (some (back isPrint t)) := by
  have e : string isPrint t = text (lines isPrint 0 t) := by
    have := segs_text (isPrint := isPrint) 0 t []
    simpa [string] using this
  rw [e, new, ← pieces_unique (pieces_text _ (lines_noline hp 0 t h)), newLoop_lines hp 0 t _ _ _ h, newLoop, treeLine_nil]
  rfl

/-! ### Sizes -/

mutual
theorem segs_length (n : Str) : ∀ (t : PN Str Str) (s : List Str),
    (segs isPrint n t s).length = s.length + Tree.sliceReq (fun v : Str => decide (v = [])) t
  | .node l ks, s => by
    rw [segs, Tree.sliceReq]
    by_cases hv : l.val = [] <;> by_cases hk : 0 < ks.length
    · simp [hv, hk, segsL_length, sliceReqs_add (fun v : Str => decide (v = [])) ks (3 + 2)]; omega
    · simp [hv, hk]
    · simp [hv, hk, segsL_length, sliceReqs_add (fun v : Str => decide (v = [])) ks (3 + 1 + 2)]; omega
    · simp [hv, hk]
theorem segsL_length (n : Str) : ∀ (ts : List (PN Str Str)) (s : List Str),
    (segsL isPrint n ts s).length = s.length + Tree.sliceReqs (fun v : Str => decide (v = [])) 0 ts
  | [], s => by rw [segsL, Tree.sliceReqs]; rfl
  | t :: ts, s => by
    rw [segsL, segsL_length n ts, segs_length n t, Tree.sliceReqs, sliceReqs_add _ ts (0 + _)]; omega
theorem sliceReqs_add (e : Str → Bool) : ∀ (ts : List (PN Str Str)) (r : Nat),
    Tree.sliceReqs e r ts = r + Tree.sliceReqs e 0 ts
  | [], r => by rw [Tree.sliceReqs, Tree.sliceReqs]; rfl
  | t :: ts, r => by
    rw [Tree.sliceReqs, Tree.sliceReqs, sliceReqs_add e ts (r + _), sliceReqs_add e ts (0 + _)]; omega
end

mutual
theorem size_eq {α V : Type} : ∀ t : PN α V, Tree.size t = t.postorder.length
  | .node l ks => by rw [Tree.size, sizes_eq ks, PN.postorder]; simp; omega
theorem sizes_eq {α V : Type} : ∀ (ts : List (PN α V)) (n : Nat), Tree.sizes n ts = n + (postorders ts).length
  | [], n => by rw [Tree.sizes, postorders]; rfl
  | t :: ts, n => by rw [Tree.sizes, sizes_eq ts, size_eq t, postorders]; simp; omega
end

end Verif.TreeText
