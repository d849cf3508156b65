import Verif.Model.SimpleLexerString
import Verif.Props.LexerDef
/-
C78: `String` of a simple lexer can be read back by `New`.

The comment at construct.go:105-106 says that the output of `String` can be used to make a copy of the lexer.
-/
namespace Verif.Props.SimpleLexerString
open Verif Verif.SimpleLexer Verif.Spec Verif.Spec.LexerDef Verif.Props.SimpleLexer Verif.Props.LexerDef

/-- A name that can stand in a definition: not empty, no white space, no slash. -/
def PlainName (n : Bytes) : Prop := n ≠ [] ∧ ∀ x ∈ n, gap x = false

/-- An expression that can stand in a definition: not empty, on one line, with a backslash before every slash. -/
def Writable (e : Bytes) : Prop := e ≠ [] ∧ 10 ∉ e ∧ ∀ p q, e = p ++ 47 :: q → p.getLast? = some 92

/-- A rule as text: its name, the text of its expression, whether it is discarded. -/
abbrev Text := Bytes × Bytes × Bool

/-- The rule `x` has the name, the expression and the mark of the text. -/
def Made (compile : Bytes → Option Re) (r : Text) (x : Bytes × Re × Bool) : Prop :=
  x.1 = r.1 ∧ compile r.2.1 = some x.2.1 ∧ x.2.2 = r.2.2

/-- The texts of expressions by kind. -/
def srcOf (rs : List Text) (k : Nat) : Bytes := (rs[k]?.map fun r => r.2.1).getD []

/-- What `String` writes for the expression. -/
def shownExpr (r : Text) : Bytes := if r.2.1 = r.1 then [] else r.2.1

/-- The line for a rule. -/
def lineOf (w : Nat) (r : Text) : Bytes :=
  ruleLine w r.1 (if r.2.1 = r.1 then [] else 47 :: (r.2.1 ++ [47])) (if r.2.2 then [45] else [])

theorem space_gap {x : UInt8} (h : RxByte.space x = true) : gap x = true := by simp [gap, h]

theorem run_spaces (k : Nat) {r : Bytes} (h : NoHead RxByte.space r) : Run RxByte.space (List.replicate k 32 ++ r) (List.replicate k 32) r :=
  ⟨rfl, fun x hx => by rw [(List.mem_replicate.1 hx).2]; rfl, h⟩

theorem line_says (w : Nat) (r : Text) (hn : PlainName r.1) (he : r.2.1 ≠ r.1 → Writable r.2.1) :
    SimpleLine (lineOf w r) r.1 (shownExpr r) r.2.2 := by
  obtain ⟨n, e, d⟩ := r
  simp only at hn he
  have hnl : ∀ t : Bytes, (∃ z, t = 32 :: z) → NoHead (fun x => !gap x) t := by
    rintro t ⟨z, rfl⟩
    intro x s hx
    cases hx
    decide
  have named : ∀ t : Bytes, (∃ z, t = 32 :: z) → Named (n ++ t) n t := by
    intro t ht
    refine ⟨⟨[], n ++ t, ⟨rfl, by simp, ?_⟩, ⟨rfl, fun x hx => by simp [hn.2 x hx], hnl t ht⟩⟩, hn.1⟩
    intro x s hx
    cases n with
    | nil => exact absurd rfl hn.1
    | cons y n =>
      rw [List.cons_append] at hx
      cases hx
      exact hn.2 _ (.head _)
  have hd : NoHead RxByte.space (if d then [45] else [] : Bytes) := by
    intro x s hx
    cases d
    · cases hx
    · cases hx; decide
  have hdm : d = true ↔ ∃ z, (if d then [45] else [] : Bytes) = 45 :: z := by
    cases d <;> simp
  by_cases hne : e = n
  · subst hne
    have hl : lineOf w (e, e, d) = e ++ (List.replicate (w - symLen e + 2) 32 ++ (if d then [45] else [])) := by
      simp only [lineOf, ruleLine, if_true, List.nil_append, List.append_assoc]
      congr 1
      rw [List.replicate_add, List.append_assoc]
      rfl
    rw [hl]
    refine ⟨_, _, _, _, [], _, named _ ⟨_, by rw [List.replicate_succ, List.cons_append]⟩, run_spaces _ hd, .inr ⟨?_, ?_, rfl⟩, ⟨rfl, by simp, hd⟩, hdm⟩
    · intro v e' t h
      cases d
      · cases h
      · cases h
    · simp [shownExpr]
  · obtain ⟨w1, w2, w3⟩ := he hne
    have hl : lineOf w (n, e, d) = n ++ (List.replicate (w - symLen n + 1) 32 ++ 47 :: (e ++ 47 :: (32 :: (if d then [45] else [])))) := by
      simp only [lineOf, ruleLine, if_neg hne, List.append_assoc]
      congr 1
      rw [List.replicate_add, List.append_assoc]
      simp
    rw [hl]
    refine ⟨_, _, _, _, [32], _, named _ ⟨_, by rw [List.replicate_succ, List.cons_append]⟩, run_spaces _ ?_, .inl ⟨_, rfl, ?_⟩, ⟨rfl, by simp; decide, hd⟩, hdm⟩
    · intro x s hx; cases hx; decide
    · simp only [shownExpr, if_neg hne]
      refine ⟨rfl, w1, w3, fun _ => ?_⟩
      cases d <;> simp

theorem line_flat (w : Nat) (r : Text) (hn : PlainName r.1) (he : r.2.1 ≠ r.1 → Writable r.2.1) : 10 ∉ lineOf w r := by
  obtain ⟨n, e, d⟩ := r
  simp only at hn he
  intro h
  simp only [lineOf, ruleLine, List.mem_append, List.mem_cons, List.mem_replicate] at h
  rcases h with (h | h) | h | h | h | h
  · have := hn.2 10 h
    revert this; decide
  · exact absurd h.2 (by decide)
  · exact absurd h (by decide)
  · split at h
    · cases h
    · next hne =>
      simp only [List.mem_cons, List.mem_append, List.not_mem_nil, or_false] at h
      rcases h with h | h | h
      · exact absurd h (by decide)
      · exact (he hne).2.1 h
      · exact absurd h (by decide)
  · exact absurd h (by decide)
  · cases d
    · cases h
    · simp at h

theorem join_lines : ∀ ls : List Bytes, ls ≠ [] → (∀ l ∈ ls, 10 ∉ l) → Lines (joinLines ls) ls
  | [], h, _ => absurd rfl h
  | [x], _, h => .last (h x (.head _))
  | x :: y :: xs, _, h => .more (h x (.head _)) (join_lines (y :: xs) (by simp) fun l hl => h l (.tail _ hl))

/-! ### What `String` writes -/

theorem longest_ok (l : Lexer) : ∀ (rs : List (Option Rule)) (w : Nat), (∀ r ∈ rs, ∃ x, r = some x ∧ x.kind < l.set.symb2str.length) →
    ∃ v, longestKind l rs w = .ok v
  | [], w, _ => ⟨w, rfl⟩
  | r :: rs, w, h => by
    obtain ⟨x, rfl, hx⟩ := h r (.head _)
    rw [longestKind, List.getElem?_eq_getElem hx]
    exact longest_ok l rs _ fun r hr => h r (.tail _ hr)

theorem loop_ok (l : Lexer) (src : Nat → Bytes) (w : Nat) (f : Nat → Bytes) : ∀ ks : List Nat, (∀ k ∈ ks, stringOne l src w k = .ok (f k)) →
    stringLoop l src w ks = .ok (ks.map f)
  | [], _ => rfl
  | k :: ks, h => by
    rw [stringLoop, h k (.head _)]
    show (stringLoop l src w ks).bind _ = _
    rw [loop_ok l src w f ks fun k hk => h k (.tail _ hk)]
    rfl

theorem made_length {compile : Bytes → Option Re} {rs : List Text} {a : List (Bytes × Re × Bool)} (h : List.Forall₂ (Made compile) rs a) :
    rs.length = a.length := h.length_eq

theorem made_names {compile : Bytes → Option Re} {rs : List Text} {a : List (Bytes × Re × Bool)} (h : List.Forall₂ (Made compile) rs a) :
    a.map Prod.fst = rs.map Prod.fst := by
  induction h with
  | nil => rfl
  | cons h _ ih => rw [List.map_cons, List.map_cons, ih, h.1]

theorem made_get {compile : Bytes → Option Re} {rs : List Text} {a : List (Bytes × Re × Bool)} (h : List.Forall₂ (Made compile) rs a) :
    ∀ (i : Nat) (hi : i < rs.length) (hj : i < a.length), Made compile rs[i] a[i] := by
  induction h with
  | nil => intro i hi; cases hi
  | cons h _ ih =>
    intro i hi hj
    cases i with
    | zero => exact h
    | succ i => exact ih i (by simpa using hi) (by simpa using hj)

theorem string_lines {compile : Bytes → Option Re} {rs : List Text} {a : List (Bytes × Re × Bool)} (h : List.Forall₂ (Made compile) rs a)
    (hd : (rs.map Prod.fst).Nodup) : ∃ w, string (addAll a) (srcOf rs) = .ok (joinLines (rs.map (lineOf w))) := by
  have hd' : (a.map Prod.fst).Nodup := by rw [made_names h]; exact hd
  have hi := is_all a
  rw [accepted_all a hd'] at hi
  obtain ⟨w, hw⟩ := longest_ok (addAll a) (addAll a).rules 0 (by
    intro r hr
    rw [hi.rules] at hr
    obtain ⟨i, hi', rfl⟩ := List.mem_mapIdx.1 hr
    exact ⟨_, rfl, by rw [hi.set, List.length_map]; exact hi'⟩)
  refine ⟨w, ?_⟩
  rw [string, hw]
  show (stringLoop (addAll a) (srcOf rs) w (addAll a).order).bind _ = _
  rw [loop_ok (addAll a) (srcOf rs) w (fun k => (rs[k]?.map (lineOf w)).getD []) (addAll a).order]
  · show Out.ok (joinLines _) = _
    congr 2
    rw [hi.order, ← made_length h]
    apply List.ext_getElem
    · simp
    · intro i h1 h2
      simp only [List.length_map, List.length_range] at h1
      simp [h1]
  · intro k hk
    rw [hi.order, List.mem_range] at hk
    have hk' : k < rs.length := by rw [made_length h]; exact hk
    obtain ⟨m1, m2, m3⟩ := made_get h k hk' hk
    rw [stringOne, hi.rules, hi.set, List.getElem?_mapIdx, List.getElem?_map, List.getElem?_eq_getElem hk]
    simp only [Option.map_some, srcOf, List.getElem?_eq_getElem hk', Option.getD_some, lineOf, m1, m3]

/-! ### C78 -/

/-- C78: if the names and expressions of a lexer made by `Add` can stand in a definition at all, `String` returns a text from
which `New` makes the same lexer. -/
theorem C78_copy (compile : Bytes → Option Re) (rs : List Text) (a : List (Bytes × Re × Bool)) (h : List.Forall₂ (Made compile) rs a)
    (hd : (rs.map Prod.fst).Nodup) (hn : ∀ r ∈ rs, PlainName r.1) (he : ∀ r ∈ rs, r.2.1 ≠ r.1 → Writable r.2.1) :
    ∃ t, string (addAll a) (srcOf rs) = .ok t ∧ new compile [t] = .ok (some (addAll a)) := by
  obtain ⟨w, hw⟩ := string_lines h hd
  refine ⟨_, hw, ?_⟩
  have hsay : ∃ ls, List.Forall₂ Lines [joinLines (rs.map (lineOf w))] ls ∧
      SimpleRows ls.flatten (rs.map fun r => (r.1, shownExpr r, r.2.2)) := by
    cases rs with
    | nil => exact ⟨[[[]]], .cons (.last (by intro h; cases h)) .nil, .blank (by intro x hx; cases hx) .nil⟩
    | cons r rs =>
      refine ⟨[(r :: rs).map (lineOf w)], .cons (join_lines _ (by simp) ?_) .nil, ?_⟩
      · intro l hl
        obtain ⟨r', hr, rfl⟩ := List.mem_map.1 hl
        exact line_flat w r' (hn r' hr) (he r' hr)
      · rw [List.flatten_cons, List.flatten_nil, List.append_nil]
        clear h hd hw
        generalize r :: rs = rs at hn he
        induction rs with
        | nil => exact .nil
        | cons r rs ih =>
          exact .line (line_says w r (hn r (.head _)) (he r (.head _))) (ih (fun r hr => hn r (.tail _ hr)) fun r hr => he r (.tail _ hr))
  obtain ⟨ls, h1, h2⟩ := hsay
  have hcomp : List.Forall₂ (Compiled compile) (rs.map fun r => (r.1, shownExpr r, r.2.2)) a := by
    clear hd hw h1 h2
    induction h with
    | nil => exact .nil
    | @cons r x rs a hm _ ih =>
      refine .cons ⟨hm.1, ?_, hm.2.2⟩ (ih (fun r hr => hn r (.tail _ hr)) fun r hr => he r (.tail _ hr))
      rw [← hm.2.1]
      congr 1
      show (if shownExpr r = [] then r.1 else shownExpr r) = r.2.1
      by_cases hne : r.2.1 = r.1
      · rw [show shownExpr r = [] from if_pos hne, if_pos rfl, hne]
      · rw [show shownExpr r = r.2.1 from if_neg hne, if_neg (he r (.head _) hne).1]
  have hnames : ([] ++ a : List (Bytes × Re × Bool)).map Prod.fst = rs.map Prod.fst := by rw [List.nil_append, made_names h]
  obtain ⟨i1, i2⟩ := newLines_rows compile h2 [] (by simp)
  have hnew : new compile [joinLines (rs.map (lineOf w))] = .ok (newLines compile rSimple ls.flatten empty) := by
    rw [new, compile_simple]
    simp only
    rw [newDefs_lines compile rSimple h1]
  rw [hnew]
  cases hv : newLines compile rSimple ls.flatten empty with
  | none => exact absurd (by rw [hnames]; exact hd) (i2 hv a hcomp)
  | some v =>
    obtain ⟨a', j1, -, j3⟩ := i1 v hv
    rw [j3, List.nil_append, Compiled.unique j1 hcomp]

theorem rows_ok {ls : List Bytes} {rs : List Text} (h : SimpleRows ls rs) (hl : ∀ l ∈ ls, 10 ∉ l) :
    ∀ r ∈ rs, PlainName r.1 ∧ (r.2.1 ≠ [] → Writable r.2.1) := by
  induction h with
  | nil => intro r hr; cases hr
  | blank _ _ ih => exact ih fun l h => hl l (.tail _ h)
  | @line l ls n x m ps h1 _ ih =>
    intro r hr
    rcases List.mem_cons.1 hr with rfl | hr
    · have hflat := hl l (.head _)
      obtain ⟨r, a, b, t, c, d, hN, hR, hx, -⟩ := h1
      obtain ⟨⟨a', t', hN1, hN2⟩, hne⟩ := hN
      refine ⟨⟨hne, fun y hy => by simpa using hN2.all y hy⟩, fun hxne => ?_⟩
      rcases hx with ⟨v, rfl, hc⟩ | ⟨-, rfl, -⟩
      · refine ⟨hc.ne, fun h10 => hflat ?_, hc.esc⟩
        rw [hN1.eq, hN2.eq, hR.eq, hc.eq]
        simp [h10]
      · exact absurd rfl hxne
    · exact ih (fun l h => hl l (.tail _ h)) r hr

theorem lines_flat {t : Bytes} {ls : List Bytes} (h : Lines t ls) : ∀ l ∈ ls, 10 ∉ l := by
  induction h with
  | last h => intro l hl; cases List.mem_singleton.1 hl; exact h
  | more h _ ih =>
    intro l hl
    rcases List.mem_cons.1 hl with rfl | hl
    · exact h
    · exact ih l hl

/-- C78: for every lexer that `New` returns, `String` returns a text from which `New` makes the same lexer. -/
theorem C78_new (compile : Bytes → Option Re) (ts : List Bytes) (l : Lexer) (h : new compile ts = .ok (some l)) :
    ∃ rs, SimpleSays ts rs ∧ ∃ t, string l (srcOf (rs.map fun r => (r.1, exprOf r, r.2.2))) = .ok t ∧ new compile [t] = .ok (some l) := by
  obtain ⟨rs, hs⟩ := simpleSays_exists ts
  refine ⟨rs, hs, ?_⟩
  obtain ⟨ls, h1, h2⟩ := hs
  have hnew : new compile ts = .ok (newLines compile rSimple ls.flatten empty) := by
    rw [new, compile_simple]
    simp only
    rw [newDefs_lines compile rSimple h1]
  rw [hnew] at h
  simp only [Out.ok.injEq] at h
  obtain ⟨i1, -⟩ := newLines_rows compile h2 [] (by simp)
  obtain ⟨a, j1, j2, j3⟩ := i1 l h
  rw [List.nil_append] at j2 j3
  rw [j3]
  have hflat : ∀ l ∈ ls.flatten, 10 ∉ l := by
    clear h2 h hnew i1
    induction h1 with
    | nil => intro l hl; cases hl
    | cons h _ ih =>
      intro l hl
      rw [List.flatten_cons, List.mem_append] at hl
      rcases hl with hl | hl
      · exact lines_flat h l hl
      · exact ih l hl
  have hok := rows_ok h2 hflat
  apply C78_copy
  · clear j2 j3 h2 hok h hnew i1
    induction j1 with
    | nil => exact .nil
    | cons h _ ih => exact .cons h ih
  · rw [List.map_map]
    rw [Compiled.name j1] at j2
    exact j2
  · intro r hr
    obtain ⟨r', hr', rfl⟩ := List.mem_map.1 hr
    exact (hok r' hr').1
  · intro r hr hne
    obtain ⟨r', hr', rfl⟩ := List.mem_map.1 hr
    simp only [exprOf] at hne ⊢
    by_cases hx : r'.2.1 = []
    · rw [if_pos hx] at hne; exact absurd rfl hne
    · rw [if_neg hx]
      exact (hok r' hr').2 hx

/-! ### Concrete cases -/

/-- The lexer of the test for `String` (lexer_test.go:33-37, with the rules in another order). -/
def stringTest : List Bytes := [b "\n    word  /\\w+/\n    test\n    space /\\s+/ -\n  "]

/-- The texts of the expressions of the lexer that `New` makes, and whether it makes one. -/
def written (ts : List Bytes) (src : Nat → Bytes) : Option Bytes :=
  match new SimpleLexer.compile ts with
  | .ok (some l) => match string l src with
    | .ok t => some t
    | _ => none
  | _ => none

set_option maxRecDepth 100000 in
/-- What `String` writes for a lexer. -/
example : written stringTest (fun k => [b "\\w+", b "test", b "\\s+"][k]?.getD []) = some (b "word  /\\w+/ \ntest   \nspace /\\s+/ -") := by
  unfold stringTest
  simp only [b, litToList]
  decide +kernel

/-- The hypotheses of `C78_copy` hold for a lexer with an escaped slash in an expression and a name with an accent. -/
example : ∃ t, string (addAll [(b "é", ofRex Rex.eps, true), (b "x", ofRex Rex.eps, false)]) (srcOf [(b "é", b "a\\/b", true), (b "x", b "x", false)]) = .ok t ∧
    new (fun _ => some (ofRex Rex.eps)) [t] = .ok (some (addAll [(b "é", ofRex Rex.eps, true), (b "x", ofRex Rex.eps, false)])) := by
  refine C78_copy _ _ _ (.cons ⟨rfl, rfl, rfl⟩ (.cons ⟨rfl, rfl, rfl⟩ .nil)) (by decide +kernel) ?_ ?_
  · intro r hr
    simp only [List.mem_cons, List.not_mem_nil, or_false] at hr
    rcases hr with rfl | rfl
    · exact ⟨by decide +kernel, by decide +kernel⟩
    · exact ⟨by decide +kernel, by decide +kernel⟩
  · intro r hr hne
    simp only [List.mem_cons, List.not_mem_nil, or_false] at hr
    rcases hr with rfl | rfl
    · refine ⟨by decide +kernel, by decide +kernel, ?_⟩
      intro p q h
      have : ∀ (p : Bytes), b "a\\/b" = p ++ 47 :: q → p = [97, 92] := by
        intro p h
        match p, h with
        | [], h => exact absurd (List.cons.inj h).1 (by decide)
        | [x], h => exact absurd (List.cons.inj (List.cons.inj h).2).1 (by decide)
        | [x, y], h => 
          have h1 := List.cons.inj h
          have h2 := List.cons.inj h1.2
          rw [← h1.1, ← h2.1]
          rfl
        | [x, y, z], h =>
          have h3 := (List.cons.inj (List.cons.inj (List.cons.inj (List.cons.inj h).2).2).2).1
          exact absurd h3 (by decide)
        | x :: y :: z :: u :: v, h =>
          have h3 := (List.cons.inj (List.cons.inj (List.cons.inj (List.cons.inj h).2).2).2).2
          exact absurd h3.symm (by cases v <;> simp)
      rw [this p h]
      rfl
    · exact absurd rfl hne

/-- A lexer made by adding rules given as texts. -/
def made (rs : List Text) : Option (List (Bytes × Re × Bool)) :=
  rs.mapM fun r => (SimpleLexer.compile r.2.1).map fun re => (r.1, re, r.2.2)

/-- What the copy of a lexer makes of an input. -/
def copied (f : Lexer → Lexer) (rs : List Text) (input : Bytes) : Option (Option (List Named) × Option (List Named)) :=
  match made rs with
  | none => none
  | some a => match string (f (addAll a)) (srcOf rs) with
    | .ok t => match new SimpleLexer.compile [t] with
      | .ok (some l) => some (result (lex 20 (f (addAll a)) input), result (lex 20 l input))
      | _ => none
    | _ => none

set_option maxRecDepth 100000 in
/-- C78 fails for lexers in general: `String` does not tell that a lexer goes by priority, nor which lexemes it inserts, and the copy
gives other lexemes. -/
theorem C78_settings_refuted :
    copied byPriority [(b "a", b "a", false), (b "ab", b "ab", false)] (b "ab") =
      some (some [⟨some (b "Error"), b "ab", -1, 0, true⟩], some [⟨some (b "ab"), b "ab", 0, 1, false⟩]) ∧
    copied (insertEnd · (b "E") (b "e")) [(b "a", b "a", false)] (b "a") = some (some [⟨some (b "a"), b "a", 0, 1, false⟩, ⟨some (b "E"), b "e", -1, 0, false⟩], some [⟨some (b "a"), b "a", 0, 1, false⟩]) := by
  refine ⟨?_, ?_⟩ <;> decide +kernel

set_option maxRecDepth 100000 in
/-- C78 fails for lexers with rules added by `Add`: with a slash in an expression, or white space in a name, the copy has other
rules. -/
theorem C78_slash_refuted :
    copied id [(b "a", b "x/y", false)] (b "x/y") =
      some (some [⟨some (b "a"), b "x/y", 0, 1, false⟩], some [⟨some (b "a"), b "x", 0, 1, false⟩, ⟨some (b "Error"), b "/y", -1, 0, true⟩]) ∧
    copied id [(b "a b", b "x", false)] (b "x") =
      some (some [⟨some (b "a b"), b "x", 0, 1, false⟩], some [⟨some (b "Error"), b "x", -1, 0, true⟩]) := by
  refine ⟨?_, ?_⟩ <;> decide +kernel

/-- Whether the outcome is a panic. -/
def panics {α : Type} : Out α → Bool
  | .panic => true
  | _ => false

set_option maxRecDepth 100000 in
/-- C78 fails after an error of `Lex`, which puts the kind of errors into the set of symbols: a rule added after that leaves a gap in the table,
on which `String` panics. -/
theorem C78_hole_refuted :
    (match made [(b "a", b "a", false)] with
      | some a => match lex 20 (addAll a) (b "x") with
        | .ok (_, l) => (panics (string (add l (b "b") (ofRex Rex.eps) false).1 (fun _ => b "x")), panics (string (add (addAll a) (b "b") (ofRex Rex.eps) false).1 (fun _ => b "x")))
        | _ => (false, false)
      | none => (false, false)) = (true, false) := by
  decide +kernel

end Verif.Props.SimpleLexerString
