import Verif.Proofs.LexerDefHead
import Verif.Props.StackLexerNew
import Verif.Props.SimpleLexer
import Verif.Proofs.Lit
/-
C76: `New` of lexer/simplelexer/construct.go and of lexer/stacklexer/construct.go, from text on.
-/
namespace Verif.Props.LexerDef
open Verif Verif.Spec Verif.Spec.LexerDef
open Verif.SimpleLexer (Bytes)

/-! ### Lines -/

theorem lines_ne : ∀ t : Bytes, SimpleLexer.lines t ≠ []
  | [] => by simp [SimpleLexer.lines]
  | x :: t => by
    rw [SimpleLexer.lines]
    split
    · simp
    · cases SimpleLexer.lines t <;> simp

theorem lines_last : ∀ {l : Bytes}, 10 ∉ l → SimpleLexer.lines l = [l]
  | [], _ => rfl
  | x :: l, h => by
    have hx : ¬ x = SimpleLexer.nl := fun e => h (by rw [e]; exact .head _)
    rw [SimpleLexer.lines, if_neg hx, lines_last fun e => h (.tail _ e)]

theorem lines_more : ∀ {l : Bytes} (t : Bytes), 10 ∉ l → SimpleLexer.lines (l ++ 10 :: t) = l :: SimpleLexer.lines t
  | [], t, _ => by
    rw [List.nil_append, SimpleLexer.lines, if_pos (show (10 : UInt8) = SimpleLexer.nl from rfl)]
  | x :: l, t, h => by
    have hx : ¬ x = SimpleLexer.nl := fun e => h (by rw [e]; exact .head _)
    rw [List.cons_append, SimpleLexer.lines, if_neg hx, lines_more t fun e => h (.tail _ e)]

theorem lines_of {t : Bytes} {ls : List Bytes} (h : Lines t ls) : SimpleLexer.lines t = ls := by
  induction h with
  | last h => exact lines_last h
  | more h _ ih => rw [lines_more _ h, ih]

theorem lines_exist : ∀ t : Bytes, ∃ ls, Lines t ls
  | [] => ⟨[[]], .last (by simp)⟩
  | x :: t => by
    obtain ⟨ls, h⟩ := lines_exist t
    by_cases hx : x = 10
    · subst hx
      exact ⟨[] :: ls, .more (l := []) (by simp) h⟩
    · have hx' : ∀ l : Bytes, 10 ∉ l → 10 ∉ x :: l := by
        intro l hl hm
        rcases List.mem_cons.1 hm with e | hm
        · exact hx e.symm
        · exact hl hm
      cases h with
      | last h => exact ⟨_, .last (hx' _ h)⟩
      | @more l u ls h1 h2 => exact ⟨(x :: l) :: ls, .more (l := x :: l) (hx' _ h1) h2⟩

/-! ### Stack lexers -/

/-- A line as the code has it. -/
def toLine (p : Parts) : StackLexer.Line := ⟨p.name, p.expr, p.groups, p.move, p.minus⟩

/-- A definition as the code has it. -/
def toDefs (d : List (Bytes × List Parts)) : StackLexer.Defs := d.map fun x => (x.1, x.2.map toLine)

theorem toLine_inj {p q : Parts} (h : toLine p = toLine q) : p = q := by
  cases p; cases q
  simp only [toLine, StackLexer.Line.mk.injEq] at h
  simp [h]

theorem toDefs_inj {d e : List (Bytes × List Parts)} (h : toDefs d = toDefs e) : d = e := by
  refine List.map_injective_iff.2 (fun x y h => ?_) h
  obtain ⟨n, l⟩ := x
  obtain ⟨m, k⟩ := y
  simp only [Prod.mk.injEq] at h
  rw [h.1, List.map_injective_iff.2 (fun _ _ => toLine_inj) h.2]

theorem rows_of {ls : List Bytes} {ps : List Parts} (h : Rows ls ps) : ls.filterMap (StackLexer.lineOf rStack) = ps.map toLine := by
  induction h with
  | nil => rfl
  | blank h _ ih => rw [List.filterMap_cons, stack_blank h, ih]
  | line h _ ih => rw [List.filterMap_cons, stack_line h, List.map_cons, ih]; rfl

theorem rows_exist : ∀ ls : List Bytes, ∃ ps, Rows ls ps
  | [] => ⟨[], .nil⟩
  | l :: ls => by
    obtain ⟨ps, h⟩ := rows_exist ls
    by_cases hb : Blank l
    · exact ⟨ps, .blank hb h⟩
    · obtain ⟨p, hp⟩ := stack_exists hb
      exact ⟨p :: ps, .line hp h⟩

theorem says_of {t : Bytes} {d : List (Bytes × List Parts)} (h : Says t d) :
    (StackLexer.cutDefs rHead t.length t).2.map (fun x => (x.1, (SimpleLexer.lines x.2).filterMap (StackLexer.lineOf rStack))) = toDefs d := by
  obtain ⟨pre, l, h1, h2⟩ := h
  rw [cut_sections h1 _ (Nat.le_refl _)]
  clear h1
  induction h2 with
  | nil => rfl
  | cons h _ ih =>
    obtain ⟨e, ls, h3, h4⟩ := h
    simp only [toDefs, List.map_cons] at ih ⊢
    rw [ih, lines_of h3, rows_of h4, e]

theorem says_exists (t : Bytes) : ∃ d, Says t d := by
  obtain ⟨pre, l, h⟩ := sections_exist t
  have : ∃ d, List.Forall₂ (fun (x : Bytes × Bytes) (y : Bytes × List Parts) => y.1 = x.1 ∧ ∃ ls, Lines x.2 ls ∧ Rows ls y.2) l d := by
    clear h
    induction l with
    | nil => exact ⟨[], .nil⟩
    | cons x l ih =>
      obtain ⟨d, h⟩ := ih
      obtain ⟨ls, h1⟩ := lines_exist x.2
      obtain ⟨ps, h2⟩ := rows_exist ls
      exact ⟨(x.1, ps) :: d, .cons ⟨rfl, ls, h1, h2⟩ h⟩
  obtain ⟨d, hd⟩ := this
  exact ⟨d, pre, l, h, hd⟩

theorem saysAll_of {ts : List Bytes} {d : List (Bytes × List Parts)} (h : SaysAll ts d) : StackLexer.defsOf rHead rStack ts = toDefs d := by
  obtain ⟨ds, h, rfl⟩ := h
  unfold StackLexer.defsOf
  induction h with
  | nil => rfl
  | cons h _ ih =>
    rw [List.flatMap_cons, says_of h, ih]
    simp only [toDefs, List.flatten_cons, List.map_append]

theorem saysAll_exists : ∀ ts : List Bytes, ∃ d, SaysAll ts d
  | [] => ⟨[], [], .nil, rfl⟩
  | t :: ts => by
    obtain ⟨_, ds, h, rfl⟩ := saysAll_exists ts
    obtain ⟨d, h1⟩ := says_exists t
    exact ⟨_, d :: ds, .cons h1 h, rfl⟩

theorem newText_eq (compile : Bytes → Option StackLexer.Re) (ord ts : List Bytes) (n : Nat) :
    StackLexer.newText compile ord ts n = StackLexer.newLexer compile ord (StackLexer.defsOf rHead rStack ts) n := by
  unfold StackLexer.newText
  split
  · next d l h1 h2 =>
    have e1 : d = rHead := Option.some.inj (h1.symm.trans compile_head)
    have e2 : l = rStack := Option.some.inj (h2.symm.trans compile_stack)
    rw [e1, e2]
  · next h => exact (h _ _ compile_head compile_stack).elim

/-- C76 for stack lexers. Every list of texts says exactly one thing (`SaysAll`): which sub-lexers there are, and for each of their
lines the name, the expression, its groups, where to move and the minus sign. What `New` builds from the texts is what it builds
from that. -/
theorem C76_stack (ts : List Bytes) : ∃ d, SaysAll ts d ∧ (∀ d', SaysAll ts d' → d' = d) ∧
    ∀ compile ord n, StackLexer.newText compile ord ts n = StackLexer.newLexer compile ord (toDefs d) n := by
  obtain ⟨d, h⟩ := saysAll_exists ts
  refine ⟨d, h, fun d' h' => toDefs_inj ((saysAll_of h').symm.trans (saysAll_of h)), fun compile ord n => ?_⟩
  rw [newText_eq, saysAll_of h]

theorem toDefs_names (d : List (Bytes × List Parts)) : (toDefs d).map Prod.fst = d.map Prod.fst := by
  simp [toDefs, Function.comp_def]

open StackLexerNew in
/-- C76 with C46: the rules of the lexer that `New` builds from texts that say something well-formed are those the texts
declare, own ones in the order of declaration. Only the order within an inherited block is not as declared (`C46_refuted`). -/
theorem C76_contents_partial (compile : Bytes → Option StackLexer.Re) (ord : List Bytes) (ts : List Bytes) (d : List (Bytes × List Parts))
    (items : Bytes → List (Item Bytes Bytes StackLexer.Body)) (hs : SaysAll ts d) (hd : WellFormed compile (toDefs d) items)
    (hord : ∀ x ∈ d.map Prod.fst, x ∈ ord) :
    ∃ l, Out.Returns (StackLexer.newText compile ord ts) (l, false) ∧ (∀ x, l.lexers x ≠ none ↔ x ∈ d.map Prod.fst) ∧
      (∀ x ls d', d = (x, ls) :: d' → l.start = l.lexers x) ∧
      ∀ x s, l.lexers x = some s → ∃ v, Entries l.set.symb2str s v ∧ Collects items (items x) [] v := by
  obtain ⟨d0, h1, h2, h3⟩ := C76_stack ts
  cases h2 d hs
  obtain ⟨l, h4, h5, h6, h7⟩ := C46_contents_partial compile ord (toDefs d) items hd (by rw [toDefs_names]; exact hord)
  refine ⟨l, ?_, by simpa only [toDefs_names] using h5, fun x ls d' e => h6 x (ls.map toLine) (toDefs d') (by rw [e]; rfl), h7⟩
  rw [show StackLexer.newText compile ord ts = StackLexer.newLexer compile ord (toDefs d) from funext (h3 compile ord)]
  exact h4

open StackLexerNew in
/-- C76 with `C46_exact`: the rules exactly, for every iteration order of the map of sub-lexers. -/
theorem C76_exact (compile : Bytes → Option StackLexer.Re) (ord : List Bytes) (ts : List Bytes) (d : List (Bytes × List Parts))
    (items : Bytes → List (Item Bytes Bytes StackLexer.Body)) (hs : SaysAll ts d) (hd : WellFormed compile (toDefs d) items)
    (hord : ord.Perm (d.map Prod.fst)) :
    ∃ l D K, Out.Returns (StackLexer.newText compile ord ts) (l, false) ∧ l.set.symb2str = K ∧
      Visits items [] [] (ord.map Item.inh) D K ∧ (∀ x, l.lexers x ≠ none ↔ x ∈ d.map Prod.fst) ∧
      (∀ x ls d', d = (x, ls) :: d' → l.start = l.lexers x) ∧
      ∀ x s, l.lexers x = some s → ∃ v, Entries K s v ∧ CollectsBy K items (items x) [] v := by
  obtain ⟨d0, h1, h2, h3⟩ := C76_stack ts
  cases h2 d hs
  obtain ⟨l, D, K, h4, e, h8, -, h5, h6, h7⟩ := C46_exact compile ord (toDefs d) items hd (by rw [toDefs_names]; exact hord)
  refine ⟨l, D, K, ?_, e, h8, by simpa only [toDefs_names] using h5, fun x ls d' e => h6 x (ls.map toLine) (toDefs d') (by rw [e]; rfl),
    fun x s hx => ?_⟩
  · rw [show StackLexer.newText compile ord ts = StackLexer.newLexer compile ord (toDefs d) from funext (h3 compile ord)]
    exact h4
  · obtain ⟨v, h, h', -⟩ := h7 x s hx
    exact ⟨v, h, h'⟩

/-! ### Simple lexers -/

theorem simpleRows_exist : ∀ ls : List Bytes, ∃ ps, SimpleRows ls ps
  | [] => ⟨[], .nil⟩
  | l :: ls => by
    obtain ⟨ps, h⟩ := simpleRows_exist ls
    by_cases hb : Blank l
    · exact ⟨ps, .blank hb h⟩
    · obtain ⟨n, x, m, hp⟩ := simple_exists hb
      exact ⟨_, .line hp h⟩

theorem simpleSays_exists (ts : List Bytes) : ∃ rs, SimpleSays ts rs := by
  have : ∃ ls, List.Forall₂ Lines ts ls := by
    induction ts with
    | nil => exact ⟨[], .nil⟩
    | cons t ts ih =>
      obtain ⟨ls, h⟩ := ih
      obtain ⟨l, h1⟩ := lines_exist t
      exact ⟨l :: ls, .cons h1 h⟩
  obtain ⟨ls, h⟩ := this
  obtain ⟨rs, h1⟩ := simpleRows_exist ls.flatten
  exact ⟨rs, ls, h, h1⟩

open SimpleLexer in
theorem newLines_append (compile : Bytes → Option Re) (re : Rex) : ∀ (a b : List Bytes) (l : Lexer),
    newLines compile re (a ++ b) l = (newLines compile re a l).bind (newLines compile re b)
  | [], b, l => rfl
  | x :: a, b, l => by
    rw [List.cons_append, newLines, newLines]
    cases lineParts re x with
    | none => exact newLines_append compile re a b l
    | some q =>
      simp only
      cases compile q.2.1 with
      | none => rfl
      | some r =>
        simp only
        cases h : add l q.1 r q.2.2 with
        | mk l' ok =>
          cases ok with
          | true => exact newLines_append compile re a b l'
          | false => rfl

open SimpleLexer in
theorem newDefs_lines (compile : Bytes → Option Re) (re : Rex) {ts : List Bytes} {ls : List (List Bytes)} (h : List.Forall₂ Lines ts ls) :
    ∀ l : Lexer, newDefs compile re ts l = newLines compile re ls.flatten l := by
  induction h with
  | nil => intro l; rfl
  | @cons t a ts ls h _ ih =>
    intro l
    rw [newDefs, List.flatten_cons, newLines_append, lines_of h]
    cases newLines compile re a l with
    | none => rfl
    | some l' => exact ih l'

/-- The expression of a rule: the name, if there is no other. -/
def exprOf (r : Bytes × Bytes × Bool) : Bytes := if r.2.1 = [] then r.1 else r.2.1

/-- The rule as added: same name and minus sign, the expression compiled. -/
def Compiled (compile : Bytes → Option SimpleLexer.Re) (r : Bytes × Bytes × Bool) (x : Bytes × SimpleLexer.Re × Bool) : Prop :=
  x.1 = r.1 ∧ compile (exprOf r) = some x.2.1 ∧ x.2.2 = r.2.2

theorem Compiled.name {compile : Bytes → Option SimpleLexer.Re} {rs : List (Bytes × Bytes × Bool)} {a : List (Bytes × SimpleLexer.Re × Bool)}
    (h : List.Forall₂ (Compiled compile) rs a) : a.map Prod.fst = rs.map Prod.fst := by
  induction h with
  | nil => rfl
  | cons h _ ih => rw [List.map_cons, List.map_cons, ih, h.1]

open SimpleLexer Verif.Props.SimpleLexer in
theorem newLines_rows (compile : Bytes → Option Re) {ls : List Bytes} {rs : List (Bytes × Bytes × Bool)} (h : SimpleRows ls rs) :
    ∀ acc : List (Bytes × Re × Bool), (acc.map Prod.fst).Nodup →
      (∀ v, newLines compile rSimple ls (addAll acc) = some v →
        ∃ a, List.Forall₂ (Compiled compile) rs a ∧ ((acc ++ a).map Prod.fst).Nodup ∧ v = addAll (acc ++ a)) ∧
      (newLines compile rSimple ls (addAll acc) = none → ∀ a, List.Forall₂ (Compiled compile) rs a → ¬ ((acc ++ a).map Prod.fst).Nodup) := by
  induction h with
  | nil =>
    intro acc hacc
    refine ⟨fun v hv => ⟨[], .nil, by simpa using hacc, ?_⟩, fun hn => by cases hn⟩
    rw [newLines] at hv
    cases hv
    rw [List.append_nil]
  | blank hb _ ih =>
    intro acc hacc
    rw [newLines, simple_blank hb]
    exact ih acc hacc
  | @line l ls n x m ps hl _ ih =>
    intro acc hacc
    rw [newLines, simple_line hl]
    simp only
    cases hc : compile (if x = [] then n else x) with
    | none =>
      refine ⟨fun v hv => (by cases hv), fun _ a ha => ?_⟩
      cases ha with
      | cons h1 _ =>
        have := h1.2.1
        rw [exprOf, hc] at this
        cases this
    | some r =>
      simp only
      have hdup := (C41_duplicate acc n r m).1
      cases hadd : add (addAll acc) n r m with
      | mk l' ok =>
        rw [hadd] at hdup
        cases ok with
        | true =>
          have hn : n ∉ acc.map Prod.fst := fun hm => by simpa using hdup.2 hm
          have hl' : l' = addAll (acc ++ [(n, r, m)]) := by
            rw [addAll, List.foldl_append, List.foldl_cons, List.foldl_nil]
            show l' = (add (addAll acc) n r m).1
            rw [hadd]
          simp only
          rw [hl']
          have hacc' : ((acc ++ [(n, r, m)]).map Prod.fst).Nodup := by
            rw [List.map_append, List.nodup_append]
            refine ⟨hacc, by simp, ?_⟩
            intro a ha b hb e
            simp only [List.map_cons, List.map_nil, List.mem_singleton] at hb
            exact hn (by rw [← hb, ← e]; exact ha)
          obtain ⟨i1, i2⟩ := ih _ hacc'
          refine ⟨fun v hv => ?_, fun hnone a ha => ?_⟩
          · obtain ⟨a, h1, h2, h3⟩ := i1 v hv
            refine ⟨(n, r, m) :: a, .cons ⟨rfl, hc, rfl⟩ h1, ?_, ?_⟩
            · simpa using h2
            · simpa using h3
          · cases ha with
            | @cons _ y _ a h1 h2 =>
              have hy : y = (n, r, m) := by
                obtain ⟨y1, y2, y3⟩ := y
                obtain ⟨e1, e2, e3⟩ := h1
                simp only at e1 e2 e3
                rw [exprOf, hc] at e2
                cases e2
                rw [e1, e3]
              subst hy
              have := i2 hnone a h2
              simpa using this
        | false =>
          simp only
          refine ⟨fun v hv => (by cases hv), fun _ a ha hnd => ?_⟩
          have hm := hdup.1 rfl
          cases ha with
          | cons h1 _ =>
            rw [List.map_append, List.nodup_append] at hnd
            exact hnd.2.2 n hm n (by rw [List.map_cons, h1.1]; exact .head _) rfl

open SimpleLexer Verif.Props.SimpleLexer in
theorem accepted_all (a : List (Bytes × Re × Bool)) (h : (a.map Prod.fst).Nodup) : accepted a = a := by
  have : ∀ (a acc : List (Bytes × Re × Bool)), ((acc ++ a).map Prod.fst).Nodup →
      a.foldl (fun acc x => if x.1 ∈ acc.map Prod.fst then acc else acc ++ [x]) acc = acc ++ a := by
    intro a
    induction a with
    | nil => intro acc _; simp
    | cons x a ih =>
      intro acc h
      have hx : x.1 ∉ acc.map Prod.fst := by
        rw [List.map_append, List.nodup_append] at h
        exact fun hm => h.2.2 x.1 hm x.1 (by simp) rfl
      rw [List.foldl_cons, if_neg hx, ih _ (by simpa using h)]
      simp
  exact this a [] h

theorem simpleRows_unique {ls : List Bytes} {rs rs' : List (Bytes × Bytes × Bool)} (h : SimpleRows ls rs) (h' : SimpleRows ls rs') : rs = rs' := by
  induction h generalizing rs' with
  | nil => cases h'; rfl
  | blank hb _ ih =>
    cases h' with
    | blank _ h2 => exact ih h2
    | line hl _ => exact absurd hb (simple_named hl)
  | line hl _ ih =>
    cases h' with
    | blank hb _ => exact absurd hb (simple_named hl)
    | line hl' h2 =>
      obtain ⟨rfl, rfl, rfl⟩ := simple_unique hl hl'
      rw [ih h2]

theorem allLines {ts : List Bytes} {ls : List (List Bytes)} (h : List.Forall₂ Lines ts ls) : ls = ts.map SimpleLexer.lines := by
  induction h with
  | nil => rfl
  | cons h _ ih => rw [List.map_cons, lines_of h, ih]

theorem simpleSays_unique {ts : List Bytes} {rs rs' : List (Bytes × Bytes × Bool)} (h : SimpleSays ts rs) (h' : SimpleSays ts rs') : rs = rs' := by
  obtain ⟨ls, h1, h2⟩ := h
  obtain ⟨ls', h1', h2'⟩ := h'
  rw [allLines h1] at h2
  rw [allLines h1'] at h2'
  exact simpleRows_unique h2 h2'

theorem Compiled.unique {compile : Bytes → Option SimpleLexer.Re} {rs : List (Bytes × Bytes × Bool)} {a b : List (Bytes × SimpleLexer.Re × Bool)}
    (ha : List.Forall₂ (Compiled compile) rs a) (hb : List.Forall₂ (Compiled compile) rs b) : a = b := by
  induction ha generalizing b with
  | nil => cases hb; rfl
  | @cons r x rs a h _ ih =>
    cases hb with
    | @cons _ y _ b h' h3 =>
      rw [ih h3]
      obtain ⟨x1, x2, x3⟩ := x
      obtain ⟨y1, y2, y3⟩ := y
      obtain ⟨e1, e2, e3⟩ := h
      obtain ⟨e1', e2', e3'⟩ := h'
      simp only at e1 e2 e3 e1' e2' e3'
      rw [e2] at e2'
      cases e2'
      rw [e1, e1', e3, e3']

open SimpleLexer in
/-- C76 for simple lexers. Every list of texts says exactly one thing (`SimpleSays`): a list of rules, each with a name, an
expression and whether there is a minus sign. `New` returns an error exactly if an expression does not compile or a name comes
twice; otherwise the table has the rules in order, with priorities 0, 1, 2, …. -/
theorem C76_simple (ts : List Bytes) : ∃ rs, SimpleSays ts rs ∧ (∀ rs', SimpleSays ts rs' → rs' = rs) ∧
    ∀ compile : Bytes → Option Re,
      (∀ a, List.Forall₂ (Compiled compile) rs a → (rs.map Prod.fst).Nodup → ∃ l, new compile ts = .ok (some l) ∧
        l.set.symb2str = rs.map Prod.fst ∧ l.rules = (a.mapIdx fun i x => (⟨i, x.2.1, x.2.2, i⟩ : Rule)).map some ∧
        l.order = List.range rs.length ∧ l.compare = lengthThenPriority) ∧
      ((∀ a, List.Forall₂ (Compiled compile) rs a → ¬ (rs.map Prod.fst).Nodup) → new compile ts = .ok none) := by
  obtain ⟨rs, hs⟩ := simpleSays_exists ts
  refine ⟨rs, hs, fun rs' h' => simpleSays_unique h' hs, fun compile => ?_⟩
  obtain ⟨ls, h1, h2⟩ := hs
  have hnew : new compile ts = .ok (newLines compile rSimple ls.flatten empty) := by
    rw [new, compile_simple]
    simp only
    rw [newDefs_lines compile rSimple h1]
  obtain ⟨i1, i2⟩ := newLines_rows compile h2 [] (by simp)
  rw [hnew]
  have he : Verif.Props.SimpleLexer.addAll [] = empty := rfl
  rw [he] at i1 i2
  constructor
  · intro a ha hnd
    cases hv : newLines compile rSimple ls.flatten empty with
    | none => exact absurd (by rw [List.nil_append, Compiled.name ha]; exact hnd) (i2 hv a ha)
    | some v =>
      obtain ⟨a', h3, h4, h5⟩ := i1 v hv
      have : a' = a := Compiled.unique h3 ha
      subst this
      rw [List.nil_append] at h4 h5
      obtain ⟨t1, t2, t3, t4, -⟩ := Verif.Props.SimpleLexer.C41_table a'
      rw [accepted_all a' h4] at t1 t2 t3
      have hl : a'.length = rs.length := h3.length_eq.symm
      exact ⟨v, rfl, by rw [h5, t1, Compiled.name h3], by rw [h5, t2], by rw [h5, t3, hl], by rw [h5, t4]⟩
  · intro hno
    cases hv : newLines compile rSimple ls.flatten empty with
    | none => rfl
    | some v =>
      obtain ⟨a', h3, h4, -⟩ := i1 v hv
      rw [List.nil_append, Compiled.name h3] at h4
      exact absurd h4 (hno a' h3)

/-- The lines of a text, worked out. -/
theorem simple_said {ts : List Bytes} {rs : List (Bytes × Bytes × Bool)} (h : SimpleSays ts rs) :
    (ts.map SimpleLexer.lines).flatten.filterMap (SimpleLexer.lineParts rSimple) = rs.map fun r => (r.1, exprOf r, r.2.2) := by
  obtain ⟨ls, h1, h2⟩ := h
  rw [← allLines h1]
  clear h1
  generalize ls.flatten = l at h2
  induction h2 with
  | nil => rfl
  | blank hb _ ih => rw [List.filterMap_cons, simple_blank hb, ih]
  | line hl _ ih => rw [List.filterMap_cons, simple_line hl, List.map_cons, ih]; rfl

/-! ### Concrete cases -/

/-- What texts say, worked out. -/
theorem says_iff {ts : List Bytes} {d : List (Bytes × List Parts)} : SaysAll ts d ↔ StackLexer.defsOf rHead rStack ts = toDefs d := by
  constructor
  · exact saysAll_of
  · intro h
    obtain ⟨d', h'⟩ := saysAll_exists ts
    have : d' = d := toDefs_inj ((saysAll_of h').symm.trans h)
    rw [← this]
    exact h'

deriving instance DecidableEq for StackLexer.Line

def b (s : String) : Bytes := SimpleLexer.bytes s.toList

set_option maxRecDepth 100000 in
/-- A text with all parts: expressions with escaped slashes, groups, carets, a name to push, a minus sign; a header with and one without
equals signs at the end; what comes before the first header does not count. -/
example : SaysAll [b "x /y/\n== Main ==\n  a /b\\/c/ (1|\"-\") ^^ -\n\n  d e-\n== Sub\n  Main\n"]
    [(b "Main", [⟨b "a", b "b\\/c", b "1|\"-\"", b "^^", true⟩, ⟨b "d", [], [], b "e", true⟩]), (b "Sub", [⟨b "Main", [], [], [], false⟩])] := by
  refine says_iff.2 ?_
  simp only [b, litToList]
  decide +kernel

set_option maxRecDepth 100000 in
/-- Things that may surprise: a header on the last line of a text without a line end is a rule that is called `==`; a comment is a
rule; what comes after the parts of a line does not count. -/
example : SaysAll [b "== M ==\n// note\na /x/ - b\n== N =="]
    [(b "M", [⟨b "note", [], [], [], false⟩, ⟨b "a", b "x", [], [], true⟩, ⟨b "==", [], [], b "N", false⟩])] := by
  refine says_iff.2 ?_
  simp only [b, litToList]
  decide +kernel

open StackLexer StackLexerNew in
set_option maxRecDepth 100000 in
/-- The hypotheses of `C76_contents_partial` hold for a text in which one sub-lexer inherits from another. -/
example : ∃ l, Out.Returns (newText comp [b "m", b "s"] [b "== m ==\n s\n== s ==\n a /x/\n b /x/ m -\n"]) (l, false) ∧
    (∀ x, l.lexers x ≠ none ↔ x ∈ [b "m", b "s"]) := by
  have h : SaysAll [b "== m ==\n s\n== s ==\n a /x/\n b /x/ m -\n"]
      [(b "m", [⟨b "s", [], [], [], false⟩]), (b "s", [⟨b "a", b "x", [], [], false⟩, ⟨b "b", b "x", [], b "m", true⟩])] := by
    refine says_iff.2 ?_
    simp only [b, litToList]
    decide +kernel
  refine (C76_contents_partial comp [b "m", b "s"] _ _
    (fun x => if x = b "m" then [.inh (b "s")] else if x = b "s" then
      [.own (b "a", ⟨Verif.Props.StackLexer.reX, false, [], 0, none⟩), .own (b "b", ⟨Verif.Props.StackLexer.reX, true, b "m", 0, none⟩)] else []) h
    ⟨by decide +kernel, ?_, ?_, fun x => if x = b "m" then 1 else 0, ?_⟩ (by decide +kernel)).imp fun l hl => ⟨hl.1, hl.2.1⟩
  · have nocaret : ∀ s : Bytes, s.all (· != 94) = true → ∀ k, 0 < k → s ≠ List.replicate k 94 := by
      rintro s hs k hk rfl
      cases k with
      | zero => omega
      | succ k => simp [List.replicate_succ] at hs
    intro x ls hm
    simp only [toDefs, List.map_cons, List.map_nil, List.mem_cons, Prod.mk.injEq, List.not_mem_nil, or_false] at hm
    rcases hm with ⟨rfl, rfl⟩ | ⟨rfl, rfl⟩
    · exact .cons (.inh (by decide +kernel)) .nil
    · refine .cons (.own (by decide +kernel) (fun h => ?_) (fun _ => by rfl) (.inr ⟨rfl, rfl, nocaret _ (by decide +kernel)⟩) rfl)
        (.cons (.own (by decide +kernel) (fun h => ?_) (fun _ => by rfl) (.inr ⟨rfl, rfl, nocaret _ (by decide +kernel)⟩) rfl) .nil)
      · exact absurd h (by decide +kernel)
      · exact absurd h (by decide +kernel)
  · intro x hx
    simp only [toDefs, List.map_cons, List.map_nil, List.mem_cons, List.not_mem_nil, or_false, not_or] at hx
    rw [if_neg hx.1, if_neg hx.2]
  · intro x y hy
    split at hy
    · next hx =>
      simp only [List.mem_cons, Item.inh.injEq, List.not_mem_nil, or_false] at hy
      subst hy; subst hx
      decide +kernel
    · split at hy <;> simp at hy

set_option maxRecDepth 100000 in
/-- For a simple lexer: two rules, one of them with an expression and a minus sign. -/
example : ∃ rs, SimpleSays [b "\n  word\n", b "space /\\s+/ -"] rs ∧ rs.map (fun r => (r.1, exprOf r, r.2.2)) = [(b "word", b "word", false), (b "space", b "\\s+", true)] := by
  obtain ⟨rs, h⟩ := simpleSays_exists [b "\n  word\n", b "space /\\s+/ -"]
  refine ⟨rs, h, ?_⟩
  have he := simple_said h
  rw [← he]
  simp only [b, litToList]
  decide +kernel

end Verif.Props.LexerDef
