import Verif.Model.Run
import Verif.Spec.Cut
import Verif.Proofs.Regexp
import Verif.Props.SimpleLexer
/-
Lexing with rules whose matches begin with an ASCII character: the text is cut as in Spec/Cut.lean.
-/
namespace Verif.SimpleLexer
open Verif Verif.SetSymbol Verif.Spec Verif.Props.SimpleLexer

/-- Matches begin with an ASCII character. -/
def AsciiFirst (m : Bytes → Option Nat) : Prop := ∀ s n, m s = some n → ∃ x t, s = x :: t ∧ x.toNat < 0x80

/-- Bytes, one by one. -/
abbrev unit1 : Bytes → Nat := fun _ => 1

theorem bd_one {s : Bytes} {p : Nat} : Bd unit1 s p ↔ p ≤ s.length := by
  constructor
  · intro h
    induction h with
    | zero => exact Nat.zero_le _
    | @next s i hs r ih =>
      simp only [List.length_drop] at ih
      have := List.length_pos_iff.2 hs
      simp only [unit1] at *
      omega
  · intro h
    induction p generalizing s with
    | zero => exact .zero
    | succ p ih =>
      cases s with
      | nil => simp at h
      | cons x s =>
        have := Bd.next (step := unit1) (s := x :: s) (i := p) (by simp) (ih (by simpa using h))
        rwa [show unit1 (x :: s) + p = p + 1 by simp [unit1, Nat.add_comm]] at this

theorem sync_one : Sync unit1 := by
  intro s c p h hc
  rw [bd_one] at h ⊢
  simp only [List.length_drop]
  omega

/-- An ASCII byte is the start of a character. -/
theorem bd_at_ascii : ∀ (n : Nat) (s : Bytes) (i : Nat) (x : UInt8) (t : Bytes), i ≤ n → s.drop i = x :: t → x.toNat < 0x80 →
    Bd runeLen s i := by
  intro n
  induction n with
  | zero => intro s i x t hi _ _; rw [Nat.le_zero.1 hi]; exact .zero
  | succ n ih =>
    intro s i x t hi e hx
    by_cases h0 : i = 0
    · subst h0; exact .zero
    · have hs : s ≠ [] := by rintro rfl; simp at e
      have hp := runeLen_pos s
      have hle : runeLen s ≤ i := by
        apply Classical.byContradiction
        intro hlt
        obtain ⟨y, u, e2, hy⟩ := runeLen_tail (s := s) (j := i) (by omega) (by omega)
        rw [e] at e2
        cases e2
        simp only [isCont, inRange, Bool.and_eq_true, decide_eq_true_eq] at hy
        omega
      have := Bd.next (step := runeLen) (i := i - runeLen s) hs (ih _ _ x t (by omega) (by
        rw [List.drop_drop, ← e]; congr 1; omega) hx)
      rwa [show runeLen s + (i - runeLen s) = i by omega] at this

theorem leftmost_one {m : Bytes → Option Nat} {find : Bytes → Option (Nat × Nat)} (ha : AsciiFirst m)
    (h : Leftmost runeLen m find) : Leftmost unit1 m find := by
  have key : ∀ s i, (Bd runeLen s i → m (s.drop i) = none) → m (s.drop i) = none := by
    intro s i hi
    cases e : m (s.drop i) with
    | none => rfl
    | some n =>
      obtain ⟨x, t, e2, hx⟩ := ha _ _ e
      rw [hi (bd_at_ascii i s i x t (Nat.le_refl _) e2 hx)] at e
      cases e
  intro s
  have := h s
  cases e : find s with
  | none =>
    rw [e] at this
    exact fun i _ => key s i (this i)
  | some q =>
    obtain ⟨a, z⟩ := q
    rw [e] at this
    exact ⟨this.1, this.2.1, fun i _ hi => key s i fun hb => this.2.2 i hb hi⟩

/-- Rules: kind, expression, whether matches are discarded. -/
abbrev Rules := List (Bytes × Rex × Bool)

/-- The `Add` calls for rules. -/
def Rules.adds (a : Rules) : List (Bytes × Re × Bool) := a.map fun x => (x.1, ofRex x.2.1, x.2.2)

/-- The matchers of rules. -/
def Rules.ms (a : Rules) : List (Bytes → Option Nat) := a.map fun x => x.2.1.len

/-- The rules in the table of the lexer. -/
def Rules.table (a : Rules) : List Rule := a.mapIdx fun i x => ⟨i, ofRex x.2.1, x.2.2, i⟩

theorem accepted_nodup : ∀ (h acc : List (Bytes × Re × Bool)), ((acc ++ h).map Prod.fst).Nodup →
    h.foldl (fun acc x => if x.1 ∈ acc.map Prod.fst then acc else acc ++ [x]) acc = acc ++ h
  | [], acc, _ => by simp
  | x :: h, acc, hn => by
    have hx : x.1 ∉ acc.map Prod.fst := by
      rw [List.map_append, List.nodup_append] at hn
      intro hm
      exact hn.2.2 _ hm x.1 (by simp) rfl
    rw [List.foldl_cons, if_neg hx, accepted_nodup h (acc ++ [x]) (by simpa using hn)]
    simp

theorem table_eq {a : Rules} (hn : (a.map (·.1)).Nodup) :
    (addAll a.adds).set.symb2str = a.map (·.1) ∧ (addAll a.adds).rules = a.table.map some ∧
    (addAll a.adds).compare = lengthThenPriority ∧ Tab (addAll a.adds) ∧ Full (addAll a.adds) := by
  have ha : accepted a.adds = a.adds := by
    have := accepted_nodup a.adds [] (by simpa [Rules.adds, Function.comp_def] using hn)
    simpa [accepted] using this
  have hi := is_all a.adds
  have h := C41_table a.adds
  rw [ha] at hi h
  have e : a.adds.mapIdx (fun i x => (⟨i, x.2.1, x.2.2, i⟩ : Rule)) = a.table := by
    apply List.ext_getElem?
    intro i
    simp only [Rules.adds, Rules.table, List.getElem?_mapIdx, List.getElem?_map, Option.map_map]
    rfl
  rw [e] at h
  refine ⟨?_, h.2.1, h.2.2.2.1, hi.tab, ?_⟩
  · rw [h.1, Rules.adds, List.map_map]; rfl
  · rw [Full, h.2.1]
    simp

/-- The matcher of a rule in the table. -/
def tm (a : Rules) (r : Rule) (s : Bytes) : Option Nat :=
  match a[r.kind]? with
  | some x => x.2.1.len s
  | none => none

theorem mem_table {a : Rules} {r : Rule} : r ∈ a.table ↔ ∃ i x, a[i]? = some x ∧ r = ⟨i, ofRex x.2.1, x.2.2, i⟩ := by
  rw [Rules.table, List.mem_mapIdx]
  constructor
  · rintro ⟨i, hi, rfl⟩
    exact ⟨i, a[i], List.getElem?_eq_getElem hi, rfl⟩
  · rintro ⟨i, x, h, rfl⟩
    obtain ⟨hi, rfl⟩ := List.getElem?_eq_some_iff.1 h
    exact ⟨i, hi, rfl⟩

theorem wins_takes {a : Rules} {s : Bytes} {r : Rule} {n : Nat} :
    Wins (· ∈ a.table) (tm a) (fun r => r.priority) s r n ↔
      Takes a.ms s r.kind n ∧ ∃ x, a[r.kind]? = some x ∧ r = ⟨r.kind, ofRex x.2.1, x.2.2, r.kind⟩ := by
  constructor
  · rintro ⟨h1, h2, h3, h4⟩
    obtain ⟨i, x, hx, rfl⟩ := mem_table.1 h1
    simp only [tm, hx] at h2
    refine ⟨⟨h3, ⟨_, by simp [Rules.ms, hx], h2⟩, ?_⟩, x, hx, rfl⟩
    intro j g n' hj hg
    rw [Rules.ms, List.getElem?_map, Option.map_eq_some_iff] at hj
    obtain ⟨y, hy, rfl⟩ := hj
    have := h4 ⟨j, ofRex y.2.1, y.2.2, j⟩ n' (mem_table.2 ⟨j, y, hy, rfl⟩) (by simpa only [tm, hy] using hg)
    simpa using this
  · rintro ⟨⟨h1, ⟨f, hf, h2⟩, h3⟩, x, hx, e⟩
    refine ⟨mem_table.2 ⟨_, x, hx, e⟩, ?_, h1, ?_⟩
    · rw [Rules.ms, List.getElem?_map, hx] at hf
      cases hf
      simpa only [tm, hx] using h2
    · intro r' n' hr hn
      obtain ⟨j, y, hy, rfl⟩ := mem_table.1 hr
      simp only [tm, hy] at hn
      have := h3 j y.2.1.len n' (by simp [Rules.ms, hy]) hn
      rw [e]
      simpa using this

/-- The pieces as numbers and texts; none of an error. -/
def plainSegs : List (Seg Rule) → List (Nat × Bytes)
  | [] => []
  | .tok r v :: s => (r.kind, v) :: plainSegs s
  | .err _ :: s => plainSegs s

theorem cut_of_lexes {a : Rules} {b : Bytes} {dead : Nat → Prop} {p : Nat} {segs : List (Seg Rule)}
    (h : Lexes (fun p => Wins (· ∈ a.table) (tm a) (fun r => r.priority) (b.drop p)) dead b p segs)
    (he : segs.any Seg.isErr = false) : Cut a.ms (b.drop p) (plainSegs segs) := by
  induction h with
  | done => rw [List.drop_length]; exact .done
  | @tok p k n segs h pos le rest ih =>
    have ih := ih (by simpa [Seg.isErr] using he)
    rw [← List.drop_drop] at ih
    have hl : ((b.drop p).take n).length = n := by simp; omega
    have := Cut.tok (ms := a.ms) (i := k.kind) (v := (b.drop p).take n) (s := (b.drop p).drop n) (by
      rw [List.take_append_drop, hl]; exact (wins_takes.1 h).1) ih
    rwa [List.take_append_drop] at this
  | err => simp [Seg.isErr] at he

theorem lexes_of_cut {a : Rules} {b : Bytes} {dead : Nat → Prop} {s : Bytes} {c : List (Nat × Bytes)} (h : Cut a.ms s c) :
    ∀ p, p ≤ b.length → b.drop p = s → ∃ segs, segs.any Seg.isErr = false ∧
      Lexes (fun p => Wins (· ∈ a.table) (tm a) (fun r => r.priority) (b.drop p)) dead b p segs := by
  induction h with
  | done =>
    intro p hp e
    have : p = b.length := by
      have := congrArg List.length e
      simp only [List.length_drop, List.length_nil] at this
      omega
    subst this
    exact ⟨[], rfl, .done⟩
  | @tok i v s c h rest ih =>
    intro p hp e
    have hlen := congrArg List.length e
    simp only [List.length_drop, List.length_append] at hlen
    obtain ⟨segs, h1, h2⟩ := ih (p + v.length) (by omega) (by rw [← List.drop_drop, e, List.drop_left])
    have hs := h
    obtain ⟨hpos, ⟨f, hf, -⟩, -⟩ := h
    rw [Rules.ms, List.getElem?_map, Option.map_eq_some_iff] at hf
    obtain ⟨x, hx, -⟩ := hf
    refine ⟨_, ?_, Lexes.tok (k := ⟨i, ofRex x.2.1, x.2.2, i⟩) (n := v.length) ?_ hpos (by omega) h2⟩
    · simp [Seg.isErr, h1]
    · show Wins _ _ _ _ _ _
      rw [wins_takes, e]
      exact ⟨hs, x, hx, rfl⟩

theorem render_err (b : Bytes) (ek p ln : Nat) (segs : List (Seg Rule)) :
    (render b ek p ln segs).any (·.err) = segs.any Seg.isErr := by
  induction segs generalizing p ln with
  | nil => rfl
  | cons s segs ih =>
    cases s with
    | tok r v => by_cases hd : r.discard = true <;> simp [render, hd, ih, Seg.isErr]
    | err v => simp [render, Seg.isErr]

/-- What is left of a piece: kind and value, nothing if it is discarded. -/
def Rules.kept (a : Rules) (x : Nat × Bytes) : Option (Str × Str) :=
  match a[x.1]? with
  | some r => if r.2.2 then none else some (chars r.1, chars x.2)
  | none => none

/-- Kind and value of a lexeme. -/
def kv (l : Lexeme Str Str) : Str × Str := (l.kind, l.val)

/-- The kind and value of an inserted lexeme. -/
def ins (k v : Bytes) : List (Str × Str) := if k = [] then [] else [(chars k, chars v)]

theorem render_kept {a : Rules} {l : Lexer} (hset : a.map (·.1) <+: l.set.symb2str) (b : Bytes) (ek p ln : Nat)
    (segs : List (Seg Rule)) (hm : ∀ r v, Seg.tok r v ∈ segs → r ∈ a.table) (he : segs.any Seg.isErr = false) :
    ((render b ek p ln segs).map (toLexeme l)).map kv = (plainSegs segs).filterMap a.kept := by
  induction segs generalizing p ln with
  | nil => rfl
  | cons s segs ih =>
    have ih := fun p ln => ih p ln (fun r v h => hm r v (List.mem_cons_of_mem _ h)) (by
      rw [List.any_cons, Bool.or_eq_false_iff] at he; exact he.2)
    cases s with
    | tok r v =>
      obtain ⟨i, x, hx, rfl⟩ := mem_table.1 (hm r v (List.mem_cons_self ..))
      have hk : l.set.symb2str[i]? = some x.1 := by
        obtain ⟨t, e⟩ := hset
        rw [← e, List.getElem?_append_left (by
          have := (List.getElem?_eq_some_iff.1 hx).1
          simpa using this), List.getElem?_map, hx]
        rfl
      by_cases hd : x.2.2 = true
      · simp [render, hd, plainSegs, Rules.kept, hx]
        simpa using ih _ _
      · simp [render, hd, plainSegs, Rules.kept, hx, kv, toLexeme, kindStr, hk]
        simpa using ih _ _
    | err v => simp [Seg.isErr] at he

/-- A lexer for the rules, in any state after lexing texts before. -/
structure Ready (a : Rules) (sk sv : Bytes) (l : Lexer) : Prop where
  rules : l.rules = a.table.map some
  compare : l.compare = lengthThenPriority
  names : a.map (·.1) <+: l.set.symb2str
  start : l.startKind = sk ∧ l.startVal = sv
  stop : l.endKind = []

theorem addAll_start : ∀ (h : List (Bytes × Re × Bool)) (l : Lexer),
    let l' := h.foldl (fun l x => (add l x.1 x.2.1 x.2.2).1) l
    l'.startKind = l.startKind ∧ l'.startVal = l.startVal ∧ l'.endKind = l.endKind
  | [], l => ⟨rfl, rfl, rfl⟩
  | x :: h, l => by
    have := addAll_start h (add l x.1 x.2.1 x.2.2).1
    simp only [List.foldl_cons] at this ⊢
    rw [this.1, this.2.1, this.2.2]
    unfold add addRule
    simp only
    split
    · next l'' e =>
      obtain ⟨rs, -, rfl⟩ := Option.map_eq_some_iff.1 e
      exact ⟨rfl, rfl, rfl⟩
    · exact ⟨rfl, rfl, rfl⟩

theorem ready_first {a : Rules} (hn : (a.map (·.1)).Nodup) : Ready a [] [] (addAll a.adds) := by
  obtain ⟨h1, h2, h3, -, -⟩ := table_eq hn
  have := addAll_start a.adds empty
  exact ⟨h2, h3, by rw [h1]; exact List.prefix_refl _, ⟨this.1, this.2.1⟩, this.2.2⟩

/-- What the lines of a definition say: kinds, expressions read, whether to discard. -/
def saidBy (re : Rex) (ls : List Bytes) : List (Bytes × Option Rex × Bool) :=
  (ls.filterMap (lineParts re)).map fun x => (x.1, compileRex x.2.1, x.2.2)

theorem newLines_of {re : Rex} : ∀ (ls : List Bytes) (a acc : Rules), ((acc ++ a).map (·.1)).Nodup →
    saidBy re ls = a.map (fun x => (x.1, some x.2.1, x.2.2)) →
    newLines compile re ls (addAll acc.adds) = some (addAll (acc ++ a).adds)
  | [], a, acc, _, h => by
    cases a with
    | nil => simp [newLines]
    | cons x a => simp [saidBy] at h
  | line :: ls, a, acc, hn, h => by
    cases hp : lineParts re line with
    | none =>
      simp only [newLines, hp]
      exact newLines_of ls a acc hn (by simpa [saidBy, hp] using h)
    | some q =>
      obtain ⟨k, p, d⟩ := q
      simp only [saidBy, List.filterMap_cons, hp, List.map_cons] at h
      cases a with
      | nil => simp at h
      | cons x a =>
        obtain ⟨k', r, d'⟩ := x
        simp only [List.map_cons, List.cons.injEq, Prod.mk.injEq] at h
        obtain ⟨⟨rfl, h2, rfl⟩, h3⟩ := h
        have hk : k ∉ acc.adds.map Prod.fst := by
          rw [List.map_append, List.nodup_append] at hn
          intro hm
          refine hn.2.2 k ?_ k (by simp) rfl
          simpa [Rules.adds, Function.comp_def] using hm
        have hadd : (add (addAll acc.adds) k (ofRex r) d).2 = true := by
          have := (C41_duplicate acc.adds k (ofRex r) d).1
          cases hb : (add (addAll acc.adds) k (ofRex r) d).2 with
          | true => rfl
          | false => exact absurd (this.1 hb) hk
        have hfst : (add (addAll acc.adds) k (ofRex r) d).1 = addAll (acc ++ [(k, r, d)]).adds := by
          simp only [addAll, Rules.adds, List.map_append, List.foldl_append, List.map_cons, List.map_nil, List.foldl_cons, List.foldl_nil]
        have hc : compile p = some (ofRex r) := by simp only [compile, h2, Option.map_some]
        have he : add (addAll acc.adds) k (ofRex r) d = (addAll (acc ++ [(k, r, d)]).adds, true) :=
          Prod.ext hfst hadd
        simp only [newLines, hp, hc, he]
        rw [newLines_of ls a (acc ++ [(k, r, d)]) (by simpa using hn) h3, List.append_assoc]
        rfl

/-- A lexer made from one definition. -/
theorem new_rules {d : Bytes} {a : Rules} (hn : (a.map (·.1)).Nodup)
    (h : (Regexp.compile lexStr).map (fun re => saidBy re (lines d)) = some (a.map (fun x => (x.1, some x.2.1, x.2.2)))) :
    new compile [d] = .ok (some (addAll a.adds)) := by
  obtain ⟨re, hre, h⟩ := Option.map_eq_some_iff.1 h
  have := newLines_of (lines d) a [] (by simpa using hn) h
  have h0 : addAll (Rules.adds []) = empty := rfl
  rw [h0] at this
  simp only [new, hre, newDefs, this, List.nil_append]

theorem ready_insert {a : Rules} {sk sv : Bytes} {l : Lexer} (h : Ready a sk sv l) (k v : Bytes) : Ready a k v (insertStart l k v) :=
  ⟨h.rules, h.compare, h.names, ⟨rfl, rfl⟩, h.stop⟩

/-- **Lexing a text.** -/
theorem lexText_cut {a : Rules} {sk sv : Bytes} {l : Lexer} (hR : Ready a sk sv l) (ha : ∀ x ∈ a, AsciiFirst x.2.1.len) (b : Bytes) :
    ∃ r l', Out.Returns (fun n => lexText n l b) (r, l') ∧ Ready a sk sv l' ∧
      ((∃ c ls, Cut a.ms b c ∧ r = some ls ∧ ls.map kv = ins sk sv ++ c.filterMap a.kept) ∨ (r = none ∧ ∀ c, ¬ Cut a.ms b c)) := by
  have hL : ∀ r ∈ a.table, Leftmost unit1 (tm a r) r.re.find := by
    intro r hr
    obtain ⟨i, x, hx, rfl⟩ := mem_table.1 hr
    have e : tm a ⟨i, ofRex x.2.1, x.2.2, i⟩ = x.2.1.len := by funext s; simp only [tm, hx]
    rw [e]
    exact leftmost_one (ha x (List.mem_of_getElem? hx)) (search_leftmost x.2.1.len)
  obtain ⟨segs, h1, -, h3⟩ := lex_ctx l.error sync_one hL b
  have h1 : Lexes (fun p => Wins (· ∈ a.table) (tm a) (fun r => r.priority) (b.drop p))
      (fun p => ∀ r ∈ a.table, ∀ n, tm a r (b.drop p) = some n → n = 0) b 0 segs :=
    lexes_mono h1 (fun p r n hp _ h => h.2.2 (bd_one.2 hp)) (fun p hp h => h (bd_one.2 (by omega)))
  have hmem : ∀ r v, Seg.tok r v ∈ segs → r ∈ a.table := by
    intro r v hm
    clear h3
    have : ∀ {dead : Nat → Prop} {p segs}, Seg.tok r v ∈ segs →
        Lexes (fun p => Wins (· ∈ a.table) (tm a) (fun r => r.priority) (b.drop p)) dead b p segs → r ∈ a.table := by
      intro dead p segs hm h1
      induction h1 with
      | done => cases hm
      | tok h pos le rest ih =>
        rcases List.mem_cons.1 hm with e | hm
        · cases e; exact h.1
        · exact ih hm
      | err pos le h stop rest ih =>
        rcases List.mem_cons.1 hm with e | hm
        · cases e
        · exact ih hm
    exact this hm h1
  have hR' : Ready a sk sv { l with set := if segs.any Seg.isErr then (str l.set l.error).1 else l.set } :=
    ⟨hR.rules, hR.compare, by
      show _ <+: (if segs.any Seg.isErr then (str l.set l.error).1 else l.set).symb2str
      split
      · exact List.IsPrefix.trans hR.names (str_prefix _ _)
      · exact hR.names, hR.start, hR.stop⟩
  have hlex := h3 l hR.rules hR.compare rfl
  have hpre : (pre l).any (·.err) = false := by
    rw [pre_eq]; unfold inserted; split <;> rfl
  have hpost : post l = [] := by rw [post_eq, hR.stop]; rfl
  have hany : (pre l ++ render b (str l.set l.error).2 0 0 segs ++ post l).any (·.err) = segs.any Seg.isErr := by
    rw [hpost, List.append_nil, List.any_append, hpre, render_err, Bool.false_or]
  have hret : Out.Returns (fun n => lexText n l b)
      (if segs.any Seg.isErr then none else
        some ((pre l ++ render b (str l.set l.error).2 0 0 segs ++ post l).map
          (toLexeme { l with set := if segs.any Seg.isErr then (str l.set l.error).1 else l.set })),
        { l with set := if segs.any Seg.isErr then (str l.set l.error).1 else l.set }) := by
    refine ⟨b.length + 1, fun n hn => ?_⟩
    simp only [lexText, hlex n hn, Out.bind_ok, hany]
  refine ⟨_, _, hret, hR', ?_⟩
  cases he : segs.any Seg.isErr with
  | true =>
    refine .inr ⟨if_pos rfl, fun c hc => ?_⟩
    obtain ⟨segs', h4, h5⟩ := lexes_of_cut (dead := fun p => ∀ r ∈ a.table, ∀ n, tm a r (b.drop p) = some n → n = 0) hc 0
      (Nat.zero_le _) rfl
    have : segs = segs' := by
      refine lexes_unique ?_ ?_ h1 h5
      · rintro p k n k' n' w u
        obtain ⟨w1, x, w2, w3⟩ := wins_takes.1 w
        obtain ⟨u1, y, u2, u3⟩ := wins_takes.1 u
        obtain ⟨e1, e2⟩ := takes_unique w1 u1
        refine ⟨?_, e2⟩
        rw [w3, u3]
        rw [e1, u2] at w2
        cases w2
        rw [e1]
      · rintro p k n hd ⟨w1, w2, w3, w4⟩ _
        have := hd k w1 n w2
        omega
    rw [this, h4] at he
    cases he
  | false =>
    refine .inl ⟨plainSegs segs, _, by simpa using cut_of_lexes h1 he, if_neg (by simp), ?_⟩
    rw [hpost, List.append_nil, List.map_append, List.map_append]
    simp only [Bool.false_eq_true, if_false]
    rw [render_kept hR.names b _ 0 0 segs hmem he, pre_eq, hR.start.1, hR.start.2]
    congr 1
    unfold inserted ins
    split <;> rfl

/-! ### Which rules can match -/

theorem all_bytes {p : UInt8 → Bool} (h : (List.range 256).all (fun k => p (UInt8.ofNat k)) = true) (x : UInt8) : p x = true := by
  have := List.all_eq_true.1 h x.toNat (List.mem_range.2 x.toNat_lt)
  simpa using this

/-- The rules that can match a text that begins with the byte. -/
def Rules.alive (a : Rules) (x : UInt8) : List Nat :=
  (List.range a.length).filter fun i => match a[i]? with | some r => !r.2.1.dead x | none => false

/-- Expressions with ASCII classes that match no empty text and whose matches begin with an ASCII character. -/
def Rules.fine (a : Rules) : Bool :=
  a.all fun r => r.2.1.low && r.2.1.needs && (List.range 256).all fun k => decide (k < 128) || r.2.1.dead (UInt8.ofNat k)

theorem fine_mem {a : Rules} (h : a.fine = true) {r : Bytes × Rex × Bool} (hr : r ∈ a) : r.2.1.low = true ∧ r.2.1.needs = true ∧
    ∀ x : UInt8, ¬ x.toNat < 0x80 → r.2.1.dead x = true := by
  have := List.all_eq_true.1 h r hr
  simp only [Bool.and_eq_true] at this
  refine ⟨this.1.1, this.1.2, fun x hx => ?_⟩
  have := all_bytes (p := fun x => decide (x.toNat < 128) || r.2.1.dead x) (by
    rw [List.all_eq_true]
    intro k hk
    have h1 := List.all_eq_true.1 this.2 k hk
    have : (UInt8.ofNat k).toNat = k := by simp; exact List.mem_range.1 hk
    rw [this]
    exact h1) x
  simpa [hx] using this

theorem fine_ascii {a : Rules} (h : a.fine = true) : ∀ r ∈ a, AsciiFirst r.2.1.len := by
  intro r hr s n hn
  obtain ⟨h1, h2, h3⟩ := fine_mem h hr
  cases s with
  | nil => have := len_some hn h2; simp only [List.length_nil] at this; omega
  | cons x t =>
    refine ⟨x, t, rfl, Classical.byContradiction fun hx => ?_⟩
    rw [dead_len h1 (h3 x hx)] at hn
    cases hn

theorem mem_alive {a : Rules} (h : a.fine = true) {x : UInt8} {t : Bytes} {i n : Nat} {r : Bytes × Rex × Bool}
    (hi : a[i]? = some r) (hn : r.2.1.len (x :: t) = some n) : i ∈ a.alive x := by
  rw [Rules.alive, List.mem_filter]
  refine ⟨List.mem_range.2 (List.getElem?_eq_some_iff.1 hi).1, ?_⟩
  simp only [hi]
  cases hd : r.2.1.dead x with
  | false => rfl
  | true =>
    rw [dead_len (fine_mem h (List.mem_of_getElem? hi)).1 hd] at hn
    cases hn

theorem takes_iff {a : Rules} (h : a.fine = true) {x : UInt8} {t : Bytes} {i n : Nat} : Takes a.ms (x :: t) i n ↔
    i ∈ a.alive x ∧ (∃ r, a[i]? = some r ∧ r.2.1.len (x :: t) = some n) ∧
    ∀ j ∈ a.alive x, ∀ r n', a[j]? = some r → r.2.1.len (x :: t) = some n' → n' < n ∨ (n' = n ∧ i ≤ j) := by
  have key : ∀ {j : Nat} {g : Bytes → Option Nat}, a.ms[j]? = some g ↔ ∃ r : Bytes × Rex × Bool, a[j]? = some r ∧ r.2.1.len = g := by
    intro j g
    rw [Rules.ms, List.getElem?_map, Option.map_eq_some_iff]
  constructor
  · rintro ⟨h1, ⟨f, hf, h2⟩, h3⟩
    obtain ⟨r, hr, rfl⟩ := key.1 hf
    exact ⟨mem_alive h hr h2, ⟨r, hr, h2⟩, fun j _ r' n' hj hn => h3 j _ n' (key.2 ⟨r', hj, rfl⟩) hn⟩
  · rintro ⟨-, ⟨r, hr, h2⟩, h3⟩
    refine ⟨(len_some h2 (fine_mem h (List.mem_of_getElem? hr)).2.1).1, ⟨_, key.2 ⟨r, hr, rfl⟩, h2⟩, ?_⟩
    intro j g n' hj hn
    obtain ⟨r', hr', rfl⟩ := key.1 hj
    exact h3 j (mem_alive h hr' hn) r' n' hr' hn

theorem takes_single {a : Rules} (h : a.fine = true) {x : UInt8} {t : Bytes} {i j n : Nat} {r : Bytes × Rex × Bool}
    (hx : a.alive x = [i]) (hi : a[i]? = some r) : Takes a.ms (x :: t) j n ↔ j = i ∧ r.2.1.len (x :: t) = some n := by
  rw [takes_iff h, hx, List.mem_singleton]
  constructor
  · rintro ⟨rfl, ⟨r', hr, h2⟩, -⟩
    rw [hi] at hr
    cases hr
    exact ⟨rfl, h2⟩
  · rintro ⟨rfl, h2⟩
    refine ⟨rfl, ⟨r, hi, h2⟩, ?_⟩
    intro k hk r' n' hr hn
    rw [List.mem_singleton] at hk
    subst hk
    rw [hi] at hr
    cases hr
    rw [h2] at hn
    cases hn
    exact .inr ⟨rfl, Nat.le_refl _⟩

theorem takes_none {a : Rules} (h : a.fine = true) {x : UInt8} {t : Bytes} {j n : Nat} (hx : a.alive x = []) :
    ¬ Takes a.ms (x :: t) j n := by
  rw [takes_iff h, hx]
  rintro ⟨h1, -⟩
  cases h1

/-- Two rules can match: the one with the longer match takes the text, the first if they are equal. -/
theorem takes_two {a : Rules} (h : a.fine = true) {x : UInt8} {t : Bytes} {i j k n : Nat} {r q : Bytes × Rex × Bool}
    (hx : a.alive x = [i, j]) (hij : i < j) (hi : a[i]? = some r) (hj : a[j]? = some q) : Takes a.ms (x :: t) k n ↔
      (k = i ∧ r.2.1.len (x :: t) = some n ∧ ∀ n', q.2.1.len (x :: t) = some n' → n' ≤ n) ∨
      (k = j ∧ q.2.1.len (x :: t) = some n ∧ ∀ n', r.2.1.len (x :: t) = some n' → n' < n) := by
  rw [takes_iff h, hx]
  simp only [List.mem_cons, List.not_mem_nil, or_false]
  constructor
  · rintro ⟨rfl | rfl, ⟨r', hr, h2⟩, h3⟩
    · rw [hi] at hr; cases hr
      refine .inl ⟨rfl, h2, fun n' hn => ?_⟩
      have := h3 j (.inr rfl) q n' hj hn
      omega
    · rw [hj] at hr; cases hr
      refine .inr ⟨rfl, h2, fun n' hn => ?_⟩
      have := h3 i (.inl rfl) r n' hi hn
      omega
  · rintro (⟨rfl, h2, h3⟩ | ⟨rfl, h2, h3⟩)
    · refine ⟨.inl rfl, ⟨r, hi, h2⟩, ?_⟩
      rintro l (rfl | rfl) r' n' hr hn
      · rw [hi] at hr; cases hr; rw [h2] at hn; cases hn; exact .inr ⟨rfl, Nat.le_refl _⟩
      · rw [hj] at hr; cases hr
        have := h3 n' hn
        omega
    · refine ⟨.inr rfl, ⟨q, hj, h2⟩, ?_⟩
      rintro l (rfl | rfl) r' n' hr hn
      · rw [hi] at hr; cases hr
        have := h3 n' hn
        omega
      · rw [hj] at hr; cases hr; rw [h2] at hn; cases hn; exact .inr ⟨rfl, Nat.le_refl _⟩

end Verif.SimpleLexer
