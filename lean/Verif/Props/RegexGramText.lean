import Verif.Proofs.RegexGramLex
import Verif.Proofs.RegexGramScan
import Verif.Proofs.Lit
import Verif.Model.JsonText
import Verif.Props.RegexGramNew
/-
C69: grammar/regexgram from the text of a definition to the grammar and the reducer.
-/
namespace Verif.Props.RegexGramText
open Verif Verif.Spec Verif.RegexGram Verif.SimpleLexer
open Verif.Props.Grammar (Shows)
open Verif.Props.RegexGramNew

/-- The lexer of the package in some state: as it is at start, or after calls of `New`. -/
inductive Reach : Lexer → Prop
  | start {l} (h : lxr = .ok l) : Reach l
  | new {l l' b r} (h : Reach l) (c : Out.Returns (fun n => newText n l b) (r, l')) : Reach l'

/-- The text lays out the lines of a definition. A line break is added in front. -/
def Defines (b : Bytes) (L : List RxLine) : Prop :=
  RxDef L ∧ ∃ ts b1 b2, RxText b ts ∧ .nl :: ts = defToks b1 b2 L

theorem kept_eq (a : Rules) (i : Nat) (v : Bytes) : a.kept (i, v) =
    ((a.map (fun r => (chars r.1, r.2.2)))[i]?).bind (fun r => if r.2 then none else some (r.1, chars v)) := by
  rw [Rules.kept, List.getElem?_map]
  cases a[i]? <;> rfl

theorem rgRules_kinds : rgRules.map (fun r => (chars r.1, r.2.2)) =
    [("rarr".toList, false), ("symbol".toList, false), ("repeats".toList, false), ("optional".toList, false), ("or".toList, false),
     ("(".toList, false), (")".toList, false),
     ("comment".toList, true), ("nl".toList, false), ("space".toList, true)] := by decide +kernel

theorem kept_tok {i : Nat} {v : Bytes} (hi : i < 10) : match tokOf (i, v) with
    | none => rgRules.kept (i, v) = none
    | some t => ∃ w, rgRules.kept (i, v) = some (t.kind, w) ∧ ∀ s, t = .sym s → w = s := by
  have hm : i = 0 ∨ i = 1 ∨ i = 2 ∨ i = 3 ∨ i = 4 ∨ i = 5 ∨ i = 6 ∨ i = 7 ∨ i = 8 ∨ i = 9 := by omega
  rw [kept_eq, rgRules_kinds]
  rcases hm with rfl | rfl | rfl | rfl | rfl | rfl | rfl | rfl | rfl | rfl
  · exact ⟨_, rfl, by rintro s ⟨⟩⟩
  · exact ⟨_, rfl, by rintro s ⟨⟩; rfl⟩
  · exact ⟨_, rfl, by rintro s ⟨⟩⟩
  · exact ⟨_, rfl, by rintro s ⟨⟩⟩
  · exact ⟨_, rfl, by rintro s ⟨⟩⟩
  · exact ⟨_, rfl, by rintro s ⟨⟩⟩
  · exact ⟨_, rfl, by rintro s ⟨⟩⟩
  · rfl
  · exact ⟨_, rfl, by rintro s ⟨⟩⟩
  · rfl

theorem cut_idx {s : Bytes} {c : List (Nat × Bytes)} (h : Cut rgRules.ms s c) : ∀ x ∈ c, x.1 < 10 := by
  induction h with
  | done => intro x hx; cases hx
  | tok h rest ih =>
    intro x hx
    rcases List.mem_cons.1 hx with rfl | hx
    · obtain ⟨-, ⟨f, hf, -⟩, -⟩ := h
      exact (List.getElem?_eq_some_iff.1 hf).1
    · exact ih x hx

theorem spells_kept : ∀ {c : List (Nat × Bytes)} {ls : List (Lexeme Str Str)}, (∀ x ∈ c, x.1 < 10) →
    ls.map kv = c.filterMap rgRules.kept → Spells (c.filterMap tokOf) ls
  | [], ls, _, h => by simpa [Spells] using h
  | (i, v) :: c, ls, hc, h => by
    have hk := kept_tok (v := v) (hc (i, v) (by simp))
    have hc' : ∀ x ∈ c, x.1 < 10 := fun x hx => hc x (by simp [hx])
    cases ht : tokOf (i, v) with
    | none =>
      rw [ht] at hk
      simp only [List.filterMap_cons, ht, hk] at h ⊢
      exact spells_kept hc' h
    | some t =>
      rw [ht] at hk
      obtain ⟨w, hk, hw⟩ := hk
      simp only [List.filterMap_cons, ht, hk] at h ⊢
      cases ls with
      | nil => cases h
      | cons l ls =>
        simp only [List.map_cons, List.cons.injEq, kv, Prod.mk.injEq] at h
        exact ⟨l, ls, rfl, ⟨h.1.1, fun s e => by rw [h.1.2]; exact hw s e⟩, spells_kept hc' h.2⟩

theorem newText_lexer {n : Nat} {l l' l'' : Lexer} {b : Bytes} {o r} (h1 : lexText n l b = .ok (o, l''))
    (h2 : newText n l b = .ok (r, l')) : l' = l'' := by
  rw [newText, h1, Out.bind_ok] at h2
  cases o with
  | none => exact (congrArg Prod.snd (Out.ok.inj h2)).symm
  | some ls =>
    obtain ⟨q, -, h3⟩ := Out.bind_eq_ok.1 h2
    exact (congrArg Prod.snd (Out.ok.inj h3)).symm

theorem reach_ready {l : Lexer} (h : Reach l) : Ready rgRules (bytes "nl".toList) [10] l := by
  induction h with
  | start h =>
    obtain ⟨l0, e, hr⟩ := lxr_ready
    have : l0 = _ := Out.ok.inj (e.symm.trans h)
    rw [← this]
    exact hr
  | @new l l' b r h c ih =>
    obtain ⟨o, l'', h1, h2, -⟩ := lexText_cut ih (fine_ascii rgRules_fine) b
    obtain ⟨N, hN⟩ := c
    obtain ⟨M, hM⟩ := h1
    rw [newText_lexer (hM (max N M) (Nat.le_max_right _ _)) (hN (max N M) (Nat.le_max_left _ _))]
    exact h2

theorem ins_nl : ins (bytes "nl".toList) [10] = [(RxTok.kind .nl, ['\n'])] := by decide +kernel

/-- **C69, lexing.** A layout of tokens is read as these tokens, with a line break in front; any other text
is an error. -/
theorem C69_lexes {l : Lexer} (hl : Reach l) (b : Bytes) :
    (∃ ts ls l', RxText b ts ∧ Spells (.nl :: ts) ls ∧ Out.Returns (fun n => lexText n l b) (some ls, l')) ∨
    (∃ l', (∀ ts, ¬ RxText b ts) ∧ Out.Returns (fun n => lexText n l b) (none, l')) := by
  obtain ⟨r, l', h1, -, ⟨c, ls, h3, rfl, h4⟩ | ⟨rfl, h3⟩⟩ := lexText_cut (reach_ready hl) (fine_ascii rgRules_fine) b
  · refine .inl ⟨_, ls, l', text_of_cut h3, ?_, h1⟩
    rw [ins_nl] at h4
    cases ls with
    | nil => simp at h4
    | cons x ls =>
      have h5 : kv x :: ls.map kv = (RxTok.kind .nl, ['\n']) :: c.filterMap rgRules.kept := h4
      rw [List.cons.injEq, kv, Prod.mk.injEq] at h5
      exact ⟨x, ls, rfl, ⟨h5.1.1, by rintro s ⟨⟩⟩, spells_kept (cut_idx h3) h5.2⟩
  · refine .inr ⟨l', fun ts ht => ?_, h1⟩
    obtain ⟨c, hc, -⟩ := cut_of_text ht
    exact h3 c hc

theorem newText_some {n : Nat} {l l' : Lexer} {b : Bytes} {ls : List (Lexeme Str Str)} {r}
    (h1 : lexText n l b = .ok (some ls, l')) (h2 : newLexemes n ls = .ok r) : newText n l b = .ok (r, l') := by
  rw [newText, h1, Out.bind_ok]
  show (newLexemes n ls).bind _ = _
  rw [h2, Out.bind_ok]

theorem newText_err {n : Nat} {l l' : Lexer} {b : Bytes} (h1 : lexText n l b = .ok (none, l')) :
    newText n l b = .ok (none, l') := by
  rw [newText, h1, Out.bind_ok]

theorem newText_of {l l' : Lexer} {b : Bytes} {ls : List (Lexeme Str Str)} {r} (h1 : Out.Returns (fun n => lexText n l b) (some ls, l'))
    (h2 : Out.Returns (fun n => newLexemes n ls) r) : Out.Returns (fun n => newText n l b) (r, l') := by
  obtain ⟨N, hN⟩ := h1
  obtain ⟨M, hM⟩ := h2
  exact ⟨max N M, fun n hn => newText_some (hN n (Nat.le_trans (Nat.le_max_left _ _) hn)) (hM n (Nat.le_trans (Nat.le_max_right _ _) hn))⟩

theorem newText_none {l l' : Lexer} {b : Bytes} (h1 : Out.Returns (fun n => lexText n l b) (none, l')) :
    Out.Returns (fun n => newText n l b) (none, l') := by
  obtain ⟨N, hN⟩ := h1
  exact ⟨N, fun n hn => newText_err (hN n hn)⟩

/-- What is found out from the lexemes holds for the text. -/
theorem newText_defines {l : Lexer} (hl : Reach l) {b : Bytes} {L : List RxLine} (h : Defines b L) :
    RxDef L ∧ ∃ b1 b2 ls, Spells (defToks b1 b2 L) ls ∧ ∃ l', ∀ r, Out.Returns (fun n => newLexemes n ls) r →
      Out.Returns (fun n => newText n l b) (r, l') := by
  obtain ⟨h1, ts, b1, b2, h2, h3⟩ := h
  refine ⟨h1, b1, b2, ?_⟩
  rcases C69_lexes hl b with ⟨ts', ls, l', h4, h5, h6⟩ | ⟨l', h4, -⟩
  · rw [text_unique h4 h2, h3] at h5
    exact ⟨ls, h5, l', fun r hr => newText_of h6 hr⟩
  · exact absurd h2 (h4 ts)

/-- The text goes through the tree that C49 is about. -/
theorem newText_root {l : Lexer} (hl : Reach l) {b : Bytes} {L : List RxLine} (h : Defines b L) :
    ∃ t, RulesShown [] (linesRules [] L) t.kids ∧ ∃ l', Reach l' ∧ ∀ r, Out.Returns (fun n => evalGrammar n t) r →
      Out.Returns (fun n => newText n l b) (some r, l') := by
  obtain ⟨h1, b1, b2, ls, h2, l', h3⟩ := newText_defines hl h
  obtain ⟨t, h4, h5⟩ := C68_reads h1 h2
  obtain ⟨g, q, G, h6, -⟩ := Verif.Props.RegexGram.C49_returns h5
  exact ⟨t, h5, l', .new hl (h3 _ (new_of h4 h6)), fun r hr => h3 _ (new_of h4 hr)⟩

/-- **C69.** `New` accepts exactly the texts that lay out a definition: it returns a grammar for those and
an error for all others, whatever it was called with before. -/
theorem C69_accepts {l : Lexer} (hl : Reach l) (b : Bytes) :
    (∃ L, Defines b L ∧ ∃ g q l' G, Out.Returns (fun n => newText n l b) (some (g, q), l') ∧ Shows g G) ∨
    ((∀ L, ¬ Defines b L) ∧ ∃ l', Out.Returns (fun n => newText n l b) (none, l')) := by
  rcases C69_lexes hl b with ⟨ts, ls, l', h4, h5, h6⟩ | ⟨l', h4, h6⟩
  · have hne : ls ≠ [] := by
      obtain ⟨x, r, rfl, -⟩ := h5
      simp
    rcases C68_accepts hne (lexed_of_spells h5) with ⟨h7, h8⟩ | ⟨g, q, h7, L, b1, b2, h8, h9, G, h10⟩
    · refine .inr ⟨?_, l', newText_of h6 h7⟩
      rintro L ⟨hL, ts', b1, b2, ht, e⟩
      rw [text_unique ht h4] at e
      exact h8 L b1 b2 hL (e ▸ h5)
    · exact .inl ⟨L, ⟨h8, ts, b1, b2, h4, spells_unique h5 h9⟩, g, q, l', G, newText_of h6 h7, h10⟩
  · exact .inr ⟨fun L ⟨_, ts, _, _, ht, _⟩ => h4 ts ht, l', newText_none h6⟩

/-! ### The names in a text -/

theorem word_plain {x : UInt8} (h : RxByte.word x = true) (hu : x ≠ 95) : Char.ofNat x.toNat ∉ Rx.special := by
  have := all_bytes (p := fun x => !RxByte.word x || decide (x = 95) || decide (Char.ofNat x.toNat ∉ Rx.special)) (by decide +kernel) x
  simpa [h, hu] using this

theorem word_star {x : UInt8} (h : RxByte.word x = true) : Char.ofNat x.toNat ≠ '*' := by
  have := all_bytes (p := fun x => !RxByte.word x || decide (Char.ofNat x.toNat ≠ '*')) (by decide +kernel) x
  simpa [h] using this

theorem text_names {b : Bytes} {ts : List RxTok} (h : RxText b ts) : ∀ s, .sym s ∈ ts →
    s ≠ [] ∧ (∀ c ∈ s, c ≠ '*') ∧ ('_' ∉ s → Rx.Plain s) := by
  induction h with
  | done => intro s hs; cases hs
  | blank h rest ih => exact ih
  | @name w r ts ne h stop rest ih =>
    intro s hs
    rcases List.mem_cons.1 hs with e | hs
    · cases e
      have hn : nameOf w ≠ [] := by simpa [nameOf] using ne
      refine ⟨hn, ?_, fun hu => ⟨hn, ?_⟩⟩
      · intro c hc
        obtain ⟨x, hx, rfl⟩ := List.mem_map.1 hc
        exact word_star (h x hx)
      · intro c hc
        obtain ⟨x, hx, rfl⟩ := List.mem_map.1 hc
        refine word_plain (h x hx) ?_
        rintro rfl
        exact hu (List.mem_map.2 ⟨95, hx, rfl⟩)
    · exact ih s hs
  | arrow rest ih =>
    intro s hs
    rcases List.mem_cons.1 hs with e | hs
    · cases e
    · exact ih s hs
  | @one x t r ts h rest ih =>
    intro s hs
    rcases List.mem_cons.1 hs with e | hs
    · subst e
      exfalso
      unfold RxTok.ofByte at h
      split at h <;> cases h
    · exact ih s hs
  | brk h hv stop no rest ih =>
    intro s hs
    rcases List.mem_cons.1 hs with e | hs
    · cases e
    · exact ih s hs
  | comment h hv hc stop rest ih => exact ih

mutual
theorem part_tok {s : Str} : ∀ x : Rx, .sym s ∈ x.parts → RxTok.sym s ∈ x.toks
  | .sym t, h => by simp only [Rx.parts, List.mem_singleton] at h; cases h; simp [Rx.toks]
  | .opt x, h => by
    simp only [Rx.parts, List.mem_cons, reduceCtorEq, false_or] at h
    simp [Rx.toks, part_tok x h]
  | .rep x, h => by
    simp only [Rx.parts, List.mem_cons, reduceCtorEq, false_or] at h
    simp [Rx.toks, part_tok x h]
  | .group xs, h => by
    simp only [Rx.parts, List.mem_cons, reduceCtorEq, false_or] at h
    simp [Rx.toks, (parts_tok xs h).1]
  | .or xs, h => by
    simp only [Rx.parts, List.mem_cons, reduceCtorEq, false_or] at h
    rw [Rx.toks]
    exact (parts_tok xs h).2
theorem parts_tok {s : Str} : ∀ xs : List Rx, .sym s ∈ Rx.partss xs → RxTok.sym s ∈ Rx.toksAll xs ∧ RxTok.sym s ∈ Rx.toksOr xs
  | [], h => by simp [Rx.partss] at h
  | x :: xs, h => by
    rw [Rx.partss, List.mem_append] at h
    rw [Rx.toksAll, Rx.toksOr]
    rcases h with h | h
    · exact ⟨List.mem_append_left _ (part_tok x h), List.mem_append_left _ (part_tok x h)⟩
    · refine ⟨List.mem_append_right _ (parts_tok xs h).1, List.mem_append_right _ ?_⟩
      cases xs with
      | nil => simp [Rx.partss] at h
      | cons y ys => exact List.mem_cons_of_mem _ (parts_tok _ h).2
end

theorem lines_tok {s : Str} : ∀ (nt : Str) (L : List RxLine),
    (.sym s ∈ (linesRules nt L).parts → RxTok.sym s ∈ L.flatMap RxLine.toks) ∧
    (∀ r ∈ linesRules nt L, r.1 = nt ∨ RxTok.sym r.1 ∈ L.flatMap RxLine.toks)
  | _, [] => by simp [linesRules, RxRules.parts]
  | nt, (some n, xs) :: L => by
    obtain ⟨h1, h2⟩ := lines_tok n L
    simp only [linesRules, RxRules.parts, List.flatMap_cons, List.mem_append, RxLine.toks]
    refine ⟨?_, ?_⟩
    · rintro (h | h)
      · exact .inl (.tail _ (.tail _ (.tail _ (parts_tok xs h).1)))
      · exact .inr (h1 h)
    · intro r hr
      rcases List.mem_cons.1 hr with rfl | hr
      · exact .inr (.inl (by simp))
      · rcases h2 r hr with e | h
        · exact .inr (.inl (by simp [e]))
        · exact .inr (.inr h)
  | nt, (none, xs) :: L => by
    obtain ⟨h1, h2⟩ := lines_tok nt L
    simp only [linesRules, RxRules.parts, List.flatMap_cons, List.mem_append, RxLine.toks]
    refine ⟨?_, ?_⟩
    · rintro (h | h)
      · exact .inl (.tail _ (.tail _ (parts_tok xs h).1))
      · exact .inr (h1 h)
    · intro r hr
      rcases List.mem_cons.1 hr with rfl | hr
      · exact .inl rfl
      · rcases h2 r hr with e | h
        · exact .inl e
        · exact .inr (.inr h)

/-- A name of a definition is one of its tokens. -/
theorem defines_names {b : Bytes} {L : List RxLine} (h : Defines b L) {s : Str}
    (hs : .sym s ∈ (linesRules [] L).parts ∨ ∃ r ∈ linesRules [] L, r.1 = s) :
    s ≠ [] ∧ (∀ c ∈ s, c ≠ '*') ∧ ('_' ∉ s → Rx.Plain s) := by
  obtain ⟨h1, ts, b1, b2, h2, h3⟩ := h
  have key : RxTok.sym s ∈ L.flatMap RxLine.toks := by
    rcases hs with hs | ⟨r, hr, rfl⟩
    · exact (lines_tok (s := s) [] L).1 hs
    · obtain ⟨n, xs, L', rfl⟩ := h1.first
      rcases List.mem_cons.1 hr with rfl | hr
      · simp [RxLine.toks]
      · rcases (lines_tok (s := r.1) n L').2 r hr with e | h
        · rw [e]; simp [RxLine.toks]
        · rw [List.flatMap_cons]; exact List.mem_append_right _ h
  refine text_names h2 s ?_
  have : RxTok.sym s ∈ defToks b1 b2 L := by
    unfold defToks
    exact List.mem_append_left _ (List.mem_append_right _ key)
  rw [← h3] at this
  simpa using this

/-- No name in the definition has an underscore, and no group is empty: `_` also joins the names in the names
of repetitions. -/
structure Clear (L : List RxLine) : Prop where
  names : ∀ s, (.sym s ∈ (linesRules [] L).parts ∨ ∃ r ∈ linesRules [] L, r.1 = s) → '_' ∉ s
  group : .group [] ∉ (linesRules [] L).parts

theorem rules_right : ∀ (nt : Str) (L : List RxLine), (∀ l ∈ L, Rx.writables l.2 = true) → ∀ r ∈ linesRules nt L, Rx.writables r.2 = true
  | _, [], _, r, hr => by simp [linesRules] at hr
  | nt, (some n, xs) :: L, h, r, hr => by
    rcases List.mem_cons.1 hr with rfl | hr
    · exact h (some n, xs) (by simp)
    · exact rules_right n L (fun l hl => h l (by simp [hl])) r hr
  | nt, (none, xs) :: L, h, r, hr => by
    rcases List.mem_cons.1 hr with rfl | hr
    · exact h (none, xs) (by simp)
    · exact rules_right nt L (fun l hl => h l (by simp [hl])) r hr

theorem clear_writable {b : Bytes} {L : List RxLine} (h : Defines b L) (hc : Clear L) : (linesRules [] L).Writable where
  right := rules_right [] L h.1.right
  names s hs := (defines_names h (.inl hs)).2.2 (hc.names s (.inl hs))
  left r hr := (defines_names h (.inr ⟨r, hr, rfl⟩)).2.2 (hc.names r.1 (.inr ⟨r, hr, rfl⟩))
  group := hc.group

/-! ### The grammar -/

/-- **C69, the words.** For a text that lays out a definition with clear names, the grammar returned has
exactly the words of the rules written, from every nonterminal; the start symbol is that of the first line. -/
theorem C69_words {l : Lexer} (hl : Reach l) {b : Bytes} {L : List RxLine} (h : Defines b L) (hc : Clear L) :
    ∃ g q l' G, Out.Returns (fun n => newText n l b) (some (g, q), l') ∧ Shows g G ∧
      (∀ s, s ∉ (linesRules [] L).helpers → ∀ w, G.Derives [s] w ↔ RxWords (linesRules [] L) [.sym s] w) ∧
      (∀ s, s ∉ (linesRules [] L).helpers → (G.Term s ↔ ∀ r, (s, r) ∉ linesRules [] L)) ∧
      ∃ n, (∃ xs, L.head? = some (some n, xs)) ∧ G.order.head? = some n ∧
        ∀ w, G.Sentence w ↔ RxWords (linesRules [] L) [.sym n] w := by
  have hw := clear_writable h hc
  obtain ⟨h1, b1, b2, ls, h2, l', h3⟩ := newText_defines hl h
  obtain ⟨g, q, G, h4, h5, h6⟩ := C68_words h1 h2 (solid_of_writable hw) (distinct_of_writable hw)
  exact ⟨g, q, l', G, h3 _ h4, h5, h6⟩

/-- **C69, the whole grammar.** It records the plain rules of the lines in order, then those of one helper for
each repetition. -/
theorem C69_grammar {l : Lexer} (hl : Reach l) {b : Bytes} {L : List RxLine} (h : Defines b L) (hc : Clear L) :
    ∃ g q l', ∃ K : List Rx, Out.Returns (fun n => newText n l b) (some (g, q), l') ∧ K.Nodup ∧
      (∀ x, x ∈ K ↔ .rep x ∈ (linesRules [] L).parts) ∧
      Shows g (record (RxRules.plain (linesRules [] L ++ K.flatMap Rx.more))) := by
  have hw := clear_writable h hc
  obtain ⟨h1, b1, b2, ls, h2, l', h3⟩ := newText_defines hl h
  obtain ⟨g, q, K, h4, h5⟩ := C68_grammar h1 h2 (solid_of_writable hw) (distinct_of_writable hw)
  exact ⟨g, q, l', K, h3 _ h4, h5⟩

/-- **C69, the reducer.** For any text that lays out a definition, the reducer takes the helper nodes out of
the derivation trees of the grammar and changes nothing else. -/
theorem C69_reducer {l : Lexer} (hl : Reach l) {b : Bytes} {L : List RxLine} (h : Defines b L) :
    ∃ g q l' G, Out.Returns (fun n => newText n l b) (some (g, q), l') ∧ Shows g G ∧
      ∀ t : PN Str Str, t.Valid G → t.kind ∉ (linesRules [] L).helpers →
        Out.Returns (fun n => Tree.reduce (reducerOf (σ := Unit) n q) (some t) ()) (some (PN.hide (linesRules [] L).helpers t), ()) := by
  obtain ⟨h1, b1, b2, ls, h2, l', h3⟩ := newText_defines hl h
  obtain ⟨g, q, G, h4, h5⟩ := C68_reducer h1 h2 (fun s hs hm => (defines_names h (.inl hs)).2.1 _ hm rfl)
  exact ⟨g, q, l', G, h3 _ h4, h5⟩

/-! ### Concrete case -/

/-- No underscore, no empty group. -/
def Rx.clear : Rx → Bool
  | .sym s => !s.contains '_'
  | .group [] => false
  | _ => true

theorem clear_of {L : List RxLine} (h : (linesRules [] L).parts.all Rx.clear = true)
    (h' : (linesRules [] L).all (fun r => !r.1.contains '_') = true) : Clear L := by
  rw [List.all_eq_true] at h h'
  refine ⟨?_, fun hg => by simpa [Rx.clear] using h _ hg⟩
  rintro s (hs | ⟨r, hr, rfl⟩)
  · simpa [Rx.clear] using h _ hs
  · simpa using h' r hr

def sy (s : String) : Rx := .sym s.toList

/-- The lines of `grammarRules` of examples/parlexjson. -/
def jsonLines : List RxLine :=
  [(some "Value".toList, [.or [sy "string", sy "number", sy "bool", sy "null", sy "Array", sy "Object"]]),
   (some "Array".toList, [sy "lb", .opt (.group [sy "Value", .rep (sy "MoreVals")]), sy "rb"]),
   (some "MoreVals".toList, [sy "comma", sy "Value"]),
   (some "Object".toList, [sy "lcb", .opt (.group [sy "KeyVal", .rep (sy "MoreKeyVals")]), sy "rcb"]),
   (some "MoreKeyVals".toList, [sy "comma", sy "KeyVal"]),
   (some "KeyVal".toList, [sy "string", sy "colon", sy "Value"])]

theorem jsonLines_rules : linesRules [] jsonLines = Json.grammarRules := rfl

set_option maxRecDepth 10000 in
/-- The text lays them out. -/
theorem jsonLines_defines : Defines (bytes Json.grammarText) jsonLines := by
  refine ⟨⟨⟨_, _, _, rfl⟩, by decide⟩, (defToks true true jsonLines).tail, true, true, scan_text (n := 1000) ?_, rfl⟩
  unfold Json.grammarText
  simp only [litToList]
  decide +kernel

theorem jsonLines_clear : Clear jsonLines := clear_of (by decide +kernel) (by decide +kernel)

/-- Non-trivial case of C69: the grammar of examples/parlexjson, from its text. -/
example : ∃ l, Reach l ∧ Defines (bytes Json.grammarText) jsonLines ∧ Clear jsonLines := by
  obtain ⟨l, h, -⟩ := lxr_ready
  exact ⟨l, .start h, jsonLines_defines, jsonLines_clear⟩

def clashLines : List RxLine :=
  [(some ['S'], [.rep (.group [.sym ['A'], .sym ['B']])]), (some ['T'], [.rep (.group [.sym ['A', '_', 'B']])])]

/-- With underscores in names the words can be wrong: in `S -> (A B)*`, `T -> (A_B)*` both repetitions get
the name `(A_B)*`. -/
theorem C69_names_refuted : ∃ (b : Bytes) (L : List RxLine), Defines b L ∧ (linesRules [] L).Solid ∧
    ∀ l, Reach l → ∃ g q l' G, Out.Returns (fun n => newText n l b) (some (g, q), l') ∧ Shows g G ∧
      ∃ r ∈ linesRules [] L, ∃ w, RxWords (linesRules [] L) [.sym r.1] w ∧ ¬ G.Derives [r.1] w := by
  have hd : Defines (bytes "S -> (A B)*\nT -> (A_B)*".toList) clashLines := by
    refine ⟨⟨⟨_, _, _, rfl⟩, by decide⟩, (defToks false false clashLines).tail, false, false, scan_text (n := 100) ?_, rfl⟩
    decide +kernel
  refine ⟨_, clashLines, hd, Verif.Props.RegexGram.clashR_solid, fun l hl => ?_⟩
  obtain ⟨t, h1, l', -, h2⟩ := newText_root hl hd
  obtain ⟨g, q, G, h3, h4, h5⟩ := Verif.Props.RegexGram.clash h1
  exact ⟨g, q, l', G, h2 _ h3, h4, h5⟩

end Verif.Props.RegexGramText
