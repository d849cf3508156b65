import Verif.Proofs.ReducerLex
import Verif.Proofs.ReducerValid
import Verif.Proofs.ReducerSpell
import Verif.Proofs.ReducerScan
import Verif.Props.JsonFormat
import Verif.Model.JsonText
/-
C70: tree/reducer from the text of a definition to the reducer.
-/
namespace Verif.Props.ReducerText
open Verif Verif.Spec Verif.ReducerDSL Verif.SimpleLexer
open Verif.Props.ReducerDSL
open Verif.Tree (Reducer callIf)
open Verif.Props.RegexGramText (kept_eq)

/-- Tokens that are read from a text: words have a meaning, strings are in quotes. -/
def Real (t : RdTok) : Prop := (∀ k, t = .word k → k ∈ rdWords) ∧ ∀ s, t = .string s → ∃ k, s = '"' :: k ++ ['"']

/-- The lexemes are ones the lexer can make. -/
def Lexed (ls : List (Lexeme Str Str)) : Prop := ∀ l ∈ ls, ∃ t : RdTok, t.Is l ∧ Real t

/-- What the reducer does: for each name, the statements of the last rule of that name. -/
def Means {σ : Type} (n : Nat) (D : List (Str × List Stmt)) (r : Reducer σ Str Str) : Prop :=
  ∀ k, match lastRule k D with
    | none => r k = none
    | some ss => ∃ f, r k = some f ∧ ∀ p s, callIf f p s = (execs n ss p).bind fun t => .ok (t, s)

/-! ### From lexemes -/

theorem lexed_quoted {ls : List (Lexeme Str Str)} (h : Lexed ls) : ∀ l ∈ ls, l.kind = "string".toList → ∃ k, l.val = '"' :: k ++ ['"'] := by
  intro l hl hk
  obtain ⟨t, h1, h2, h3⟩ := h l hl
  have e := h1.1
  rw [hk] at e
  cases t with
  | string s =>
    obtain ⟨k, rfl⟩ := h3 s rfl
    exact ⟨k, h1.2 _ rfl⟩
  | word k =>
    have : ∀ k ∈ rdWords, k ≠ "string".toList := by decide +kernel
    exact absurd e.symm (this k (h2 k rfl))
  | number s => have e : "string".toList = "number".toList := e; exact absurd e (by decide +kernel)
  | rule s => have e : "string".toList = "rule".toList := e; exact absurd e (by decide +kernel)
  | lp => exact absurd e (by decide +kernel)
  | rp => exact absurd e (by decide +kernel)
  | comma => exact absurd e (by decide +kernel)
  | period => exact absurd e (by decide +kernel)

theorem lexed_terms {G : Spec.Grammar Str} (hG : DG G) {ls : List (Lexeme Str Str)} (h : Lexed ls) : ∀ l ∈ ls, G.Term l.kind := by
  intro l hl
  obtain ⟨t, h1, h2, -⟩ := h l hl
  rw [h1.1]
  refine term_of hG ?_
  cases t with
  | word k =>
    have : ∀ k ∈ rdWords, k ∉ rdAdds.map (·.1) := by decide +kernel
    exact this k (h2 k rfl)
  | number s => show "number".toList ∉ _; decide +kernel
  | rule s => show "rule".toList ∉ _; decide +kernel
  | string s => show "string".toList ∉ _; decide +kernel
  | lp => show "lp".toList ∉ _; decide +kernel
  | rp => show "rp".toList ∉ _; decide +kernel
  | comma => show "comma".toList ∉ _; decide +kernel
  | period => show "period".toList ∉ _; decide +kernel

theorem spells_lexed {ts : List RdTok} {ls : List (Lexeme Str Str)} (h : RdSpells ts ls) (hr : ∀ t ∈ ts, Real t) : Lexed ls := by
  induction h with
  | nil => intro l hl; cases hl
  | @cons t l ts ls h1 h2 ih =>
    intro l' hl
    rcases List.mem_cons.1 hl with rfl | hl
    · exact ⟨t, h1, hr t (.head _)⟩
    · exact ih (fun t ht => hr t (.tail _ ht)) l' hl

theorem spells_kinds {ts : List RdTok} {ls : List (Lexeme Str Str)} (h : RdSpells ts ls) : ls.map (·.kind) = rdKinds ts := by
  induction h with
  | nil => rfl
  | cons h1 _ ih =>
    rw [List.map_cons, ih, h1.1]
    rfl

variable {rl : Lexer} {o1 o2 : List Str}

/-- A tree of the grammar is read. -/
theorem read_parse {G : Spec.Grammar Str} (hG : DG G) {b : Str → Option (List Str)} (hb : DB b) (ho : Orders o1 o2)
    {ls : List (Lexeme Str Str)} (hl : Lexed ls) {t : PN Str Str} (h : IsParse G ls t) :
    ∃ t' D w, Json.Reds (fun n => rdcr n b o1 o2) t t' ∧ SpellsR t'.kids D ∧ DefWr D w ∧ RdSpells w ls := by
  obtain ⟨h1, h2, h3⟩ := h
  rw [hG.start] at h1
  have hk : t.kind = "Rules".toList := (Option.some.inj h1).symm
  subst h3
  exact (reads_valid hb ho hG h2 (lexed_quoted hl)).rules hk

/-- **C70, reading.** The lexemes of a definition are parsed, and the reduced tree shows its rules. -/
theorem C70_reads (hrl : Verif.Props.RegexGramText.Reach rl) (ho : Orders o1 o2) {D : List (Str × List Stmt)} {w : List RdTok}
    {ls : List (Lexeme Str Str)} (h : DefWr D w) (hs : RdSpells w ls) (hl : Lexed ls) :
    ∃ t, Out.Returns (fun n => readLexemes n rl o1 o2 ls) (some t) ∧ SpellsR t.kids D := by
  obtain ⟨g, b, ⟨N, hN⟩, hG, hb⟩ := grmr_eq hrl
  have hw : (Verif.Grammar.view g).Sentence (ls.map (·.kind)) := by rw [spells_kinds hs]; exact def_sent hG h
  obtain ⟨t, ⟨M, hM⟩, h2⟩ := Verif.Props.Packrat.C20_complete [] _ hG.wf ls (lexed_terms hG hl) hw
  obtain ⟨t', D', w', ⟨K, hK⟩, h3, h4, h5⟩ := read_parse hG hb ho hl h2
  have e := toks_unique hs h5 (def_good h) (def_good h4)
  subst e
  have e := def_same h h4
  subst e
  refine ⟨t', ⟨max N (max M K), fun n hn => ?_⟩, h3⟩
  simp only [readLexemes]
  rw [show grmr n rl = _ from hN n (by omega), Out.bind_ok, hM n (by omega), Out.bind_ok, Tree.reduce, hK n (by omega)]
  rfl

/-- Lexemes that are not those of a definition are rejected. -/
theorem read_rejects (hrl : Verif.Props.RegexGramText.Reach rl) (ho : Orders o1 o2) {ls : List (Lexeme Str Str)} (hl : Lexed ls)
    (hno : ∀ D w, DefWr D w → ¬ RdSpells w ls) : Out.Returns (fun n => readLexemes n rl o1 o2 ls) none := by
  obtain ⟨g, b, ⟨N, hN⟩, hG, hb⟩ := grmr_eq hrl
  have hne : ls ≠ [] := by
    rintro rfl
    exact hno [] [] .nil .nil
  have ht := lexed_terms hG hl
  obtain ⟨M, hM⟩ := Verif.Props.Packrat.C21_rejects_partial ([] : Str) _ hG.wf ls hne ht fun hs => by
    obtain ⟨t, -, h2⟩ := Verif.Props.Packrat.C20_complete ([] : Str) _ hG.wf ls ht hs
    obtain ⟨t', D', w', -, -, h4, h5⟩ := read_parse hG hb ho hl h2
    exact hno D' w' h4 h5
  refine ⟨max N M, fun n hn => ?_⟩
  simp only [readLexemes]
  rw [show grmr n rl = _ from hN n (by omega), Out.bind_ok, hM n (by omega)]
  rfl

/-- **C70, lexemes.** `Parse` returns the reducer meant by the definition that the lexemes spell. -/
theorem C70_parses {σ : Type} (hrl : Verif.Props.RegexGramText.Reach rl) (ho : Orders o1 o2) {D : List (Str × List Stmt)} {w : List RdTok}
    {ls : List (Lexeme Str Str)} (h : DefWr D w) (hs : RdSpells w ls) (hl : Lexed ls) :
    ∃ N, ∀ n ≥ N, ∃ r : Reducer σ Str Str, parseLexemes n rl o1 o2 ls = .ok (some r) ∧ Means n D r := by
  obtain ⟨t, ⟨N, hN⟩, h2⟩ := C70_reads hrl ho h hs hl
  obtain ⟨d0, h3⟩ := C57_definition (σ := σ) h2
  refine ⟨max N d0, fun n hn => ?_⟩
  obtain ⟨r, h4, h5⟩ := h3 n n (by omega)
  refine ⟨r, ?_, h5⟩
  rw [parseLexemes, show readLexemes n rl o1 o2 ls = _ from hN n (by omega), Out.bind_ok]
  simp only [h4, Out.bind_ok]

/-- **C70, only definitions.** Lexemes that do not spell a definition are rejected. -/
theorem C70_rejects {σ : Type} (hrl : Verif.Props.RegexGramText.Reach rl) (ho : Orders o1 o2) {ls : List (Lexeme Str Str)} (hl : Lexed ls)
    (hno : ∀ D w, DefWr D w → ¬ RdSpells w ls) :
    Out.Returns (fun n => parseLexemes (σ := σ) n rl o1 o2 ls) none := by
  obtain ⟨N, hN⟩ := read_rejects hrl ho hl hno
  refine ⟨N, fun n hn => ?_⟩
  simp only [parseLexemes]
  rw [show readLexemes n rl o1 o2 ls = _ from hN n hn]
  rfl

/-! ### From text -/

/-- The lexer of the package in some state: as it is at start, or after calls of `Parse`. -/
inductive Reach (rl : Lexer) (o1 o2 : List Str) : Lexer → Prop
  | start {l} (h : lxr = .ok l) : Reach rl o1 o2 l
  | parse {l l' b} {σ : Type} (h : Reach rl o1 o2 l)
      (c : ∃ N, ∀ n ≥ N, ∃ r : Option (Reducer σ Str Str), parseText n rl o1 o2 l b = .ok (r, l')) : Reach rl o1 o2 l'

/-- The text lays out the definition. -/
def Defines (b : Bytes) (D : List (Str × List Stmt)) : Prop := ∃ ts, RdText b ts ∧ DefWr D ts

theorem rdRules_kinds : rdRules.map (fun r => (chars r.1, r.2.2)) =
    rdWords.map (fun k => (k, false)) ++
    [("number".toList, false), ("rule".toList, false), ("string".toList, false), ("lp".toList, false), ("rp".toList, false),
     ("comma".toList, false), ("period".toList, false), ("comment".toList, true), ("space".toList, true)] := by decide +kernel

theorem kept_other {i : Nat} (hi : 12 ≤ i) (hi' : i < 21) (v : Bytes) : match tokOf (i, v) with
    | none => rdRules.kept (i, v) = none
    | some t => ∃ w, rdRules.kept (i, v) = some (t.kind, w) ∧ ∀ s, t.val = some s → w = s := by
  have hm : i = 12 ∨ i = 13 ∨ i = 14 ∨ i = 15 ∨ i = 16 ∨ i = 17 ∨ i = 18 ∨ i = 19 ∨ i = 20 := by omega
  rw [kept_eq, rdRules_kinds]
  rcases hm with rfl | rfl | rfl | rfl | rfl | rfl | rfl | rfl | rfl
  · exact ⟨_, rfl, by rintro s ⟨⟩; rfl⟩
  · exact ⟨_, rfl, by rintro s ⟨⟩; rfl⟩
  · exact ⟨_, rfl, by rintro s ⟨⟩; rfl⟩
  · exact ⟨_, rfl, by rintro s ⟨⟩⟩
  · exact ⟨_, rfl, by rintro s ⟨⟩⟩
  · exact ⟨_, rfl, by rintro s ⟨⟩⟩
  · exact ⟨_, rfl, by rintro s ⟨⟩⟩
  · rfl
  · rfl

/-- Pieces for words are the words. -/
theorem piece_word {s : Bytes} {c : List (Nat × Bytes)} (h : Cut rdRules.ms s c) : ∀ x ∈ c, x.1 < 21 ∧ (x.1 < 12 → rdWords[x.1]? = some (nameOf x.2)) := by
  induction h with
  | done => intro x hx; cases hx
  | @tok i v s c h rest ih =>
    intro x hx
    rcases List.mem_cons.1 hx with rfl | hx
    · obtain ⟨-, ⟨f, hf, hv⟩, -⟩ := h
      refine ⟨(List.getElem?_eq_some_iff.1 hf).1, fun hi => ?_⟩
      rw [Rules.ms, List.getElem?_map, Option.map_eq_some_iff] at hf
      obtain ⟨r, hr, rfl⟩ := hf
      obtain ⟨k, hk, rfl⟩ := rule_word hi hr
      obtain ⟨hl, u, e⟩ := len_word k _ (wordB_word k (List.mem_of_getElem? hk)) hv
      have : v = k := (List.append_inj e hl).1
      subst this
      rw [rdWords_eq, List.getElem?_map, hk]
      rfl
    · exact ih x hx

theorem kept_tok {i : Nat} {v : Bytes} (h : i < 21) (hw : i < 12 → rdWords[i]? = some (nameOf v)) : match tokOf (i, v) with
    | none => rdRules.kept (i, v) = none
    | some t => ∃ w, rdRules.kept (i, v) = some (t.kind, w) ∧ ∀ s, t.val = some s → w = s := by
  by_cases hi : i < 12
  · rw [tokOf, if_pos hi]
    refine ⟨chars v, ?_, by rintro s ⟨⟩⟩
    have hl : i < rdWords.length := hi
    rw [kept_eq, rdRules_kinds, List.getElem?_append_left (by simpa using hl), List.getElem?_map, hw hi]
    rfl
  · exact kept_other (by omega) h v

theorem spells_kept : ∀ {c : List (Nat × Bytes)} {ls : List (Lexeme Str Str)},
    (∀ x ∈ c, x.1 < 21 ∧ (x.1 < 12 → rdWords[x.1]? = some (nameOf x.2))) →
    ls.map kv = c.filterMap rdRules.kept → RdSpells (c.filterMap tokOf) ls
  | [], ls, _, h => by
    cases ls with
    | nil => exact .nil
    | cons => cases h
  | (i, v) :: c, ls, hc, h => by
    have hk := kept_tok (v := v) (hc (i, v) (by simp)).1 (hc (i, v) (by simp)).2
    have hc' : ∀ x ∈ c, x.1 < 21 ∧ (x.1 < 12 → rdWords[x.1]? = some (nameOf x.2)) := fun x hx => hc x (by simp [hx])
    cases ht : tokOf (i, v) with
    | none =>
      rw [ht] at hk
      simp only [List.filterMap_cons, ht, hk] at h ⊢
      exact spells_kept hc' h
    | some t =>
      rw [ht] at hk
      obtain ⟨w, hk, hw⟩ := hk
      simp only [List.filterMap_cons, ht, hk] at h ⊢
      cases ls with
      | nil => cases h
      | cons l ls =>
        simp only [List.map_cons, List.cons.injEq, kv, Prod.mk.injEq] at h
        exact .cons ⟨h.1.1, fun s e => by rw [h.1.2]; exact hw s e⟩ (spells_kept hc' h.2)

/-- The tokens of a text are real. -/
theorem text_real {b : Bytes} {ts : List RdTok} (h : RdText b ts) : ∀ t ∈ ts, Real t := by
  induction h with
  | done => intro t ht; cases ht
  | space h rest ih => exact ih
  | comment hc stop rest ih => exact ih
  | @name w s ts ne h nd stop rest ih =>
    intro t ht
    rcases List.mem_cons.1 ht with rfl | ht
    · unfold RdTok.ofName
      split
      · rename_i hw
        exact ⟨by rintro k ⟨⟩; exact hw, by rintro s ⟨⟩⟩
      · exact ⟨by rintro k ⟨⟩, by rintro s ⟨⟩⟩
    · exact ih t ht
  | int ne h stop nf rest ih =>
    intro t ht
    rcases List.mem_cons.1 ht with rfl | ht
    · exact ⟨by rintro k ⟨⟩, by rintro s ⟨⟩⟩
    · exact ih t ht
  | neg ne h stop nf rest ih =>
    intro t ht
    rcases List.mem_cons.1 ht with rfl | ht
    · exact ⟨by rintro k ⟨⟩, by rintro s ⟨⟩⟩
    · exact ih t ht
  | frac hm hd ne hf stop rest ih =>
    intro t ht
    rcases List.mem_cons.1 ht with rfl | ht
    · exact ⟨by rintro k ⟨⟩, by rintro s ⟨⟩⟩
    · exact ih t ht
  | @string b s ts h rest ih =>
    intro t ht
    rcases List.mem_cons.1 ht with rfl | ht
    · refine ⟨by rintro k ⟨⟩, ?_⟩
      rintro s ⟨⟩
      refine ⟨nameOf b, ?_⟩
      simp only [nameOf, List.map_cons, List.map_append, List.map_nil]
      rfl
    · exact ih t ht
  | @one x t' s ts h rest ih =>
    intro t ht
    rcases List.mem_cons.1 ht with rfl | ht
    · unfold RdTok.ofByte at h
      split at h <;> cases h <;> exact ⟨by rintro k ⟨⟩, by rintro s ⟨⟩⟩
    · exact ih t ht
  | period stop rest ih =>
    intro t ht
    rcases List.mem_cons.1 ht with rfl | ht
    · exact ⟨by rintro k ⟨⟩, by rintro s ⟨⟩⟩
    · exact ih t ht

theorem parseText_lexer {σ : Type} {n : Nat} {l l' l'' : Lexer} {b : Bytes} {o} {r : Option (Reducer σ Str Str)}
    (h1 : lexText n l b = .ok (o, l'')) (h2 : parseText n rl o1 o2 l b = .ok (r, l')) : l' = l'' := by
  rw [parseText, h1, Out.bind_ok] at h2
  cases o with
  | none => exact (congrArg Prod.snd (Out.ok.inj h2)).symm
  | some ls =>
    obtain ⟨q, -, h3⟩ := Out.bind_eq_ok.1 h2
    exact (congrArg Prod.snd (Out.ok.inj h3)).symm

theorem reach_ready {l : Lexer} (h : Reach rl o1 o2 l) : Ready rdRules [] [] l := by
  induction h with
  | start h =>
    obtain ⟨l0, e, hr⟩ := lxr_ready
    have : l0 = _ := Out.ok.inj (e.symm.trans h)
    rw [← this]
    exact hr
  | @parse l l' b σ h c ih =>
    obtain ⟨o, l'', h1, h2, -⟩ := lexText_cut ih (fine_ascii rdRules_fine) b
    obtain ⟨N, hN⟩ := c
    obtain ⟨M, hM⟩ := h1
    obtain ⟨r, hr⟩ := hN (max N M) (Nat.le_max_left _ _)
    rw [parseText_lexer (hM (max N M) (Nat.le_max_right _ _)) hr]
    exact h2

theorem ins_none : ins [] [] = [] := rfl

/-- **C70, lexing.** A layout of tokens is read as these tokens; any other text is an error. -/
theorem C70_lexes {l : Lexer} (hl : Reach rl o1 o2 l) (b : Bytes) :
    (∃ ts ls l', RdText b ts ∧ RdSpells ts ls ∧ Out.Returns (fun n => lexText n l b) (some ls, l')) ∨
    (∃ l', (∀ ts, ¬ RdText b ts) ∧ Out.Returns (fun n => lexText n l b) (none, l')) := by
  obtain ⟨r, l', h1, -, ⟨c, ls, h3, rfl, h4⟩ | ⟨rfl, h3⟩⟩ := lexText_cut (reach_ready hl) (fine_ascii rdRules_fine) b
  · refine .inl ⟨_, ls, l', text_of_cut h3, ?_, h1⟩
    rw [ins_none, List.nil_append] at h4
    exact spells_kept (piece_word h3) h4
  · refine .inr ⟨l', fun ts ht => ?_, h1⟩
    obtain ⟨c, hc, -⟩ := cut_of_text ht
    exact h3 c hc

/-- **C70.** `Parse` accepts exactly the texts that lay out a definition, whatever it was called with before.
For those it returns the reducer that does, for each name, what the last rule of that name says; for all others
an error. -/
theorem C70_accepts {σ : Type} (hrl : Verif.Props.RegexGramText.Reach rl) (ho : Orders o1 o2) {l : Lexer} (hl : Reach rl o1 o2 l) (b : Bytes) :
    (∃ D, Defines b D ∧ ∃ l' N, ∀ n ≥ N, ∃ r : Reducer σ Str Str, parseText n rl o1 o2 l b = .ok (some r, l') ∧ Means n D r) ∨
    ((∀ D, ¬ Defines b D) ∧ ∃ l', Out.Returns (fun n => parseText (σ := σ) n rl o1 o2 l b) (none, l')) := by
  rcases C70_lexes hl b with ⟨ts, ls, l', h1, h2, M, hM⟩ | ⟨l', h1, M, hM⟩
  · have hL := spells_lexed h2 (text_real h1)
    by_cases h : ∃ D, DefWr D ts
    · obtain ⟨D, hD⟩ := h
      obtain ⟨N, hN⟩ := C70_parses (σ := σ) hrl ho hD h2 hL
      refine .inl ⟨D, ⟨ts, h1, hD⟩, l', max N M, fun n hn => ?_⟩
      obtain ⟨r, hr, hm⟩ := hN n (by omega)
      refine ⟨r, ?_, hm⟩
      rw [parseText, show lexText n l b = _ from hM n (by omega), Out.bind_ok]
      simp only [hr, Out.bind_ok]
    · have hno : ∀ D w, DefWr D w → ¬ RdSpells w ls := by
        intro D w hw hs
        have e := toks_unique h2 hs (fun t ht => (text_real h1 t ht).1) (def_good hw)
        subst e
        exact h ⟨D, hw⟩
      obtain ⟨N, hN⟩ := C70_rejects (σ := σ) hrl ho hL hno
      refine .inr ⟨?_, l', max N M, fun n hn => ?_⟩
      · rintro D ⟨ts', ht, hD⟩
        rw [text_unique ht h1] at hD
        exact h ⟨D, hD⟩
      · simp only [parseText]
        rw [show lexText n l b = _ from hM n (by omega), Out.bind_ok]
        simp only [show parseLexemes (σ := σ) n rl o1 o2 ls = _ from hN n (by omega), Out.bind_ok]
  · refine .inr ⟨fun D ⟨ts, ht, _⟩ => h1 ts ht, l', M, fun n hn => ?_⟩
    simp only [parseText]
    rw [show lexText n l b = _ from hM n hn, Out.bind_ok]

/-- A text lays out at most one definition. -/
theorem C70_unique {b : Bytes} {D D' : List (Str × List Stmt)} (h : Defines b D) (h' : Defines b D') : D = D' := by
  obtain ⟨ts, h1, h2⟩ := h
  obtain ⟨ts', h3, h4⟩ := h'
  rw [text_unique h3 h1] at h4
  exact def_same h2 h4

/-- **C70, reducers.** For a text that lays out a definition, `Parse` returns its reducer. -/
theorem C70_reducer {σ : Type} (hrl : Verif.Props.RegexGramText.Reach rl) (ho : Orders o1 o2) {l : Lexer} (hl : Reach rl o1 o2 l)
    {b : Bytes} {D : List (Str × List Stmt)} (h : Defines b D) :
    ∃ l', Reach rl o1 o2 l' ∧ ∃ N, ∀ n ≥ N, ∃ r : Reducer σ Str Str, parseText n rl o1 o2 l b = .ok (some r, l') ∧ Means n D r := by
  rcases C70_accepts (σ := σ) hrl ho hl b with ⟨D', h1, l', N, hN⟩ | ⟨h1, -⟩
  · rw [C70_unique h h1]
    exact ⟨l', .parse hl ⟨N, fun n hn => by obtain ⟨r, hr, -⟩ := hN n hn; exact ⟨some r, hr⟩⟩, N, hN⟩
  · exact absurd h (h1 D)

/-- The text goes through a tree that C57 is about. -/
theorem parse_root (hrl : Verif.Props.RegexGramText.Reach rl) (ho : Orders o1 o2) {l : Lexer} (hl : Reach rl o1 o2 l)
    {b : Bytes} {D : List (Str × List Stmt)} (h : Defines b D) :
    ∃ t, SpellsR t.kids D ∧ ∃ l' N, ∀ n ≥ N, ∀ {σ : Type}, parseText (σ := σ) n rl o1 o2 l b =
      (eval n n t).bind fun r => .ok (some r, l') := by
  obtain ⟨ts, h1, h2⟩ := h
  rcases C70_lexes hl b with ⟨ts', ls, l', h3, h4, M, hM⟩ | ⟨l', h3, -⟩
  · rw [text_unique h3 h1] at h4
    obtain ⟨t, ⟨N, hN⟩, h6⟩ := C70_reads hrl ho h2 h4 (spells_lexed h4 (text_real h1))
    refine ⟨t, h6, l', max N M, fun n hn σ => ?_⟩
    rw [parseText, show lexText n l b = _ from hM n (by omega), Out.bind_ok]
    simp only [parseLexemes]
    rw [show readLexemes n rl o1 o2 ls = _ from hN n (by omega), Out.bind_ok]
    simp only
    cases eval (σ := σ) n n t <;> rfl
  · exact absurd h1 (h3 ts)

/-! ### Concrete case -/

def jsonToks : List RdTok :=
  [.rule "Value".toList, .word "PromoteSingleChild".toList, .lp, .rp,
   .rule "Object".toList, .word "RemoveChildren".toList, .lp, .number "0".toList, .comma, .number "-1".toList, .rp,
   .rule "Array".toList, .word "RemoveChildren".toList, .lp, .number "0".toList, .comma, .number "-1".toList, .rp,
   .rule "KeyVal".toList, .word "PromoteChildValue".toList, .lp, .number "0".toList, .rp, .period,
     .word "RemoveChild".toList, .lp, .number "0".toList, .rp,
   .rule "MoreVals".toList, .word "ReplaceWithChild".toList, .lp, .number "1".toList, .rp,
   .rule "MoreKeyVals".toList, .word "ReplaceWithChild".toList, .lp, .number "1".toList, .rp]

theorem int0 : IntOf charNumerals "0".toList 0 := intOf_small (.plain (n := 0) (.one (by decide))) (by decide)
theorem int1 : IntOf charNumerals "1".toList 1 := intOf_small (.plain (n := 1) (.one (by decide))) (by decide)
theorem intm : IntOf charNumerals "-1".toList (-1) := intOf_small (.minus (n := 1) (s := "1".toList) (.one (by decide))) (by decide)

/-- The tokens are those of the reductions. -/
theorem jsonToks_wr : DefWr Verif.Props.JsonFormat.reduceRules jsonToks :=
  .cons (.last .single) <| .cons (.last (.removeChildren (vs := ["0".toList, "-1".toList]) (by simp) (.cons int0 (.cons intm .nil)))) <|
  .cons (.last (.removeChildren (vs := ["0".toList, "-1".toList]) (by simp) (.cons int0 (.cons intm .nil)))) <|
  .cons (.more (.value int0) (.last (.removeChild int0))) <| .cons (.last (.replace int1)) <| .cons (.last (.replace int1)) .nil

set_option maxRecDepth 10000 in
/-- The text of examples/parlexjson lays them out. -/
theorem jsonText_defines : Defines (bytes Json.reduceText) Verif.Props.JsonFormat.reduceRules := by
  refine ⟨jsonToks, rdScan_text (n := 1000) ?_, jsonToks_wr⟩
  unfold Json.reduceText jsonToks
  simp only [litToList]
  decide +kernel

/-- The orders in which the maps are ranged over can be any. -/
theorem orders_ex : ∃ o1 o2, Orders o1 o2 := ⟨_, _, fun _ => Iff.rfl, fun _ => Iff.rfl⟩

/-- Non-trivial case of C70: the reducer of examples/parlexjson, from its text. -/
example : ∃ rl o1 o2 l, Verif.Props.RegexGramText.Reach rl ∧ Orders o1 o2 ∧ Reach rl o1 o2 l ∧
    Defines (bytes Json.reduceText) Verif.Props.JsonFormat.reduceRules := by
  obtain ⟨rl, h, -⟩ := Verif.RegexGram.lxr_ready
  obtain ⟨l, h', -⟩ := lxr_ready
  obtain ⟨o1, o2, ho⟩ := orders_ex
  exact ⟨rl, o1, o2, l, .start h, ho, .start h', jsonText_defines⟩

def condToks : List RdTok :=
  [.rule "Sum2".toList, .word "If".toList, .lp, .word "ChildIs".toList, .lp, .number "-1".toList, .comma, inQuotes "a b".toList, .rp, .comma,
   .word "RemoveAll".toList, .lp, inQuotes "x".toList, .comma, inQuotes "y".toList, .rp, .period, .word "PromoteChild".toList, .lp, .number "0".toList, .rp,
   .comma, .word "Nil".toList, .rp]

def condRules : List (Str × List Stmt) :=
  [("Sum2".toList, [.ifChildIs (-1) "a b".toList [.op (.removeAll ["x".toList, "y".toList]), .op (.promoteChild 0)] [.skip]])]

set_option maxRecDepth 10000 in
/-- Another one, with a condition and strings. -/
example : Defines (bytes "Sum2 If(ChildIs(-1,\"a b\"), // if so\n RemoveAll(\"x\", \"y\").PromoteChild(0), Nil)".toList) condRules := by
  refine ⟨condToks, rdScan_text (n := 1000) ?_, ?_⟩
  · unfold condToks
    simp only [litToList]
    decide +kernel
  · exact .cons (.last (.cond intm (.more (.removeAll (ks := ["x".toList, "y".toList]) (by simp)) (.last (.child int0))) (.last .nil))) .nil

end Verif.Props.ReducerText
