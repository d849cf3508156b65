import Verif.Proofs.JsonPretty
import Verif.Props.ReducerText
import Verif.Props.RegexGramText
/-
C71: `Format` of examples/parlexjson from text to text.
-/
namespace Verif.Props.JsonText
open Verif Verif.Spec Verif.Spec.Json Verif.Json Verif.SimpleLexer
open Verif.ReducerDSL (Orders)
open Verif.Props.JsonFormat (start_facts C65_error written_tokens written_unique reduceRules)
open Verif.Props.ReducerDSL (C57_definition SpellsR)

/-- How the program can have started: package regexgram and package reducer are initialised, and used as often as
may be before the variables here are; maps are ranged over in any orders. -/
structure Started (rl0 rl pl : Lexer) (p1 p2 o1 o2 : List Str) : Prop where
  first : Verif.Props.RegexGramText.Reach rl0
  gram : Verif.Props.RegexGramText.Reach rl
  orders : Orders p1 p2
  red : Verif.Props.ReducerText.Reach rl0 p1 p2 pl
  map1 : ∀ k, k ∈ o1 ↔ k = "Array".toList ∨ k = "Object".toList
  map2 : ∀ k, k ∈ o2 ↔ k ∈ reduceRules.map (·.1)

/-- The lexer of the package in some state: as it is at start, or after calls of `Format`. -/
inductive Reach (rl0 rl pl : Lexer) (p1 p2 o1 o2 : List Str) : Lexer → Prop
  | start {l} (h : lxr = .ok l) : Reach rl0 rl pl p1 p2 o1 o2 l
  | format {l l' b r} (h : Reach rl0 rl pl p1 p2 o1 o2 l)
      (c : Out.Returns (fun n => formatText n rl0 rl pl p1 p2 o1 o2 l b) (r, l')) : Reach rl0 rl pl p1 p2 o1 o2 l'

variable {rl0 rl pl : Lexer} {p1 p2 o1 o2 : List Str}

/-! ### The variables -/

/-- What the variables are: those of C65. -/
theorem vars_format (h : Started rl0 rl pl p1 p2 o1 o2) : ∃ groot rroot : PN Str Str, RulesShown [] Json.grammarRules groot.kids ∧
    SpellsR rroot.kids reduceRules ∧ ∃ N, ∀ n ≥ N, ∀ ls, ((vars n rl0 rl pl p1 p2 o1 o2).bind fun v => formatLexemes n v.1 v.2 ls) =
      Json.format n groot rroot o1 o2 ls := by
  obtain ⟨groot, g1, l', -, g2⟩ := Verif.Props.RegexGramText.newText_root h.gram Verif.Props.RegexGramText.jsonLines_defines
  obtain ⟨rroot, r1, l'', N, r2⟩ := Verif.Props.ReducerText.parse_root h.first h.orders h.red Verif.Props.ReducerText.jsonText_defines
  rw [Verif.Props.RegexGramText.jsonLines_rules] at g1
  obtain ⟨g, b, -, ⟨N1, e1⟩, -⟩ := Verif.RegexGram.evalGrammar_spec g1
  obtain ⟨N2, e2⟩ := g2 (g, b) ⟨N1, e1⟩
  obtain ⟨d0, hd⟩ := C57_definition (σ := Unit) r1
  refine ⟨groot, rroot, g1, r1, max N (max N1 (max N2 d0)), fun n hn ls => ?_⟩
  obtain ⟨r, er, -⟩ := hd n n (by omega)
  rw [vars, Json.format, show Verif.RegexGram.newText n rl (bytes grammarText) = _ from e2 n (by omega), Out.bind_ok,
    show Verif.RegexGram.evalGrammar n groot = _ from e1 n (by omega), Out.bind_ok, er, Out.bind_ok]
  simp only
  cases Topdown.new (Verif.Grammar.view g) n with
  | panic => rfl
  | fuel => rfl
  | ok x =>
    simp only [Out.bind_ok]
    cases x with
    | false => rfl
    | true =>
      simp only [if_true]
      rw [r2 n (by omega), er, Out.bind_ok]
      simp only [Out.bind_ok]

/-- `Format` after lexing: values are laid out, all else is an error. -/
theorem format_pretty {groot rroot : PN Str Str} (hg : RulesShown [] Json.grammarRules groot.kids) (hr : SpellsR rroot.kids reduceRules)
    (h1 : ∀ k, k ∈ o1 ↔ k = "Array".toList ∨ k = "Object".toList) (h2 : ∀ k, k ∈ o2 ↔ k ∈ reduceRules.map (·.1)) {v : Val}
    {ls : List (Lexeme Str Str)} (hw : Written (.val v) ls) :
    Out.Returns (fun n => Json.format n groot rroot o1 o2 ls) (some (pretty v [])) ∧ Spaced (tokens v) (pretty v []) := by
  obtain ⟨G, R, jg, wf, jr, N, hN⟩ := start_facts hg hr h1 h2
  obtain ⟨t, t', hc, ⟨N1, hred⟩, hst⟩ := written_accepted (ev := []) jg jr hw
  obtain ⟨N2, hp⟩ := (Verif.Props.Topdown.C15_ordered_choice [] G wf ls _).2 hc
  obtain ⟨s, es, hs⟩ := Verif.Props.Json.C56_format hst
  have e := pp_pretty hst []
  rw [es] at e
  cases e
  refine ⟨⟨max N (max N1 N2), fun n hn => ?_⟩, hs⟩
  simp only
  rw [hN n (by omega), formatLexemes, hp n (by omega), Out.bind_ok, Tree.reduce, hred n (by omega)]
  simp only [Out.bind_ok, es]

/-- The variables are there. -/
theorem vars_ok (h : Started rl0 rl pl p1 p2 o1 o2) : ∃ N, ∀ n ≥ N, ∃ v, vars n rl0 rl pl p1 p2 o1 o2 = .ok v := by
  obtain ⟨groot, rroot, g1, r1, N, hN⟩ := vars_format h
  obtain ⟨M, hM⟩ := (format_pretty g1 r1 h.map1 h.map2 (.atom (l := ⟨"null".toList, [], 0, 0⟩) (by decide))).1
  refine ⟨max N M, fun n hn => ?_⟩
  have e := hN n (by omega) [⟨"null".toList, [], 0, 0⟩]
  rw [show Json.format n groot rroot o1 o2 _ = _ from hM n (by omega)] at e
  obtain ⟨v, hv, -⟩ := Out.bind_eq_ok.1 e
  exact ⟨v, hv⟩

/-! ### The lexer -/

theorem format_lexer (h : Started rl0 rl pl p1 p2 o1 o2) {l l' l'' : Lexer} {b : Bytes} {o r}
    (h1 : Out.Returns (fun n => lexText n l b) (o, l'')) (h2 : Out.Returns (fun n => formatText n rl0 rl pl p1 p2 o1 o2 l b) (r, l')) :
    l' = l'' := by
  obtain ⟨N, hN⟩ := vars_ok h
  obtain ⟨M, hM⟩ := h1
  obtain ⟨K, hK⟩ := h2
  obtain ⟨v, hv⟩ := hN (max N (max M K)) (by omega)
  have e := hK (max N (max M K)) (by omega)
  simp only at e
  rw [formatText, hv, Out.bind_ok, show lexText _ l b = _ from hM (max N (max M K)) (by omega), Out.bind_ok] at e
  cases o with
  | none => exact (congrArg Prod.snd (Out.ok.inj e)).symm
  | some ls =>
    obtain ⟨q, -, h3⟩ := Out.bind_eq_ok.1 e
    exact (congrArg Prod.snd (Out.ok.inj h3)).symm

theorem reach_ready (hS : Started rl0 rl pl p1 p2 o1 o2) {l : Lexer} (h : Reach rl0 rl pl p1 p2 o1 o2 l) : Ready jsRules [] [] l := by
  induction h with
  | start h =>
    obtain ⟨l0, e, hr⟩ := lxr_ready
    have : l0 = _ := Out.ok.inj (e.symm.trans h)
    rw [← this]
    exact hr
  | @format l l' b r h c ih =>
    obtain ⟨o, l'', h1, h2, -⟩ := lexText_cut ih (fine_ascii jsRules_fine) b
    rw [format_lexer hS h1 c]
    exact h2

/-- **C71, lexing.** A layout of tokens is read as these tokens; any other text is an error. -/
theorem C71_lexes (hS : Started rl0 rl pl p1 p2 o1 o2) {l : Lexer} (hl : Reach rl0 rl pl p1 p2 o1 o2 l) (b : Bytes) :
    (∃ ls l', JsText b (ls.map fun l => (l.kind, l.val)) ∧ Out.Returns (fun n => lexText n l b) (some ls, l')) ∨
    (∃ l', (∀ ts, ¬ JsText b ts) ∧ Out.Returns (fun n => lexText n l b) (none, l')) := by
  obtain ⟨r, l', h1, -, ⟨c, ls, h3, rfl, h4⟩ | ⟨rfl, h3⟩⟩ := lexText_cut (reach_ready hS hl) (fine_ascii jsRules_fine) b
  · refine .inl ⟨ls, l', ?_, h1⟩
    rw [Verif.Props.ReducerText.ins_none, List.nil_append] at h4
    have h4 : ls.map (fun l => (l.kind, l.val)) = _ := h4
    rw [h4]
    exact text_of_cut h3
  · refine .inr ⟨l', fun ts ht => ?_, h1⟩
    obtain ⟨c, hc, -⟩ := cut_of_text ht
    exact h3 c hc

/-! ### Values of texts -/

/-- Whether lexemes are a value depends on their kinds and texts alone. -/
theorem written_kv {p : Part} {ls : List (Lexeme Str Str)} (h : Written p ls) : ∀ {ls' : List (Lexeme Str Str)}, ls'.map kv = ls.map kv → Written p ls' := by
  have one : ∀ {a : Lexeme Str Str} {r : List (Lexeme Str Str)} {ls' : List (Lexeme Str Str)}, ls'.map kv = (a :: r).map kv →
      ∃ a' r', ls' = a' :: r' ∧ a'.kind = a.kind ∧ a'.val = a.val ∧ r'.map kv = r.map kv := by
    intro a r ls' e
    cases ls' with
    | nil => cases e
    | cons a' r' =>
      simp only [List.map_cons, List.cons.injEq, kv, Prod.mk.injEq] at e
      exact ⟨a', r', rfl, e.1.1, e.1.2, e.2⟩
  have nil : ∀ {ls' : List (Lexeme Str Str)}, ls'.map kv = [].map kv → ls' = [] := by
    intro ls' e
    simpa using e
  have app : ∀ {x y : List (Lexeme Str Str)} {ls' : List (Lexeme Str Str)}, ls'.map kv = (x ++ y).map kv →
      ∃ x' y', ls' = x' ++ y' ∧ x'.map kv = x.map kv ∧ y'.map kv = y.map kv := by
    intro x y ls' e
    rw [List.map_append, List.map_eq_append_iff] at e
    obtain ⟨x', y', h1, h2, h3⟩ := e
    exact ⟨x', y', h1, h2, h3⟩
  induction h with
  | @atom l hk =>
    intro ls' e
    obtain ⟨a, r, rfl, h1, h2, h3⟩ := one e
    rw [nil h3, ← h2]
    exact .atom (by rw [h1]; exact hk)
  | noItems ha hb =>
    intro ls' e
    obtain ⟨a, r, rfl, h1, -, h3⟩ := one e
    obtain ⟨b, r, rfl, h4, -, h5⟩ := one h3
    rw [nil h5]
    exact .noItems (h1.trans ha) (h4.trans hb)
  | arr ha hb _ _ ih1 ih2 =>
    intro ls' e
    obtain ⟨a, r, rfl, h1, -, h3⟩ := one e
    obtain ⟨xy, r, rfl, h4, h5⟩ := app h3
    obtain ⟨b, r, rfl, h6, -, h7⟩ := one h5
    obtain ⟨x, y, rfl, h8, h9⟩ := app h4
    rw [nil h7]
    exact .arr (h1.trans ha) (h6.trans hb) (ih1 h8) (ih2 h9)
  | noFields ha hb =>
    intro ls' e
    obtain ⟨a, r, rfl, h1, -, h3⟩ := one e
    obtain ⟨b, r, rfl, h4, -, h5⟩ := one h3
    rw [nil h5]
    exact .noFields (h1.trans ha) (h4.trans hb)
  | obj ha hb _ _ ih1 ih2 =>
    intro ls' e
    obtain ⟨a, r, rfl, h1, -, h3⟩ := one e
    obtain ⟨xy, r, rfl, h4, h5⟩ := app h3
    obtain ⟨b, r, rfl, h6, -, h7⟩ := one h5
    obtain ⟨x, y, rfl, h8, h9⟩ := app h4
    rw [nil h7]
    exact .obj (h1.trans ha) (h6.trans hb) (ih1 h8) (ih2 h9)
  | itemsEnd => intro ls' e; rw [nil e]; exact .itemsEnd
  | item hc _ _ ih1 ih2 =>
    intro ls' e
    obtain ⟨a, r, rfl, h1, -, h3⟩ := one e
    obtain ⟨x, y, rfl, h8, h9⟩ := app h3
    exact .item (h1.trans hc) (ih1 h8) (ih2 h9)
  | field hl hc _ ih =>
    intro ls' e
    obtain ⟨a, r, rfl, h1, h2, h3⟩ := one e
    obtain ⟨b, r, rfl, h4, -, h5⟩ := one h3
    rw [← h2]
    exact .field (h1.trans hl) (h4.trans hc) (ih h5)
  | fieldsEnd => intro ls' e; rw [nil e]; exact .fieldsEnd
  | moreFields hc _ _ ih1 ih2 =>
    intro ls' e
    obtain ⟨a, r, rfl, h1, -, h3⟩ := one e
    obtain ⟨x, y, rfl, h8, h9⟩ := app h3
    exact .moreFields (h1.trans hc) (ih1 h8) (ih2 h9)

/-- A text is at most one value. -/
theorem C71_unique {b : Bytes} {v v' : Val} (h : JsonOf b v) (h' : JsonOf b v') : v = v' := by
  obtain ⟨ls, h1, h2⟩ := h
  obtain ⟨ls', h3, h4⟩ := h'
  exact written_unique h2 (written_kv h4 (text_unique h1 h3))

/-- **C71, whole.** `Format` accepts exactly the texts that are JSON values, whatever it was called with before;
it returns the value laid out. -/
theorem C71_format (hS : Started rl0 rl pl p1 p2 o1 o2) {l : Lexer} (hl : Reach rl0 rl pl p1 p2 o1 o2 l) (b : Bytes) :
    (∃ v, JsonOf b v ∧ ∃ l', Out.Returns (fun n => formatText n rl0 rl pl p1 p2 o1 o2 l b) (some (packed (pretty v [])), l')) ∨
    ((∀ v, ¬ JsonOf b v) ∧ ∃ l', Out.Returns (fun n => formatText n rl0 rl pl p1 p2 o1 o2 l b) (none, l')) := by
  obtain ⟨groot, rroot, g1, r1, N, hN⟩ := vars_format hS
  obtain ⟨K, hK⟩ := vars_ok hS
  rcases C71_lexes hS hl b with ⟨ls, l', h1, M, hM⟩ | ⟨l', h1, M, hM⟩
  · have run : ∀ o, Out.Returns (fun n => Json.format n groot rroot o1 o2 ls) o →
        Out.Returns (fun n => formatText n rl0 rl pl p1 p2 o1 o2 l b) (o.map packed, l') := by
      rintro o ⟨J, hJ⟩
      refine ⟨max N (max K (max M J)), fun n hn => ?_⟩
      obtain ⟨v, hv⟩ := hK n (by omega)
      have e := hN n (by omega) ls
      rw [hv, Out.bind_ok, show Json.format n groot rroot o1 o2 ls = _ from hJ n (by omega)] at e
      simp only [formatText]
      rw [hv, Out.bind_ok, show lexText n l b = _ from hM n (by omega), Out.bind_ok]
      simp only
      rw [e, Out.bind_ok]
    by_cases h : ∃ v, Written (.val v) ls
    · obtain ⟨v, hv⟩ := h
      exact .inl ⟨v, ⟨ls, h1, hv⟩, l', run _ (format_pretty g1 r1 hS.map1 hS.map2 hv).1⟩
    · refine .inr ⟨?_, l', run none (C65_error g1 r1 hS.map1 hS.map2 fun v hv => h ⟨v, hv⟩)⟩
      rintro v ⟨ls', h3, h4⟩
      exact h ⟨v, written_kv h4 (text_unique h1 h3)⟩
  · refine .inr ⟨fun v ⟨ls, h, _⟩ => h1 _ h, l', max K M, fun n hn => ?_⟩
    obtain ⟨v, hv⟩ := hK n (by omega)
    simp only [formatText]
    rw [hv, Out.bind_ok, show lexText n l b = _ from hM n (by omega), Out.bind_ok]

/-- **C71, output.** What is returned is the same tokens with only blanks and line breaks between them, and is
read as the same value. -/
theorem C71_output {b : Bytes} {v : Val} (h : JsonOf b v) : ∃ ts, JsText b ts ∧ JsText (packed (pretty v [])) ts ∧
    Spaced (ts.map (·.2)) (pretty v []) ∧ JsonOf (packed (pretty v [])) v := by
  obtain ⟨ls, h1, h2⟩ := h
  have hs := (format_pretty (o1 := ["Array".toList, "Object".toList]) (o2 := reduceRules.map (·.1))
    (Verif.Props.RegexGram.rootOf_shows Json.grammarRules) Verif.Props.JsonFormat.exRules_spells (by simp) (by simp) h2).2
  have e : ls.map (·.val) = tokens v := written_tokens h2 (text_faithful h1)
  rw [← e] at hs
  have h3 := (spaced_text (written_apart h2).1 (fun l hl => text_toks h1 _ (List.mem_map_of_mem hl)) hs).1
  refine ⟨_, h1, h3, ?_, ls, h3, h2⟩
  rw [List.map_map]
  exact hs

/-- **C71, formatting twice.** Formatting what `Format` returned changes nothing. -/
theorem C71_idempotent (hS : Started rl0 rl pl p1 p2 o1 o2) {l l' m : Lexer} (hl : Reach rl0 rl pl p1 p2 o1 o2 l)
    (hm : Reach rl0 rl pl p1 p2 o1 o2 m) {b s : Bytes}
    (h : Out.Returns (fun n => formatText n rl0 rl pl p1 p2 o1 o2 l b) (some s, l')) :
    ∃ m', Out.Returns (fun n => formatText n rl0 rl pl p1 p2 o1 o2 m s) (some s, m') := by
  rcases C71_format hS hl b with ⟨v, h1, l1, h2⟩ | ⟨-, l1, h2⟩
  · have e := h.unique h2
    cases e
    obtain ⟨ts, -, -, -, h3⟩ := C71_output h1
    rcases C71_format hS hm (packed (pretty v [])) with ⟨v', h4, m', h5⟩ | ⟨h4, -⟩
    · rw [C71_unique h4 h3] at h5
      exact ⟨m', h5⟩
    · exact absurd h3 (h4 v)
  · have e := h.unique h2
    cases e

/-- **C71, layout does not matter.** Texts with the same tokens give the same result. -/
theorem C71_same (hS : Started rl0 rl pl p1 p2 o1 o2) {l m : Lexer} (hl : Reach rl0 rl pl p1 p2 o1 o2 l)
    (hm : Reach rl0 rl pl p1 p2 o1 o2 m) {b c : Bytes} {ts} (hb : JsText b ts) (hc : JsText c ts) :
    ∃ r l' m', Out.Returns (fun n => formatText n rl0 rl pl p1 p2 o1 o2 l b) (r, l') ∧
      Out.Returns (fun n => formatText n rl0 rl pl p1 p2 o1 o2 m c) (r, m') := by
  have key : ∀ {b c : Bytes} {v}, JsText b ts → JsText c ts → JsonOf b v → JsonOf c v := by
    rintro b c v hb hc ⟨ls, h1, h2⟩
    exact ⟨ls, by rw [text_unique h1 hb]; exact hc, h2⟩
  rcases C71_format hS hl b with ⟨v, h1, l', h2⟩ | ⟨h1, l', h2⟩
  · rcases C71_format hS hm c with ⟨v', h3, m', h4⟩ | ⟨h3, -⟩
    · rw [C71_unique h3 (key hb hc h1)] at h4
      exact ⟨_, l', m', h2, h4⟩
    · exact absurd (key hb hc h1) (h3 v)
  · rcases C71_format hS hm c with ⟨v', h3, -⟩ | ⟨-, m', h4⟩
    · exact absurd (key hc hb h3) (h1 v')
    · exact ⟨_, l', m', h2, h4⟩

/-! ### Concrete case -/

def exText : Bytes := bytes "{\"a\" :[.5, [ ]],\n\"b\": true}".toList
def exOut : Bytes := bytes "{\n  \"a\": [.5,\n    []\n  ],\n  \"b\": true\n}".toList
def exVal : Val := .obj [("\"a\"".toList, .arr [.atom ".5".toList, .arr []]), ("\"b\"".toList, .atom "true".toList)]

open Verif.Props.JsonFormat (lxm)

def exLexemes : List (Lexeme Str Str) := [lxm "lcb" "{", lxm "string" "\"a\"", lxm "colon" ":", lxm "lb" "[", lxm "number" ".5",
  lxm "comma" ",", lxm "lb" "[", lxm "rb" "]", lxm "rb" "]", lxm "comma" ",", lxm "string" "\"b\"", lxm "colon" ":", lxm "bool" "true", lxm "rcb" "}"]

theorem exText_text : JsText exText (exLexemes.map fun l => (l.kind, l.val)) := by
  have e : exText = [123, 34, 97, 34, 32, 58, 91, 46, 53, 44, 32, 91, 32, 93, 93, 44, 10, 34, 98, 34, 58, 32, 116, 114, 117, 101, 125] := by
    decide +kernel
  rw [e]
  have h1 : StrBody [97] := .plain (by decide) (by decide) .nil
  have h2 : StrBody [98] := .plain (by decide) (by decide) .nil
  have t := JsText.word (w := [116, 114, 117, 101]) (k := "bool".toList) (by simp [jsWords]) (.one (x := 125) rfl .done)
  have t := JsText.string h2 (.one (x := 58) rfl (.space (x := 32) rfl t))
  have t := JsText.one (x := 93) rfl (.one (x := 93) rfl (.one (x := 44) rfl (.space (x := 10) rfl t)))
  have t := JsText.one (x := 44) rfl (.space (x := 32) rfl (.one (x := 91) rfl (.space (x := 32) rfl t)))
  have t := JsText.frac (d := []) (f := [53]) (by simp) (by simp) (by decide) (by rintro x s ⟨⟩; decide) t
  exact .one (x := 123) rfl (.string h1 (.space (x := 32) rfl (.one (x := 58) rfl (.one (x := 91) rfl t))))

theorem exLexemes_written : Written (.val exVal) exLexemes := by
  have ht : Written (.val (.atom ".5".toList)) [lxm "number" ".5"] := .atom (l := lxm "number" ".5") (by decide)
  have he : Written (.val (.arr [])) [lxm "lb" "[", lxm "rb" "]"] := .noItems rfl rfl
  have hi : Written (.items [.arr []]) [lxm "comma" ",", lxm "lb" "[", lxm "rb" "]"] := .item (c := lxm "comma" ",") rfl he .itemsEnd
  have ha := Written.arr (a := lxm "lb" "[") (b := lxm "rb" "]") rfl rfl ht hi
  have hf := Written.field (l := lxm "string" "\"a\"") (c := lxm "colon" ":") rfl rfl ha
  have hb : Written (.val (.atom "true".toList)) [lxm "bool" "true"] := .atom (l := lxm "bool" "true") (by decide)
  have hg := Written.field (l := lxm "string" "\"b\"") (c := lxm "colon" ":") rfl rfl hb
  have hm := Written.moreFields (c := lxm "comma" ",") rfl hg .fieldsEnd
  exact Written.obj (a := lxm "lcb" "{") (b := lxm "rcb" "}") rfl rfl hf hm

theorem ex_json : JsonOf exText exVal := ⟨_, exText_text, exLexemes_written⟩

/-- The program can start. -/
theorem started_ex : ∃ rl0 rl pl p1 p2 o1 o2 l, Started rl0 rl pl p1 p2 o1 o2 ∧ Reach rl0 rl pl p1 p2 o1 o2 l := by
  obtain ⟨rl, h, -⟩ := Verif.RegexGram.lxr_ready
  obtain ⟨pl, h', -⟩ := Verif.ReducerDSL.lxr_ready
  obtain ⟨p1, p2, ho⟩ := Verif.Props.ReducerText.orders_ex
  obtain ⟨l, h'', -⟩ := lxr_ready
  exact ⟨rl, rl, pl, p1, p2, ["Array".toList, "Object".toList], reduceRules.map (·.1), l,
    ⟨.start h, .start h, ho, .start h', by simp, by simp⟩, .start h''⟩

/-- What it returns for the text. -/
theorem ex_format (hS : Started rl0 rl pl p1 p2 o1 o2) {l : Lexer} (hl : Reach rl0 rl pl p1 p2 o1 o2 l) :
    ∃ l', Out.Returns (fun n => formatText n rl0 rl pl p1 p2 o1 o2 l exText) (some exOut, l') := by
  rcases C71_format hS hl exText with ⟨v, h1, l', h2⟩ | ⟨h1, -⟩
  · rw [C71_unique h1 ex_json] at h2
    refine ⟨l', ?_⟩
    have e : packed (pretty exVal []) = exOut := by decide +kernel
    rw [e] at h2
    exact h2
  · exact absurd ex_json (h1 _)

end Verif.Props.JsonText
