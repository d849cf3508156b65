import Verif.Model.ScalcMain
import Verif.Spec.ScalcSession
import Verif.Props.ScalcRun
/-
C79: an interactive session with the stack calculator keeps the stack as shown from line to line.
-/
namespace Verif.Props.ScalcMain
open Verif Verif.Spec Verif.Spec.Scalc Verif.Scalc Verif.ScalcMain Verif.SimpleLexer Verif.Props.ScalcText

variable {N : Type}

/-! ### The text of a stack -/

/-- The tokens a number is written with. -/
inductive Wr : Int → Bytes → List Tok → Prop
  | whole {g d} : g = [] ∨ g = [45] → d ≠ [] → (∀ x ∈ d, RxByte.digit x = true) → Wr 0 (g ++ d) [(.int, nameOf (g ++ d))]
  | frac {g d e} : g = [] ∨ g = [45] → d ≠ [] → (∀ x ∈ d, RxByte.digit x = true) → e ≠ [] → (∀ x ∈ e, RxByte.digit x = true) →
      Wr e.length (g ++ (d ++ 46 :: e)) [(.int, nameOf (g ++ d)), (.dec, nameOf (46 :: e))]

theorem Wr.of {P : Int} {x : Bytes} (h : Numeral P x) : ∃ ts, Wr P x ts := by
  cases h with
  | whole h1 h2 h3 => exact ⟨_, .whole h1 h2 h3⟩
  | frac h1 h2 h3 h4 h5 => exact ⟨_, .frac h1 h2 h3 h4 h5⟩

theorem Wr.text {P : Int} {x : Bytes} {ws : List Tok} (h : Wr P x ws) {s : Bytes} {ts : List Tok} (hs : SText s ts) (hd : NoHead RxByte.digit s) :
    SText (x ++ s) (ws ++ ts) := by
  cases h with
  | @whole g d h1 h2 h3 =>
    rw [List.append_assoc]
    exact SText.int (h1.imp id .inr) h2 h3 hd hs
  | @frac g d e h1 h2 h3 h4 h5 =>
    rw [List.append_assoc, List.append_assoc]
    refine SText.int (h1.imp id .inr) h2 h3 ?_ (SText.dec h4 h5 hd hs)
    intro x t hx
    cases hx
    decide

theorem Wr.kinds {P : Int} {x : Bytes} {ws : List Tok} (h : Wr P x ws) : ∀ k ∈ ws.map (·.1), k = Spec.Scalc.Kind.int ∨ k = .dec := by
  cases h <;> simp

theorem Wr.head {P : Int} {x : Bytes} {ws : List Tok} (h : Wr P x ws) : ∀ y {s : List Tok} r, ws ++ s ≠ (.dec, y) :: r := by
  cases h <;> exact fun y s r e => by cases e

theorem nameOf_append (a b : Bytes) : nameOf (a ++ b) = nameOf a ++ nameOf b := List.map_append

theorem Wr.exec {A : Arith N} {P : Int} {x : Bytes} {ws : List Tok} (h : Wr P x ws) (ts : List Tok) (hts : ∀ y r, ts ≠ (.dec, y) :: r)
    (st : List (PF N)) (out : List (List (PF N))) :
    Spec.Scalc.exec A (ws ++ ts) st out = Spec.Scalc.exec A ts (⟨A.num (nameOf x), P⟩ :: st) out := by
  cases h with
  | @whole g d h1 h2 h3 =>
    match ts with
    | [] => rfl
    | (.dec, y) :: r => exact absurd rfl (hts y r)
    | (.int, y) :: r => rfl
    | (.uop, y) :: r => rfl
    | (.bop, y) :: r => rfl
    | (.sop, y) :: r => rfl
    | (.smp, y) :: r => rfl
    | (.choice, y) :: r => rfl
    | (.opening, y) :: r => rfl
    | (.closing, y) :: r => rfl
  | @frac g d e h1 h2 h3 h4 h5 =>
    show Spec.Scalc.exec A ts (⟨A.num (nameOf (g ++ d) ++ nameOf (46 :: e)), ((nameOf (46 :: e)).length : Int) - 1⟩ :: st) out = _
    rw [← nameOf_append, List.append_assoc]
    congr 3
    simp [nameOf]

/-- The text of a stack, before a space. -/
theorem stack_text {A : Arith N} {sh : PF N → Bytes} : ∀ (vs : List (PF N)), (∀ p ∈ vs, Numeral p.P (sh p)) →
    ∃ ws : List Tok, (∀ k ∈ ws.map (·.1), k = Spec.Scalc.Kind.int ∨ k = .dec) ∧
      (∀ s ts, SText s ts → SText (format sh vs ++ 32 :: s) (ws ++ ts)) ∧
      (∀ (ts : List Tok), (∀ y r, ts ≠ (.dec, y) :: r) → ∀ st out, exec A (ws ++ ts) st out = exec A ts ((vs.map (asShown A sh)).reverse ++ st) out) ∧
      (∀ y r, ws ≠ (.dec, y) :: r)
  | [], _ => ⟨[], by simp, fun s ts h => .space (by decide) h, fun ts _ st out => rfl, by simp⟩
  | p :: vs, h => by
    obtain ⟨ws, h1, h2, h3, h4⟩ := stack_text (A := A) vs fun p hp => h p (.tail _ hp)
    obtain ⟨w, hw⟩ := Wr.of (h p (.head _))
    have h32 : ∀ s : Bytes, NoHead RxByte.digit (32 :: s) := fun s x t hx => by cases hx; decide
    refine ⟨w ++ ws, ?_, ?_, ?_, ?_⟩
    · intro k hk
      rw [List.map_append, List.mem_append] at hk
      rcases hk with hk | hk
      · exact hw.kinds k hk
      · exact h1 k hk
    · intro s ts hs
      rw [List.append_assoc]
      cases vs with
      | nil =>
        have := h2 s ts hs
        exact hw.text this (h32 s)
      | cons q vs =>
        have := hw.text (.space (x := 32) (by decide) (h2 s ts hs)) (h32 _)
        simpa [format, joinSpace] using this
    · intro ts hts st out
      have hne : ∀ y r, ws ++ ts ≠ (.dec, y) :: r := by
        intro y r e
        cases ws with
        | nil => exact hts y r e
        | cons t ws =>
          rw [List.cons_append] at e
          obtain ⟨e1, e2⟩ := List.cons.inj e
          exact h4 y ws (by rw [e1])
      rw [List.append_assoc, hw.exec _ hne, h3 ts hts]
      simp [asShown]
    · exact fun y r => hw.head y r

/-- What follows a space in a text of tokens is a text of tokens. -/
theorem text_after {t : Bytes} {ts : List Tok} (h : SText t ts) : ∀ a s, t = a ++ 32 :: s → ∃ ts', SText s ts' := by
  have skip : ∀ {w rest a s : Bytes}, 32 ∉ w → w ++ rest = a ++ 32 :: s → ∃ c, rest = c ++ 32 :: s := by
    intro w rest
    induction w with
    | nil => intro a s _ e; exact ⟨a, e⟩
    | cons x w ih =>
      intro a s hw e
      cases a with
      | nil => exact absurd (by rw [(List.cons.inj e).1]; exact .head _) hw
      | cons y a => exact ih (fun hm => hw (.tail _ hm)) (List.cons.inj e).2
  have dig : ∀ {d : Bytes}, (∀ x ∈ d, RxByte.digit x = true) → 32 ∉ d := fun h hm => absurd (h 32 hm) (by decide)
  induction h with
  | done => intro a s e; cases a <;> cases e
  | @space x t ts h hr ih =>
    intro a s e
    cases a with
    | nil => cases e; exact ⟨_, hr⟩
    | cons y a => exact ih a s (List.cons.inj e).2
  | @int g d t ts hg ne h stop rest ih =>
    intro a s e
    rw [← List.append_assoc] at e
    obtain ⟨c, hc⟩ := skip (w := g ++ d) (by
      rw [List.mem_append]
      rintro (hm | hm)
      · rcases hg with rfl | rfl | rfl
        · cases hm
        · revert hm; decide
        · revert hm; decide
      · exact dig h hm) e
    exact ih c s hc
  | @dec d t ts ne h stop rest ih =>
    intro a s e
    rw [← List.cons_append] at e
    obtain ⟨c, hc⟩ := skip (w := 46 :: d) (by
      rw [List.mem_cons]
      rintro (hm | hm)
      · exact absurd hm (by decide)
      · exact dig h hm) e
    exact ih c s hc
  | @word k w t ts h sign dash rest ih =>
    intro a s e
    obtain ⟨c, hc⟩ := skip (w := w) (by
      have : ∀ y ∈ words, 32 ∉ y.2 := by decide +kernel
      exact this _ h) e
    exact ih c s hc

/-! ### One turn -/

theorem line_plain {u v : List Spec.Scalc.Kind} {ws : List Spec.Scalc.Kind} (hw : ∀ k ∈ ws, k = .int ∨ k = .dec)
    (hu : ∀ k ∈ u, k = .int ∨ k = .dec ∨ k = .uop ∨ k = .bop) (hv : v ∈ ([[], [.sop], [.smp], [.sop, .smp]] : List (List Spec.Scalc.Kind))) :
    ∃ m f, Plain m f (ws ++ (u ++ v)) := by
  have hb : Plain true true (ws ++ u) := .vals (by
    intro k hk
    rcases List.mem_append.1 hk with hk | hk
    · rcases hw k hk with h | h <;> simp [h]
    · exact hu k hk)
  simp only [List.mem_cons, List.not_mem_nil, or_false] at hv
  rw [← List.append_assoc]
  rcases hv with rfl | rfl | rfl | rfl
  · exact ⟨_, _, by rw [List.append_nil]; exact hb⟩
  · exact ⟨_, _, .fold hb⟩
  · exact ⟨_, _, .manip hb⟩
  · exact ⟨_, _, by
      have := Plain.manip (.fold hb)
      rwa [List.append_assoc] at this⟩

theorem eval_line {A : Arith N} {sh : PF N → Bytes} {l : Lexer} (hl : Reach A l) {vs : List (PF N)} (hvs : ∀ p ∈ vs, Numeral p.P (sh p))
    {line : Bytes} {ts : List Tok} (ht : SText line ts) (hok : LineOk ts) :
    ∃ l', Out.Returns (fun n => evalText A n l (format sh vs ++ 32 :: line)) (exec A ts (vs.map (asShown A sh)).reverse [], l') := by
  obtain ⟨ws, h1, h2, h3, -⟩ := stack_text (A := A) vs hvs
  obtain ⟨hd, u, v, e, hu, hv⟩ := hok
  obtain ⟨m, f, hp⟩ := line_plain h1 hu hv
  obtain ⟨l', h⟩ := C74_last_partial hl (h2 line ts ht) (m := m) (f := f) (by rw [List.map_append, e]; exact hp)
  refine ⟨l', ?_⟩
  rw [h3 ts hd, List.append_nil] at h
  exact h

theorem eval_none {A : Arith N} {l : Lexer} (hl : Reach A l) {b : Bytes} (hb : ∀ ts, ¬ SText b ts) :
    ∃ l', Out.Returns (fun n => evalText A n l b) (none, l') := by
  obtain ⟨l', ⟨⟨ts, h, -⟩, -⟩ | ⟨-, h⟩⟩ := C73_eval hl b
  · exact absurd h (hb ts)
  · exact ⟨l', h⟩

/-! ### C79 -/

/-- A line as typed: one line end, at its end; not the one that ends the session. -/
def Typed (line : Bytes) : Prop := ∃ t, line = t ++ [10] ∧ 10 ∉ t ∧ line ≠ exitLine

theorem upTo_line : ∀ t : Bytes, 10 ∉ t → upTo (t ++ [10]) = some (t ++ [10])
  | [], _ => rfl
  | x :: t, h => by
    rw [List.cons_append, upTo, if_neg (fun e => h (by rw [show x = 10 from e]; exact .head _)), upTo_line t fun hm => h (.tail _ hm)]
    rfl

theorem read_line {line : Bytes} (h : Typed line) (cs : List Bytes) : readString (line :: cs) = (line, cs) := by
  obtain ⟨t, rfl, h1, -⟩ := h
  rw [readString, upTo_line t h1]

theorem read_exit (cs : List Bytes) : readString (exitLine :: cs) = (exitLine, cs) := rfl

/-- What is printed for an answer. -/
def printed (sh : PF N → Bytes) : Option (List (PF N)) → Bytes
  | none => badInput
  | some r => format sh r

theorem turn_none {A : Arith N} {sh : PF N → Bytes} {s : St} {line : Bytes} {cs : List Bytes} (hc : s.chunks = line :: cs) (ht : Typed line)
    {l' : Lexer} (h : Out.Returns (fun n => evalText A n s.lexer (s.stack ++ 32 :: line)) (none, l')) :
    Out.Returns (fun n => turn A sh n s) (⟨l', s.stack, cs, s.out ++ [badInput]⟩, false) := by
  obtain ⟨M, hM⟩ := h
  refine ⟨M, fun n hn => ?_⟩
  have hne : line ≠ exitLine := by obtain ⟨t, -, -, h⟩ := ht; exact h
  simp only [turn, hc, read_line ht, if_neg hne]
  rw [show evalText A n s.lexer (s.stack ++ 32 :: line) = _ from hM n hn, Out.bind_ok]

theorem turn_some {A : Arith N} {sh : PF N → Bytes} {s : St} {line : Bytes} {cs : List Bytes} (hc : s.chunks = line :: cs) (ht : Typed line)
    {l' : Lexer} {r : List (PF N)} (h : Out.Returns (fun n => evalText A n s.lexer (s.stack ++ 32 :: line)) (some r, l')) :
    Out.Returns (fun n => turn A sh n s) (⟨l', format sh r, cs, s.out ++ [format sh r]⟩, false) := by
  obtain ⟨M, hM⟩ := h
  refine ⟨M, fun n hn => ?_⟩
  have hne : line ≠ exitLine := by obtain ⟨t, -, -, h⟩ := ht; exact h
  simp only [turn, hc, read_line ht, if_neg hne]
  rw [show evalText A n s.lexer (s.stack ++ 32 :: line) = _ from hM n hn, Out.bind_ok]

theorem inter_turn {A : Arith N} {sh : PF N → Bytes} {s s' : St} {r : St} (h : Out.Returns (fun n => turn A sh n s) (s', false))
    (h' : Out.Returns (fun n => interactive A sh n s') r) : Out.Returns (fun n => interactive A sh n s) r := by
  obtain ⟨M, hM⟩ := h
  obtain ⟨K, hK⟩ := h'
  refine ⟨max M K + 1, fun n hn => ?_⟩
  obtain ⟨m, rfl⟩ : ∃ m, n = m + 1 := ⟨n - 1, by omega⟩
  simp only [interactive]
  rw [show turn A sh m s = _ from hM m (by omega), Out.bind_ok]
  simp only [Bool.false_eq_true, if_false]
  exact hK m (by omega)

/-- **C79, partial.** A session in which lines are typed one at a time prints what it should: each line works on the stack as last
shown, and a bad line leaves it as it is. Missing: lines with question marks or parentheses, or with anything after an operation on
the whole stack (C74), and lines that begin with decimals. -/
theorem C79_session_partial {A : Arith N} {sh : PF N → Bytes} {vs : List (PF N)} {lines : List Bytes} {ans : List (Option (List (PF N)))}
    (h : Session A sh vs lines ans) (hl : ∀ x ∈ lines, Typed x) :
    ∀ {l : Lexer}, Reach A l → (∀ p ∈ vs, Numeral p.P (sh p)) → ∀ (rest out : List Bytes),
      ∃ s, Out.Returns (fun n => interactive A sh n ⟨l, format sh vs, lines ++ exitLine :: rest, out⟩) s ∧
        s.out = out ++ ans.map (printed sh) ∧ s.chunks = rest := by
  induction h with
  | @done vs =>
    intro l _ _ rest out
    refine ⟨⟨l, format sh vs, rest, out⟩, ⟨1, fun n hn => ?_⟩, by simp, rfl⟩
    obtain ⟨m, rfl⟩ : ∃ m, n = m + 1 := ⟨n - 1, by omega⟩
    rfl
  | @good vs line ts r lines ans ht hok he hr _ ih =>
    intro l hR hvs rest out
    obtain ⟨l', h1⟩ := eval_line hR hvs ht hok
    rw [he] at h1
    obtain ⟨s, i1, i2, i3⟩ := ih (fun x hx => hl x (.tail _ hx)) (.eval hR h1) hr rest (out ++ [format sh r])
    refine ⟨s, inter_turn (turn_some (s := ⟨l, format sh vs, line :: lines ++ exitLine :: rest, out⟩) rfl (hl line (.head _)) h1) i1, ?_, i3⟩
    rw [i2]
    simp [printed]
  | @bad vs line ts lines ans ht hok he _ ih =>
    intro l hR hvs rest out
    obtain ⟨l', h1⟩ := eval_line hR hvs ht hok
    rw [he] at h1
    obtain ⟨s, i1, i2, i3⟩ := ih (fun x hx => hl x (.tail _ hx)) (.eval hR h1) hvs rest (out ++ [badInput])
    refine ⟨s, inter_turn (turn_none (s := ⟨l, format sh vs, line :: lines ++ exitLine :: rest, out⟩) rfl (hl line (.head _)) h1) i1, ?_, i3⟩
    rw [i2]
    simp [printed]
  | @junk vs line lines ans hno _ ih =>
    intro l hR hvs rest out
    obtain ⟨l', h1⟩ := eval_none (A := A) hR (b := format sh vs ++ 32 :: line) (fun ts h => by
      obtain ⟨ts', h'⟩ := text_after h _ _ rfl
      exact hno ts' h')
    obtain ⟨s, i1, i2, i3⟩ := ih (fun x hx => hl x (.tail _ hx)) (.eval hR h1) hvs rest (out ++ [badInput])
    refine ⟨s, inter_turn (turn_none (s := ⟨l, format sh vs, line :: lines ++ exitLine :: rest, out⟩) rfl (hl line (.head _)) h1) i1, ?_, i3⟩
    rw [i2]
    simp [printed]

/-! ### What goes wrong -/

/-- No token has a capital letter in it. -/
theorem text_lower {t : Bytes} {ts : List Tok} (h : SText t ts) : ∀ x ∈ t, (decide (65 ≤ x ∧ x ≤ 90)) = false := by
  have dig : ∀ x : UInt8, RxByte.digit x = true → decide (65 ≤ x ∧ x ≤ 90) = false := fun x h => by
    have := all_bytes (p := fun x => !RxByte.digit x || !decide (65 ≤ x ∧ x ≤ 90)) (by decide +kernel) x
    simpa only [h, Bool.not_true, Bool.false_or, Bool.not_eq_true'] using this
  have spc : ∀ x : UInt8, RxByte.space x = true → decide (65 ≤ x ∧ x ≤ 90) = false := fun x h => by
    have := all_bytes (p := fun x => !RxByte.space x || !decide (65 ≤ x ∧ x ≤ 90)) (by decide +kernel) x
    simpa only [h, Bool.not_true, Bool.false_or, Bool.not_eq_true'] using this
  induction h with
  | done => intro x hx; cases hx
  | space h _ ih =>
    intro x hx
    rcases List.mem_cons.1 hx with rfl | hx
    · exact spc _ h
    · exact ih x hx
  | @int g d s ts hg ne h stop rest ih =>
    intro x hx
    rcases List.mem_append.1 hx with hx | hx
    · rcases hg with rfl | rfl | rfl
      · cases hx
      · cases List.mem_singleton.1 hx; decide
      · cases List.mem_singleton.1 hx; decide
    · rcases List.mem_append.1 hx with hx | hx
      · exact dig x (h x hx)
      · exact ih x hx
  | @dec d s ts ne h stop rest ih =>
    intro x hx
    rcases List.mem_cons.1 hx with rfl | hx
    · decide
    · rcases List.mem_append.1 hx with hx | hx
      · exact dig x (h x hx)
      · exact ih x hx
  | @word k w s ts h sign dash rest ih =>
    intro x hx
    rcases List.mem_append.1 hx with hx | hx
    · have : ∀ y ∈ words, ∀ x ∈ y.2, decide (65 ≤ x ∧ x ≤ 90) = false := by decide +kernel
      exact this _ h x hx
    · exact ih x hx

/-- With a capital letter on the stack nothing but bad input follows. -/
theorem stuck {A : Arith N} {sh : PF N → Bytes} {stack : Bytes} {x : UInt8} (hx : x ∈ stack) (hc : 65 ≤ x ∧ x ≤ 90) :
    ∀ {lines : List Bytes} {l : Lexer}, Reach A l → (∀ x ∈ lines, Typed x) → ∀ (rest out : List Bytes),
      ∃ s, Out.Returns (fun n => interactive A sh n ⟨l, stack, lines ++ exitLine :: rest, out⟩) s ∧ s.out = out ++ lines.map fun _ => badInput
  | [], l, _, _, rest, out => by
    refine ⟨⟨l, stack, rest, out⟩, ⟨1, fun n hn => ?_⟩, by simp⟩
    obtain ⟨m, rfl⟩ : ∃ m, n = m + 1 := ⟨n - 1, by omega⟩
    rfl
  | line :: lines, l, hR, hl, rest, out => by
    obtain ⟨l', h1⟩ := eval_none (A := A) hR (b := stack ++ 32 :: line) (fun ts h => by
      have := text_lower h x (List.mem_append_left _ hx)
      simp [hc] at this)
    obtain ⟨s, i1, i2⟩ := stuck (sh := sh) hx hc (.eval hR h1) (fun x hx => hl x (.tail _ hx)) rest (out ++ [badInput])
    refine ⟨s, inter_turn (turn_none (s := ⟨l, stack, line :: lines ++ exitLine :: rest, out⟩) rfl (hl line (.head _)) h1) i1, ?_⟩
    rw [i2]
    simp

/-- `1 0/` and a line end. -/
def divLine : Bytes := [49, 32, 48, 47, 10]

theorem divLine_toks : SText divLine [(.int, nameOf [49]), (.int, nameOf [48]), (.bop, nameOf [47])] :=
  digit_text (by decide) (noHead (by decide)) (.space (by decide) (digit_text (by decide) (noHead (by decide))
    (word_text (w := [47]) (by simp [words]) (by simp) (.space (by decide) .done))))

/-- `+Inf` -/
def infText : Bytes := [43, 73, 110, 102]

/-- **C79 fails with numbers that are not finite.** If one divided by zero is shown as `+Inf`, as `fmt` does, then after `1 0/` every
line but the one to leave is bad input, `clear` too, whatever is typed. -/
theorem C79_stuck_refuted {A : Arith N} {sh : PF N → Bytes} (hinf : sh ⟨A.div (A.num (nameOf [49])) (A.num (nameOf [48])), 0⟩ = infText)
    {l : Lexer} (hl : Reach A l) {lines : List Bytes} (ht : ∀ x ∈ lines, Typed x) :
    ∃ s, Out.Returns (fun n => interactive A sh n ⟨l, [], divLine :: lines ++ [exitLine], []⟩) s ∧
      s.out = infText :: lines.map fun _ => badInput := by
  obtain ⟨l', h1⟩ := C74_runs_partial hl (SText.space (x := 32) (by decide) divLine_toks) (by decide)
  have e : exec A [(.int, nameOf [49]), (.int, nameOf [48]), (.bop, nameOf [47])] [] [] =
      some [⟨A.div (A.num (nameOf [49])) (A.num (nameOf [48])), 0⟩] := rfl
  rw [e] at h1
  have ht' : Typed divLine := ⟨[49, 32, 48, 47], rfl, by decide, by decide⟩
  have h2 := turn_some (sh := sh) (s := ⟨l, [], divLine :: lines ++ [exitLine], []⟩) (line := divLine) (cs := lines ++ [exitLine]) rfl ht' h1
  have ef : format sh [⟨A.div (A.num (nameOf [49])) (A.num (nameOf [48])), 0⟩] = infText := by
    simp only [format, List.map_cons, List.map_nil, joinSpace, hinf]
  rw [ef] at h2
  obtain ⟨s, i1, i2⟩ := stuck (sh := sh) (stack := infText) (x := 73) (by decide) (by decide) (.eval hl h1) ht [] [infText]
  exact ⟨s, inter_turn h2 i1, i2⟩

/-- `.5` and a line end. -/
def decLine : Bytes := [46, 53, 10]

/-- **C79 fails for lines that begin with decimals.** With the whole number 1 on the stack the line `.5` is no program for the machine, but
it makes the number on the stack 1.5. -/
theorem C79_decimals_refuted {A : Arith N} {sh : PF N → Bytes} {l : Lexer} (hl : Reach A l) :
    SText decLine [(.dec, nameOf [46, 53])] ∧ (∀ st, exec A [(.dec, nameOf [46, 53])] st [] = none) ∧
    ∃ s, Out.Returns (fun n => interactive A sh n ⟨l, [49], [decLine, exitLine], []⟩) s ∧ s.out = [sh ⟨A.num (nameOf [49, 46, 53]), 1⟩] := by
  have hd : SText decLine [(.dec, nameOf [46, 53])] :=
    SText.dec (d := [53]) (by simp) (by decide) (noHead (by decide)) (.space (by decide) .done)
  refine ⟨hd, fun st => by cases st <;> rfl, ?_⟩
  have ht : SText ([49] ++ 32 :: decLine) [(.int, nameOf [49]), (.dec, nameOf [46, 53])] :=
    digit_text (by decide) (noHead (by decide)) (.space (by decide) hd)
  obtain ⟨l', h1⟩ := C74_runs_partial hl ht (by decide)
  have e : exec A [(.int, nameOf [49]), (.dec, nameOf [46, 53])] [] [] = some [⟨A.num (nameOf [49, 46, 53]), 1⟩] := rfl
  rw [e] at h1
  have h2 := turn_some (sh := sh) (s := ⟨l, [49], [decLine, exitLine], []⟩) (line := decLine) (cs := [exitLine]) rfl
    ⟨[46, 53], rfl, by decide, by decide⟩ h1
  exact ⟨_, inter_turn h2 ⟨1, fun n hn => by obtain ⟨m, rfl⟩ : ∃ m, n = m + 1 := ⟨n - 1, by omega⟩; rfl⟩, rfl⟩

/-- **C79 fails if lines do not come one at a time.** If `1`, `2` on two lines are read at once, as from a file or a pipe, the
second is lost. -/
theorem C79_chunks_refuted {A : Arith N} {sh : PF N → Bytes} {l : Lexer} (hl : Reach A l) :
    ∃ s, Out.Returns (fun n => interactive A sh n ⟨l, [], [[49, 10, 50, 10], exitLine], []⟩) s ∧ s.out = [sh ⟨A.num (nameOf [49]), 0⟩] := by
  have ht : SText ([] ++ 32 :: [49, 10]) [(.int, nameOf [49])] := .space (by decide) (digit_text (by decide) (noHead (by decide)) (.space (by decide) .done))
  obtain ⟨l', M, hM⟩ := C74_runs_partial hl ht (by decide)
  have h2 : Out.Returns (fun n => turn A sh n ⟨l, [], [[49, 10, 50, 10], exitLine], []⟩)
      (⟨l', sh ⟨A.num (nameOf [49]), 0⟩, [exitLine], [sh ⟨A.num (nameOf [49]), 0⟩]⟩, false) := by
    refine ⟨M, fun n hn => ?_⟩
    have hr : readString [[49, 10, 50, 10], exitLine] = ([49, 10], [exitLine]) := by decide
    have hne : ([49, 10] : Bytes) ≠ exitLine := by decide
    simp only [turn, hr, if_neg hne]
    rw [show evalText A n l ([] ++ 32 :: [49, 10]) = _ from hM n hn, Out.bind_ok]
    rfl
  exact ⟨_, inter_turn h2 ⟨1, fun n hn => by obtain ⟨m, rfl⟩ : ∃ m, n = m + 1 := ⟨n - 1, by omega⟩; rfl⟩, rfl⟩

theorem read_nil : readString [] = ([], []) := rfl

/-- **C79 fails at the end of the input.** If the input ends and `exit` was not on a line, the program never ends: whatever the lines
were, it does not return. -/
theorem C79_end_refuted (A : Arith N) (sh : PF N → Bytes) : ∀ (n : Nat) (l : Lexer) (stack : Bytes) (lines out : List Bytes),
    (∀ x ∈ lines, Typed x) → ∀ s, interactive A sh n ⟨l, stack, lines, out⟩ ≠ .ok s
  | 0, _, _, _, _, _, s => fun h => by cases h
  | n + 1, l, stack, lines, out, ht, s => by
    intro h
    rw [interactive] at h
    obtain ⟨⟨s', b⟩, h1, h2⟩ := Out.bind_eq_ok.1 h
    have key : ∃ input rest, readString lines = (input, rest) ∧ input ≠ exitLine ∧ ∀ x ∈ rest, Typed x := by
      cases lines with
      | nil => exact ⟨[], [], rfl, by decide, by simp⟩
      | cons x ls =>
        refine ⟨x, ls, read_line (ht x (.head _)) ls, ?_, fun y hy => ht y (.tail _ hy)⟩
        obtain ⟨t, -, -, h⟩ := ht x (.head _)
        exact h
    obtain ⟨input, rest, e, hne, hrest⟩ := key
    simp only [turn, e, if_neg hne] at h1
    obtain ⟨⟨o, l'⟩, -, h3⟩ := Out.bind_eq_ok.1 h1
    cases o with
    | none =>
      simp only [Out.ok.injEq, Prod.mk.injEq] at h3
      obtain ⟨rfl, rfl⟩ := h3
      simp only [Bool.false_eq_true, if_false] at h2
      exact C79_end_refuted A sh n _ _ _ _ hrest s h2
    | some vs =>
      simp only [Out.ok.injEq, Prod.mk.injEq] at h3
      obtain ⟨rfl, rfl⟩ := h3
      simp only [Bool.false_eq_true, if_false] at h2
      exact C79_end_refuted A sh n _ _ _ _ hrest s h2

/-! ### Concrete case -/

/-- A way to show some numbers. -/
def exSh (p : PF Int) : Bytes := if p.V < 0 then [45, 57] else if p.V = 3 then [51] else [49]

/-- The session `1 2 +`, `a`, `*`, `--` shows 3, two errors, and -3 (which this way of showing numbers writes as -9). -/
theorem C79_case {l : Lexer} (hl : Reach exA l) :
    ∃ s, Out.Returns (fun n => interactive exA exSh n ⟨l, [], [[49, 32, 50, 32, 43, 10], [97, 10], [42, 10], [45, 45, 10], exitLine], []⟩) s ∧
      s.out = [[51], badInput, badInput, [45, 57]] := by
  have t1 : SText [49, 32, 50, 32, 43, 10] [(.int, nameOf [49]), (.int, nameOf [50]), (.bop, nameOf [43])] :=
    digit_text (by decide) (noHead (by decide)) (.space (by decide) (digit_text (by decide) (noHead (by decide)) (.space (by decide)
      (.word (w := [43]) (by simp [words]) (fun _ => noHead (by decide)) (by simp) (.space (by decide) .done)))))
  have t3 : SText [42, 10] [(.bop, nameOf [42])] := word_text (w := [42]) (by simp [words]) (by simp) (.space (by decide) .done)
  have t4 : SText [45, 45, 10] [(.uop, nameOf [45, 45])] := word_text (w := [45, 45]) (by simp [words]) (by simp) (.space (by decide) .done)
  have t2 : ∀ ts, ¬ SText [97, 10] ts := by
    intro ts h
    generalize ht : ([97, 10] : Bytes) = t at h
    cases h with
    | done => cases ht
    | space h _ => cases ht; revert h; decide
    | @int g d s ts hg ne h stop rest =>
      rcases hg with rfl | rfl | rfl
      · cases d with
        | nil => exact ne rfl
        | cons x d =>
          have := h x (.head _)
          rw [← (List.cons.inj ht).1] at this
          revert this; decide
      · cases ht
      · cases ht
    | dec => cases ht
    | @word k w s ts h sign dash rest =>
      have : ∀ y ∈ words, ∀ n, y.2 ≠ [97, 10].take n ∨ False := by
        intro y hy n
        left
        match n with
        | 0 => revert y; decide +kernel
        | 1 => revert y; decide +kernel
        | n + 2 => rw [show List.take (n + 2) [97, 10] = ([97, 10] : Bytes) by simp]; revert y; decide +kernel
      rcases this _ h w.length with h' | h'
      · apply h'
        rw [ht, List.take_left]
      · exact h'
  have dg : ∀ {x : UInt8}, RxByte.digit x = true → ∀ y ∈ [x], RxByte.digit y = true := fun h y hy => by cases List.mem_singleton.1 hy; exact h
  have hs : Session exA exSh [] [[49, 32, 50, 32, 43, 10], [97, 10], [42, 10], [45, 45, 10]] [some [⟨3, 0⟩], none, none, some [⟨-3, 0⟩]] := by
    refine .good t1 ⟨(fun y r h => by cases h), [.int, .int, .bop], [], rfl, by decide, by simp⟩ (by decide +kernel) ?_ (.junk t2 (.bad t3 ⟨(fun y r h => by cases h), [.bop], [], rfl, by decide, by simp⟩ (by decide +kernel)
      (.good t4 ⟨(fun y r h => by cases h), [.uop], [], rfl, by decide, by simp⟩ (by decide +kernel) ?_ .done)))
    · intro p hp
      cases List.mem_singleton.1 hp
      exact .whole (g := []) (d := [51]) (.inl rfl) (by simp) (dg (by decide))
    · intro p hp
      cases List.mem_singleton.1 hp
      exact .whole (g := [45]) (d := [57]) (.inr rfl) (by simp) (dg (by decide))
  obtain ⟨s, h1, h2, -⟩ := C79_session_partial hs (by
    intro x hx
    simp only [List.mem_cons, List.not_mem_nil, or_false] at hx
    rcases hx with rfl | rfl | rfl | rfl
    · exact ⟨[49, 32, 50, 32, 43], rfl, by decide, by decide⟩
    · exact ⟨[97], rfl, by decide, by decide⟩
    · exact ⟨[42], rfl, by decide, by decide⟩
    · exact ⟨[45, 45], rfl, by decide, by decide⟩) hl (by simp) [] []
  exact ⟨s, h1, h2⟩

end Verif.Props.ScalcMain
