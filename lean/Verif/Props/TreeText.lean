import Verif.Proofs.TreeText
/-
Properties of the text form of trees (C33, C34, C59). `isPrint` stands for Go's strconv.IsPrint; the only
assumptions on it are that newline (and for refutations tab) is not printable.
-/
namespace Verif.Props.TreeText
open Verif.Spec Verif.TreeText

/-- The kinds the claim is about: not empty, and free of white space, quotes, braces and colons. -/
def PlainKinds (t : PN Str Str) : Prop := ∀ l ∈ t.postorder, l.kind ≠ [] ∧
  ∀ c ∈ l.kind, c ≠ '\t' ∧ c ≠ '\n' ∧ c ≠ '\x0c' ∧ c ≠ '\r' ∧ c ≠ ' ' ∧ c ≠ '"' ∧ c ≠ '{' ∧ c ≠ '}' ∧ c ≠ ':'

theorem goodKinds {t : PN Str Str} (h : PlainKinds t) : GoodKinds t := by
  intro l hl
  obtain ⟨h1, h2⟩ := h l hl
  refine ⟨h1, fun c hc => ?_⟩
  obtain ⟨a1, a2, a3, a4, a5, a6, a7, a8, a9⟩ := h2 c hc
  simp [isK, isS, a1, a2, a3, a4, a5, a6, a7, a8, a9]

/-- Same kinds and values. -/
def SameKV (l l' : Lexeme Str Str) : Prop := l.kind = l'.kind ∧ l.val = l'.val

mutual
theorem back_shape {isPrint : Char → Bool} (hp : isPrint '\n' = false) : ∀ t : PN Str Str,
    SameShape SameKV t (back isPrint t) ↔ ∀ l ∈ t.postorder, ∀ c ∈ l.val, OkChar isPrint c
  | .node l ks => by
    rw [back, PN.postorder]
    have hk := backs_shape hp ks
    have hv := (unquote_iff hp l.val).1
    constructor
    · intro h
      cases h with
      | node h1 h2 h3 =>
        intro x hx
        rcases List.mem_append.1 hx with hx | hx
        · exact hk.2.1 h3 x hx
        · simp at hx
          subst hx
          exact hv.1 h1.2.symm
    · intro h
      refine .node ⟨rfl, (hv.2 (h l (by simp))).symm⟩ hk.1 (hk.2.2 fun x hx => h x (by simp [hx]))
theorem backs_shape {isPrint : Char → Bool} (hp : isPrint '\n' = false) : ∀ ts : List (PN Str Str),
    ts.length = (backs isPrint ts).length ∧
    ((∀ x ∈ ts.zip (backs isPrint ts), SameShape SameKV x.1 x.2) ↔
      ∀ l ∈ postorders ts, ∀ c ∈ l.val, OkChar isPrint c)
  | [] => ⟨rfl, by simp [postorders, backs]⟩
  | t :: ts => by
    obtain ⟨h1, h2⟩ := backs_shape hp ts
    have h0 := back_shape hp t
    rw [backs, postorders]
    refine ⟨by simp [h1], ?_⟩
    simp only [List.zip_cons_cons, List.mem_cons, forall_eq_or_imp, List.mem_append]
    rw [h0, h2]
    constructor
    · rintro ⟨h3, h4⟩ l (hl | hl)
      · exact h3 l hl
      · exact h4 l hl
    · intro h
      exact ⟨fun l hl => h l (.inl hl), fun l hl => h l (.inr hl)⟩
end

/-- **C33.** For every tree with plain kinds: `New(t.String())` succeeds, and the result has the same
kinds, values and shape as `t` if and only if every character of every value is printable or a newline
(or a quote or backslash, which are printable too). Missing from the full statement: other unprintable
characters, for which it is false. -/
theorem C33_round_trip_partial (isPrint : Char → Bool) (hp : isPrint '\n' = false) (t : PN Str Str)
    (hk : PlainKinds t) :
    ∃ t', new (string isPrint t) = .ok (some t') ∧
      (SameShape SameKV t t' ↔ ∀ l ∈ t.postorder, ∀ c ∈ l.val, isPrint c = true ∨ c = '\n' ∨ c = '"' ∨ c = '\\') :=
  ⟨back isPrint t, new_string hp t (goodKinds hk), back_shape hp t⟩

/-- **C33** is false: a tab in a value is printed as `\t` and read back as backslash and t. -/
theorem C33_refuted (isPrint : Char → Bool) (hp : isPrint '\n' = false) (ht : isPrint '\t' = false) :
    ∃ t t' : PN Str Str, PlainKinds t ∧ new (string isPrint t) = .ok (some t') ∧ ¬ SameShape SameKV t t' := by
  let t : PN Str Str := .node ⟨['E'], ['\t'], 0, 0⟩ []
  have hk : PlainKinds t := by
    intro l hl
    simp [t, PN.postorder, postorders] at hl
    subst hl
    refine ⟨by simp, fun c hc => ?_⟩
    simp at hc
    subst hc
    decide
  obtain ⟨t', h1, h2⟩ := C33_round_trip_partial isPrint hp t hk
  refine ⟨t, t', hk, h1, fun h => ?_⟩
  have := h2.1 h ⟨['E'], ['\t'], 0, 0⟩ (by simp [t, PN.postorder, postorders]) '\t' (by simp)
  simp [ht] at this

/-- Concrete case: a tree with quotes, backslashes and newlines in values. -/
def exT : PN Str Str := .node ⟨"E".toList, [], 1, 1⟩ [.node ⟨"str".toList, "a\"b\\n\n".toList, 0, 0⟩ [],
  .node ⟨"op".toList, "+".toList, 0, 0⟩ [.node ⟨"E".toList, "{ }".toList, 0, 0⟩ []]]

/-- Printable ASCII. -/
def asciiPrint (c : Char) : Bool := 32 ≤ c.toNat && c.toNat < 127

example : string asciiPrint exT =
    "E {\n\tstr: \"a\\\"b\\\\n\\n\"\n\top: \"+\" {\n\t\tE: \"{ }\"\n\t}\n}\n".toList := by decide +kernel

def isOk (o : Out (Option (PN Str Str))) (t : PN Str Str) : Bool := match o with | .ok (some x) => x.same t | _ => false

example : isOk (new (string asciiPrint exT)) (.node ⟨"E".toList, [], -1, 0⟩
  [.node ⟨"str".toList, "a\"b\\n\n".toList, -1, 0⟩ [],
  .node ⟨"op".toList, "+".toList, -1, 0⟩ [.node ⟨"E".toList, "{ }".toList, -1, 0⟩ []]]) = true := by decide +kernel

/-- **C34.** The capacity String reserves is exactly the number of segments it appends, and Size is the
number of nodes. -/
theorem C34_sizes (isPrint : Char → Bool) (t : PN Str Str) :
    (segs isPrint [] t []).length = Tree.sliceReq (fun v : Str => decide (v = [])) t ∧
    Tree.size t = t.postorder.length := by
  refine ⟨?_, size_eq t⟩
  rw [segs_length]
  simp

example : (segs asciiPrint [] exT []).length = 19 ∧ Tree.size exT = 4 := by decide +kernel

def isPanic {β : Type} (o : Out β) : Bool := match o with | .panic => true | _ => false

theorem isPanic_eq {β : Type} {o : Out β} (h : isPanic o = true) : o = .panic := by
  cases o <;> simp_all [isPanic]

/-- **C59** is false: `New` panics on texts that define no tree (index out of range) and on texts with
too many closing braces (nil dereference). -/
theorem C59_refuted : new [] = .panic ∧ new "a\n}\n".toList = .panic ∧ new "}\na".toList = .panic := by
  refine ⟨rfl, ?_, ?_⟩ <;> exact isPanic_eq (by decide +kernel)

/-- A parsed line is harmless unless it closes at top level: `depth` counts open nodes. -/
def Balanced : Nat → List Str → Prop
  | _, [] => True
  | d, l :: ls => match treeLine l with
    | none => True
    | some (close, kind, _, op) => (close = true → 0 < d) ∧
      Balanced ((if close then d - 1 else d) + (if kind ≠ [] ∧ op then 1 else 0)) ls

theorem newLoop_balanced : ∀ (ls : List Str) ks ups, Balanced ups.length ls →
    newLoop (some (ks, ups)) ls = .ok none ∨ ∃ ks' ups', newLoop (some (ks, ups)) ls = .ok (some (some (ks', ups'))) := by
  intro ls
  induction ls with
  | nil => intro ks ups _; exact .inr ⟨ks, ups, rfl⟩
  | cons l ls ih =>
    intro ks ups hb
    rw [newLoop]
    rw [Balanced] at hb
    cases e : treeLine l with
    | none => exact .inl rfl
    | some q =>
      obtain ⟨close, kind, val, op⟩ := q
      rw [e] at hb
      simp only at hb ⊢
      have step : ∀ ks ups, Balanced (ups.length + if kind ≠ [] ∧ op then 1 else 0) ls →
          ((if kind ≠ [] then addNode kind val op (some (ks, ups)) else .ok (some (ks, ups))).bind fun cur => newLoop cur ls) =
            .ok none ∨ ∃ ks' ups', ((if kind ≠ [] then addNode kind val op (some (ks, ups)) else .ok (some (ks, ups))).bind
              fun cur => newLoop cur ls) = .ok (some (some (ks', ups'))) := by
        intro ks ups hb
        by_cases hk : kind = []
        · simp only [hk, ne_eq, not_true, false_and, if_false, Nat.add_zero, Out.bind_ok] at hb ⊢
          exact ih _ _ hb
        · cases op
          · simp [hk, addNode] at hb ⊢
            exact ih _ _ hb
          · simp [hk, addNode] at hb ⊢
            exact ih _ _ (by simpa using hb)
      cases close with
      | false => simp only [Bool.false_eq_true, if_false, Out.bind_ok] at hb ⊢; exact step ks ups hb.2
      | true =>
        have h0 := hb.1 rfl
        cases ups with
        | nil => simp at h0
        | cons u ups =>
          obtain ⟨l', sib⟩ := u
          simp only [if_true, up, Out.bind_ok]
          exact step _ _ (by simpa using hb.2)

/-- **C59**, what holds: with no more closing than opening braces at any point, `New` does not get to a
nil pointer; it returns an error, or a tree, or panics because the node current at the end has no
child. -/
theorem C59_balanced_partial (text : Str) (lines : List Str) (hl : Pieces '\n' text lines) (hb : Balanced 0 lines) :
    new text = .ok none ∨ (∃ t, new text = .ok (some t)) ∨
      (new text = .panic ∧ ∃ ups, newLoop (some ([], [])) lines = .ok (some (some ([], ups)))) := by
  have e := Grammar.pieces_unique hl
  subst e
  unfold new
  rcases newLoop_balanced _ [] [] hb with e | ⟨ks, ups, e⟩
  · rw [e]; exact .inl rfl
  · rw [e]
    cases ks with
    | nil => exact .inr (.inr ⟨rfl, ups, rfl⟩)
    | cons k ks => exact .inr (.inl ⟨k, rfl⟩)

/-- Concrete case: a node with a child, closed. -/
example : Balanced 0 ["a {".toList, "b: \"x\"".toList, "}".toList] := by
  have h1 : treeLine "a {".toList = some (false, "a".toList, [], true) := by decide +kernel
  have h2 : treeLine "b: \"x\"".toList = some (false, "b".toList, "x".toList, false) := by decide +kernel
  have h3 : treeLine "}".toList = some (true, [], [], false) := by decide +kernel
  rw [Balanced, h1]
  refine ⟨by simp, ?_⟩
  rw [Balanced, h2]
  refine ⟨by simp, ?_⟩
  rw [Balanced, h3]
  exact ⟨by simp, trivial⟩

end Verif.Props.TreeText
