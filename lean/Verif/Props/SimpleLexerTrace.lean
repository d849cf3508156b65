import Mathlib.Data.List.Induction
import Verif.Proofs.SimpleLexerTrace
import Verif.Props.SimpleLexer
import Verif.Model.SimpleLexerString
/-
C40, exactly which histories make a simple lexer panic. The specification is Verif.Spec.LexerHistory; `trace` lists what the calls of a
history say about kinds: `Add` of a kind, and lexemes that were reported as errors with the kind that the field `Error` had then.
-/
namespace Verif.Props.SimpleLexer
open Verif Verif.Spec Verif.SimpleLexer

/-- C40: after a history, Lex panics, whatever the input, if an error was reported with a kind that has no rule and afterwards a rule
was added for a new kind; otherwise it returns, whatever the input. -/
theorem C40_exact (h : List Call) {l : Lexer} (e : calls empty h = .ok l) (b : Bytes) :
    (ErrorBeforeNew (trace empty h) → ∀ n, lex n l b = .panic) ∧
    (¬ ErrorBeforeNew (trace empty h) → ∃ r, Out.Returns (fun n => lex n l b) r) := by
  have hh := hist_empty.calls e
  rw [List.nil_append] at hh
  refine ⟨fun hg n => lex_gap (fun hF => hh.full_iff.1 hF hg) n b, fun hg => ?_⟩
  obtain ⟨lxs, s, h1, _⟩ := lex_state hh.tab (hh.full_iff.2 hg) b
  exact ⟨_, _, h1⟩

/-- C40: the histories that panic are those with a Lex call before which this has happened. All others return. -/
theorem C40_histories (h : List Call) :
    (calls empty h = .panic ↔ ∃ h1 b h2 l, h = h1 ++ .lex b :: h2 ∧ calls empty h1 = .ok l ∧ ErrorBeforeNew (trace empty h1)) ∧
    calls empty h ≠ .fuel := by
  induction h using List.reverseRecOn with
  | nil => exact ⟨⟨(fun e => by cases e), (fun ⟨h1, b, h2, l, e, _⟩ => by simp at e)⟩, by simp [calls]⟩
  | append_singleton h c ih =>
    cases e : calls empty h with
    | fuel => exact absurd e ih.2
    | panic =>
      have e' : calls empty (h ++ [c]) = .panic := by rw [calls_append, e]; rfl
      rw [e']
      obtain ⟨h1, b, h2, l, rfl, r1, r2⟩ := ih.1.1 e
      exact ⟨⟨fun _ => ⟨h1, b, h2 ++ [c], l, by simp, r1, r2⟩, fun _ => rfl⟩, by simp⟩
    | ok l =>
      have e' : calls empty (h ++ [c]) = call l c := by
        rw [calls_append, e, Out.bind_ok]
        simp only [calls]
        cases call l c <;> rfl
      rw [e']
      have hno : ¬ ∃ h1 b h2 l, h = h1 ++ .lex b :: h2 ∧ calls empty h1 = .ok l ∧ ErrorBeforeNew (trace empty h1) := fun hx => by
        rw [ih.1.2 hx] at e
        cases e
      have hiff : (∃ h1 b h2 l, h ++ [c] = h1 ++ .lex b :: h2 ∧ calls empty h1 = .ok l ∧ ErrorBeforeNew (trace empty h1)) ↔
          (∃ b, c = .lex b) ∧ ErrorBeforeNew (trace empty h) := by
        constructor
        · rintro ⟨h1, b, h2, l', ee, r1, r2⟩
          rcases List.eq_nil_or_concat h2 with rfl | ⟨h2', x, rfl⟩
          · have := List.append_inj' ee rfl
            obtain ⟨rfl, hc⟩ := this
            exact ⟨⟨b, by simpa using hc⟩, r2⟩
          · have ee' : h ++ [c] = (h1 ++ .lex b :: h2') ++ [x] := by simpa using ee
            have := List.append_inj' ee' rfl
            exact absurd ⟨h1, b, h2', l', this.1, r1, r2⟩ hno
        · rintro ⟨⟨b, rfl⟩, hg⟩
          exact ⟨h, b, [], l, rfl, e, hg⟩
      rw [hiff]
      cases c with
      | lex b =>
        obtain ⟨h1, h2⟩ := C40_exact h e b
        by_cases hg : ErrorBeforeNew (trace empty h)
        · have : call l (.lex b) = .panic := by simp [call, h1 hg, Out.bind]
          rw [this]
          simp [hg]
        · have hh := hist_empty.calls e
          rw [List.nil_append] at hh
          obtain ⟨lxs, s, h1, _⟩ := lex_state hh.tab (hh.full_iff.2 hg) b
          have : call l (.lex b) = .ok { l with set := s } := by simp [call, h1 _ (Nat.le_refl _), Out.bind]
          rw [this]
          simp [hg]
      | _ => simp [call]

/-- C78: exactly after these histories String panics, whatever the texts of the expressions; after all others it returns. -/
theorem C78_panics (h : List Call) {l : Lexer} (e : calls empty h = .ok l) (src : Nat → Bytes) :
    (ErrorBeforeNew (trace empty h) → string l src = .panic) ∧ (¬ ErrorBeforeNew (trace empty h) → ∃ t, string l src = .ok t) := by
  have hh := hist_empty.calls e
  rw [List.nil_append] at hh
  have hname : ∀ (i : Nat) (r : Rule), l.rules[i]? = some (some r) → ∃ k, l.set.symb2str[i]? = some k := fun i r hr => by
    have h1 := (List.getElem?_eq_some_iff.1 hr).1
    have h2 := hh.tab.le
    exact ⟨_, List.getElem?_eq_getElem (by omega)⟩
  have hkind : ∀ r, some r ∈ l.rules → ∃ k, l.set.symb2str[r.kind]? = some k := fun r hr => by
    obtain ⟨i, hi⟩ := List.mem_iff_getElem?.1 hr
    rw [(hh.tab.kind i r hi).1]
    exact hname i r hi
  have key : ∀ (rs : List (Option Rule)), (∀ r, some r ∈ rs → ∃ k, l.set.symb2str[r.kind]? = some k) → ∀ w,
      (none ∈ rs → longestKind l rs w = .panic) ∧ (none ∉ rs → ∃ w', longestKind l rs w = .ok w') := by
    intro rs
    induction rs with
    | nil => intro _ w; exact ⟨fun hn => (List.not_mem_nil hn).elim, fun _ => ⟨w, rfl⟩⟩
    | cons o rs ih =>
      intro hk w
      cases o with
      | none => exact ⟨fun _ => rfl, fun hn => absurd (List.mem_cons_self ..) hn⟩
      | some r =>
        obtain ⟨k, hk'⟩ := hk r (List.mem_cons_self ..)
        have := ih (fun r hr => hk r (List.mem_cons_of_mem _ hr)) (if w < symLen k then symLen k else w)
        simp only [longestKind, hk', List.mem_cons, reduceCtorEq, false_or]
        exact this
  constructor
  · intro hg
    have hn : none ∈ l.rules := Classical.byContradiction fun hF => hh.full_iff.1 hF hg
    simp [string, (key l.rules hkind 0).1 hn, Out.bind]
  · intro hg
    obtain ⟨w, hw⟩ := (key l.rules hkind 0).2 (hh.full_iff.2 hg)
    have hloop : ∀ ks, (∀ k ∈ ks, k ∈ l.order) → ∃ ls, stringLoop l src w ks = .ok ls := by
      intro ks
      induction ks with
      | nil => intro _; exact ⟨[], rfl⟩
      | cons k ks ih =>
        intro hm
        obtain ⟨r, hr⟩ := hh.ordered k (hm k (List.mem_cons_self ..))
        obtain ⟨s, hs⟩ := hname k r hr
        obtain ⟨ls, hl⟩ := ih fun x hx => hm x (List.mem_cons_of_mem _ hx)
        simp only [stringLoop, stringOne, hr, hs, Out.bind_ok, hl]
        exact ⟨_, rfl⟩
    obtain ⟨ls, hl⟩ := hloop l.order fun _ hk => hk
    exact ⟨_, by simp only [string, hw, Out.bind_ok, hl]; rfl⟩

/-! ### Concrete cases -/

/-- Both sides occur: `Add w; Lex ":"; Add s` is one, `Add w; Lex ":"; Add Error; Add s` is none, since the kind of the error gets a rule. -/
example : trace empty [.add [119] reWord false, .lex [58], .add [115] reSpace false] =
    [([119], true), (defaultErrorString, false), ([115], true)] := by decide +kernel

example : ErrorBeforeNew (trace empty [.add [119] reWord false, .lex [58], .add [115] reSpace false]) :=
  ⟨[([119], true), (defaultErrorString, false)], [([115], true)], defaultErrorString, [115], by decide +kernel, by decide, by decide +kernel,
    by decide, by decide⟩

example : ¬ ErrorBeforeNew (trace empty [.add [119] reWord false, .lex [58], .add defaultErrorString reTest false, .add [115] reSpace false]) := by
  rw [show trace empty [.add [119] reWord false, .lex [58], .add defaultErrorString reTest false, .add [115] reSpace false] =
    [([119], true), (defaultErrorString, false), (defaultErrorString, true), ([115], true)] by decide +kernel]
  rintro ⟨t1, t2, e, k, e1, h1, h2, _⟩
  have : (e, false) ∈ [([119], true), (defaultErrorString, false), (defaultErrorString, true), ([115], true)] := by
    rw [e1]; exact List.mem_append_left _ h1
  have : e = defaultErrorString := by simpa using this
  subst this
  exact h2 (by decide)

example : panics (calls empty [.add [119] reWord false, .lex [58], .add defaultErrorString reTest false, .add [115] reSpace false, .lex [119]]) = false := by
  decide +kernel

end Verif.Props.SimpleLexer
