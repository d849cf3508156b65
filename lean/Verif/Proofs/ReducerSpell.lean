import Verif.Proofs.ReducerValid
import Verif.Proofs.RegexGramSpell
/-
Writing reducer definitions: what is written is a sentence of their grammar, and can be read back in one way
only.
-/
namespace Verif.ReducerDSL
open Verif Verif.Spec Verif.RegexGram
open Verif.Props.ReducerDSL (Stmt)

/-! ### Sentences -/

/-- The kinds of tokens. -/
abbrev rdKinds (ts : List RdTok) : List Str := ts.map RdTok.kind

section
variable {G : Spec.Grammar Str}

theorem der (hG : DG G) {A : Str} {p w : List Str} (h : (A, p) ∈ rdAdds) (hd : G.Derives p w) : G.Derives [A] w := by
  obtain ⟨k, hk⟩ := hG.rule.2 h
  have := Spec.Grammar.Derives.nonterm (g := G) (ss := []) (v := []) hk hd .nil
  simpa using this

theorem der_tok (hG : DG G) (A : Str) (h : A ∉ rdAdds.map (·.1)) : G.Derives [A] [A] := .term (term_of hG h) .nil

theorem der_cons (hG : DG G) {A : Str} {p w : List Str} (h : A ∉ rdAdds.map (·.1)) (hd : G.Derives p w) : G.Derives (A :: p) (A :: w) :=
  derive_app (der_tok hG A h) hd

theorem der_one (hG : DG G) (A : Str) (h : A ∉ rdAdds.map (·.1)) (hr : ("Reduction".toList, [A, "OneNumArg".toList]) ∈ rdAdds) :
    G.Derives ["Reduction".toList] [A, "lp".toList, "number".toList, "rp".toList] := by
  refine der hG hr (der_cons hG h (der hG (p := ["lp".toList, "number".toList, "rp".toList]) (by decide +kernel) ?_))
  exact der_cons hG (by decide +kernel) (der_cons hG (by decide +kernel) (der_tok hG _ (by decide +kernel)))

theorem der_no (hG : DG G) (A : Str) (h : A ∉ rdAdds.map (·.1)) (hr : ("Reduction".toList, [A, "NoArgs".toList]) ∈ rdAdds) :
    G.Derives ["Reduction".toList] [A, "lp".toList, "rp".toList] := by
  refine der hG hr (der_cons hG h (der hG (p := ["lp".toList, "rp".toList]) (by decide +kernel) ?_))
  exact der_cons hG (by decide +kernel) (der_tok hG _ (by decide +kernel))

theorem der_commas (hG : DG G) {A H : Str} (hA : A ∉ rdAdds.map (·.1)) (h1 : (H, [A, "comma".toList, H]) ∈ rdAdds)
    (h2 : (H, []) ∈ rdAdds) : ∀ xs : List RdTok, (∀ x ∈ xs, x.kind = A) → xs ≠ [] →
      ∃ u, rdKinds (commas xs) = u ++ [A] ∧ G.Derives [H] u
  | [], _, h => absurd rfl h
  | [x], hx, _ => ⟨[], by rw [← hx x (by simp)]; rfl, der hG h2 .nil⟩
  | x :: y :: xs, hx, _ => by
    obtain ⟨u, e, d⟩ := der_commas hG hA h1 h2 (y :: xs) (fun z hz => hx z (.tail _ hz)) (by simp)
    refine ⟨A :: "comma".toList :: u, ?_, der hG h1 (der_cons hG hA (der_cons hG (by decide +kernel) d))⟩
    rw [rdKinds, commas, List.map_cons, List.map_cons, show List.map RdTok.kind _ = _ from e, hx x (by simp)]
    rfl

/-- Statements. -/
def PartDer (G : Spec.Grammar Str) (w : List RdTok) : RdPart → Prop
  | .one _ => G.Derives ["Reduction".toList] (rdKinds w)
  | .seq _ => ∃ u v, rdKinds w = u ++ v ∧ G.Derives ["(Reduction_period)*".toList] u ∧ G.Derives ["Reduction".toList] v

theorem chain_der (hG : DG G) {ss w} (h : PartDer G w (.seq ss)) : G.Derives ["Chain".toList] (rdKinds w) := by
  obtain ⟨u, v, e, h1, h2⟩ := h
  rw [e]
  exact der hG (p := ["(Reduction_period)*".toList, "Reduction".toList]) (by decide +kernel) (derive_app h1 h2)

theorem wr_der (hG : DG G) {p w} (h : Wr p w) : PartDer G w p := by
  induction h with
  | single => exact der_no hG _ (by decide +kernel) (by decide +kernel)
  | grand => exact der_no hG _ (by decide +kernel) (by decide +kernel)
  | value => exact der_one hG _ (by decide +kernel) (by decide +kernel)
  | removeChild => exact der_one hG _ (by decide +kernel) (by decide +kernel)
  | replace => exact der_one hG _ (by decide +kernel) (by decide +kernel)
  | childrenOf => exact der_one hG _ (by decide +kernel) (by decide +kernel)
  | child => exact der_one hG _ (by decide +kernel) (by decide +kernel)
  | @removeChildren vs is ne h =>
    obtain ⟨u, eu, d⟩ := der_commas hG (A := "number".toList) (H := "(number_comma)*".toList) (by decide +kernel) (by decide +kernel) (by decide +kernel)
      (vs.map .number) (by intro x hx; obtain ⟨v, -, rfl⟩ := List.mem_map.1 hx; rfl) (by simpa using ne)
    have d2 := der_cons hG (A := "lp".toList) (by decide +kernel) (derive_app d (der_cons hG (A := "number".toList) (by decide +kernel) (der_tok hG "rp".toList (by decide +kernel))))
    have d3 := der hG (A := "Reduction".toList) (p := ["RemoveChildren".toList, "VarNumArg".toList]) (by decide +kernel)
      (der_cons hG (by decide +kernel) (der hG (A := "VarNumArg".toList) (by decide +kernel) d2))
    show G.Derives _ _
    rw [rdKinds, List.map_cons, List.map_cons, List.map_append, show List.map RdTok.kind (commas _) = _ from eu, List.append_assoc]
    exact d3
  | @removeAll ks ne =>
    obtain ⟨u, eu, d⟩ := der_commas hG (A := "string".toList) (H := "(string_comma)*".toList) (by decide +kernel) (by decide +kernel) (by decide +kernel)
      (ks.map inQuotes) (by intro x hx; obtain ⟨v, -, rfl⟩ := List.mem_map.1 hx; rfl) (by simpa using ne)
    have d2 := der_cons hG (A := "lp".toList) (by decide +kernel) (derive_app d (der_cons hG (A := "string".toList) (by decide +kernel) (der_tok hG "rp".toList (by decide +kernel))))
    have d3 := der hG (A := "Reduction".toList) (p := ["RemoveAll".toList, "VarStrArg".toList]) (by decide +kernel)
      (der_cons hG (by decide +kernel) (der hG (A := "VarStrArg".toList) (by decide +kernel) d2))
    show G.Derives _ _
    rw [rdKinds, List.map_cons, List.map_cons, List.map_append, show List.map RdTok.kind (commas _) = _ from eu, List.append_assoc]
    exact d3
  | nil => exact der hG (p := ["Nil".toList]) (by decide +kernel) (der_tok hG _ (by decide +kernel))
  | @cond v i k t e a b h _ _ iha ihb =>
    have dc : G.Derives ["Condition".toList] ["ChildIs".toList, "lp".toList, "number".toList, "comma".toList, "string".toList, "rp".toList] :=
      der hG (p := ["ChildIs".toList, "lp".toList, "number".toList, "comma".toList, "string".toList, "rp".toList]) (by decide +kernel)
        (der_cons hG (by decide +kernel) (der_cons hG (by decide +kernel) (der_cons hG (by decide +kernel) (der_cons hG (by decide +kernel)
          (der_cons hG (by decide +kernel) (der_tok hG _ (by decide +kernel)))))))
    have d1 := derive_app (chain_der hG ihb) (der_tok hG "rp".toList (by decide +kernel))
    have d2 := derive_app (chain_der hG iha) (der_cons hG (A := "comma".toList) (by decide +kernel) d1)
    have d3 := derive_app dc (der_cons hG (A := "comma".toList) (by decide +kernel) d2)
    have d4 := der hG (A := "Reduction".toList) (by decide +kernel) (der_cons hG (A := "If".toList) (by decide +kernel)
      (der_cons hG (A := "lp".toList) (by decide +kernel) d3))
    have e : rdKinds ([.word "If".toList, .lp, .word "ChildIs".toList, .lp, .number v, .comma, inQuotes k, .rp, .comma] ++ a ++
        .comma :: (b ++ [.rp])) = "If".toList :: "lp".toList :: (["ChildIs".toList, "lp".toList, "number".toList, "comma".toList,
        "string".toList, "rp".toList] ++ "comma".toList :: (rdKinds a ++ "comma".toList :: (rdKinds b ++ ["rp".toList]))) := by
      simp only [rdKinds, List.map_append, List.map_cons, List.map_nil, RdTok.kind, inQuotes, List.cons_append, List.nil_append,
        List.append_assoc]
    show G.Derives _ _
    rw [e]
    exact d4
  | last _ ih => exact ⟨[], _, rfl, der hG (p := []) (by decide +kernel) .nil, ih⟩
  | @more s ss w v _ _ ih1 ih2 =>
    obtain ⟨x, y, e, h1, h2⟩ := ih2
    refine ⟨rdKinds w ++ "period".toList :: x, y, ?_, ?_, h2⟩
    · rw [rdKinds, List.map_append, List.map_cons, show List.map RdTok.kind v = _ from e]
      simp [rdKinds, RdTok.kind]
    · refine der hG (p := ["Reduction".toList, "period".toList, "(Reduction_period)*".toList]) (by decide +kernel) ?_
      exact derive_app (a := ["Reduction".toList]) ih1 (der_cons hG (by decide +kernel) h1)

theorem def_der (hG : DG G) {D w} (h : DefWr D w) : G.Derives ["Rule*".toList] (rdKinds w) := by
  induction h with
  | nil => exact der hG (p := []) (by decide +kernel) .nil
  | @cons n ss w R v h _ ih =>
    have d1 := der hG (A := "Rule".toList) (p := ["rule".toList, "Chain".toList]) (by decide +kernel)
      (der_cons hG (by decide +kernel) (chain_der hG (wr_der hG h)))
    have := der hG (A := "Rule*".toList) (p := ["Rule".toList, "Rule*".toList]) (by decide +kernel) (derive_app d1 ih)
    rw [rdKinds, List.map_cons, List.map_append]
    exact this

theorem def_sent (hG : DG G) {D w} (h : DefWr D w) : G.Sentence (rdKinds w) :=
  ⟨"Rules".toList, hG.start, der hG (p := ["Rule*".toList]) (by decide +kernel) (def_der hG h)⟩
end

/-! ### Reading in one way only -/

/-- Words are those with a meaning. -/
def RdTok.Good (t : RdTok) : Prop := ∀ k, t = .word k → k ∈ rdWords

theorem tok_unique {t t' : RdTok} {l : Lexeme Str Str} (h : t.Is l) (h' : t'.Is l) (g : RdTok.Good t) (g' : RdTok.Good t') : t = t' := by
  have e : t.kind = t'.kind := h.1.symm.trans h'.1
  have hw : ∀ k ∈ rdWords, k ∉ ["number".toList, "rule".toList, "string".toList, "lp".toList, "rp".toList, "comma".toList, "period".toList] := by
    decide +kernel
  cases t with
  | word k =>
    have hk := hw k (g k rfl)
    simp only [List.mem_cons, List.not_mem_nil, or_false, not_or] at hk
    cases t' with
    | word k' => exact congrArg _ e
    | number => exact absurd e hk.1
    | rule => exact absurd e hk.2.1
    | string => exact absurd e hk.2.2.1
    | lp => exact absurd e hk.2.2.2.1
    | rp => exact absurd e hk.2.2.2.2.1
    | comma => exact absurd e hk.2.2.2.2.2.1
    | period => exact absurd e hk.2.2.2.2.2.2
  | _ =>
    cases t' with
    | word k =>
      have hk := hw k (g' k rfl)
      simp only [List.mem_cons, List.not_mem_nil, or_false, not_or] at hk
      obtain ⟨h1, h2, h3, h4, h5, h6, h7⟩ := hk
      first
        | exact absurd e.symm h1
        | exact absurd e.symm h2
        | exact absurd e.symm h3
        | exact absurd e.symm h4
        | exact absurd e.symm h5
        | exact absurd e.symm h6
        | exact absurd e.symm h7
    | _ =>
      first
        | rfl
        | exact absurd e (by simp only [RdTok.kind]; decide +kernel)
        | (have e1 := h.2 _ rfl; have e2 := h'.2 _ rfl; rw [← e1, ← e2])

theorem toks_unique {w : List RdTok} : ∀ {w' : List RdTok} {ls : List (Lexeme Str Str)}, RdSpells w ls → RdSpells w' ls →
    (∀ t ∈ w, RdTok.Good t) → (∀ t ∈ w', RdTok.Good t) → w = w' := by
  induction w with
  | nil => intro w' ls h h' _ _; cases h; cases h'; rfl
  | cons t w ih =>
    intro w' ls h h' g g'
    cases h with
    | cons h1 h2 =>
      cases h' with
      | cons h3 h4 =>
        rw [tok_unique h1 h3 (g _ (.head _)) (g' _ (.head _)), ih h2 h4 (fun x hx => g x (.tail _ hx)) fun x hx => g' x (.tail _ hx)]

theorem commas_mem {x : RdTok} : ∀ {xs : List RdTok}, x ∈ commas xs → x = .comma ∨ x ∈ xs
  | [], h => by cases h
  | [y], h => .inr h
  | y :: z :: xs, h => by
    rw [commas] at h
    rcases List.mem_cons.1 h with rfl | h
    · exact .inr (.head _)
    rcases List.mem_cons.1 h with rfl | h
    · exact .inl rfl
    rcases commas_mem h with h | h
    · exact .inl h
    · exact .inr (.tail _ h)

theorem good_of (t : RdTok) (h : ∀ k, t ≠ .word k) : RdTok.Good t := fun k e => absurd e (h k)

theorem wr_good {p w} (h : Wr p w) : ∀ t ∈ w, RdTok.Good t := by
  have nw : ∀ {k : Str}, k ∈ rdWords → RdTok.Good (.word k) := fun hk k' e => by cases e; exact hk
  induction h with
  | removeChildren ne h =>
    intro t ht
    rcases List.mem_cons.1 ht with rfl | ht
    · exact nw (by decide +kernel)
    rcases List.mem_cons.1 ht with rfl | ht
    · exact good_of _ (by simp)
    rcases List.mem_append.1 ht with ht | ht
    · rcases commas_mem ht with rfl | ht
      · exact good_of _ (by simp)
      · obtain ⟨v, -, rfl⟩ := List.mem_map.1 ht; exact good_of _ (by simp)
    · rw [List.mem_singleton.1 ht]; exact good_of _ (by simp)
  | removeAll ne =>
    intro t ht
    rcases List.mem_cons.1 ht with rfl | ht
    · exact nw (by decide +kernel)
    rcases List.mem_cons.1 ht with rfl | ht
    · exact good_of _ (by simp)
    rcases List.mem_append.1 ht with ht | ht
    · rcases commas_mem ht with rfl | ht
      · exact good_of _ (by simp)
      · obtain ⟨v, -, rfl⟩ := List.mem_map.1 ht; exact good_of _ (by simp [inQuotes])
    · rw [List.mem_singleton.1 ht]; exact good_of _ (by simp)
  | cond h _ _ ih1 ih2 =>
    intro t ht
    simp only [List.mem_append, List.mem_cons, List.not_mem_nil, or_false] at ht
    rcases ht with ((rfl | rfl | rfl | rfl | rfl | rfl | rfl | rfl | rfl) | ht) | rfl | ht | rfl
    · exact nw (by decide +kernel)
    · exact good_of _ (by simp)
    · exact nw (by decide +kernel)
    · exact good_of _ (by simp)
    · exact good_of _ (by simp)
    · exact good_of _ (by simp)
    · exact good_of _ (by simp [inQuotes])
    · exact good_of _ (by simp)
    · exact good_of _ (by simp)
    · exact ih1 t ht
    · exact good_of _ (by simp)
    · exact ih2 t ht
    · exact good_of _ (by simp)
  | last _ ih => exact ih
  | more _ _ ih1 ih2 =>
    intro t ht
    simp only [List.mem_append, List.mem_cons] at ht
    rcases ht with ht | rfl | ht
    · exact ih1 t ht
    · exact good_of _ (by simp)
    · exact ih2 t ht
  | _ =>
    intro t ht
    simp only [List.mem_cons, List.not_mem_nil, or_false] at ht
    rcases ht with rfl | ht
    · exact nw (by decide +kernel)
    first
      | (rcases ht with rfl | rfl | rfl <;> exact good_of _ (by simp))
      | (rcases ht with rfl | rfl <;> exact good_of _ (by simp))
      | skip

theorem def_good {D w} (h : DefWr D w) : ∀ t ∈ w, RdTok.Good t := by
  induction h with
  | nil => intro t ht; cases ht
  | cons h _ ih =>
    intro t ht
    simp only [List.mem_append, List.mem_cons] at ht
    rcases ht with rfl | ht | ht
    · exact good_of _ (by simp)
    · exact wr_good h t ht
    · exact ih t ht

theorem commas_inj {r r' : List RdTok} : ∀ {xs ys : List RdTok}, (∀ x ∈ xs, x ≠ .comma ∧ x ≠ .rp) → (∀ x ∈ ys, x ≠ .comma ∧ x ≠ .rp) →
    commas xs ++ .rp :: r = commas ys ++ .rp :: r' → xs = ys ∧ r = r'
  | [], [], _, _, e => by simpa [commas] using e
  | [], [y], _, h, e => by simp only [commas, List.nil_append, List.cons_append, List.cons.injEq] at e; exact absurd e.1.symm (h y (by simp)).2
  | [], y :: z :: ys, _, h, e => by
    simp only [commas, List.nil_append, List.cons_append, List.cons.injEq] at e; exact absurd e.1.symm (h y (by simp)).2
  | [x], [], h, _, e => by simp only [commas, List.nil_append, List.cons_append, List.cons.injEq] at e; exact absurd e.1 (h x (by simp)).2
  | x :: z :: xs, [], h, _, e => by
    simp only [commas, List.nil_append, List.cons_append, List.cons.injEq] at e; exact absurd e.1 (h x (by simp)).2
  | [x], [y], _, _, e => by simpa [commas] using e
  | [x], y :: z :: ys, _, _, e => by simp [commas] at e
  | x :: z :: xs, [y], _, _, e => by simp [commas] at e
  | x :: z :: xs, y :: u :: ys, h, h', e => by
    simp only [commas, List.cons_append, List.cons.injEq, true_and] at e
    have := commas_inj (fun a ha => h a (.tail _ ha)) (fun a ha => h' a (.tail _ ha)) e.2
    exact ⟨by rw [e.1, this.1], this.2⟩

theorem int_fun {v : Str} {i j : Int} (h : IntOf charNumerals v i) (h' : IntOf charNumerals v j) : i = j :=
  (atoi_int h).symm.trans (atoi_int h')

theorem ints_fun {vs : List Str} {is js : List Int} (h : IntsOf vs is) (h' : IntsOf vs js) : is = js := by
  unfold IntsOf at h h'
  induction h generalizing js with
  | nil => cases h'; rfl
  | cons h1 _ ih => cases h' with | cons h2 h3 => rw [int_fun h1 h2, ih h3]

/-- It does not go on with a period. -/
def NoPeriod (r : List RdTok) : Prop := ∀ x s, r = x :: s → x ≠ .period

/-- What there is to compare. -/
def Same (w : List RdTok) (r : List RdTok) (w' : List RdTok) (r' : List RdTok) : RdPart → RdPart → Prop
  | .one s, .one s' => s = s' ∧ w = w'
  | .seq ss, .seq ss' => NoPeriod r → NoPeriod r' → ss = ss' ∧ w = w'
  | _, _ => True

theorem wr_same {p w} (h : Wr p w) : ∀ {p' w' r r'}, Wr p' w' → w ++ r = w' ++ r' → Same w r w' r' p p' := by
  have pair : ∀ {k k' : Str} {v v' : Str} {i i' : Int} {r r' : List RdTok}, IntOf charNumerals v i → IntOf charNumerals v' i' →
      [RdTok.word k, .lp, .number v, .rp] ++ r = [RdTok.word k', .lp, .number v', .rp] ++ r' → v = v' ∧ i = i' := by
    intro k k' v v' i i' r r' h h' e
    have e : v = v' := by simpa using (List.cons.inj (List.cons.inj (List.cons.inj e).2).2).1
    subst e
    exact ⟨rfl, int_fun h h'⟩
  induction h with
  | single =>
    intro p' w' r r' h' e
    cases h' with
    | single => exact ⟨rfl, rfl⟩
    | last => trivial
    | more => trivial
    | _ => exact absurd (List.cons.inj e).1 (by decide +kernel)
  | grand =>
    intro p' w' r r' h' e
    cases h' with
    | grand => exact ⟨rfl, rfl⟩
    | last => trivial
    | more => trivial
    | _ => exact absurd (List.cons.inj e).1 (by decide +kernel)
  | value h =>
    intro p' w' r r' h' e
    cases h' with
    | value h' => obtain ⟨rfl, rfl⟩ := pair h h' e; exact ⟨rfl, rfl⟩
    | last => trivial
    | more => trivial
    | _ => exact absurd (List.cons.inj e).1 (by decide +kernel)
  | removeChild h =>
    intro p' w' r r' h' e
    cases h' with
    | removeChild h' => obtain ⟨rfl, rfl⟩ := pair h h' e; exact ⟨rfl, rfl⟩
    | last => trivial
    | more => trivial
    | _ => exact absurd (List.cons.inj e).1 (by decide +kernel)
  | replace h =>
    intro p' w' r r' h' e
    cases h' with
    | replace h' => obtain ⟨rfl, rfl⟩ := pair h h' e; exact ⟨rfl, rfl⟩
    | last => trivial
    | more => trivial
    | _ => exact absurd (List.cons.inj e).1 (by decide +kernel)
  | childrenOf h =>
    intro p' w' r r' h' e
    cases h' with
    | childrenOf h' => obtain ⟨rfl, rfl⟩ := pair h h' e; exact ⟨rfl, rfl⟩
    | last => trivial
    | more => trivial
    | _ => exact absurd (List.cons.inj e).1 (by decide +kernel)
  | child h =>
    intro p' w' r r' h' e
    cases h' with
    | child h' => obtain ⟨rfl, rfl⟩ := pair h h' e; exact ⟨rfl, rfl⟩
    | last => trivial
    | more => trivial
    | _ => exact absurd (List.cons.inj e).1 (by decide +kernel)
  | @removeChildren vs is ne h =>
    intro p' w' r r' h' e
    cases h' with
    | @removeChildren vs' is' ne' h' =>
      have e2 : commas (vs.map .number) ++ .rp :: r = commas (vs'.map .number) ++ .rp :: r' := by
        simpa using (List.cons.inj (List.cons.inj e).2).2
      have nb : ∀ vs : List Str, ∀ x ∈ vs.map RdTok.number, x ≠ .comma ∧ x ≠ .rp := by
        intro vs x hx; obtain ⟨v, -, rfl⟩ := List.mem_map.1 hx; exact ⟨by simp, by simp⟩
      have e3 := (commas_inj (nb vs) (nb vs') e2).1
      have e4 : vs = vs' := (List.map_injective_iff.2 fun a b h => by cases h; rfl) e3
      subst e4
      have := ints_fun h h'
      subst this
      exact ⟨rfl, rfl⟩
    | last => trivial
    | more => trivial
    | _ => exact absurd (List.cons.inj e).1 (by decide +kernel)
  | @removeAll ks ne =>
    intro p' w' r r' h' e
    cases h' with
    | @removeAll ks' ne' =>
      have e2 : commas (ks.map inQuotes) ++ .rp :: r = commas (ks'.map inQuotes) ++ .rp :: r' := by
        simpa using (List.cons.inj (List.cons.inj e).2).2
      have nb : ∀ vs : List Str, ∀ x ∈ vs.map inQuotes, x ≠ .comma ∧ x ≠ .rp := by
        intro vs x hx; obtain ⟨v, -, rfl⟩ := List.mem_map.1 hx; exact ⟨by simp [inQuotes], by simp [inQuotes]⟩
      have e3 := (commas_inj (nb ks) (nb ks') e2).1
      have e4 : ks = ks' := (List.map_injective_iff.2 fun a b h => by simpa [inQuotes] using h) e3
      subst e4
      exact ⟨rfl, rfl⟩
    | last => trivial
    | more => trivial
    | _ => exact absurd (List.cons.inj e).1 (by decide +kernel)
  | nil =>
    intro p' w' r r' h' e
    cases h' with
    | nil => exact ⟨rfl, rfl⟩
    | last => trivial
    | more => trivial
    | _ => exact absurd (List.cons.inj e).1 (by decide +kernel)
  | @cond v i k t el a b h ht he ih1 ih2 =>
    intro p' w' r r' h' e
    cases h' with
    | @cond v' i' k' t' el' a' b' h' ht' he' =>
      simp only [List.cons_append, List.nil_append, List.append_assoc, List.cons.injEq, true_and, RdTok.number.injEq] at e
      obtain ⟨rfl, e1, e2⟩ := e
      have ek : k = k' := by simpa [inQuotes] using e1
      subst ek
      have np : ∀ s, NoPeriod (.comma :: s) := by rintro s x s' e; cases e; simp
      have np2 : ∀ s, NoPeriod (.rp :: s) := by rintro s x s' e; cases e; simp
      obtain ⟨rfl, rfl⟩ := ih1 ht' e2 (np _) (np _)
      have e3 := (List.cons.inj (List.append_cancel_left e2)).2
      obtain ⟨rfl, rfl⟩ := ih2 he' e3 (np2 _) (np2 _)
      rw [int_fun h h']
      exact ⟨rfl, rfl⟩
    | last => trivial
    | more => trivial
    | _ => exact absurd (List.cons.inj e).1 (by decide +kernel)
  | @last s w h ih =>
    intro p' w' r r' h' e
    cases h' with
    | last h' =>
      intro _ _
      obtain ⟨rfl, rfl⟩ := ih h' e
      exact ⟨rfl, rfl⟩
    | @more s' ss' w' v' h' rest' =>
      intro hr _
      rw [List.append_assoc] at e
      obtain ⟨rfl, rfl⟩ := ih h' e
      exact absurd rfl (hr _ _ (List.append_cancel_left e))
    | _ => trivial
  | @more s ss w v h rest ih1 ih2 =>
    intro p' w' r r' h' e
    cases h' with
    | last h' =>
      intro _ hr
      rw [List.append_assoc] at e
      obtain ⟨rfl, rfl⟩ := ih1 h' e
      exact absurd rfl (hr _ _ (List.append_cancel_left e).symm)
    | @more s' ss' w' v' h' rest' =>
      intro hr hr'
      rw [List.append_assoc, List.append_assoc] at e
      obtain ⟨rfl, rfl⟩ := ih1 h' e
      have e2 := (List.cons.inj (List.append_cancel_left e)).2
      obtain ⟨rfl, rfl⟩ := ih2 rest' e2 hr hr'
      exact ⟨rfl, rfl⟩
    | _ => trivial

theorem def_start {D w} (h : DefWr D w) : NoPeriod w := by
  cases h with
  | nil => intro x s e; cases e
  | cons => intro x s e; cases e; simp

theorem def_same {D w} (h : DefWr D w) : ∀ {D'}, DefWr D' w → D = D' := by
  induction h with
  | nil => intro D' h'; cases h'; rfl
  | @cons n ss w R v h rest ih =>
    intro D' h'
    generalize e : RdTok.rule n :: (w ++ v) = z at h'
    cases h' with
    | nil => cases e
    | @cons n' ss' w' R' v' h' rest' =>
      simp only [List.cons.injEq, RdTok.rule.injEq] at e
      obtain ⟨rfl, e⟩ := e
      obtain ⟨rfl, rfl⟩ := wr_same h h' e (def_start rest) (def_start rest')
      have e2 := List.append_cancel_left e
      subst e2
      rw [ih rest']

end Verif.ReducerDSL
