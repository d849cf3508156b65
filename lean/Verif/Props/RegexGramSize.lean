import Verif.Spec.GrammarSize
import Verif.Props.RegexGram
import Verif.Props.RegexGramText
/-
C99: how many productions the grammar of a regex grammar has (grammar/regexgram/regexgram.go).
-/
namespace Verif.Props.RegexGramSize
open Verif Verif.Spec Verif.RegexGram
open Verif.Props.Grammar (Shows)
open Verif.Props.RegexGram Verif.Props.RegexGramText
open Verif.SimpleLexer (Lexer Bytes)

/-! ### Auxiliary facts -/

mutual
theorem alts_length : ∀ x : Rx, x.alts.length = x.ways
  | .sym _ => by simp [Rx.alts, Rx.ways]
  | .opt x => by simp [Rx.alts, Rx.ways, alts_length x]
  | .or xs => by rw [Rx.alts, Rx.ways, anys_length xs]
  | .group xs => by rw [Rx.alts, Rx.ways, seqs_length xs]
  | .rep _ => by simp [Rx.alts, Rx.ways]
theorem anys_length : ∀ xs : List Rx, (Rx.anys xs).length = Rx.waysAny xs
  | [] => by simp [Rx.anys, Rx.waysAny]
  | x :: xs => by simp [Rx.anys, Rx.waysAny, alts_length x, anys_length xs]
theorem seqs_length : ∀ xs : List Rx, (Rx.seqs xs).length = Rx.waysAll xs
  | [] => by simp [Rx.seqs, Rx.waysAll]
  | x :: xs => by
    rw [Rx.seqs, Rx.waysAll, List.length_flatMap, ← alts_length x, ← seqs_length xs]
    simp
end

mutual
theorem ways_le : ∀ x : Rx, x.ways ≤ 2 ^ x.parts.length ∧ 0 < x.parts.length
  | .sym _ => by simp [Rx.ways, Rx.parts]
  | .opt x => by
    have := (ways_le x).1
    have h1 := Nat.one_le_two_pow (n := x.parts.length)
    simp only [Rx.ways, Rx.parts, List.length_cons, Nat.pow_succ]
    omega
  | .or xs => by
    have := (wayss_le xs).1
    simp only [Rx.ways, Rx.parts, List.length_cons, Nat.pow_succ]
    omega
  | .group xs => by
    have := (wayss_le xs).2
    simp only [Rx.ways, Rx.parts, List.length_cons, Nat.pow_succ]
    omega
  | .rep x => by
    have h1 := Nat.one_le_two_pow (n := x.parts.length)
    simp only [Rx.ways, Rx.parts, List.length_cons, Nat.pow_succ]
    omega
theorem wayss_le : ∀ xs : List Rx, Rx.waysAny xs ≤ 2 ^ (Rx.partss xs).length ∧ Rx.waysAll xs ≤ 2 ^ (Rx.partss xs).length
  | [] => by simp [Rx.waysAny, Rx.waysAll, Rx.partss]
  | x :: xs => by
    obtain ⟨h1, h2⟩ := ways_le x
    obtain ⟨h3, h4⟩ := wayss_le xs
    simp only [Rx.waysAny, Rx.waysAll, Rx.partss, List.length_append, Nat.pow_add]
    refine ⟨?_, Nat.mul_le_mul h1 h4⟩
    have h5 : 2 ≤ 2 ^ x.parts.length := by
      obtain ⟨k, hk⟩ : ∃ k, x.parts.length = k + 1 := ⟨x.parts.length - 1, by omega⟩
      rw [hk, Nat.pow_succ]
      have := Nat.one_le_two_pow (n := k)
      omega
    cases xs with
    | nil => simp [Rx.waysAny, Rx.partss]; exact h1
    | cons y ys =>
      have h6 : 2 ≤ 2 ^ (Rx.partss (y :: ys)).length := by
        have := (ways_le y).2
        obtain ⟨k, hk⟩ : ∃ k, (Rx.partss (y :: ys)).length = k + 1 :=
          ⟨(Rx.partss (y :: ys)).length - 1, by simp only [Rx.partss, List.length_append]; omega⟩
        rw [hk, Nat.pow_succ]
        have := Nat.one_le_two_pow (n := k)
        omega
      generalize 2 ^ x.parts.length = a at *
      generalize 2 ^ (Rx.partss (y :: ys)).length = b at *
      obtain ⟨a, rfl⟩ : ∃ a', a = a' + 2 := ⟨a - 2, by omega⟩
      obtain ⟨b, rfl⟩ : ∃ b', b = b' + 2 := ⟨b - 2, by omega⟩
      have : (a + 2) * (b + 2) = a * b + 2 * a + 2 * b + 4 := by
        rw [Nat.add_mul, Nat.mul_add, Nat.mul_add]; omega
      omega
end

section
variable {α : Type} [DecidableEq α]

theorem foldl_nodup : ∀ (l o : List α), o.Nodup → (l.foldl (fun o A => if A ∈ o then o else o ++ [A]) o).Nodup := by
  intro l
  induction l with
  | nil => intro o h; exact h
  | cons a l ih =>
    intro o h
    rw [List.foldl_cons]
    refine ih _ ?_
    split
    · exact h
    · next ha =>
      rw [List.nodup_append]
      refine ⟨h, by simp, fun x hx y hy e => ?_⟩
      rw [List.mem_singleton.1 hy] at e
      exact ha (e ▸ hx)

theorem mem_foldl : ∀ (l o : List α) (a : α), a ∈ l ∨ a ∈ o →
    a ∈ l.foldl (fun o A => if A ∈ o then o else o ++ [A]) o := by
  intro l
  induction l with
  | nil => intro o a h; rcases h with h | h; cases h; exact h
  | cons b l ih =>
    intro o a h
    rw [List.foldl_cons]
    refine ih _ _ ?_
    rcases h with h | h
    · rcases List.mem_cons.1 h with rfl | h
      · right; split
        · assumption
        · simp
      · exact .inl h
    · right; split
      · exact h
      · exact List.mem_append_left _ h

theorem count_all : ∀ (l : List (α × List α)) (o : List α), o.Nodup → (∀ x ∈ l, x.1 ∈ o) →
    (o.map fun A => (l.filter (·.1 = A)).length).sum = l.length := by
  intro l
  induction l with
  | nil =>
    intro o _ _
    induction o with
    | nil => rfl
    | cons a o ih => simpa using ih (by simp_all) (by simp)
  | cons x l ih =>
    intro o hn hm
    have h1 := ih o hn fun y hy => hm y (List.mem_cons_of_mem _ hy)
    have h2 : ∀ o : List α, o.Nodup → (o.map fun A => ((x :: l).filter (·.1 = A)).length).sum =
        (o.map fun A => (l.filter (·.1 = A)).length).sum + if x.1 ∈ o then 1 else 0 := by
      intro o
      induction o with
      | nil => intro _; simp
      | cons a o iho =>
        intro hn
        obtain ⟨hna, hn⟩ := List.nodup_cons.1 hn
        simp only [List.map_cons, List.sum_cons, iho hn]
        by_cases hxa : x.1 = a
        · have : x.1 ∉ o := hxa ▸ hna
          simp [hxa, hna]; omega
        · simp only [List.filter_cons, hxa, decide_false, Bool.false_eq_true, if_false, List.mem_cons, false_or]
          omega
    rw [h2 o hn, h1, if_pos (hm x (List.mem_cons_self ..))]
    rfl
end

/-- The productions of a recorded grammar are the rules added. -/
theorem numProds_record (adds : List (Str × List Str)) : numProds (record adds) = adds.length := by
  unfold numProds
  have hp : ∀ A, (((record adds).prods A).getD []).length = (adds.filter (·.1 = A)).length := by
    intro A
    simp only [record]
    split
    · simp
    · next h =>
      simp only [Option.getD_none, List.length_nil]
      symm
      rw [List.length_eq_zero_iff, List.filter_eq_nil_iff]
      intro x hx e
      exact h (List.mem_map.2 ⟨x, hx, by simpa using e⟩)
  simp only [hp]
  exact count_all adds _ (foldl_nodup _ [] .nil) fun x hx => mem_foldl _ _ _ (.inl (List.mem_map.2 ⟨x, hx, rfl⟩))

/-- The productions of the plain rules. -/
theorem numProds_plain (R : RxRules) (L : List Rx) : numProds (record (RxRules.plain (R ++ L.flatMap Rx.more))) =
    (R.map fun r => Rx.waysAll r.2).sum + (L.map fun x => x.ways + 1).sum := by
  rw [numProds_record]
  have e : ∀ R : RxRules, R.plain.length = (R.map fun r => Rx.waysAll r.2).sum := by
    intro R
    unfold RxRules.plain
    rw [List.length_flatMap]
    simp only [List.length_map, seqs_length]
  rw [e, List.map_append, List.sum_append]
  congr 1
  induction L with
  | nil => rfl
  | cons x L ih =>
    rw [List.flatMap_cons, List.map_append, List.sum_append, ih, List.map_cons, List.sum_cons]
    simp [Rx.more, Rx.waysAll, Rx.ways]

/-! ### The claims -/

/-- C99, the exact number: as many productions as there are ways to make the rules plain, and for every
repeated expression as many as it has ways and one more. Each rule has at most `2^k` ways, `k` being the
number of its subexpressions. -/
theorem C99_count_partial {R : RxRules} {root : PN Str Str} (h : RulesShown [] R root.kids) (hs : R.Solid)
    (hd : R.Distinct) :
    ∃ g b G, ∃ L : List Rx, Out.Returns (fun n => evalGrammar n root) (g, b) ∧ Shows g G ∧ L.Nodup ∧
      (∀ x, x ∈ L ↔ .rep x ∈ R.parts) ∧
      numProds G = (R.map fun r => Rx.waysAll r.2).sum + (L.map fun x => x.ways + 1).sum ∧
      ∀ r ∈ R, Rx.waysAll r.2 ≤ 2 ^ (Rx.partss r.2).length := by
  obtain ⟨g, b, L, h1, h2, h3, h4⟩ := C49_grammar_partial h hs hd
  exact ⟨g, b, _, L, h1, h4, h2, h3, numProds_plain _ _, fun r _ => (wayss_le r.2).2⟩

/-- The rule `S -> a? aa? aaa? …` with `n` optional symbols. -/
def optR (n : Nat) : RxRules := [(['S'], (List.range n).map fun i => .opt (.sym (List.replicate (i + 1) 'a')))]

theorem mem_optR {n : Nat} {x : Rx} (h : x ∈ (optR n).parts) :
    ∃ i, x = .opt (.sym (List.replicate (i + 1) 'a')) ∨ x = .sym (List.replicate (i + 1) 'a') := by
  have : ∀ l : List Nat, x ∈ Rx.partss (l.map fun i => .opt (.sym (List.replicate (i + 1) 'a'))) →
      ∃ i, x = .opt (.sym (List.replicate (i + 1) 'a')) ∨ x = .sym (List.replicate (i + 1) 'a') := by
    intro l
    induction l with
    | nil => intro h; simp [Rx.partss] at h
    | cons i l ih =>
      intro h
      rw [List.map_cons, Rx.partss, List.mem_append] at h
      rcases h with h | h
      · simp only [Rx.parts, List.mem_cons, List.not_mem_nil, or_false] at h
        exact ⟨i, h⟩
      · exact ih h
  exact this _ (by simpa [RxRules.parts, optR] using h)

theorem optR_writable (n : Nat) : (optR n).Writable := by
  refine ⟨?_, ?_, ?_, ?_⟩
  · intro r hr
    simp only [optR, List.mem_singleton] at hr
    subst hr
    have : ∀ l : List Nat, Rx.writables (l.map fun i => .opt (.sym (List.replicate (i + 1) 'a'))) = true := by
      intro l
      induction l with
      | nil => rfl
      | cons i l ih => simp only [List.map_cons, Rx.writables, Rx.writable, Rx.unit, ih, Bool.and_self]
    exact this _
  · intro s hs
    obtain ⟨i, h | h⟩ := mem_optR hs
    · cases h
    · cases h
      refine ⟨by simp, fun c hc => ?_⟩
      rw [(List.mem_replicate.1 hc).2]
      decide
  · intro r hr
    simp only [optR, List.mem_singleton] at hr
    subst hr
    refine ⟨by simp, ?_⟩
    show ∀ c ∈ ['S'], c ∉ Rx.special
    decide
  · intro h
    obtain ⟨i, h | h⟩ := mem_optR h <;> cases h

theorem optR_noRep {n : Nat} {L : List Rx} (h : ∀ x, x ∈ L ↔ .rep x ∈ (optR n).parts) : L = [] := by
  cases L with
  | nil => rfl
  | cons x L => obtain ⟨i, h | h⟩ := mem_optR ((h x).1 (List.mem_cons_self ..)) <;> cases h

theorem optR_ways (n : Nat) : ((optR n).map fun r => Rx.waysAll r.2).sum = 2 ^ n := by
  have : ∀ l : List Nat, Rx.waysAll (l.map fun i => .opt (.sym (List.replicate (i + 1) 'a'))) = 2 ^ l.length := by
    intro l
    induction l with
    | nil => rfl
    | cons i l ih => simp only [List.map_cons, Rx.waysAll, Rx.ways, ih, List.length_cons, Nat.pow_succ]; omega
  simp [optR, this]

/-- C99 in general is false: a rule with `n` optional symbols makes `2^n` productions. -/
theorem C99_refuted (n : Nat) : ∃ g b G, (optR n).Writable ∧ RulesShown [] (optR n) (rootOf (optR n)).kids ∧
    Out.Returns (fun f => evalGrammar f (rootOf (optR n))) (g, b) ∧ Shows g G ∧ numProds G = 2 ^ n ∧
    (Rx.partss ((optR n).flatMap (·.2))).length = 2 * n := by
  have hw := optR_writable n
  obtain ⟨g, b, G, L, h1, h2, _, h3, h4, _⟩ := C99_count_partial (rootOf_shows (optR n)) (solid_of_writable hw)
    (distinct_of_writable hw)
  refine ⟨g, b, G, hw, rootOf_shows _, h1, h2, ?_, ?_⟩
  · rw [h4, optR_noRep h3, optR_ways]
    rfl
  · have : ∀ l : List Nat, (Rx.partss (l.map fun i => .opt (.sym (List.replicate (i + 1) 'a')))).length = 2 * l.length := by
      intro l
      induction l with
      | nil => rfl
      | cons i l ih => simp only [List.map_cons, Rx.partss, Rx.parts, List.length_append, List.length_cons, List.length_nil, ih]; omega
    simp [optR, this]

/-! ### From texts on -/

/-- The rule of `optR` as text: `S -> a? aa? aaa? …`. -/
def optText (n : Nat) : List UInt8 :=
  83 :: 32 :: 45 :: 62 :: (List.range n).flatMap fun i => 32 :: (List.replicate (i + 1) 97 ++ [63])

/-- The line of it. -/
def optLines (n : Nat) : List RxLine :=
  [(some ['S'], (List.range n).map fun i => .opt (.sym (List.replicate (i + 1) 'a')))]

theorem optLines_rules (n : Nat) : linesRules [] (optLines n) = optR n := rfl

theorem optText_length (n : Nat) : 2 * (optText n).length = n * n + 5 * n + 8 := by
  have : 2 * ((List.range n).flatMap fun i => 32 :: (List.replicate (i + 1) (97 : UInt8) ++ [63])).length = n * n + 5 * n := by
    induction n with
    | zero => rfl
    | succ n ih =>
      rw [List.range_succ, List.flatMap_append, List.length_append, Nat.mul_add, ih]
      simp only [List.flatMap_cons, List.flatMap_nil, List.append_nil, List.length_cons, List.length_append, List.length_replicate,
        List.length_nil]
      have : (n + 1) * (n + 1) = n * n + 2 * n + 1 := by
        rw [Nat.add_mul, Nat.mul_add, Nat.mul_one, Nat.one_mul]; omega
      omega
  simp only [optText, List.length_cons]
  omega

theorem optText_defines (n : Nat) : Defines (optText n) (optLines n) := by
  have hr : ∀ l ∈ optLines n, Rx.writables l.2 = true := by
    intro l hl
    rw [List.mem_singleton.1 hl]
    exact (optR_writable n).right _ (List.mem_cons_self ..)
  refine ⟨⟨⟨_, _, _, rfl⟩, hr⟩, (defToks false false (optLines n)).tail, false, false, ?_, rfl⟩
  have key : ∀ l : List Nat, RxText (l.flatMap fun i => 32 :: (List.replicate (i + 1) 97 ++ [63]))
      (Rx.toksAll (l.map fun i => .opt (.sym (List.replicate (i + 1) 'a')))) := by
    intro l
    induction l with
    | nil => exact .done
    | cons i l ih =>
      rw [List.flatMap_cons, List.map_cons, Rx.toksAll, Rx.toks, Rx.toks]
      have e : nameOf (List.replicate (i + 1) 97) = List.replicate (i + 1) 'a' := by
        rw [nameOf, List.map_replicate]; rfl
      rw [← e, List.cons_append, List.append_assoc, List.append_assoc]
      refine .blank rfl (.name (by simp) ?_ ?_ (.one rfl ih))
      · intro x hx
        rw [(List.mem_replicate.1 hx).2]
        rfl
      · intro x t hx
        cases hx
        rfl
  have e : (defToks false false (optLines n)).tail =
      .sym (nameOf [83]) :: .rarr :: Rx.toksAll ((List.range n).map fun i => .opt (.sym (List.replicate (i + 1) 'a'))) := by
    simp [defToks, optLines, RxLine.toks, nameOf]
  rw [e]
  refine .name (w := [83]) (by simp) (by simp; rfl) ?_ (.blank rfl (.arrow (key _)))
  intro x t hx
  cases hx
  rfl

/-- C99, from texts on: the exact number of productions `New` makes of a text with clear names. -/
theorem C99_text_partial {l : Lexer} (hl : Reach l) {b : Bytes} {L : List RxLine} (h : Defines b L) (hc : Clear L) :
    ∃ g q l' G, ∃ K : List Rx, Out.Returns (fun n => newText n l b) (some (g, q), l') ∧ Shows g G ∧ K.Nodup ∧
      (∀ x, x ∈ K ↔ .rep x ∈ (linesRules [] L).parts) ∧
      numProds G = ((linesRules [] L).map fun r => Rx.waysAll r.2).sum + (K.map fun x => x.ways + 1).sum := by
  obtain ⟨g, q, l', K, h1, h2, h3, h4⟩ := C69_grammar hl h hc
  exact ⟨g, q, l', _, K, h1, h4, h2, h3, numProds_plain _ _⟩

/-- C99 is false of texts: of a text of fewer than `(n + 3)^2` bytes `New` makes a grammar with `2^n`
productions. -/
theorem C99_text_refuted (n : Nat) : ∃ b : Bytes, b.length < (n + 3) * (n + 3) ∧ ∀ l, Reach l →
    ∃ g q l' G, Out.Returns (fun f => newText f l b) (some (g, q), l') ∧ Shows g G ∧ numProds G = 2 ^ n := by
  refine ⟨optText n, ?_, fun l hl => ?_⟩
  · have := optText_length n
    rw [Nat.add_mul, Nat.mul_add, Nat.mul_add]
    omega
  · have hc : Clear (optLines n) := by
      refine ⟨?_, ?_⟩
      · rintro s (hs | ⟨r, hr, rfl⟩)
        · obtain ⟨i, h | h⟩ := mem_optR (optLines_rules n ▸ hs)
          · cases h
          · cases h
            intro hm
            exact absurd (List.mem_replicate.1 hm).2 (by decide)
        · rw [List.mem_singleton.1 hr]
          show '_' ∉ ['S']
          decide
      · rw [optLines_rules]; exact (optR_writable n).group
    obtain ⟨g, q, l', G, K, h1, h2, _, h3, h4⟩ := C99_text_partial hl (optText_defines n) hc
    refine ⟨g, q, l', G, h1, h2, ?_⟩
    rw [optLines_rules] at h3 h4
    rw [h4, optR_noRep h3, optR_ways]
    rfl

/-- Non-trivial case of C99: for `S -> (A|B* c)* S?`, `B -> b|(x y)`, `B ->` there are two, two and one
ways, and the repeated expressions `B` and `(A|B* c)` make two and three more. -/
example : (exR.map fun r => Rx.waysAll r.2) = [2, 2, 1] ∧
    ([.sym ['B'], .group [.or [.sym ['A'], .rep (.sym ['B'])], .sym ['c']]].map fun x => Rx.ways x + 1) = [2, 3] := by
  decide +kernel

end Verif.Props.RegexGramSize
