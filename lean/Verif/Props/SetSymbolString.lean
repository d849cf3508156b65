import Verif.Model.SetSymbolString
import Verif.Props.SetSymbol
import Verif.Props.StringSymbol
/-
C100: what the texts of productions tell (symbol/setsymbol/set.go).
-/
namespace Verif.Props.SetSymbolString
open Verif Verif.Spec Verif.SetSymbol Verif.SetSymbolString

/-! ### Specification -/

/-- The names of the symbols of a production. -/
def NamesOf (s : SymSet Str) (p : List Nat) (ns : List Str) : Prop :=
  p.length = ns.length ∧ ∀ (i v : Nat), p[i]? = some v → s.symb2str[v]? = ns[i]?

/-- The names of the symbols of productions. -/
def AllNamesOf (s : SymSet Str) (ps : List (List Nat)) (nss : List (List Str)) : Prop :=
  ps.length = nss.length ∧ ∀ (i : Nat) p ns, ps[i]? = some p → nss[i]? = some ns → NamesOf s p ns

/-- A name that is told apart: not empty, without comma and closing bracket. -/
def Plain (n : Str) : Prop := n ≠ [] ∧ ',' ∉ n ∧ ']' ∉ n

/-- How productions are written: in brackets with commas between the names, all in braces. -/
def written (nss : List (List Str)) : Str :=
  '{' :: ((nss.map fun ns => '[' :: (ns.intersperse [',', ' ']).flatten ++ [']']).intersperse [' ']).flatten ++ ['}']

/-! ### Auxiliary facts -/

theorem namesOf_cons {s : SymSet Str} {v : Nat} {p : List Nat} {ns : List Str} :
    NamesOf s (v :: p) ns ↔ ∃ n ms, ns = n :: ms ∧ s.symb2str[v]? = some n ∧ NamesOf s p ms := by
  constructor
  · rintro ⟨h1, h2⟩
    cases ns with
    | nil => simp at h1
    | cons n ms =>
      exact ⟨n, ms, rfl, by simpa using h2 0 v (by simp), by simpa using h1, fun i w hw => by
        simpa using h2 (i + 1) w (by simpa using hw)⟩
  · rintro ⟨n, ms, rfl, h1, h2, h3⟩
    refine ⟨by simp [h2], fun i w hw => ?_⟩
    cases i with
    | zero => simp at hw; subst hw; simpa using h1
    | succ i => simpa using h3 i w (by simpa using hw)

theorem readSyms_iff {s : SymSet Str} : ∀ {p : List Nat} {ns : List Str}, readSyms s p = .ok ns ↔ NamesOf s p ns
  | [], ns => by
    simp only [readSyms, Out.ok.injEq, NamesOf]
    constructor
    · rintro rfl; simp
    · rintro ⟨h, _⟩; exact (List.length_eq_zero_iff.1 (by simpa using h.symm)).symm
  | v :: p, ns => by
    rw [namesOf_cons]
    unfold readSyms symString
    rw [if_neg (by omega)]
    simp only [Int.toNat_natCast]
    cases h : s.symb2str[v]? with
    | none => simp [Out.bind]
    | some n =>
      simp only [Out.bind_ok]
      rw [Out.bind_eq_ok]
      constructor
      · rintro ⟨ms, h1, h2⟩
        cases h2
        exact ⟨n, ms, rfl, rfl, readSyms_iff.1 h1⟩
      · rintro ⟨n', ms, rfl, h1, h2⟩
        cases h1
        exact ⟨ms, readSyms_iff.2 h2, rfl⟩

/-- One production written. -/
def br (ns : List Str) : Str := "[".toList ++ Grammar.join ", ".toList ns ++ "]".toList

theorem allNamesOf_cons {s : SymSet Str} {p ps nss} :
    AllNamesOf s (p :: ps) nss ↔ ∃ ns ms, nss = ns :: ms ∧ NamesOf s p ns ∧ AllNamesOf s ps ms := by
  constructor
  · rintro ⟨h1, h2⟩
    cases nss with
    | nil => simp at h1
    | cons n ms =>
      exact ⟨n, ms, rfl, h2 0 p n (by simp) (by simp), by simpa using h1, fun i q ns hq hn => 
        h2 (i + 1) q ns (by simpa using hq) (by simpa using hn)⟩
  · rintro ⟨n, ms, rfl, h1, h2, h3⟩
    refine ⟨by simp [h2], fun i q ns hq hn => ?_⟩
    cases i with
    | zero => simp at hq hn; subst hq hn; exact h1
    | succ i => exact h3 i q ns (by simpa using hq) (by simpa using hn)

theorem prodTexts_iff {s : SymSet Str} : ∀ {ps : List (List Nat)} {ts : List Str},
    prodTexts s ps = .ok ts ↔ ∃ nss, AllNamesOf s ps nss ∧ ts = nss.map br
  | [], ts => by
    simp only [prodTexts, Out.ok.injEq]
    constructor
    · rintro rfl; exact ⟨[], ⟨rfl, by simp⟩, rfl⟩
    · rintro ⟨nss, ⟨h, _⟩, rfl⟩
      have : nss = [] := List.length_eq_zero_iff.1 (by simpa using h.symm)
      rw [this]; rfl
  | p :: ps, ts => by
    unfold prodTexts
    rw [Out.bind_eq_ok]
    constructor
    · rintro ⟨ns, h1, h2⟩
      rw [Out.bind_eq_ok] at h2
      obtain ⟨ts', h2, h3⟩ := h2
      cases h3
      obtain ⟨nss, h4, rfl⟩ := prodTexts_iff.1 h2
      exact ⟨ns :: nss, allNamesOf_cons.2 ⟨_, _, rfl, readSyms_iff.1 h1, h4⟩, rfl⟩
    · rintro ⟨nss, h, rfl⟩
      obtain ⟨ns, ms, rfl, h1, h2⟩ := allNamesOf_cons.1 h
      exact ⟨ns, readSyms_iff.2 h1, Out.bind_eq_ok.2 ⟨ms.map br, prodTexts_iff.2 ⟨ms, h2, rfl⟩, rfl⟩⟩

theorem readSyms_ne_fuel {s : SymSet Str} : ∀ {p : List Nat}, readSyms s p ≠ .fuel
  | [] => by simp [readSyms]
  | v :: p => by
    unfold readSyms symString
    rw [if_neg (by omega)]
    cases s.symb2str[(v : Int).toNat]? with
    | none => simp [Out.bind]
    | some n =>
      simp only [Out.bind_ok]
      have := readSyms_ne_fuel (s := s) (p := p)
      cases h : readSyms s p <;> simp_all [Out.bind]

theorem readSyms_panic {s : SymSet Str} : ∀ {p : List Nat}, readSyms s p = .panic ↔ ∃ v ∈ p, s.symb2str.length ≤ v
  | [] => by simp [readSyms]
  | v :: p => by
    unfold readSyms symString
    rw [if_neg (by omega)]
    simp only [Int.toNat_natCast]
    by_cases hv : s.symb2str.length ≤ v
    · rw [List.getElem?_eq_none hv]
      exact ⟨fun _ => ⟨v, by simp, hv⟩, fun _ => rfl⟩
    · rw [List.getElem?_eq_getElem (by omega)]
      have ih := readSyms_panic (s := s) (p := p)
      simp only [Out.bind_ok, List.mem_cons, exists_eq_or_imp, hv, false_or]
      rw [← ih]
      cases readSyms s p <;> simp [Out.bind]

theorem prodTexts_panic {s : SymSet Str} : ∀ {ps : List (List Nat)},
    (prodTexts s ps = .panic ↔ ∃ p ∈ ps, ∃ v ∈ p, s.symb2str.length ≤ v) ∧ prodTexts s ps ≠ .fuel
  | [] => by simp [prodTexts]
  | p :: ps => by
    obtain ⟨ih, ih'⟩ := prodTexts_panic (s := s) (ps := ps)
    have h1 := readSyms_panic (s := s) (p := p)
    have h2 := readSyms_ne_fuel (s := s) (p := p)
    unfold prodTexts
    simp only [List.mem_cons, exists_eq_or_imp]
    rw [← h1, ← ih]
    cases h3 : readSyms s p with
    | ok ns => cases h4 : prodTexts s ps <;> simp_all [Out.bind]
    | panic => simp [Out.bind]
    | fuel => exact absurd h3 h2

theorem cut_unique {P : Char → Prop} : ∀ {a b : Str} {c d : Char} {r r' : Str}, (∀ x ∈ a, ¬ P x) → (∀ x ∈ b, ¬ P x) → P c → P d →
    a ++ c :: r = b ++ d :: r' → a = b ∧ c = d ∧ r = r'
  | [], [], _, _, _, _, _, _, _, _, e => by simp_all
  | [], y :: b, _, _, _, _, _, hb, hc, _, e => by
    simp only [List.nil_append, List.cons_append, List.cons.injEq] at e
    exact absurd (e.1 ▸ hc) (hb y (List.mem_cons_self ..))
  | x :: a, [], _, _, _, _, ha, _, _, hd, e => by
    simp only [List.nil_append, List.cons_append, List.cons.injEq] at e
    exact absurd (e.1 ▸ hd) (ha x (List.mem_cons_self ..))
  | x :: a, y :: b, _, _, _, _, ha, hb, hc, hd, e => by
    simp only [List.cons_append, List.cons.injEq] at e
    obtain ⟨h1, h2, h3⟩ := cut_unique (fun x hx => ha x (List.mem_cons_of_mem _ hx)) (fun x hx => hb x (List.mem_cons_of_mem _ hx)) hc hd e.2
    exact ⟨by rw [e.1, h1], h2, h3⟩

def Sep (c : Char) : Prop := c = ',' ∨ c = ']'

theorem plain_sep {n : Str} (h : Plain n) : ∀ x ∈ n, ¬ Sep x := by
  rintro x hx (rfl | rfl)
  · exact h.2.1 hx
  · exact h.2.2 hx

theorem plain_head {n : Str} (h : Plain n) {r r' : Str} : n ++ r ≠ ']' :: r' := by
  obtain ⟨h0, _, h2⟩ := h
  cases n with
  | nil => exact absurd rfl h0
  | cons x n => intro e; simp at e; exact h2 (by simp [e.1])

theorem join_inj : ∀ {p q : List Str} {r r' : Str}, (∀ n ∈ p, Plain n) → (∀ n ∈ q, Plain n) →
    Grammar.join ", ".toList p ++ ']' :: r = Grammar.join ", ".toList q ++ ']' :: r' → p = q ∧ r = r'
  | [], [], r, r', _, _, e => by simpa [Grammar.join] using e
  | [], [n], r, r', _, hq, e => by
    exact absurd (by simpa [Grammar.join] using e.symm) (plain_head (hq n (by simp)))
  | [], n :: m :: q, r, r', _, hq, e => by
    refine absurd ?_ (plain_head (hq n (by simp)) (r := ", ".toList ++ Grammar.join ", ".toList (m :: q) ++ ']' :: r') (r' := r))
    simpa [Grammar.join] using e.symm
  | [n], [], r, r', hp, _, e => by
    exact absurd (by simpa [Grammar.join] using e) (plain_head (hp n (by simp)))
  | n :: m :: p, [], r, r', hp, _, e => by
    refine absurd ?_ (plain_head (hp n (by simp)) (r := ", ".toList ++ Grammar.join ", ".toList (m :: p) ++ ']' :: r) (r' := r'))
    simpa [Grammar.join] using e
  | [n], [k], r, r', hp, hq, e => by
    obtain ⟨h1, _, h2⟩ := cut_unique (P := Sep) (plain_sep (hp n (by simp))) (plain_sep (hq k (by simp))) (.inr rfl) (.inr rfl) e
    exact ⟨by rw [h1], h2⟩
  | [n], k :: l :: q, r, r', hp, hq, e => by
    have e' : n ++ ']' :: r = k ++ ',' :: (' ' :: (Grammar.join ", ".toList (l :: q) ++ ']' :: r')) := by simpa [Grammar.join] using e
    obtain ⟨_, h, _⟩ := cut_unique (P := Sep) (plain_sep (hp n (by simp))) (plain_sep (hq k (by simp))) (.inr rfl) (.inl rfl) e'
    exact absurd h (by decide)
  | n :: m :: p, [k], r, r', hp, hq, e => by
    have e' : n ++ ',' :: (' ' :: (Grammar.join ", ".toList (m :: p) ++ ']' :: r)) = k ++ ']' :: r' := by simpa [Grammar.join] using e
    obtain ⟨_, h, _⟩ := cut_unique (P := Sep) (plain_sep (hp n (by simp))) (plain_sep (hq k (by simp))) (.inl rfl) (.inr rfl) e'
    exact absurd h (by decide)
  | n :: m :: p, k :: l :: q, r, r', hp, hq, e => by
    have e' : n ++ ',' :: (' ' :: (Grammar.join ", ".toList (m :: p) ++ ']' :: r)) =
        k ++ ',' :: (' ' :: (Grammar.join ", ".toList (l :: q) ++ ']' :: r')) := by simpa [Grammar.join] using e
    obtain ⟨h1, _, h2⟩ := cut_unique (P := Sep) (plain_sep (hp n (by simp))) (plain_sep (hq k (by simp))) (.inl rfl) (.inl rfl) e'
    simp only [List.cons.injEq, true_and] at h2
    obtain ⟨h3, h4⟩ := join_inj (fun x hx => hp x (List.mem_cons_of_mem _ hx)) (fun x hx => hq x (List.mem_cons_of_mem _ hx)) h2
    exact ⟨by rw [h1, h3], h4⟩

theorem br_inj {p q : List Str} {r r' : Str} (hp : ∀ n ∈ p, Plain n) (hq : ∀ n ∈ q, Plain n) (e : br p ++ r = br q ++ r') :
    p = q ∧ r = r' := join_inj hp hq (by simpa [br] using e)

theorem join_br : ∀ {ps qs : List (List Str)}, (∀ p ∈ ps, ∀ n ∈ p, Plain n) → (∀ p ∈ qs, ∀ n ∈ p, Plain n) →
    Grammar.join [' '] (ps.map br) ++ ['}'] = Grammar.join [' '] (qs.map br) ++ ['}'] → ps = qs
  | [], [], _, _, _ => rfl
  | [], [q], _, _, e => by simp [Grammar.join, br] at e
  | [], q :: q' :: qs, _, _, e => by simp [Grammar.join, br] at e
  | [p], [], _, _, e => by simp [Grammar.join, br] at e
  | p :: p' :: ps, [], _, _, e => by simp [Grammar.join, br] at e
  | [p], [q], hp, hq, e => by
    rw [(br_inj (hp p (by simp)) (hq q (by simp)) e).1]
  | [p], q :: q' :: qs, hp, hq, e => by
    have e' : br p ++ ['}'] = br q ++ (' ' :: (Grammar.join [' '] ((q' :: qs).map br) ++ ['}'])) := by simpa [Grammar.join] using e
    have := (br_inj (hp p (by simp)) (hq q (by simp)) e').2
    simp at this
  | p :: p' :: ps, [q], hp, hq, e => by
    have e' : br p ++ (' ' :: (Grammar.join [' '] ((p' :: ps).map br) ++ ['}'])) = br q ++ ['}'] := by simpa [Grammar.join] using e
    have := (br_inj (hp p (by simp)) (hq q (by simp)) e').2
    simp at this
  | p :: p' :: ps, q :: q' :: qs, hp, hq, e => by
    have e' : br p ++ (' ' :: (Grammar.join [' '] ((p' :: ps).map br) ++ ['}'])) =
        br q ++ (' ' :: (Grammar.join [' '] ((q' :: qs).map br) ++ ['}'])) := by simpa [Grammar.join] using e
    obtain ⟨h1, h2⟩ := br_inj (hp p (by simp)) (hq q (by simp)) e'
    simp only [List.cons.injEq, true_and] at h2
    have := join_br (fun x hx => hp x (List.mem_cons_of_mem _ hx)) (fun x hx => hq x (List.mem_cons_of_mem _ hx)) h2
    rw [h1, this]

theorem prodsString_some {s : SymSet Str} {ps : List (List Nat)} {t : Str} :
    prodsString s (some ps) = .ok t ↔ ∃ nss, AllNamesOf s ps nss ∧ t = "{".toList ++ Grammar.join [' '] (nss.map br) ++ "}".toList := by
  unfold prodsString
  rw [Out.bind_eq_ok]
  constructor
  · rintro ⟨ts, h1, h2⟩
    cases h2
    obtain ⟨nss, h3, rfl⟩ := prodTexts_iff.1 h1
    exact ⟨nss, h3, rfl⟩
  · rintro ⟨nss, h, rfl⟩
    exact ⟨_, prodTexts_iff.2 ⟨nss, h, rfl⟩, rfl⟩

theorem join_eq (sep : Str) : ∀ ss : List Str, Grammar.join sep ss = (ss.intersperse sep).flatten
  | [] => rfl
  | [s] => by simp [Grammar.join]
  | s :: s' :: ss => by simp [Grammar.join, join_eq sep (s' :: ss), List.intersperse]

theorem written_eq (nss : List (List Str)) : "{".toList ++ Grammar.join [' '] (nss.map br) ++ "}".toList = written nss := by
  unfold written
  rw [join_eq]
  have : br = fun ns => '[' :: (ns.intersperse [',', ' ']).flatten ++ [']'] := by
    funext ns
    rw [br, join_eq]
    rfl
  rw [this]
  rfl

/-! ### The claims -/

/-- C100, the exact text. -/
theorem C100_text {s : SymSet Str} (ps : List (List Nat)) (t : Str) :
    prodsString s (some ps) = .ok t ↔ ∃ nss, AllNamesOf s ps nss ∧ t = written nss := by
  rw [prodsString_some]
  simp only [written_eq]

/-- C100, for productions of one set or two: productions with the same text have the same names, if these
are not empty and contain neither comma nor closing bracket. -/
theorem C100_string_partial {s s' : SymSet Str} {ps qs : List (List Nat)} {nss mss : List (List Str)} {t : Str}
    (hn : AllNamesOf s ps nss) (hm : AllNamesOf s' qs mss) (hp : ∀ ns ∈ nss, ∀ n ∈ ns, Plain n) (hq : ∀ ns ∈ mss, ∀ n ∈ ns, Plain n)
    (e : prodsString s (some ps) = .ok t) (e' : prodsString s' (some qs) = .ok t) : nss = mss := by
  have h1 := prodsString_some.2 ⟨nss, hn, rfl⟩
  have h2 := prodsString_some.2 ⟨mss, hm, rfl⟩
  rw [e] at h1
  rw [e'] at h2
  have h3 := (Out.ok.inj h1).symm.trans (Out.ok.inj h2)
  exact join_br hp hq (by simpa using h3)

/-- C100: the text of nil is that of no productions. -/
theorem C100_nil {s s' : SymSet Str} (qs : List (List Nat)) : prodsString s none ≠ prodsString s' (some qs) := by
  intro e
  obtain ⟨nss, _, h⟩ := prodsString_some.1 e.symm
  cases nss with
  | nil => exact absurd h (by decide)
  | cons ns nss => cases nss <;> simp [Grammar.join, br] at h

/-- C100: `String` returns exactly if every symbol is in the table. -/
theorem C100_panics {s : SymSet Str} (ps : List (List Nat)) :
    (prodsString s (some ps) = .panic ↔ ∃ p ∈ ps, ∃ v ∈ p, s.symb2str.length ≤ v) ∧ prodsString s (some ps) ≠ .fuel := by
  obtain ⟨h1, h2⟩ := prodTexts_panic (s := s) (ps := ps)
  rw [← h1]
  unfold prodsString
  cases h3 : prodTexts s ps <;> simp_all [Out.bind]

/-- C100: what is cast into a set keeps its text, after any further calls. -/
theorem C100_cast (h more : List (Op Str)) (p : List Str) :
    prodsString (more.foldl step (castSyms (run h) p).1) (some [(castSyms (run h) p).2]) =
      .ok ("{[".toList ++ Grammar.join ", ".toList p ++ "]}".toList) ∧
    prodString (more.foldl step (castSyms (run h) p).1) (some (castSyms (run h) p).2) = .ok (Grammar.join [' '] p) := by
  have := Props.SetSymbol.C04_cast_roundtrip h more p
  simp [prodsString, prodTexts, prodString, this, Grammar.join]

/-- C100 in general is false: a name with a comma, a name with brackets, the empty name. -/
theorem C100_refuted : ∃ s : SymSet Str,
    (∃ p q t, p ≠ q ∧ prodsString s (some [p]) = .ok t ∧ prodsString s (some [q]) = .ok t) ∧
    (∃ p q r t, prodsString s (some [p]) = .ok t ∧ prodsString s (some [q, r]) = .ok t) ∧
    (∃ p t, p ≠ [] ∧ prodsString s (some [p]) = .ok t ∧ prodsString s (some [[]]) = .ok t) := by
  refine ⟨run [.str "a".toList, .str "b".toList, .str "a, b".toList, .str "a] [b".toList, .str []], ⟨[0, 1], [2], "{[a, b]}".toList, ?_⟩,
    ⟨[3], [0], [1], "{[a] [b]}".toList, ?_⟩, ⟨[4], "{[]}".toList, ?_⟩⟩ <;> decide +kernel

/-- Non-trivial case: the productions of `E -> E op E | int |` in a set with two more symbols. -/
example : let s := run [.str "E".toList, .str "x".toList, .str "op".toList, .str "int".toList, .str "y".toList]
    prodsString s (some [[0, 2, 0], [3], []]) = .ok "{[E, op, E] [int] []}".toList ∧
    AllNamesOf s [[0, 2, 0], [3], []] [["E".toList, "op".toList, "E".toList], ["int".toList], []] ∧
    ∀ ns ∈ [["E".toList, "op".toList, "E".toList], ["int".toList], []], ∀ n ∈ ns, Plain n := by
  refine ⟨by decide +kernel, ?_, ?_⟩
  · refine allNamesOf_cons.2 ⟨_, _, rfl, readSyms_iff.1 (by decide +kernel), allNamesOf_cons.2 ⟨_, _, rfl, readSyms_iff.1 (by decide +kernel),
      allNamesOf_cons.2 ⟨_, _, rfl, readSyms_iff.1 (by decide +kernel), rfl, by simp⟩⟩⟩
  · simp [Plain]

end Verif.Props.SetSymbolString
