import Verif.Proofs.LexerDefLine
/-
Finding the headers of sub-lexers in lexer definitions.
-/
namespace Verif.Spec.LexerDef
open Verif Verif.Spec
open Verif.Spec.RxByte (space word)

/-- All ends of a class repeated, the longest match first. -/
theorem star_lefts {c : Cls} (hc : c.low = true) (hn : c.neg = false) {d u : B} (hd : ∀ x ∈ d, c.byte x = true) (hu : NoHead c.byte u) :
    (Rex.star (.cls c)).ends decode (d ++ u) = lefts d u := by
  have : ∀ (n : Nat) (d : B), (∀ x ∈ d, c.byte x = true) → d.length ≤ n → again1 ((Rex.cls c).ends decode) n (d ++ u) = lefts d u := by
    intro n
    induction n with
    | zero => intro d _ h; cases d with
      | nil => rfl
      | cons => simp at h
    | succ n ih =>
      intro d hd h
      cases d with
      | nil =>
        rw [again1, lefts]
        cases u with
        | nil => rfl
        | cons y t =>
          simp only [List.nil_append]
          rw [ends_pos hc hn, hu y t rfl]
          simp
      | cons x d =>
        rw [again1, lefts, List.cons_append, ends_pos hc hn, hd x (.head _)]
        simp only [if_true, List.filter_cons, List.length_cons, Nat.lt_succ_self, decide_true, List.filter_nil, List.flatMap_cons, List.flatMap_nil, List.append_nil]
        rw [ih d (fun y hy => hd y (.tail _ hy)) (by simp at h; omega)]
  rw [Rex.ends]
  by_cases h : d.length ≤ (d ++ u).length
  · exact this _ d hd h
  · simp at h

theorem white_lefts {s a b : B} (h : Run space s a b) : rW.ends decode s = lefts a b := by
  obtain ⟨rfl, h1, h2⟩ := h
  exact star_lefts (c := cW) (by decide) rfl (by simpa [byte_cW] using h1) (by rw [show cW.byte = space from funext byte_cW]; exact h2)

theorem go_white_seq {T : Rex} {s a b : B} (h : Run space s a b) (k : Caps UInt8) : go (.seq rW T) (s, k) = (lefts a b).findSome? fun t => go T (t, k) := by
  rw [go_seq, run_free rW rfl, List.findSome?_map, white_lefts h]
  rfl

theorem lefts_only {γ : Type} {F : B → Option γ} : ∀ (a b : B), (∀ p y q, a = p ++ y :: q → F (y :: q ++ b) = none) → (lefts a b).findSome? F = F b
  | [], b, _ => by
    rw [lefts, List.findSome?_cons]
    cases F b <;> rfl
  | x :: a, b, h => by
    rw [lefts, List.findSome?_append, lefts_only a b fun p y q e => h (x :: p) y q (by rw [e]; rfl)]
    have := h [] x a rfl
    rw [List.cons_append] at this
    simp [this]

/-! ### Line ends -/

/-- What comes after the last line end of the white space at the beginning. -/
def after : B → Option B
  | [] => none
  | x :: t => if space x = true then (after t).or (if x = 10 then some t else none) else none

theorem after_stop {s : B} (h : NoHead space s) : after s = none := by
  cases s with
  | nil => rfl
  | cons x t => rw [after, h x t rfl]; rfl

theorem after_white : ∀ {a b : B}, (∀ x ∈ a, space x = true) → NoHead space b → 10 ∉ a → after (a ++ b) = none
  | [], b, _, hb, _ => after_stop hb
  | x :: a, b, h, hb, hn => by
    rw [List.cons_append, after, h x (.head _), after_white (fun y hy => h y (.tail _ hy)) hb (by simp at hn; exact hn.2)]
    have hn' : ¬ x = 10 := fun e => hn (by rw [e]; exact .head _)
    simp [hn']

theorem after_lineEnd {s r : B} (h : LineEnd s r) : after s = some r := by
  obtain ⟨a, b, c, rfl, h1, h2, h3, rfl⟩ := h
  have hb : after (b ++ c) = none := after_white h2.all h2.stop h3
  induction a with
  | nil =>
    rw [List.nil_append, after, hb]
    rfl
  | cons x a ih =>
    rw [List.cons_append, after, h1 x (.head _), ih fun y hy => h1 y (.tail _ hy)]
    rfl

theorem lineEnd_after : ∀ {s r : B}, after s = some r → LineEnd s r
  | [], r, h => by cases h
  | x :: t, r, h => by
    rw [after] at h
    split at h
    · next hx =>
      cases e : after t with
      | some r' =>
        rw [e] at h
        cases h
        obtain ⟨a, b, c, rfl, h1, h2, h3, h4⟩ := lineEnd_after e
        refine ⟨x :: a, b, c, rfl, ?_, h2, h3, h4⟩
        intro y hy
        rcases List.mem_cons.1 hy with rfl | hy
        · exact hx
        · exact h1 y hy
      | none =>
        rw [e] at h
        split at h
        · next h10 =>
          cases h
          subst h10
          obtain ⟨b, c, h2⟩ := run_exists space t
          refine ⟨[], b, c, by rw [h2.eq]; rfl, by simp, h2.eq ▸ h2, ?_, h2.eq⟩
          intro hm
          obtain ⟨u, v, rfl⟩ := List.append_of_mem hm
          obtain ⟨v', w, hv⟩ := run_exists space (v ++ c)
          have hs := h2.all
          have : ∃ q, after (10 :: (v ++ c)) = some q := by
            rw [after]
            cases after (v ++ c) with
            | none => exact ⟨_, rfl⟩
            | some q => exact ⟨q, rfl⟩
          obtain ⟨q, hq⟩ := this
          have : ∀ u : B, (∀ x ∈ u, space x = true) → after (u ++ 10 :: (v ++ c)) = some q := by
            intro u hu
            induction u with
            | nil => exact hq
            | cons y u ih =>
              rw [List.cons_append, after, hu y (.head _), ih fun z hz => hu z (.tail _ hz)]
              rfl
          have h5 := this u fun x hx => hs x (by simp [hx])
          rw [h2.eq, List.append_assoc, List.cons_append, h5] at e
          cases e
        · cases h
    · cases h

def rEnd : Rex := .seq rW (ch 10)

theorem go_end (s : B) (k : Caps UInt8) : go rEnd (s, k) = (after s).map fun t => (t, k) := by
  obtain ⟨a, b, h⟩ := run_exists space s
  rw [rEnd, go_white_seq h]
  obtain ⟨rfl, h1, h2⟩ := h
  induction a with
  | nil =>
    rw [List.nil_append, after_stop h2, lefts, List.findSome?_cons, go_ch (by omega)]
    cases b with
    | nil => rfl
    | cons x b =>
      have : ¬ x.toNat = 10 := fun e => by
        have := h2 x b rfl
        rw [show x = 10 from UInt8.toNat_inj.1 e] at this
        exact absurd this (by decide)
      simp [this]
  | cons x a ih =>
    rw [lefts, List.findSome?_append, ih fun y hy => h1 y (.tail _ hy), List.cons_append, after, h1 x (.head _), List.findSome?_cons, go_ch (by omega)]
    cases after (a ++ b) with
    | some q => rfl
    | none =>
      by_cases e : x = 10
      · subst e; rfl
      · have : ¬ x.toNat = 10 := fun h => e (UInt8.toNat_inj.1 h)
        simp [e, this]

/-! ### After the name -/

def rOpt : Rex := .alt (.seq (ch 61) (ch 61)) .eps

/-- After the two equals signs at the end of a header, if they are there. -/
def opt : B → Option B
  | x :: y :: f => if x = 61 ∧ y = 61 then after f else none
  | _ => none

theorem eqs_ends (s : B) : (Rex.seq (ch 61) (ch 61)).ends decode s = match s with | x :: y :: f => if x = 61 ∧ y = 61 then [f] else [] | _ => [] := by
  rw [seq_ends, ch_ends (by omega)]
  have conv : ∀ x : UInt8, x.toNat = 61 ↔ x = 61 := fun x => ⟨fun e => UInt8.toNat_inj.1 e, fun e => by rw [e]; rfl⟩
  cases s with
  | nil => rfl
  | cons x s =>
    simp only [conv]
    by_cases hx : x = 61
    · simp only [hx, if_true, List.flatMap_cons, List.flatMap_nil, List.append_nil]
      rw [ch_ends (by omega)]
      cases s with
      | nil => rfl
      | cons y f => simp only [conv, true_and]
    · cases s with
      | nil => simp [hx]
      | cons y f => simp [hx]

theorem go_opt (s : B) (k : Caps UInt8) : go (.seq rOpt rEnd) (s, k) = ((opt s).or (after s)).map fun t => (t, k) := by
  rw [go_seq, run_free rOpt rfl, rOpt, alt_ends, eps_ends, List.findSome?_map, List.findSome?_append, eqs_ends]
  have one : List.findSome? (go rEnd ∘ fun t => (t, k)) [s] = (after s).map fun t => (t, k) := by
    rw [List.findSome?_cons]
    simp only [Function.comp, go_end]
    cases after s <;> rfl
  rw [one]
  rcases s with _ | ⟨x, _ | ⟨y, f⟩⟩
  · rfl
  · simp [opt]
  · simp only [opt]
    split
    · rw [List.findSome?_cons]
      simp only [Function.comp, go_end]
      cases after f <;> rfl
    · rfl

def rRest : Rex := .seq rW (.seq rOpt rEnd)

theorem go_rest {c d e : B} (h : Run space c d e) (k : Caps UInt8) : go rRest (c, k) = ((opt e).or (after c)).map fun t => (t, k) := by
  rw [rRest, go_white_seq h]
  obtain ⟨rfl, h1, h2⟩ := h
  simp only [go_opt]
  induction d with
  | nil =>
    rw [lefts, List.findSome?_cons, List.nil_append]
    cases (opt e).or (after e) <;> rfl
  | cons x d ih =>
    have hx := h1 x (.head _)
    have : opt (x :: (d ++ e)) = none := by
      have hx' : x ≠ 61 := by rintro rfl; exact absurd hx (by decide)
      cases hde : d ++ e with
      | nil => rfl
      | cons y f => simp [opt, hx']
    rw [lefts, List.findSome?_append, ih fun y hy => h1 y (.tail _ hy), List.cons_append, List.findSome?_cons, this]
    simp only [after, hx, if_true]
    cases opt e with
    | some q => rfl
    | none =>
      cases after (d ++ e) with
      | some q => rfl
      | none =>
        by_cases h10 : x = 10
        · simp [h10]
        · simp [h10]

theorem rest_word {y : UInt8} (hy : word y = true) (s : B) (k : Caps UInt8) : go rRest (y :: s, k) = none := by
  have hs : space y = false := by
    have := SimpleLexer.all_bytes (p := fun y => !word y || !space y) (by decide +kernel) y
    simpa [hy] using this
  have hr : Run space (y :: s) [] (y :: s) := ⟨rfl, by simp, fun z t e => by cases e; exact hs⟩
  rw [go_rest hr, after_stop hr.stop]
  have h61 : y ≠ 61 := by rintro rfl; exact absurd hy (by decide)
  cases s with
  | nil => rfl
  | cons z f => simp [opt, h61]

/-! ### Headers -/

def rHead : Rex := .seq (ch 61) (.seq (ch 61) (.seq rW (.seq (.cap 1 rIdent) rRest)))

theorem compile_head : Regexp.compile StackLexer.subParserDef = some rHead := by decide +kernel

theorem go_ident {b n c : B} (h : Ident b n c) (k : Caps UInt8) : go (.seq (.cap 1 rIdent) rRest) (b, k) = go rRest (c, (1, n) :: k) := by
  rw [go_cap_seq rfl]
  obtain ⟨⟨rfl, h1, h2⟩, x, t, rfl, hx⟩ := h
  have : rIdent.ends decode (x :: t ++ c) = lefts t c := by
    rw [rIdent, seq_ends, List.cons_append, ends_pos (by decide) rfl, byte_cL1, hx]
    simp only [if_true, List.flatMap_cons, List.flatMap_nil, List.append_nil]
    exact star_lefts (c := cL2) (by decide) rfl (fun y hy => by rw [byte_cL2]; exact h1 y (.tail _ hy)) (by rw [show cL2.byte = word from funext byte_cL2]; exact h2)
  rw [this, lefts_only]
  · rw [take_left]
  · intro p y q e
    exact rest_word (h1 y (by rw [e]; simp)) _ _

theorem go_noIdent {b : B} (h : NoHead letter b) (k : Caps UInt8) : go (.seq (.cap 1 rIdent) rRest) (b, k) = none := by
  rw [go_cap_seq rfl]
  cases b with
  | nil => rfl
  | cons x b => rw [ident_dead (h x b rfl)]; rfl

theorem go_head {t a b : B} (h : Run space t a b) (k : Caps UInt8) : go rHead (61 :: 61 :: t, k) = go (.seq (.cap 1 rIdent) rRest) (b, k) := by
  have eq1 : ∀ (T : Rex) (s : B), go (.seq (ch 61) T) (61 :: s, k) = go T (s, k) := by
    intro T s
    rw [go_seq, run_free (ch 61) rfl, List.findSome?_map, ch_ends (by omega)]
    simp only [show (61 : UInt8).toNat = 61 from rfl, if_true, List.findSome?_cons, List.findSome?_nil, Function.comp]
    cases go T (s, k) <;> rfl
  rw [rHead, eq1, eq1, go_white_seq h, lefts_only]
  intro p y q e
  refine go_noIdent (fun z u ez => ?_) k
  cases ez
  have := h.all y (by rw [e]; simp)
  have hw := SimpleLexer.all_bytes (p := fun y => !space y || !letter y) (by decide +kernel) y
  simpa [this] using hw

theorem head_go {s n r : B} (h : Header s n r) (k : Caps UInt8) : go rHead (s, k) = some (r, (1, n) :: k) := by
  obtain ⟨t, a, b, c, d, e, rfl, h1, h2, h3, h4⟩ := h
  rw [go_head h1, go_ident h2, go_rest h3]
  rcases h4 with ⟨f, rfl, hf⟩ | ⟨hn, hc⟩
  · simp [opt, after_lineEnd hf]
  · have : opt e = none := by
      rcases e with _ | ⟨x, _ | ⟨y, f⟩⟩
      · rfl
      · rfl
      · simp only [opt]
        split
        · next hxy =>
          cases ha : after f with
          | none => rfl
          | some q => exact absurd (lineEnd_after ha) (hn f q (by rw [hxy.1, hxy.2]))
        · rfl
    rw [this, after_lineEnd hc]
    rfl

theorem go_none_of {s : B} (h : ∀ t, s ≠ 61 :: 61 :: t) (k : Caps UInt8) : go rHead (s, k) = none := by
  have : rHead = .seq (ch 61) (.seq (ch 61) (.seq rW (.seq (.cap 1 rIdent) rRest))) := rfl
  rw [this, go_seq, run_free (ch 61) rfl, List.findSome?_map, ch_ends (by omega)]
  cases s with
  | nil => rfl
  | cons x s =>
    simp only
    split
    · next hx =>
      rw [List.findSome?_cons, List.findSome?_nil]
      simp only [Function.comp]
      rw [go_seq, run_free (ch 61) rfl, List.findSome?_map, ch_ends (by omega)]
      cases s with
      | nil => rfl
      | cons y s =>
        by_cases hy : y.toNat = 61
        · exact absurd (by rw [show x = 61 from UInt8.toNat_inj.1 hx, show y = 61 from UInt8.toNat_inj.1 hy]) (h s)
        · simp [hy]
    · rfl

theorem go_noHead {s : B} (h : ∀ n r, ¬ Header s n r) (k : Caps UInt8) : go rHead (s, k) = none := by
  by_cases hs : ∃ t, s = 61 :: 61 :: t
  · obtain ⟨t, rfl⟩ := hs
    obtain ⟨a, b, h1⟩ := run_exists space t
    rw [go_head h1]
    by_cases hl : NoHead letter b
    · exact go_noIdent hl k
    · have : ∃ x s, b = x :: s ∧ letter x = true := by
        cases b with
        | nil => exact absurd (fun x t e => by cases e) hl
        | cons x s =>
          refine ⟨x, s, rfl, ?_⟩
          cases hx : letter x with
          | true => rfl
          | false => exact absurd (fun y t e => by cases e; exact hx) hl
      obtain ⟨x, s, rfl, hx⟩ := this
      obtain ⟨n, c, h2⟩ := ident_exists hx s
      obtain ⟨d, e, h3⟩ := run_exists space c
      rw [go_ident h2, go_rest h3]
      cases ho : opt e with
      | some q =>
        exfalso
        rcases e with _ | ⟨x, _ | ⟨y, f⟩⟩
        · cases ho
        · cases ho
        · simp only [opt] at ho
          split at ho
          · next hxy => exact h n q ⟨t, a, _, c, d, _, rfl, h1, h2, h3, .inl ⟨f, by rw [hxy.1, hxy.2], lineEnd_after ho⟩⟩
          · cases ho
      | none =>
        cases ha : after c with
        | none => rfl
        | some q =>
          exfalso
          refine h n q ⟨t, a, _, c, d, e, rfl, h1, h2, h3, .inr ⟨?_, lineEnd_after ha⟩⟩
          intro f r' he hf
          rw [he] at ho
          simp [opt, after_lineEnd hf] at ho
  · exact go_none_of (fun t e => hs ⟨t, e⟩) k

/-- The header is determined by the text. -/
theorem header_unique {s n r n' r' : B} (h : Header s n r) (h' : Header s n' r') : n = n' ∧ r = r' := by
  have e := head_go h []
  rw [head_go h' []] at e
  simp only [Option.some.injEq, Prod.mk.injEq, List.cons.injEq] at e
  exact ⟨e.2.1.2.symm, e.1.symm⟩

theorem lineEnd_shorter {s r : B} (h : LineEnd s r) : r.length < s.length := by
  obtain ⟨a, b, c, rfl, -, -, -, rfl⟩ := h
  simp
  omega

theorem header_shorter {s n r : B} (h : Header s n r) : r.length < s.length := by
  obtain ⟨t, a, b, c, d, e, rfl, ⟨rfl, -⟩, ⟨⟨rfl, -⟩, -⟩, ⟨rfl, -⟩, h4⟩ := h
  rcases h4 with ⟨f, rfl, hf⟩ | ⟨-, hc⟩
  · have := lineEnd_shorter hf
    simp
    omega
  · have := lineEnd_shorter hc
    simp at this ⊢
    omega

theorem header_head {s n r : B} (h : Header s n r) : ∃ t, s = 61 :: t := by
  obtain ⟨t, a, b, c, d, e, rfl, -⟩ := h
  exact ⟨_, rfl⟩

/-! ### Searching -/

theorem decode_step (x : UInt8) (s : B) : ∃ q w v t, decode (x :: s) = some (q, w) ∧ s = v ++ t ∧ (x :: s).take w = x :: v ∧ (x :: s).drop w = t ∧
    ∀ y ∈ v, 0x80 ≤ y.toNat := by
  rcases ends_char (c := ⟨true, []⟩) rfl x s with ⟨h, -⟩ | ⟨-, v, t, e1, e2, hv⟩
  · exfalso
    simp only [Cls.byte, Cls.has] at h
    split at h <;> simp at h
  · simp only [Rex.ends] at e2
    cases hd : decode (x :: s) with
    | none => rw [hd] at e2; cases e2
    | some q =>
      obtain ⟨q, w⟩ := q
      rw [hd] at e2
      simp only [Cls.has, List.any_nil, Bool.not_false, if_true, List.cons.injEq, and_true] at e2
      have e2 : (x :: s).drop w = t := by simpa using e2
      refine ⟨q, w, v, t, rfl, e1, ?_, e2, hv⟩
      have := List.take_append_drop w (x :: s)
      rw [e2] at this
      rw [e1, ← List.cons_append] at this
      rw [e1, ← List.cons_append]
      exact List.append_cancel_right this

theorem split_none : ∀ (N : Nat) (t : B), (∀ a s n r, t = a ++ s → ¬ Header s n r) → StackLexer.splitFirst rHead N t = none
  | 0, t, h => by
    rw [StackLexer.splitFirst, show rHead.first decode t = none from go_noHead (h [] t · · rfl) []]
    rfl
  | N + 1, t, h => by
    rw [StackLexer.splitFirst, show rHead.first decode t = none from go_noHead (h [] t · · rfl) []]
    cases t with
    | nil => rfl
    | cons x t =>
      obtain ⟨q, w, v, u, e, rfl, h1, h2, -⟩ := decode_step x t
      simp only [e, h2]
      rw [split_none N u fun a s n r ea => h (x :: (v ++ a)) s n r (by rw [ea]; simp)]
      rfl

theorem split_some {s n r : B} (hs : Header s n r) : ∀ (N : Nat) (p : B), p.length ≤ N → (∀ a x c m u, p = a ++ x :: c → ¬ Header (x :: c ++ s) m u) →
    StackLexer.splitFirst rHead N (p ++ s) = some (p, [(1, n)], r)
  | N, [], _, _ => by
    have : rHead.first decode s = some (r, [(1, n)]) := head_go hs []
    cases N with
    | zero => rw [List.nil_append, StackLexer.splitFirst, this]; rfl
    | succ N => rw [List.nil_append, StackLexer.splitFirst, this]
  | 0, x :: p, h, _ => by simp at h
  | N + 1, x :: p, hN, h => by
    rw [StackLexer.splitFirst, show rHead.first decode (x :: p ++ s) = none from go_noHead (h [] x p · · rfl) []]
    simp only [List.cons_append]
    obtain ⟨q, w, v, u, e, e1, h1, h2, hv⟩ := decode_step x (p ++ s)
    simp only [e, h1, h2]
    obtain ⟨z, rfl⟩ := header_head hs
    have : ∃ p', p = v ++ p' ∧ u = p' ++ 61 :: z := by
      rcases List.append_eq_append_iff.1 e1 with ⟨y, rfl, e3⟩ | ⟨y, rfl, e3⟩
      · cases y with
        | nil => exact ⟨[], by simp, by simpa using e3.symm⟩
        | cons c y =>
          exfalso
          obtain ⟨rfl, -⟩ := List.cons.inj e3
          exact absurd (hv 61 (by simp)) (by decide)
      · exact ⟨y, rfl, e3⟩
    obtain ⟨p', rfl, rfl⟩ := this
    rw [split_some hs N p' (by simp at hN; omega) fun a y c m u ea => h (x :: (v ++ a)) y c m u (by rw [ea]; simp)]
    rfl

/-- **Finding the headers of a text.** -/
theorem cut_sections {t p : B} {l : List (B × B)} (h : Sections t p l) : ∀ N, t.length ≤ N → StackLexer.cutDefs rHead N t = (p, l) := by
  induction h with
  | none h =>
    intro N hN
    cases N with
    | zero => rfl
    | succ N => rw [StackLexer.cutDefs, split_none _ _ h]
  | @more p s n r b l h hs _ ih =>
    intro N hN
    have hr := header_shorter hs
    rw [List.length_append] at hN
    cases N with
    | zero => omega
    | succ N =>
      rw [StackLexer.cutDefs, split_some hs _ p (by rw [List.length_append]; omega) h]
      simp only [ih N (by omega)]
      simp [group]

theorem first_header : ∀ t : B, (∀ a s n r, t = a ++ s → ¬ Header s n r) ∨
    ∃ p s n r, t = p ++ s ∧ Header s n r ∧ ∀ a x c m u, p = a ++ x :: c → ¬ Header (x :: c ++ s) m u
  | [] => .inl fun a s n r e h => by
    obtain ⟨z, rfl⟩ := header_head h
    simp at e
  | y :: t => by
    by_cases h : ∃ n r, Header (y :: t) n r
    · obtain ⟨n, r, h⟩ := h
      exact .inr ⟨[], y :: t, n, r, rfl, h, fun a x c m u e => by simp at e⟩
    · rcases first_header t with h1 | ⟨p, s, n, r, rfl, h1, h2⟩
      · refine .inl fun a s n r e hh => ?_
        cases a with
        | nil => exact h ⟨n, r, by rw [show y :: t = s from e]; exact hh⟩
        | cons z a => exact h1 a s n r (by simpa using (List.cons.inj e).2) hh
      · refine .inr ⟨y :: p, s, n, r, rfl, h1, fun a x c m u e hh => ?_⟩
        cases a with
        | nil =>
          obtain ⟨rfl, rfl⟩ := List.cons.inj e
          exact h ⟨m, u, hh⟩
        | cons z a => exact h2 a x c m u (List.cons.inj e).2 hh

/-- Every text has sections. -/
theorem sections_exist (t : B) : ∃ p l, Sections t p l := by
  rcases first_header t with h | ⟨p, s, n, r, rfl, h, h2⟩
  · exact ⟨t, [], .none h⟩
  · have := header_shorter h
    obtain ⟨b, l, h3⟩ := sections_exist r
    exact ⟨p, _, .more h2 h h3⟩
termination_by t.length
decreasing_by
  subst_vars
  simp
  omega

end Verif.Spec.LexerDef
