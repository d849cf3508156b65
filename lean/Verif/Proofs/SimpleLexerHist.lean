import Verif.Proofs.SimpleLexer
/-
Histories of calls on a simple lexer: the rule table and the symbol set.
-/
namespace Verif.SimpleLexer
open Verif Verif.SetSymbol Verif.Spec

/-- Calls a client can make on a lexer, including assigning the public `Error` field. -/
inductive Call where
  | add (kind : Bytes) (re : Re) (discard : Bool)
  | lex (b : Bytes)
  | byLength
  | byPriority
  | insertStart (kind val : Bytes)
  | insertEnd (kind val : Bytes)
  | setError (e : Bytes)

/-- State after a call (`Lex` gets enough fuel: see `lex_returns`). -/
def call (l : Lexer) : Call → Out Lexer
  | .add k re d => .ok (add l k re d).1
  | .lex b => (lex (b.length + 1) l b).bind fun r => .ok r.2
  | .byLength => .ok (byLength l)
  | .byPriority => .ok (byPriority l)
  | .insertStart k v => .ok (insertStart l k v)
  | .insertEnd k v => .ok (insertEnd l k v)
  | .setError e => .ok { l with error := e }

/-- State after a history of calls. -/
def calls (l : Lexer) : List Call → Out Lexer
  | [] => .ok l
  | c :: cs => (call l c).bind fun l => calls l cs

theorem calls_append (l : Lexer) (h1 h2 : List Call) :
    calls l (h1 ++ h2) = (calls l h1).bind fun l => calls l h2 := by
  induction h1 generalizing l with
  | nil => rfl
  | cons c cs ih =>
    simp only [List.cons_append, calls]
    cases call l c with
    | ok l' => exact ih l'
    | panic => rfl
    | fuel => rfl

/-- What always holds. -/
structure Tab (l : Lexer) : Prop where
  inv : Inv l.set
  kind : ∀ i (r : Rule), l.rules[i]? = some (some r) → r.kind = i ∧ 0 ≤ r.priority
  le : l.rules.length ≤ l.set.symb2str.length
  cmp : l.compare = lengthThenPriority ∨ l.compare = priorityThenLength

/-- No gaps in the rule table. -/
def Full (l : Lexer) : Prop := none ∉ l.rules

/-- No gaps, and every interned string has a rule. -/
def Dense (l : Lexer) : Prop := Full l ∧ l.rules.length = l.set.symb2str.length

theorem full_map {l : Lexer} (h : Full l) : ∃ rs : List Rule, l.rules = rs.map some := by
  unfold Full at h
  generalize l.rules = rules at h
  induction rules with
  | nil => exact ⟨[], rfl⟩
  | cons r rs ih =>
    simp only [List.mem_cons, not_or] at h
    obtain ⟨rs', e⟩ := ih h.2
    cases r with
    | none => exact absurd rfl h.1
    | some r => exact ⟨r :: rs', by rw [e]; rfl⟩

theorem choose_nil_length (rs : List Rule) :
    (choose lengthThenPriority [] 0 ⟨none, [], 0, -1⟩
      (rs.map fun r => (r, r.re.find []))).lxEnd = 0 := by
  obtain ⟨h1, -, -⟩ := choose_spec [] 0 (rs.map fun r => (r, r.re.find [])) ⟨none, [], 0, -1⟩
  rcases h1 with h1 | ⟨r, e, hm, h1⟩
  · rw [h1]
  · obtain ⟨_, _, h3, _⟩ := vAny_init rs [] r 0 e hm
    rw [h1]
    simpa using h3

/-- Lexing with arbitrary regexps, default mode. -/
theorem lex_any (error : Bytes) (rs : List Rule) (b : Bytes) :
    ∃ segs, Lexes (Claims rs b) (fun _ => True) b 0 segs ∧
      List.IsChain (fun a b : Seg Rule => ¬ (a.isErr = true ∧ b.isErr = true)) segs ∧
      ∀ l : Lexer, l.rules = rs.map some → l.compare = lengthThenPriority → l.error = error →
      ∀ n, b.length + 1 ≤ n → lex n l b = .ok
        (pre l ++ render b (str l.set error).2 0 0 segs ++ post l,
         { l with set := if segs.any Seg.isErr then (str l.set error).1 else l.set }) :=
  lex_spec error (good_any rs b) (vAny_init rs b) (by rintro rfl; exact choose_nil_length rs)

/-- Lexing with context-independent regexps, default mode. -/
theorem lex_ctx (error : Bytes) {rs : List Rule} {m : Rule → Bytes → Option Nat} {step : Bytes → Nat}
    (hsync : Sync step) (hL : ∀ r ∈ rs, Leftmost step (m r) r.re.find) (b : Bytes) :
    ∃ segs, Lexes (WinsAt rs m step b) (DeadAt rs m step b) b 0 segs ∧
      List.IsChain (fun a b : Seg Rule => ¬ (a.isErr = true ∧ b.isErr = true)) segs ∧
      ∀ l : Lexer, l.rules = rs.map some → l.compare = lengthThenPriority → l.error = error →
      ∀ n, b.length + 1 ≤ n → lex n l b = .ok
        (pre l ++ render b (str l.set error).2 0 0 segs ++ post l,
         { l with set := if segs.any Seg.isErr then (str l.set error).1 else l.set }) :=
  lex_spec error (good_ctx hsync hL b) (vCtx_init hL b) (by rintro rfl; exact choose_nil_length rs)

/-- Lexing in priority mode. -/
theorem lex_priority (error : Bytes) (rs : List Rule) (hp : ∀ r ∈ rs, 0 ≤ r.priority) (b : Bytes) :
    ∃ segs, Lexes (fun _ _ _ => False) (fun _ => True) b 0 segs ∧
      List.IsChain (fun a b : Seg Rule => ¬ (a.isErr = true ∧ b.isErr = true)) segs ∧
      ∀ l : Lexer, l.rules = rs.map some → l.compare = priorityThenLength → l.error = error →
      ∀ n, b.length + 1 ≤ n → lex n l b = .ok
        (pre l ++ render b (str l.set error).2 0 0 segs ++ post l,
         { l with set := if segs.any Seg.isErr then (str l.set error).1 else l.set }) :=
  lex_spec error (good_priority rs b hp)
    (V := fun es _ => es.map Prod.fst = rs) (by simp [List.map_map, Function.comp_def])
    (by
      intro _
      rw [choose_priority b 0 _ _ (by simp) (by
        intro x hx
        rw [List.mem_map] at hx
        obtain ⟨r, hr, rfl⟩ := hx
        exact hp r hr)])

/-- In either mode. -/
theorem lex_full {l : Lexer} (hT : Tab l) (hF : Full l) (b : Bytes) :
    ∃ segs : List (Seg Rule), ∀ l' : Lexer, l'.rules = l.rules → l'.compare = l.compare →
      l'.error = l.error →
      ∀ n, b.length + 1 ≤ n → lex n l' b = .ok
        (pre l' ++ render b (str l'.set l.error).2 0 0 segs ++ post l',
         { l' with set := if segs.any Seg.isErr then (str l'.set l.error).1 else l'.set }) ∧
      (∀ r v, Seg.tok r v ∈ segs → r.kind < l.rules.length) ∧ cover segs = b := by
  obtain ⟨rs, hrs⟩ := full_map hF
  have hk : ∀ r ∈ rs, r.kind < l.rules.length ∧ 0 ≤ r.priority := by
    intro r hr
    obtain ⟨i, hi⟩ := List.mem_iff_getElem?.1 hr
    have h1 : l.rules[i]? = some (some r) := by rw [hrs, List.getElem?_map, hi]; rfl
    have h2 := hT.kind i r h1
    have := (List.getElem?_eq_some_iff.1 h1).1
    omega
  have tk : ∀ {takes : Nat → Rule → Nat → Prop} {dead : Nat → Prop} {p : Nat} {segs},
      (∀ p r n, takes p r n → r ∈ rs) → Lexes takes dead b p segs →
      (∀ r v, Seg.tok r v ∈ segs → r.kind < l.rules.length) ∧ cover segs = b.drop p := by
    intro takes dead p segs ht h
    induction h with
    | done => simp [cover]
    | @tok p k n segs h pos le rest ih =>
      refine ⟨?_, ?_⟩
      · intro r v hm
        rcases List.mem_cons.1 hm with hm | hm
        · cases hm; exact (hk _ (ht _ _ _ h)).1
        · exact ih.1 r v hm
      · have := ih.2
        unfold cover at this ⊢
        rw [List.flatMap_cons, this, Seg.val, ← List.drop_drop, List.take_append_drop]
    | @err p q segs pos le h stop rest ih =>
      refine ⟨?_, ?_⟩
      · intro r v hm
        rcases List.mem_cons.1 hm with hm | hm
        · cases hm
        · exact ih.1 r v hm
      · have := ih.2
        unfold cover at this ⊢
        rw [List.flatMap_cons, this, Seg.val]
        have e : b.drop q = (b.drop p).drop (q - p) := by
          rw [List.drop_drop]; congr 1; omega
        rw [e, List.take_append_drop]
  rcases hT.cmp with hc | hc
  · obtain ⟨segs, h1, -, h3⟩ := lex_any l.error rs b
    refine ⟨segs, ?_⟩
    intro l' e1 e2 e3 n hn
    have := tk (fun p r n h => h.1) h1
    exact ⟨h3 l' (e1.trans hrs) (e2.trans hc) e3 n hn, this.1, by simpa using this.2⟩
  · obtain ⟨segs, h1, -, h3⟩ := lex_priority l.error rs (fun r hr => (hk r hr).2) b
    refine ⟨segs, ?_⟩
    intro l' e1 e2 e3 n hn
    have := tk (fun p r n h => h.elim) h1
    exact ⟨h3 l' (e1.trans hrs) (e2.trans hc) e3 n hn, this.1, by simpa using this.2⟩

theorem tab_empty : Tab empty :=
  ⟨inv_new, by simp [empty], by simp [empty], .inl rfl⟩

theorem str_idx_lt {s : SymSet Bytes} (h : Inv s) (x : Bytes) :
    (str s x).2 < (str s x).1.symb2str.length := by
  have := str_idx h x
  exact (List.getElem?_eq_some_iff.1 this).1

/-- `Add` in terms of the table. -/
theorem add_cases {l : Lexer} (hT : Tab l) (k : Bytes) (re : Re) (d : Bool) :
    (∃ (i : Nat) (r : Rule), l.set.symb2str[i]? = some k ∧ l.rules[i]? = some (some r) ∧ add l k re d = (l, false)) ∨
    (∃ i : Nat, (str l.set k).2 = i ∧ (∀ r : Rule, l.rules[i]? ≠ some (some r)) ∧
      add l k re d = ({ l with
        set := (str l.set k).1
        rules := (l.rules ++ List.replicate (1 + i - l.rules.length) none).set i
          (some ⟨i, re, d, l.priorityCounter⟩)
        priorityCounter := l.priorityCounter + 1
        order := l.order ++ [i] }, true)) := by
  have hi := str_idx hT.inv k
  cases hg : l.rules[(str l.set k).2]? with
  | none =>
    right
    refine ⟨_, rfl, by rw [hg]; simp, ?_⟩
    simp only [add, addRule, hg, Option.map_some]
  | some o =>
    cases o with
    | none =>
      right
      refine ⟨_, rfl, by rw [hg]; simp, ?_⟩
      have hlt := (List.getElem?_eq_some_iff.1 hg).1
      simp only [add, addRule, hg, Option.map_some]
      rw [show 1 + (str l.set k).2 - l.rules.length = 0 by omega]
      simp
    | some r =>
      left
      have hlt := (List.getElem?_eq_some_iff.1 hg).1
      have hmem : k ∈ l.set.symb2str := by
        by_contra hk
        have : (str l.set k).2 = l.set.symb2str.length := by
          unfold str
          rw [(hT.inv.none k).2 hk]
        have := hT.le
        omega
      have hs := str_present hT.inv hmem
      refine ⟨(str l.set k).2, r, ?_, hg, ?_⟩
      · rw [hs] at hi; exact hi
      · simp only [add, addRule, hg, Option.map_none]
        rw [hs]

theorem tab_add {l : Lexer} (hT : Tab l) (k : Bytes) (re : Re) (d : Bool) : Tab (add l k re d).1 := by
  rcases add_cases hT k re d with ⟨_, _, _, _, e⟩ | ⟨i, hi, hne, e⟩
  · rw [e]; exact hT
  · rw [e]
    refine ⟨inv_str hT.inv k, ?_, ?_, hT.cmp⟩
    · intro j r hj
      simp only at hj
      by_cases hij : i = j
      · subst hij
        rw [List.getElem?_set] at hj
        split at hj
        · split at hj
          · cases hj; exact ⟨rfl, Int.natCast_nonneg _⟩
          · cases hj
        · simp at *
      · rw [List.getElem?_set_ne hij, List.getElem?_append] at hj
        split at hj
        · exact hT.kind j r hj
        · rw [List.getElem?_replicate] at hj
          split at hj <;> cases hj
    · have h1 := str_idx_lt hT.inv k
      have h2 := (str_prefix l.set k).length_le
      have h3 := hT.le
      simp only [List.length_set, List.length_append, List.length_replicate]
      omega

theorem dense_add {l : Lexer} (hT : Tab l) (hD : Dense l) (k : Bytes) (re : Re) (d : Bool) :
    Dense (add l k re d).1 := by
  obtain ⟨hF, hl⟩ := hD
  rcases add_cases hT k re d with ⟨_, _, _, _, e⟩ | ⟨i, hi, hne, e⟩
  · rw [e]; exact ⟨hF, hl⟩
  · have hnew : k ∉ l.set.symb2str := by
      intro hk
      have h1 := str_present hT.inv hk
      have h2 := str_idx_lt hT.inv k
      rw [h1, hi] at h2
      rw [← hl] at h2
      cases hc : l.rules[i]? with
      | none =>
        rw [List.getElem?_eq_none_iff] at hc; omega
      | some o =>
        cases o with
        | none => exact hF (List.mem_of_getElem? hc)
        | some r => exact hne r hc
    have hi' : i = l.rules.length := by
      rw [← hi, hl]
      unfold str
      rw [(hT.inv.none k).2 hnew]
    have ht : (str l.set k).1.symb2str = l.set.symb2str ++ [k] := by
      rw [str_table _ hT.inv, if_neg hnew]
    rw [e]
    constructor
    · unfold Full
      simp only
      rw [hi', show 1 + l.rules.length - l.rules.length = 1 by omega]
      simp only [List.replicate_one, List.set_append_right _ _ (Nat.le_refl _), Nat.sub_self,
        List.set_cons_zero, List.mem_append, List.mem_singleton, not_or]
      exact ⟨hF, by simp⟩
    · simp only [ht, List.length_set, List.length_append, List.length_replicate,
        List.length_singleton]
      omega

theorem add_dup {l : Lexer} (hT : Tab l) (k : Bytes) (re : Re) (d : Bool) :
    (add l k re d).2 = false → (add l k re d).1 = l := by
  rcases add_cases hT k re d with ⟨_, _, _, _, e⟩ | ⟨i, hi, hne, e⟩
  · rw [e]; simp
  · rw [e]; simp

/-- What a lexing run does to the lexer. -/
theorem lex_state {l : Lexer} (hT : Tab l) (hF : Full l) (b : Bytes) :
    ∃ lxs s, (∀ n, b.length + 1 ≤ n → lex n l b = .ok (lxs, { l with set := s })) ∧
      (s = l.set ∨ s = (str l.set l.error).1) := by
  obtain ⟨segs, h⟩ := lex_full hT hF b
  refine ⟨_, _, fun n hn => (h l rfl rfl rfl n hn).1, ?_⟩
  split <;> simp

theorem tab_set {l : Lexer} (hT : Tab l) (x : Bytes) : Tab { l with set := (str l.set x).1 } :=
  ⟨inv_str hT.inv x, hT.kind, hT.le.trans (str_prefix l.set x).length_le, hT.cmp⟩

theorem tab_call {l l' : Lexer} (hT : Tab l) (hF : Full l) {c : Call} (h : call l c = .ok l') :
    Tab l' := by
  cases c with
  | add k re d => cases h; exact tab_add hT k re d
  | lex b =>
    obtain ⟨lxs, s, h1, h2⟩ := lex_state hT hF b
    simp only [call, h1 _ (Nat.le_refl _), Out.bind_ok, Out.ok.injEq] at h
    subst h
    rcases h2 with rfl | rfl
    · exact hT
    · exact tab_set hT _
  | byLength => cases h; exact ⟨hT.inv, hT.kind, hT.le, .inl rfl⟩
  | byPriority => cases h; exact ⟨hT.inv, hT.kind, hT.le, .inr rfl⟩
  | insertStart k v => cases h; exact ⟨hT.inv, hT.kind, hT.le, hT.cmp⟩
  | insertEnd k v => cases h; exact ⟨hT.inv, hT.kind, hT.le, hT.cmp⟩
  | setError e => cases h; exact ⟨hT.inv, hT.kind, hT.le, hT.cmp⟩

def Call.isAdd : Call → Bool
  | .add .. => true
  | _ => false

def Call.isLex : Call → Bool
  | .lex _ => true
  | _ => false

def Call.isSetError : Call → Bool
  | .setError _ => true
  | _ => false

/-- Calls that are not `Lex` keep the table dense. -/
theorem dense_calls {l : Lexer} (hT : Tab l) (hD : Dense l) (h : List Call)
    (hn : ∀ c ∈ h, c.isLex = false) : ∃ l', calls l h = .ok l' ∧ Tab l' ∧ Dense l' := by
  induction h generalizing l with
  | nil => exact ⟨l, rfl, hT, hD⟩
  | cons c cs ih =>
    have hc := hn c (List.mem_cons_self ..)
    have key : ∃ l', call l c = .ok l' ∧ Dense l' := by
      cases c with
      | add k re d => exact ⟨_, rfl, dense_add hT hD k re d⟩
      | lex b => simp [Call.isLex] at hc
      | byLength => exact ⟨_, rfl, hD⟩
      | byPriority => exact ⟨_, rfl, hD⟩
      | insertStart k v => exact ⟨_, rfl, hD⟩
      | insertEnd k v => exact ⟨_, rfl, hD⟩
      | setError e => exact ⟨_, rfl, hD⟩
    obtain ⟨l', e, hD'⟩ := key
    simp only [calls, e, Out.bind_ok]
    exact ih (tab_call hT hD.1 e) hD' fun c hc => hn c (List.mem_cons_of_mem _ hc)

/-- Calls that are not `Add` keep the table without gaps. -/
theorem full_calls {l : Lexer} (hT : Tab l) (hF : Full l) (h : List Call)
    (hn : ∀ c ∈ h, c.isAdd = false) : ∃ l', calls l h = .ok l' ∧ Tab l' ∧ Full l' := by
  induction h generalizing l with
  | nil => exact ⟨l, rfl, hT, hF⟩
  | cons c cs ih =>
    have hc := hn c (List.mem_cons_self ..)
    have key : ∃ l', call l c = .ok l' ∧ Full l' := by
      cases c with
      | add k re d => simp [Call.isAdd] at hc
      | lex b =>
        obtain ⟨lxs, s, h1, h2⟩ := lex_state hT hF b
        exact ⟨{ l with set := s }, by simp only [call, h1 _ (Nat.le_refl _), Out.bind_ok], hF⟩
      | byLength => exact ⟨_, rfl, hF⟩
      | byPriority => exact ⟨_, rfl, hF⟩
      | insertStart k v => exact ⟨_, rfl, hF⟩
      | insertEnd k v => exact ⟨_, rfl, hF⟩
      | setError e => exact ⟨_, rfl, hF⟩
    obtain ⟨l', e, hF'⟩ := key
    simp only [calls, e, Out.bind_ok]
    exact ih (tab_call hT hF e) hF' fun c hc => hn c (List.mem_cons_of_mem _ hc)

/-- With the error kind interned, everything keeps the table dense. -/
theorem dense_calls_error {l : Lexer} (hT : Tab l) (hD : Dense l) (he : l.error ∈ l.set.symb2str)
    (h : List Call) (hn : ∀ c ∈ h, c.isSetError = false) :
    ∃ l', calls l h = .ok l' ∧ Tab l' ∧ Dense l' := by
  induction h generalizing l with
  | nil => exact ⟨l, rfl, hT, hD⟩
  | cons c cs ih =>
    have hc := hn c (List.mem_cons_self ..)
    have key : ∃ l', call l c = .ok l' ∧ Dense l' ∧ l'.error ∈ l'.set.symb2str := by
      cases c with
      | add k re d =>
        refine ⟨_, rfl, dense_add hT hD k re d, ?_⟩
        rcases add_cases hT k re d with ⟨_, _, _, _, e⟩ | ⟨i, hi, hne, e⟩
        · rw [e]; exact he
        · rw [e]; exact (str_prefix l.set k).subset he
      | lex b =>
        obtain ⟨lxs, s, h1, h2⟩ := lex_state hT hD.1 b
        have : s = l.set := by
          rcases h2 with h2 | h2
          · exact h2
          · rw [h2, str_present hT.inv he]
        subst this
        exact ⟨l, by simp only [call, h1 _ (Nat.le_refl _), Out.bind_ok], hD, he⟩
      | byLength => exact ⟨_, rfl, hD, he⟩
      | byPriority => exact ⟨_, rfl, hD, he⟩
      | insertStart k v => exact ⟨_, rfl, hD, he⟩
      | insertEnd k v => exact ⟨_, rfl, hD, he⟩
      | setError e => simp [Call.isSetError] at hc
    obtain ⟨l', e, hD', he'⟩ := key
    simp only [calls, e, Out.bind_ok]
    exact ih (tab_call hT hD.1 e) hD' he' fun c hc => hn c (List.mem_cons_of_mem _ hc)

end Verif.SimpleLexer
