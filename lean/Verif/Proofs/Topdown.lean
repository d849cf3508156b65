import Verif.Model.Topdown
import Verif.Spec.OrderedChoice
import Verif.Proofs.CFG
import Verif.Proofs.Packrat.Lift
/- The top-down parser computes ordered choice. -/
namespace Verif.Topdown
open Verif.Spec Verif.Spec.Grammar

section Generic
variable {β V : Type} {g : Grammar β} {ev : V} {inp : List (Lexeme β V)}

theorem Match.det {goal i r} (h : Match g ev inp goal i r) : ∀ r', Match g ev inp goal i r' → r = r' := by
  induction h with
  | term_ok ht hi hk =>
    intro r' h'
    cases h' with
    | term_ok _ hi' _ => rw [hi] at hi'; cases hi'; rfl
    | term_no _ hn => exact absurd hk (hn _ hi)
    | nonterm hp _ => exact absurd ht (by simp [Term, hp])
  | term_no ht hn =>
    intro r' h'
    cases h' with
    | term_ok _ hi' hk => exact absurd hk (hn _ hi')
    | term_no _ hn => rfl
    | nonterm hp _ => exact absurd ht (by simp [Term, hp])
  | nonterm hp _ ih =>
    intro r' h'
    cases h' with
    | term_ok ht _ _ => exact absurd ht (by simp [Term, hp])
    | term_no ht _ => exact absurd ht (by simp [Term, hp])
    | nonterm hp' h' => rw [hp] at hp'; cases hp'; exact ih _ h'
  | alts_nil => intro r' h'; cases h'; rfl
  | alts_ok _ ih =>
    intro r' h'
    cases h' with
    | alts_ok h' => have := ih _ h'; cases this; rfl
    | alts_no h' _ => have := ih _ h'; cases this
  | alts_no _ _ ih1 ih2 =>
    intro r' h'
    cases h' with
    | alts_ok h' => have := ih1 _ h'; cases this
    | alts_no _ h' => exact ih2 _ h'
  | seq_nil => intro r' h'; cases h'; rfl
  | seq_no _ ih =>
    intro r' h'
    cases h' with
    | seq_no _ => rfl
    | seq_rest_no h' _ => rfl
    | seq_cons h' _ => have := ih _ h'; cases this
  | seq_rest_no _ _ ih1 ih2 =>
    intro r' h'
    cases h' with
    | seq_no _ => rfl
    | seq_rest_no h' _ => rfl
    | seq_cons h1 h2 =>
      have := ih1 _ h1; cases this
      have := ih2 _ h2; cases this
  | seq_cons _ _ ih1 ih2 =>
    intro r' h'
    cases h' with
    | seq_no h' => have := ih1 _ h'; cases this
    | seq_rest_no h1 h2 =>
      have := ih1 _ h1; cases this
      have := ih2 _ h2; cases this
    | seq_cons h1 h2 =>
      have := ih1 _ h1; cases this
      have := ih2 _ h2; cases this
      rfl

/-- Position only moves forward. -/
theorem Match.le {goal i r} (h : Match g ev inp goal i r) : ∀ j ts, r = some (j, ts) → i ≤ j := by
  induction h with
  | term_ok => intro j ts e; cases e; omega
  | term_no => intro j ts e; cases e
  | nonterm _ _ ih => exact ih
  | alts_nil => intro j ts e; cases e
  | alts_ok _ ih => intro j ts e; cases e; exact ih _ _ rfl
  | alts_no _ _ _ ih => exact ih
  | seq_nil => intro j ts e; cases e; omega
  | seq_no => intro j ts e; cases e
  | seq_rest_no => intro j ts e; cases e
  | seq_cons _ _ ih1 ih2 =>
    intro j ts e; cases e
    have := ih1 _ _ rfl
    have := ih2 _ _ rfl
    omega

/-- Response as a match result. -/
def Resp.res (r : Resp β V) : Nat × List (PN β V) := (r.stop, [r.tree])

variable [DecidableEq β]

/-- Every memo entry is right. -/
def MemoOK (g : Grammar β) (ev : V) (inp : List (Lexeme β V)) (m : Memo β V) : Prop :=
  ∀ s pos r, m (s, pos) = some r → Match g ev inp (.sym s) pos (r.map Resp.res)

/-- Correctness of a recursive call. -/
def RecOK (g : Grammar β) (ev : V) (inp : List (Lexeme β V))
    (rec : Memo β V → β → Nat → Out (Memo β V × Option (Resp β V))) : Prop :=
  ∀ m X p m' r, MemoOK g ev inp m → rec m X p = .ok (m', r) →
    MemoOK g ev inp m' ∧ Match g ev inp (.sym X) p (r.map Resp.res)

theorem prodLoop_sound {rec} (hrec : RecOK g ev inp rec) : ∀ (p : List β) m pos m' r,
    MemoOK g ev inp m → prodLoop rec m p pos = .ok (m', r) →
    MemoOK g ev inp m' ∧ Match g ev inp (.seq p) pos (r.map fun q => (q.2, q.1)) := by
  intro p
  induction p with
  | nil => intro m pos m' r hm e; cases e; exact ⟨hm, .seq_nil⟩
  | cons X p ih =>
    intro m pos m' r hm e
    simp only [prodLoop] at e
    obtain ⟨⟨m1, r1⟩, e1, e⟩ := Out.bind_eq_ok.1 e
    obtain ⟨hm1, h1⟩ := hrec m X pos m1 r1 hm e1
    cases r1 with
    | none => cases e; exact ⟨hm1, .seq_no h1⟩
    | some a =>
      obtain ⟨⟨m2, r2⟩, e2, e⟩ := Out.bind_eq_ok.1 e
      obtain ⟨hm2, h2⟩ := ih m1 a.stop m2 r2 hm1 e2
      cases r2 with
      | none => cases e; exact ⟨hm2, .seq_rest_no h1 h2⟩
      | some q => cases e; exact ⟨hm2, .seq_cons h1 h2⟩

theorem prodsLoop_sound {rec} (hrec : RecOK g ev inp rec) (len : Nat) (s : β) (pos : Nat) :
    ∀ (ps : List (List β)) m m' r, MemoOK g ev inp m →
    prodsLoop ev rec len s pos false m ps = .ok (m', r) →
    MemoOK g ev inp m' ∧ Match g ev inp (.alts s ps) pos (r.map Resp.res) := by
  intro ps
  induction ps with
  | nil => intro m m' r hm e; cases e; exact ⟨hm, .alts_nil⟩
  | cons p ps ih =>
    intro m m' r hm e
    simp only [prodsLoop] at e
    obtain ⟨⟨m1, r1⟩, e1, e⟩ := Out.bind_eq_ok.1 e
    obtain ⟨hm1, h1⟩ := prodLoop_sound hrec p m pos m1 r1 hm e1
    cases r1 with
    | none =>
      obtain ⟨hm2, h2⟩ := ih m1 m' r hm1 e
      exact ⟨hm2, .alts_no h1 h2⟩
    | some q =>
      simp only [Bool.not_false, Bool.true_or, if_true] at e
      cases e
      exact ⟨hm1, .alts_ok h1⟩

theorem MemoOK.upd {m : Memo β V} (hm : MemoOK g ev inp m) {s pos r}
    (h : Match g ev inp (.sym s) pos (r.map Resp.res)) : MemoOK g ev inp (upd m (s, pos) (some r)) := by
  intro s' pos' r' e
  by_cases hk : (s', pos') = (s, pos)
  · cases hk; rw [upd_same] at e; cases e; exact h
  · rw [upd_ne _ _ hk] at e; exact hm _ _ _ e

theorem accept_sound : ∀ n, RecOK g ev inp (fun m X p => accept ev g.prods inp n m X p false) := by
  intro n
  induction n with
  | zero => intro m X p m' r _ e; cases e
  | succ n ih =>
    intro m X p m' r hm e
    simp only [accept] at e
    split at e
    · rename_i r0 hr0
      cases e
      exact ⟨hm, hm _ _ _ hr0⟩
    · obtain ⟨⟨m1, r1⟩, e1, e⟩ := Out.bind_eq_ok.1 e
      cases e
      have key : MemoOK g ev inp m1 ∧ Match g ev inp (.sym X) p (r1.map Resp.res) := by
        unfold tryAccept at e1
        split at e1
        · rename_i ht
          split at e1
          · rename_i l hl
            split at e1
            · rename_i hk; cases e1; exact ⟨hm, .term_ok ht hl hk.symm⟩
            · rename_i hk
              cases e1
              refine ⟨hm, .term_no ht ?_⟩
              intro l' hl' hk'
              rw [hl] at hl'; cases hl'; exact hk hk'.symm
          · rename_i hl
            cases e1
            refine ⟨hm, .term_no ht ?_⟩
            intro l' hl'; rw [hl] at hl'; cases hl'
        · rename_i ps hps
          obtain ⟨h1, h2⟩ := prodsLoop_sound ih _ _ _ _ _ _ _ hm e1
          exact ⟨h1, .nonterm hps h2⟩
      exact ⟨key.1.upd key.2, key.2⟩

theorem prodsLoop_all_sound {rec} (hrec : RecOK g ev inp rec) (s : β) :
    ∀ (ps : List (List β)) m m' r, MemoOK g ev inp m →
    prodsLoop ev rec inp.length s 0 true m ps = .ok (m', r) →
    Whole g ev inp s ps (r.map Resp.tree) := by
  intro ps
  induction ps with
  | nil => intro m m' r hm e; cases e; exact .nil
  | cons p ps ih =>
    intro m m' r hm e
    simp only [prodsLoop] at e
    obtain ⟨⟨m1, r1⟩, e1, e⟩ := Out.bind_eq_ok.1 e
    obtain ⟨hm1, h1⟩ := prodLoop_sound hrec p m 0 m1 r1 hm e1
    cases r1 with
    | none => exact .miss h1 (by simp) (ih m1 m' r hm1 e)
    | some q =>
      obtain ⟨ks, e'⟩ := q
      simp only [Bool.not_true, Bool.false_or, decide_eq_true_eq] at e
      split at e
      · rename_i he
        subst he
        cases e
        exact .hit h1
      · rename_i he
        refine .miss h1 ?_ (ih m1 m' r hm1 e)
        intro ks' h; cases h; exact he rfl

theorem accept_all_sound {n s m' r ps} (hs : g.prods s = some ps)
    (e : accept ev g.prods inp n (fun _ => none) s 0 true = .ok (m', r)) :
    Whole g ev inp s ps (r.map Resp.tree) := by
  cases n with
  | zero => cases e
  | succ n =>
    simp only [accept] at e
    obtain ⟨⟨m1, r1⟩, e1, e⟩ := Out.bind_eq_ok.1 e
    cases e
    unfold tryAccept at e1
    rw [hs] at e1
    exact prodsLoop_all_sound (accept_sound n) s ps _ _ _ (by intro _ _ _ h; cases h) e1

/-- What a run of a goal with fuel `n` must do to realise a match. -/
def Runs (g : Grammar β) (ev : V) (inp : List (Lexeme β V)) (n : Nat) :
    Goal β → Nat → Option (Nat × List (PN β V)) → Prop
  | .sym X, i, r => ∀ m, MemoOK g ev inp m → ∃ m' q, accept ev g.prods inp (n + 1) m X i false = .ok (m', q) ∧
      q.map Resp.res = r ∧ MemoOK g ev inp m'
  | .seq ss, i, r => ∀ m, MemoOK g ev inp m → ∃ m' q,
      prodLoop (fun m X p => accept ev g.prods inp n m X p false) m ss i = .ok (m', q) ∧
      q.map (fun q => (q.2, q.1)) = r ∧ MemoOK g ev inp m'
  | .alts A ps, i, r => ∀ m, MemoOK g ev inp m → ∃ m' q,
      prodsLoop ev (fun m X p => accept ev g.prods inp n m X p false) inp.length A i false m ps = .ok (m', q) ∧
      q.map Resp.res = r ∧ MemoOK g ev inp m'

/-- One step of `accept` given what `tryAccept` does. -/
theorem accept_step {n X i} {r : Option (Nat × List (PN β V))} (hr : Match g ev inp (.sym X) i r)
    (h : ∀ m, MemoOK g ev inp m → ∃ m' q,
      tryAccept ev g.prods inp (fun m X p => accept ev g.prods inp n m X p false) m X i false = .ok (m', q) ∧
      q.map Resp.res = r ∧ MemoOK g ev inp m') : Runs g ev inp n (.sym X) i r := by
  intro m hm
  simp only [accept]
  cases hx : m (X, i) with
  | some q => exact ⟨m, q, rfl, (Match.det (hm _ _ _ hx) _ hr), hm⟩
  | none =>
    obtain ⟨m', q, e, e2, hm'⟩ := h m hm
    refine ⟨upd m' (X, i) (some q), q, by rw [e]; rfl, e2, hm'.upd ?_⟩
    rw [e2]; exact hr

theorem Match.runs {goal i r} (h : Match g ev inp goal i r) :
    ∃ N, ∀ n, N ≤ n → Runs g ev inp n goal i r := by
  induction h with
  | @term_ok t l i ht hi hk =>
    refine ⟨0, fun n _ => accept_step (.term_ok ht hi hk) fun m hm => ?_⟩
    refine ⟨m, some ⟨.node l [], i + 1⟩, ?_, rfl, hm⟩
    have ht : g.prods t = none := ht
    simp [tryAccept, ht, hi, hk]
  | @term_no t i ht hn =>
    refine ⟨0, fun n _ => accept_step (.term_no ht hn) fun m hm => ?_⟩
    refine ⟨m, none, ?_, rfl, hm⟩
    have ht : g.prods t = none := ht
    simp only [tryAccept, ht]
    cases hi : inp[i]? with
    | none => rfl
    | some l =>
      have := hn l hi
      simp only [if_neg (fun h : t = l.kind => this h.symm)]
  | @nonterm A ps i r hp hr ih =>
    obtain ⟨N, hN⟩ := ih
    refine ⟨N, fun n hn => accept_step (.nonterm hp hr) fun m hm => ?_⟩
    simp only [tryAccept, hp]
    exact hN n hn m hm
  | alts_nil => exact ⟨0, fun n _ m hm => ⟨m, none, rfl, rfl, hm⟩⟩
  | @alts_ok A p ps i j ks _ ih =>
    obtain ⟨N, hN⟩ := ih
    refine ⟨N, fun n hn m hm => ?_⟩
    obtain ⟨m', q, e1, e2, hm'⟩ := hN n hn m hm
    cases q with
    | none => cases e2
    | some q =>
      obtain ⟨ks', j'⟩ := q
      cases e2
      exact ⟨m', some ⟨_, _⟩, by simp only [prodsLoop, e1, Out.bind_ok]; rfl, rfl, hm'⟩
  | @alts_no A p ps i r _ _ ih1 ih2 =>
    obtain ⟨N1, hN1⟩ := ih1
    obtain ⟨N2, hN2⟩ := ih2
    refine ⟨max N1 N2, fun n hn m hm => ?_⟩
    obtain ⟨m', q, e1, e2, hm'⟩ := hN1 n (by omega) m hm
    cases q with
    | some q => cases e2
    | none =>
      obtain ⟨m'', q', e1', e2', hm''⟩ := hN2 n (by omega) m' hm'
      exact ⟨m'', q', by simp only [prodsLoop, e1, Out.bind_ok]; exact e1', e2', hm''⟩
  | seq_nil => exact ⟨0, fun n _ m hm => ⟨m, some ([], _), rfl, rfl, hm⟩⟩
  | @seq_no X ss i _ ih =>
    obtain ⟨N, hN⟩ := ih
    refine ⟨N + 1, fun n hn m hm => ?_⟩
    obtain ⟨n, rfl⟩ : ∃ k, n = k + 1 := ⟨n - 1, by omega⟩
    obtain ⟨m', q, e1, e2, hm'⟩ := hN n (by omega) m hm
    cases q with
    | some q => cases e2
    | none => exact ⟨m', none, by simp only [prodLoop, e1, Out.bind_ok], rfl, hm'⟩
  | @seq_rest_no X ss i mm ts _ _ ih1 ih2 =>
    obtain ⟨N1, hN1⟩ := ih1
    obtain ⟨N2, hN2⟩ := ih2
    refine ⟨max N1 N2 + 1, fun n hn m hm => ?_⟩
    obtain ⟨n, rfl⟩ : ∃ k, n = k + 1 := ⟨n - 1, by omega⟩
    obtain ⟨m', q, e1, e2, hm'⟩ := hN1 n (by omega) m hm
    cases q with
    | none => cases e2
    | some q =>
      cases e2
      obtain ⟨m'', q', e1', e2', hm''⟩ := hN2 (n + 1) (by omega) m' hm'
      cases q' with
      | some q' => cases e2'
      | none =>
        exact ⟨m'', none, by simp only [prodLoop, e1, Out.bind_ok, e1'], rfl, hm''⟩
  | @seq_cons X ss i mm ts j ts' _ _ ih1 ih2 =>
    obtain ⟨N1, hN1⟩ := ih1
    obtain ⟨N2, hN2⟩ := ih2
    refine ⟨max N1 N2 + 1, fun n hn m hm => ?_⟩
    obtain ⟨n, rfl⟩ : ∃ k, n = k + 1 := ⟨n - 1, by omega⟩
    obtain ⟨m', q, e1, e2, hm'⟩ := hN1 n (by omega) m hm
    cases q with
    | none => cases e2
    | some q =>
      cases e2
      obtain ⟨m'', q', e1', e2', hm''⟩ := hN2 (n + 1) (by omega) m' hm'
      cases q' with
      | none => cases e2'
      | some q' =>
        obtain ⟨ks, e⟩ := q'
        cases e2'
        exact ⟨m'', some (q.tree :: ks, e), by simp only [prodLoop, e1, Out.bind_ok, e1'], rfl, hm''⟩

theorem Whole.runs {S ps r} (h : Whole g ev inp S ps r) :
    ∃ N, ∀ n, N ≤ n → ∀ m, MemoOK g ev inp m → ∃ m' q,
      prodsLoop ev (fun m X p => accept ev g.prods inp n m X p false) inp.length S 0 true m ps = .ok (m', q) ∧
      q.map Resp.tree = r := by
  induction h with
  | nil => exact ⟨0, fun n _ m hm => ⟨m, none, rfl, rfl⟩⟩
  | @hit p ps ks h =>
    obtain ⟨N, hN⟩ := Match.runs h
    refine ⟨N, fun n hn m hm => ?_⟩
    obtain ⟨m', q, e1, e2, hm'⟩ := hN n hn m hm
    cases q with
    | none => cases e2
    | some q =>
      obtain ⟨ks', j'⟩ := q
      cases e2
      refine ⟨m', some ⟨_, inp.length⟩, by simp only [prodsLoop, e1, Out.bind_ok]; simp, rfl⟩
  | @miss p ps r r' h hne _ ih =>
    obtain ⟨N1, hN1⟩ := Match.runs h
    obtain ⟨N2, hN2⟩ := ih
    refine ⟨max N1 N2, fun n hn m hm => ?_⟩
    obtain ⟨m', q, e1, e2, hm'⟩ := hN1 n (by omega) m hm
    obtain ⟨m'', q', e1', e2'⟩ := hN2 n (by omega) m' hm'
    refine ⟨m'', q', ?_, e2'⟩
    simp only [prodsLoop, e1, Out.bind_ok]
    cases q with
    | none => exact e1'
    | some q =>
      obtain ⟨ks, j⟩ := q
      have : ¬ j = inp.length := by
        intro hj
        subst hj
        exact hne ks e2.symm
      simp only [Bool.not_true, Bool.false_or, decide_eq_true_eq, this, if_false]
      exact e1'

theorem Whole.accept {S ps r} (hs : g.prods S = some ps) (h : Whole g ev inp S ps r) :
    ∃ N, ∀ n, N ≤ n → ∃ m' q, accept ev g.prods inp n (fun _ => none) S 0 true = .ok (m', q) ∧
      q.map Resp.tree = r := by
  obtain ⟨N, hN⟩ := Whole.runs h
  refine ⟨N + 1, fun n hn => ?_⟩
  obtain ⟨n, rfl⟩ : ∃ k, n = k + 1 := ⟨n - 1, by omega⟩
  obtain ⟨m', q, e, e2⟩ := hN n (by omega) (fun _ => none) (by intro _ _ _ h; cases h)
  refine ⟨upd m' (S, 0) (some q), q, ?_, e2⟩
  simp only [Topdown.accept, tryAccept, hs, e, Out.bind_ok]

end Generic

/-! ### Renaming symbols -/
section Rename
variable {β γ V : Type}

/-- Renaming lexemes. -/
def rLx (f : β → γ) (l : Lexeme β V) : Lexeme γ V := ⟨f l.kind, l.val, l.line, l.col⟩

mutual
/-- Renaming trees. -/
def rPN (f : β → γ) : PN β V → PN γ V
  | .node l ks => .node (rLx f l) (rPNs f ks)
/-- Renaming forests. -/
def rPNs (f : β → γ) : List (PN β V) → List (PN γ V)
  | [] => []
  | t :: ts => rPN f t :: rPNs f ts
end

theorem rPNs_append (f : β → γ) (a b : List (PN β V)) : rPNs f (a ++ b) = rPNs f a ++ rPNs f b := by
  induction a with
  | nil => rfl
  | cons t ts ih => simp [rPNs, ih]

/-- Renaming goals. -/
def rGoal (f : β → γ) : Goal β → Goal γ
  | .sym A => .sym (f A)
  | .seq ss => .seq (ss.map f)
  | .alts A ps => .alts (f A) (ps.map (·.map f))

/-- Symbols of a goal. -/
def goalSyms : Goal β → List β
  | .sym A => [A]
  | .seq ss => ss
  | .alts A ps => A :: ps.flatten

/-- `f` renames `g` to `g'` faithfully on the symbols satisfying `S`. -/
structure Renames (g : Grammar β) (g' : Grammar γ) (f : β → γ) (S : β → Prop) : Prop where
  prods : ∀ x, S x → g'.prods (f x) = (g.prods x).map fun ps => ps.map (·.map f)
  inj : ∀ x y, S x → S y → f x = f y → x = y
  closed : ∀ x ps, g.prods x = some ps → ∀ p ∈ ps, ∀ y ∈ p, S y

theorem Match.rename {g : Grammar β} {g' : Grammar γ} {f S} (hf : Renames g g' f S) {ev : V}
    {inp : List (Lexeme β V)} (hin : ∀ l ∈ inp, S l.kind) {goal i r} (h : Match g ev inp goal i r) :
    (∀ x ∈ goalSyms goal, S x) →
    Match g' ev (inp.map (rLx f)) (rGoal f goal) i (r.map fun q => (q.1, rPNs f q.2)) := by
  induction h with
  | @term_ok t l i ht hi hk =>
    intro hs
    have ht : g.prods t = none := ht
    refine .term_ok ?_ ?_ ?_
    · show g'.prods (f t) = none
      rw [hf.prods t (hs t (by simp [goalSyms])), ht]; rfl
    · rw [List.getElem?_map, hi]; rfl
    · simp [rLx, hk]
  | @term_no t i ht hn =>
    intro hs
    have ht : g.prods t = none := ht
    refine .term_no ?_ ?_
    · show g'.prods (f t) = none
      rw [hf.prods t (hs t (by simp [goalSyms])), ht]; rfl
    · intro l hl hk
      rw [List.getElem?_map] at hl
      cases hi : inp[i]? with
      | none => rw [hi] at hl; cases hl
      | some l0 =>
        rw [hi] at hl
        cases hl
        exact hn l0 hi (hf.inj _ _ (hin l0 (List.mem_of_getElem? hi)) (hs t (by simp [goalSyms])) hk)
  | @nonterm A ps i r hp _ ih =>
    intro hs
    refine .nonterm (ps := ps.map (List.map f)) ?_ (ih ?_)
    · rw [hf.prods A (hs A (by simp [goalSyms])), hp]; rfl
    · intro x hx
      rcases List.mem_cons.1 hx with rfl | hx
      · exact hs _ (by simp [goalSyms])
      · obtain ⟨p, hpm, hxp⟩ := List.mem_flatten.1 hx
        exact hf.closed A ps hp p hpm x hxp
  | alts_nil => intro _; exact .alts_nil
  | @alts_ok A p ps i j ks _ ih =>
    intro hs
    exact .alts_ok (ih fun x hx => hs x (by simp only [goalSyms] at hx ⊢; simp [hx]))
  | @alts_no A p ps i r _ _ ih1 ih2 =>
    intro hs
    refine .alts_no (ih1 fun x hx => hs x (by simp only [goalSyms] at hx ⊢; simp [hx])) (ih2 ?_)
    intro x hx
    refine hs x ?_
    rcases List.mem_cons.1 hx with rfl | hx
    · simp [goalSyms]
    · simp only [goalSyms, List.flatten_cons, List.mem_cons, List.mem_append]; exact .inr (.inr hx)
  | seq_nil => intro _; exact .seq_nil
  | @seq_no X ss i _ ih =>
    intro hs
    exact .seq_no (ih fun x hx => hs x (by simp only [goalSyms, List.mem_singleton] at hx ⊢; simp [hx]))
  | @seq_rest_no X ss i m ts _ _ ih1 ih2 =>
    intro hs
    exact .seq_rest_no
      (ih1 fun x hx => hs x (by simp only [goalSyms, List.mem_singleton] at hx ⊢; simp [hx]))
      (ih2 fun x hx => hs x (by simp only [goalSyms] at hx ⊢; simp [hx]))
  | @seq_cons X ss i m ts j ts' _ _ ih1 ih2 =>
    intro hs
    simp only [Option.map_some, rPNs_append]
    exact .seq_cons
      (ih1 fun x hx => hs x (by simp only [goalSyms, List.mem_singleton] at hx ⊢; simp [hx]))
      (ih2 fun x hx => hs x (by simp only [goalSyms] at hx ⊢; simp [hx]))

theorem Whole.rename {g : Grammar β} {g' : Grammar γ} {f S} (hf : Renames g g' f S) {ev : V}
    {inp : List (Lexeme β V)} (hin : ∀ l ∈ inp, S l.kind) {A ps r} (h : Whole g ev inp A ps r) :
    (∀ p ∈ ps, ∀ x ∈ p, S x) →
    Whole g' ev (inp.map (rLx f)) (f A) (ps.map (·.map f)) (r.map (rPN f)) := by
  have hlen : (inp.map (rLx (V := V) f)).length = inp.length := by simp
  induction h with
  | nil => intro _; exact .nil
  | @hit p ps ks h =>
    intro hs
    have := Match.rename hf hin h (hs p (by simp))
    refine .hit (ks := rPNs f ks) ?_
    rw [hlen]; exact this
  | @miss p ps r r' h hne _ ih =>
    intro hs
    refine .miss (Match.rename hf hin h (hs p (by simp))) ?_ (ih fun q hq => hs q (by simp [hq]))
    intro ks e
    rw [hlen] at e
    cases r' with
    | none => cases e
    | some q =>
      obtain ⟨j, ts⟩ := q
      simp only [Option.map_some, Option.some.injEq, Prod.mk.injEq] at e
      exact hne ts (by rw [e.1])

/-- Every node's kind satisfies `P`. -/
inductive KindsIn (P : β → Prop) : PN β V → Prop
  | node {l ks} : P l.kind → (∀ t ∈ ks, KindsIn P t) → KindsIn P (.node l ks)

theorem Match.kinds {g : Grammar β} {S : β → Prop}
    (hcl : ∀ x ps, g.prods x = some ps → ∀ p ∈ ps, ∀ y ∈ p, S y) {ev : V}
    {inp : List (Lexeme β V)} (hin : ∀ l ∈ inp, S l.kind) {goal i r} (h : Match g ev inp goal i r) :
    (∀ x ∈ goalSyms goal, S x) → ∀ j ts, r = some (j, ts) → ∀ t ∈ ts, KindsIn S t := by
  induction h with
  | @term_ok t l i ht hi hk =>
    intro _ j ts e; cases e
    intro t ht
    simp only [List.mem_singleton] at ht
    subst ht
    exact .node (hin l (List.mem_of_getElem? hi)) (by simp)
  | term_no => intro _ j ts e; cases e
  | @nonterm A ps i r hp _ ih =>
    intro hs
    refine ih ?_
    intro x hx
    rcases List.mem_cons.1 hx with rfl | hx
    · exact hs _ (by simp [goalSyms])
    · obtain ⟨p, hpm, hxp⟩ := List.mem_flatten.1 hx
      exact hcl A ps hp p hpm x hxp
  | alts_nil => intro _ j ts e; cases e
  | @alts_ok A p ps i j ks _ ih =>
    intro hs j ts e; cases e
    intro t ht
    simp only [List.mem_singleton] at ht
    subst ht
    exact .node (hs A (by simp [goalSyms]))
      (ih (fun x hx => hs x (by simp only [goalSyms] at hx ⊢; simp [hx])) _ _ rfl)
  | @alts_no A p ps i r _ _ ih1 ih2 =>
    intro hs
    refine ih2 ?_
    intro x hx
    refine hs x ?_
    rcases List.mem_cons.1 hx with rfl | hx
    · simp [goalSyms]
    · simp only [goalSyms, List.flatten_cons, List.mem_cons, List.mem_append]; exact .inr (.inr hx)
  | seq_nil => intro _ j ts e; cases e; simp
  | seq_no => intro _ j ts e; cases e
  | seq_rest_no => intro _ j ts e; cases e
  | @seq_cons X ss i m ts j ts' _ _ ih1 ih2 =>
    intro hs j ts e; cases e
    intro t ht
    rcases List.mem_append.1 ht with ht | ht
    · exact ih1 (fun x hx => hs x (by simp only [goalSyms, List.mem_singleton] at hx ⊢; simp [hx]))
        _ _ rfl t ht
    · exact ih2 (fun x hx => hs x (by simp only [goalSyms] at hx ⊢; simp [hx])) _ _ rfl t ht

theorem Whole.kinds {g : Grammar β} {S : β → Prop}
    (hcl : ∀ x ps, g.prods x = some ps → ∀ p ∈ ps, ∀ y ∈ p, S y) {ev : V}
    {inp : List (Lexeme β V)} (hin : ∀ l ∈ inp, S l.kind) {A ps r} (h : Whole g ev inp A ps r)
    (hA : S A) : (∀ p ∈ ps, ∀ x ∈ p, S x) → ∀ t, r = some t → KindsIn S t := by
  induction h with
  | nil => intro _ t e; cases e
  | @hit p ps ks h =>
    intro hs t e; cases e
    exact .node hA (Match.kinds hcl hin h (hs p (by simp)) _ _ rfl)
  | miss _ _ _ ih => intro hs; exact ih fun q hq => hs q (by simp [hq])

end Rename

section Name
variable {α V : Type} [DecidableEq α]
open Verif.Packrat Verif.SetSymbol

theorem nameTree_ok (s : SymSet α) (x0 : α) {t : PN Nat V}
    (h : KindsIn (· < s.symb2str.length) t) : nameTree s t = .ok (rPN (nm s x0) t) := by
  induction h with
  | @node l ks hl hk ih =>
    have e : s.symb2str[l.kind]? = some s.symb2str[l.kind] := List.getElem?_eq_getElem hl
    have e2 : nm s x0 l.kind = s.symb2str[l.kind] := by simp [nm, e]
    have : nameTrees s ks = .ok (rPNs (nm s x0) ks) := by
      clear hk
      induction ks with
      | nil => rfl
      | cons t ts iht =>
        simp [nameTrees, ih t (by simp), iht (fun t ht => ih t (by simp [ht])), rPNs, Out.bind]
    simp [nameTree, e, this, rPN, rLx, e2, Out.bind]

/-- Trees renamed to indices and back. -/
theorem rPN_back {s : SymSet α} (hi : Inv s) (x0 : α) {t : PN α V} (h : KindsIn (· ∈ s.symb2str) t) :
    rPN (nm s x0) (rPN (symIdx s) t) = t := by
  induction h with
  | @node l ks hl hk ih =>
    have : rPNs (nm s x0) (rPNs (symIdx s) ks) = ks := by
      clear hk
      induction ks with
      | nil => rfl
      | cons t ts iht => simp [rPNs, ih t (by simp), iht (fun t ht => ih t (by simp [ht]))]
    simp [rPN, this, rLx, nm_symIdx hi hl]

theorem renames_up {g : Grammar α} {s : SymSet α} (h : SetOK g s) :
    Renames g (⟨[], idxProds g s⟩ : Grammar Nat) (symIdx s) (· ∈ s.symb2str) := by
  refine ⟨fun x hx => idxProds_symIdx h.inv hx, ?_, ?_⟩
  · intro x y hx hy e
    have h1 := symIdx_get h.inv hx
    have h2 := symIdx_get h.inv hy
    rw [e, h2] at h1
    exact (Option.some.inj h1).symm
  · intro x ps e p hp y hy
    obtain ⟨k, hk⟩ := List.mem_iff_getElem?.1 hp
    exact h.syms x k p ⟨ps, e, hk⟩ y hy

theorem renames_down {g : Grammar α} {s : SymSet α} (h : SetOK g s) (x0 : α) :
    Renames (⟨[], idxProds g s⟩ : Grammar Nat) g (nm s x0) (· < s.symb2str.length) := by
  have closed : ∀ x ps, idxProds g s x = some ps → ∀ p ∈ ps, ∀ y ∈ p, y < s.symb2str.length := by
    intro x ps e p hp y hy
    obtain ⟨k, hk⟩ := List.mem_iff_getElem?.1 hp
    exact rule_lt h x0 (o := []) (i := x) (k := k) (q := p) ⟨ps, e, hk⟩ y hy
  refine ⟨?_, ?_, closed⟩
  · intro x hx
    have e : s.symb2str[x]? = some s.symb2str[x] := List.getElem?_eq_getElem hx
    have e2 : nm s x0 x = s.symb2str[x] := by simp [nm, e]
    show _ = (idxProds g s x).map _
    rw [e2]
    simp only [idxProds, e, Option.map_map]
    cases hp : g.prods s.symb2str[x] with
    | none => rfl
    | some ps =>
      simp only [Option.map_some, Function.comp, List.map_map, Option.some.injEq]
      conv => lhs; rw [← List.map_id ps]
      refine List.map_congr_left fun p hpm => ?_
      obtain ⟨k, hk⟩ := List.mem_iff_getElem?.1 hpm
      simp only [id, Function.comp]
      have := map_nm_symIdx h.inv (h.syms _ k p ⟨ps, hp, hk⟩) x0
      rw [List.map_map] at this
      simpa [Function.comp] using this.symm
  · intro x y hx hy e
    simp only [nm, List.getElem?_eq_getElem hx, List.getElem?_eq_getElem hy, Option.getD_some] at e
    exact (List.Nodup.getElem_inj_iff h.inv.nodup).1 e

end Name

end Verif.Topdown
