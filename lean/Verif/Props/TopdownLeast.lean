import Verif.Props.TopdownCount
/-
The work of the top-down parser from below (C88): every lexeme that is read is asked for by a call of its own, so a tree costs
more calls than there are lexemes.
-/
namespace Verif.Props.TopdownLeast
open Verif.Spec Verif.Spec.Grammar Verif.Topdown Verif.SetSymbol Verif.Props.Topdown Verif.Props.TopdownCount
open Verif.Packrat (loadSet loadSet_ok SetOK symIdx idxProds idxProds_symIdx)

section memo
variable {β V : Type} [DecidableEq β] {prods : β → Option (List (List β))} {lxs : List (Lexeme β V)}

/-- The lexemes from `i` to `j` are terminals that are in the memo. -/
def Cov (prods : β → Option (List (List β))) (lxs : List (Lexeme β V)) (m : Memo β V) (i j : Nat) : Prop :=
  ∀ x, i ≤ x → x < j → ∃ l, lxs[x]? = some l ∧ prods l.kind = none ∧ m (l.kind, x) ≠ none

/-- What is read by an entry of the memo is in the memo. -/
def Inv (prods : β → Option (List (List β))) (lxs : List (Lexeme β V)) (m : Memo β V) : Prop :=
  ∀ s pos a, m (s, pos) = some (some a) → Cov prods lxs m pos a.stop

def Keeps (m m' : Memo β V) : Prop := ∀ k, m k ≠ none → m' k ≠ none

/-- At most `c` entries are new. -/
def Adds (m m' : Memo β V) (c : Nat) : Prop := ∃ L : List (β × Nat), L.length ≤ c ∧ ∀ k, m' k ≠ none → m k ≠ none ∨ k ∈ L

structure Good (prods : β → Option (List (List β))) (lxs : List (Lexeme β V)) (m m' : Memo β V) (c : Nat) : Prop where
  inv : Inv prods lxs m'
  keeps : Keeps m m'
  adds : Adds m m' c

theorem Cov.keep {m m' : Memo β V} {i j} (h : Cov prods lxs m i j) (hk : Keeps m m') : Cov prods lxs m' i j := by
  intro x h1 h2
  obtain ⟨l, e, ht, hm⟩ := h x h1 h2
  exact ⟨l, e, ht, hk _ hm⟩

theorem Cov.join {m : Memo β V} {i j k} (h : Cov prods lxs m i j) (h' : Cov prods lxs m j k) : Cov prods lxs m i k := by
  intro x h1 h2
  by_cases hx : x < j
  · exact h x h1 hx
  · exact h' x (by omega) h2

theorem Keeps.trans {m1 m2 m3 : Memo β V} (h : Keeps m1 m2) (h' : Keeps m2 m3) : Keeps m1 m3 := fun k hk => h' k (h k hk)

theorem Adds.trans {m1 m2 m3 : Memo β V} {c d} (h : Adds m1 m2 c) (h' : Adds m2 m3 d) : Adds m1 m3 (c + d) := by
  obtain ⟨L, h1, h2⟩ := h
  obtain ⟨L', h1', h2'⟩ := h'
  refine ⟨L ++ L', by simp; omega, fun k hk => ?_⟩
  rcases h2' k hk with h | h
  · rcases h2 k h with h | h
    · exact .inl h
    · exact .inr (by simp [h])
  · exact .inr (by simp [h])

theorem Adds.le {m m' : Memo β V} {c d} (h : Adds m m' c) (hd : c ≤ d) : Adds m m' d := by
  obtain ⟨L, h1, h2⟩ := h
  exact ⟨L, by omega, h2⟩

theorem Good.refl {m : Memo β V} (h : Inv prods lxs m) (c : Nat) : Good prods lxs m m c :=
  ⟨h, fun _ h => h, [], by simp, fun _ h => .inl h⟩

theorem Good.trans {m1 m2 m3 : Memo β V} {c d} (h : Good prods lxs m1 m2 c) (h' : Good prods lxs m2 m3 d) :
    Good prods lxs m1 m3 (c + d) := ⟨h'.inv, h.keeps.trans h'.keeps, h.adds.trans h'.adds⟩

theorem Good.le {m m' : Memo β V} {c d} (h : Good prods lxs m m' c) (hd : c ≤ d) : Good prods lxs m m' d :=
  ⟨h.inv, h.keeps, h.adds.le hd⟩

/-- What a call does. -/
def Call (prods : β → Option (List (List β))) (lxs : List (Lexeme β V))
    (rec : Memo β V → β → Nat → Out ((Memo β V × Option (Resp β V)) × Nat)) : Prop :=
  ∀ m X p m' r c, Inv prods lxs m → rec m X p = .ok ((m', r), c) →
    Good prods lxs m m' c ∧ ∀ a, r = some a → Cov prods lxs m' p a.stop

theorem prodLoop_good {rec : Memo β V → β → Nat → Out ((Memo β V × Option (Resp β V)) × Nat)} (hrec : Call prods lxs rec) :
    ∀ (p : List β) m pos m' r c, Inv prods lxs m → prodLoopC rec m p pos = .ok ((m', r), c) →
      Good prods lxs m m' c ∧ ∀ ks e, r = some (ks, e) → Cov prods lxs m' pos e := by
  intro p
  induction p with
  | nil =>
    intro m pos m' r c hi h
    simp only [prodLoopC] at h
    cases h
    refine ⟨.refl hi _, fun ks e h => ?_⟩
    cases h
    intro x h1 h2
    omega
  | cons X p ih =>
    intro m pos m' r c hi h
    simp only [prodLoopC] at h
    obtain ⟨⟨⟨m1, r1⟩, c1⟩, e1, h⟩ := Out.bind_eq_ok.1 h
    obtain ⟨g1, k1⟩ := hrec _ _ _ _ _ _ hi e1
    cases r1 with
    | none => cases h; exact ⟨g1, fun _ _ h => by cases h⟩
    | some a =>
      dsimp only at h
      obtain ⟨⟨⟨m2, r2⟩, c2⟩, e2, h⟩ := Out.bind_eq_ok.1 h
      obtain ⟨g2, k2⟩ := ih _ _ _ _ _ g1.inv e2
      cases r2 with
      | none => cases h; exact ⟨g1.trans g2, fun _ _ h => by cases h⟩
      | some q =>
        cases h
        refine ⟨g1.trans g2, fun ks e h => ?_⟩
        cases h
        exact ((k1 a rfl).keep g2.keeps).join (k2 _ _ rfl)

theorem prodsLoop_good {rec : Memo β V → β → Nat → Out ((Memo β V × Option (Resp β V)) × Nat)} (hrec : Call prods lxs rec)
    (ev : V) (len : Nat) (s : β) (pos : Nat) (all : Bool) :
    ∀ (ps : List (List β)) m m' r c, Inv prods lxs m → prodsLoopC ev rec len s pos all m ps = .ok ((m', r), c) →
      Good prods lxs m m' c ∧ ∀ a, r = some a → Cov prods lxs m' pos a.stop ∧ (all = true → a.stop = len) ∧
        ∃ d, d + 1 ≤ c ∧ Adds m m' d := by
  intro ps
  induction ps with
  | nil =>
    intro m m' r c hi h
    simp only [prodsLoopC] at h
    cases h
    exact ⟨.refl hi _, fun _ h => by cases h⟩
  | cons p ps ih =>
    intro m m' r c hi h
    simp only [prodsLoopC] at h
    obtain ⟨⟨⟨m1, r1⟩, c1⟩, e1, h⟩ := Out.bind_eq_ok.1 h
    obtain ⟨g1, k1⟩ := prodLoop_good hrec _ _ _ _ _ _ hi e1
    have next : ∀ {o}, o = (prodsLoopC ev rec len s pos all m1 ps).bind (fun q => Out.ok (q.1, 1 + c1 + q.2)) →
        o = .ok ((m', r), c) → Good prods lxs m m' c ∧ ∀ a, r = some a → Cov prods lxs m' pos a.stop ∧
          (all = true → a.stop = len) ∧ ∃ d, d + 1 ≤ c ∧ Adds m m' d := by
      rintro _ rfl h
      obtain ⟨⟨⟨m2, r2⟩, c2⟩, e2, h⟩ := Out.bind_eq_ok.1 h
      obtain ⟨g2, k2⟩ := ih _ _ _ _ g1.inv e2
      cases h
      refine ⟨(g1.trans g2).le (by omega), fun a ha => ?_⟩
      obtain ⟨h1, h2, d, h3, h4⟩ := k2 a ha
      exact ⟨h1, h2, c1 + d, by omega, g1.adds.trans h4⟩
    cases r1 with
    | none => exact next rfl h
    | some q =>
      obtain ⟨ks, e⟩ := q
      dsimp only at h
      split at h
      · rename_i hall
        cases h
        refine ⟨g1.le (by omega), fun a ha => ?_⟩
        cases ha
        refine ⟨k1 _ _ rfl, fun h => ?_, c1, by omega, g1.adds⟩
        simpa [h] using hall
      · exact next rfl h

theorem upd_keeps (m : Memo β V) (k : β × Nat) (r : Option (Resp β V)) : Keeps m (upd m k (some r)) := by
  intro k' hk
  by_cases h : k' = k
  · simp [upd, h]
  · simpa [upd, h] using hk

theorem upd_adds (m : Memo β V) (k : β × Nat) (r : Option (Resp β V)) : Adds m (upd m k (some r)) 1 := by
  refine ⟨[k], by simp, fun k' hk => ?_⟩
  by_cases h : k' = k
  · exact .inr (by simp [h])
  · exact .inl (by simpa [upd, h] using hk)

theorem upd_inv {m : Memo β V} (h : Inv prods lxs m) {s : β} {pos : Nat} {r : Option (Resp β V)}
    (hr : ∀ a, r = some a → Cov prods lxs (upd m (s, pos) (some r)) pos a.stop) : Inv prods lxs (upd m (s, pos) (some r)) := by
  intro s' pos' a ha
  by_cases hk : (s', pos') = (s, pos)
  · cases hk
    simp only [upd, if_pos] at ha
    exact hr a (by simpa using ha)
  · simp only [upd, if_neg hk] at ha
    exact (h s' pos' a ha).keep (upd_keeps _ _ _)

theorem accept_good (ev : V) : ∀ n all, Call prods lxs (fun m X p => acceptC ev prods lxs n m X p all) := by
  intro n
  induction n with
  | zero => intro all m X p m' r c _ h; simp [acceptC] at h
  | succ n ih =>
    intro all m X p m' r c hi h
    simp only [acceptC] at h
    split at h
    · rename_i r0 hr0
      cases h
      refine ⟨.refl hi _, fun a ha => ?_⟩
      subst ha
      exact hi _ _ _ hr0
    · obtain ⟨⟨⟨m1, r1⟩, c1⟩, e1, h⟩ := Out.bind_eq_ok.1 h
      cases h
      dsimp only
      have key : Good prods lxs m m1 c1 ∧ ∀ a, r1 = some a → Cov prods lxs (upd m1 (X, p) (some r1)) p a.stop := by
        unfold tryAcceptC at e1
        split at e1
        · rename_i hp
          have hm : m1 = m ∧ ∀ a, r1 = some a → ∃ l, lxs[p]? = some l ∧ X = l.kind ∧ a.stop = p + 1 := by
            split at e1
            · rename_i l hl
              split at e1
              · rename_i hk
                cases e1
                exact ⟨rfl, fun a ha => by cases ha; exact ⟨l, hl, hk, rfl⟩⟩
              · cases e1; exact ⟨rfl, fun a ha => by cases ha⟩
            · cases e1; exact ⟨rfl, fun a ha => by cases ha⟩
          obtain ⟨rfl, hm⟩ := hm
          refine ⟨.refl hi _, fun a ha x h1 h2 => ?_⟩
          obtain ⟨l, hl, rfl, hs⟩ := hm a ha
          obtain rfl : x = p := by omega
          exact ⟨l, hl, hp, by simp [upd]⟩
        · obtain ⟨g1, k1⟩ := prodsLoop_good (ih false) ev _ _ _ _ _ _ _ _ _ hi e1
          exact ⟨g1, fun a ha => (k1 a ha).1.keep (upd_keeps _ _ _)⟩
      obtain ⟨g1, k1⟩ := key
      refine ⟨⟨upd_inv g1.inv k1, g1.keeps.trans (upd_keeps _ _ _), (g1.adds.trans (upd_adds _ _ _)).le (by omega)⟩, k1⟩

/-- A response of the root over all lexemes costs two more calls than there are lexemes. -/
theorem root_least (ev : V) {n : Nat} {S : β} {ps} (hS : prods S = some ps) {m a c}
    (h : acceptC ev prods lxs n (fun _ => none) S 0 true = .ok ((m, some a), c)) : lxs.length + 2 ≤ c := by
  cases n with
  | zero => simp [acceptC] at h
  | succ n =>
    simp only [acceptC] at h
    obtain ⟨⟨⟨m1, r1⟩, c1⟩, e1, h⟩ := Out.bind_eq_ok.1 h
    cases h
    dsimp only
    simp only [tryAcceptC, hS] at e1
    have hi : Inv prods lxs (fun _ => none) := fun _ _ _ h => by cases h
    obtain ⟨g1, k1⟩ := prodsLoop_good (accept_good ev n false) ev _ _ _ _ _ _ _ _ _ hi e1
    obtain ⟨hcov, hlen, d, hd, L, hL, hmem⟩ := k1 a rfl
    have hlen := hlen rfl
    rw [hlen] at hcov
    suffices lxs.length ≤ L.length by omega
    have : (lxs.zipIdx.map fun x => (x.1.kind, x.2)).length ≤ L.length := by
      refine List.Subperm.length_le (List.subperm_of_subset ?_ ?_)
      · refine List.Nodup.of_map Prod.snd ?_
        rw [List.map_map]
        have : (Prod.snd ∘ fun x : Lexeme β V × Nat => (x.1.kind, x.2)) = Prod.snd := rfl
        rw [this, List.zipIdx_map_snd]
        exact List.nodup_range'
      · intro k hk
        obtain ⟨⟨l, x⟩, hx, rfl⟩ := List.mem_map.1 hk
        have hx := List.mk_mem_zipIdx_iff_getElem?.1 hx
        obtain ⟨l', e, -, hm⟩ := hcov x (Nat.zero_le _) (List.getElem?_eq_some_iff.1 hx).1
        rw [hx] at e
        cases e
        rcases hmem _ hm with h | h
        · exact absurd rfl h
        · exact h
    simpa using this

end memo

variable {α V : Type} [DecidableEq α]

/-- **C88**, from below: a tree costs at least two more calls than there are lexemes, so the linear bound cannot be
improved to less than that. -/
theorem C88_least (ev : V) (g : Grammar α) (hg : g.WF) (ls : List (Lexeme α V)) {n t c}
    (h : parseC ev g ls n = .ok (some t, c)) : ls.length + 2 ≤ c := by
  cases ho : g.order with
  | nil => simp only [parseC, ho] at h; cases h
  | cons S rest =>
    obtain ⟨s, es, hs, hls, h0⟩ := loadSet_ok g hg ls
    have hS : S ∈ s.symb2str := List.mem_of_getElem? (h0 S (by simp [ho]))
    obtain ⟨ps, hps⟩ := Option.isSome_iff_exists.1 ((hg S).2 (by simp [ho] : S ∈ g.order))
    have hpi : idxProds g s (symIdx s S) = some (ps.map (·.map (symIdx s))) := by
      rw [idxProds_symIdx hs.inv hS, hps]; rfl
    simp only [parseC, ho, es, Out.bind_ok] at h
    obtain ⟨⟨⟨m, q⟩, c'⟩, e, h⟩ := Out.bind_eq_ok.1 h
    cases q with
    | none => cases h
    | some a =>
      obtain ⟨t, _, h⟩ := Out.bind_eq_ok.1 h
      cases h
      simpa using root_least ev hpi e

/-- Eight lexemes, 37 calls (see C88_said). -/
example {n t c} (h : parseC 0 gEx (lex [0, 0, 0, 3, 2, 2, 2, 2]) n = .ok (some t, c)) : 10 ≤ c := C88_least 0 gEx gEx_wf _ h

end Verif.Props.TopdownLeast
