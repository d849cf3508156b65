import Verif.Proofs.SimpleLexerHist
import Verif.Spec.LexerHistory
/- Which histories of a simple lexer leave a gap in its table of rules. -/
namespace Verif.SimpleLexer
open Verif Verif.Spec Verif.SetSymbol

/-- What a call says about kinds. -/
def mentions (l : Lexer) : Call → List (Bytes × Bool)
  | .add k _ _ => [(k, true)]
  | .lex b =>
    match lex (b.length + 1) l b with
    | .ok (lxs, _) => if lxs.any (·.err) then [(l.error, false)] else []
    | _ => []
  | _ => []

/-- What a history says about kinds. -/
def trace (l : Lexer) : List Call → List (Bytes × Bool)
  | [] => []
  | c :: cs => mentions l c ++ match call l c with | .ok l' => trace l' cs | _ => []

structure Hist (l : Lexer) (tr : List (Bytes × Bool)) : Prop where
  tab : Tab l
  known : ∀ s, s ∈ l.set.symb2str ↔ s ∈ tr.map Prod.fst
  ruled : ∀ (i : Nat) s, l.set.symb2str[i]? = some s → ((∃ r, l.rules[i]? = some (some r)) ↔ (s, true) ∈ tr)
  last : ∀ i : Nat, i + 1 = l.rules.length → ∃ r, l.rules[i]? = some (some r)
  early : ∀ (i j : Nat) s t, i < j → l.set.symb2str[i]? = some s → l.set.symb2str[j]? = some t →
    ∃ t1 t2, tr = t1 ++ t2 ∧ s ∈ t1.map Prod.fst ∧ t ∉ t1.map Prod.fst
  ordered : ∀ k ∈ l.order, ∃ r, l.rules[k]? = some (some r)

theorem hist_empty : Hist empty [] := ⟨tab_empty, by simp [empty, SetSymbol.new], by simp [empty, SetSymbol.new], by simp [empty], by simp [empty, SetSymbol.new], by simp [empty]⟩

theorem Hist.full_iff {l tr} (h : Hist l tr) : Full l ↔ ¬ ErrorBeforeNew tr := by
  constructor
  · rintro hF ⟨t1, t2, e, k, rfl, h1, h2, h3, h4⟩
    have he : e ∈ l.set.symb2str := (h.known e).2 (List.mem_map.2 ⟨(e, false), by simp [h1], rfl⟩)
    have hk : k ∈ l.set.symb2str := (h.known k).2 (List.mem_map.2 ⟨(k, true), by simp [h3], rfl⟩)
    obtain ⟨i, hi⟩ := List.mem_iff_getElem?.1 he
    obtain ⟨j, hj⟩ := List.mem_iff_getElem?.1 hk
    obtain ⟨r, hr⟩ := (h.ruled j k hj).2 (by simp [h3])
    have hne : ¬ ∃ r, l.rules[i]? = some (some r) := fun hh => h2 ((h.ruled i e hi).1 hh)
    have hjl := (List.getElem?_eq_some_iff.1 hr).1
    rcases Nat.lt_trichotomy i j with hlt | rfl | hlt
    · cases hc : l.rules[i]? with
      | none => rw [List.getElem?_eq_none_iff] at hc; omega
      | some o =>
        cases o with
        | none => exact hF (List.mem_of_getElem? hc)
        | some r => exact hne ⟨r, hc⟩
    · exact hne ⟨r, hr⟩
    · obtain ⟨u1, u2, eu, hs, ht⟩ := h.early j i k e hlt hj hi
      have he1 : e ∈ t1.map Prod.fst := List.mem_map.2 ⟨_, h1, rfl⟩
      rcases List.append_eq_append_iff.1 eu with ⟨a, rfl, _⟩ | ⟨a, rfl, _⟩
      · exact ht (by rw [List.map_append]; exact List.mem_append_left _ he1)
      · exact h4 (by rw [List.map_append]; exact List.mem_append_left _ hs)
  · intro hg hm
    obtain ⟨i, hi⟩ := List.mem_iff_getElem?.1 hm
    have hil := (List.getElem?_eq_some_iff.1 hi).1
    obtain ⟨r, hr⟩ := h.last (l.rules.length - 1) (by omega)
    have hij : i < l.rules.length - 1 := by
      rcases Nat.lt_or_ge i (l.rules.length - 1) with hlt | hge
      · exact hlt
      · have : i = l.rules.length - 1 := by omega
        rw [this, hr] at hi
        cases hi
    have hle := h.tab.le
    obtain ⟨e, he⟩ : ∃ e, l.set.symb2str[i]? = some e := ⟨_, List.getElem?_eq_getElem (by omega)⟩
    obtain ⟨k, hk⟩ : ∃ k, l.set.symb2str[l.rules.length - 1]? = some k := ⟨_, List.getElem?_eq_getElem (by omega)⟩
    obtain ⟨t1, t2, rfl, h1, h2⟩ := h.early _ _ e k hij he hk
    have hne : (e, true) ∉ t1 ++ t2 := fun hh => by
      obtain ⟨r, hr⟩ := (h.ruled i e he).2 hh
      rw [hi] at hr
      cases hr
    have hkt := (h.ruled _ k hk).1 ⟨r, hr⟩
    refine hg ⟨t1, t2, e, k, rfl, ?_, hne, ?_, h2⟩
    · obtain ⟨⟨e', b⟩, hm, rfl⟩ := List.mem_map.1 h1
      cases b with
      | true => exact absurd (List.mem_append_left _ hm) hne
      | false => exact hm
    · rcases List.mem_append.1 hkt with hh | hh
      · exact absurd (List.mem_map.2 ⟨_, hh, rfl⟩) h2
      · exact hh

/-- A kind is mentioned. -/
theorem Hist.mention {l tr} (h : Hist l tr) (x : Bytes) (b : Bool) :
    (∀ s, s ∈ (str l.set x).1.symb2str ↔ s ∈ (tr ++ [(x, b)]).map Prod.fst) ∧
    ∀ (i j : Nat) s t, i < j → (str l.set x).1.symb2str[i]? = some s → (str l.set x).1.symb2str[j]? = some t →
      ∃ t1 t2, tr ++ [(x, b)] = t1 ++ t2 ∧ s ∈ t1.map Prod.fst ∧ t ∉ t1.map Prod.fst := by
  rw [str_table _ h.tab.inv]
  split
  · next hx =>
    constructor
    · intro s
      rw [h.known, List.map_append, List.mem_append]
      refine ⟨.inl, ?_⟩
      rintro (hs | hs)
      · exact hs
      · rw [List.mem_singleton.1 hs]
        exact (h.known x).1 hx
    · intro i j s t hij hs ht
      obtain ⟨t1, t2, rfl, h1, h2⟩ := h.early i j s t hij hs ht
      exact ⟨t1, t2 ++ [(x, b)], by simp, h1, h2⟩
  · next hx =>
    constructor
    · intro s
      rw [List.mem_append, h.known, List.map_append, List.mem_append]
      simp
    · intro i j s t hij hs ht
      have hjl := (List.getElem?_eq_some_iff.1 ht).1
      rw [List.length_append, List.length_singleton] at hjl
      rw [List.getElem?_append_left (by omega)] at hs
      rcases Nat.lt_or_ge j l.set.symb2str.length with hlt | hge
      · rw [List.getElem?_append_left hlt] at ht
        obtain ⟨t1, t2, rfl, h1, h2⟩ := h.early i j s t hij hs ht
        exact ⟨t1, t2 ++ [(x, b)], by simp, h1, h2⟩
      · have : j = l.set.symb2str.length := by omega
        subst this
        simp at ht
        subst ht
        refine ⟨tr, [(x, b)], rfl, (h.known s).1 (List.mem_of_getElem? hs), fun hm => hx ((h.known x).2 hm)⟩

theorem Hist.add {l tr} (h : Hist l tr) (k : Bytes) (re : Re) (d : Bool) : Hist (add l k re d).1 (tr ++ [(k, true)]) := by
  obtain ⟨hk1, hk2⟩ := h.mention k true
  have hT := tab_add h.tab k re d
  rcases add_cases h.tab k re d with ⟨i, r, h1, h2, e⟩ | ⟨i, hi, hne, e⟩
  · have hs : (str l.set k).1 = l.set := str_present h.tab.inv (List.mem_of_getElem? h1)
    rw [hs] at hk1 hk2
    have hin := (h.ruled i k h1).1 ⟨r, h2⟩
    rw [e]
    refine ⟨h.tab, hk1, fun j s hj => ?_, h.last, hk2, h.ordered⟩
    rw [h.ruled j s hj, List.mem_append]
    refine ⟨.inl, ?_⟩
    rintro (hh | hh)
    · exact hh
    · cases List.mem_singleton.1 hh
      exact hin
  · have hidx := str_idx h.tab.inv k
    rw [hi] at hidx
    rw [e] at hT ⊢
    have hlen : (l.rules ++ List.replicate (1 + i - l.rules.length) none).length = max l.rules.length (i + 1) := by
      simp only [List.length_append, List.length_replicate]
      omega
    have hget : ∀ j : Nat, j ≠ i → ∀ r, ((l.rules ++ List.replicate (1 + i - l.rules.length) none).set i
        (some ⟨i, re, d, l.priorityCounter⟩))[j]? = some (some r) ↔ l.rules[j]? = some (some r) := by
      intro j hj r
      rw [List.getElem?_set_ne (Ne.symm hj), List.getElem?_append]
      split
      · rfl
      · next hge =>
        rw [List.getElem?_replicate]
        constructor
        · intro hh
          split at hh <;> cases hh
        · intro hh
          have := (List.getElem?_eq_some_iff.1 hh).1
          omega
    have hself : ((l.rules ++ List.replicate (1 + i - l.rules.length) none).set i
        (some ⟨i, re, d, l.priorityCounter⟩))[i]? = some (some ⟨i, re, d, l.priorityCounter⟩) := by
      rw [List.getElem?_set_self (by rw [hlen]; omega)]
    refine ⟨hT, hk1, fun j s hj => ?_, fun j hj => ?_, hk2, fun j hj => ?_⟩
    · simp only at hj ⊢
      by_cases hji : j = i
      · subst hji
        rw [hidx] at hj
        cases hj
        exact ⟨fun _ => by simp, fun _ => ⟨_, hself⟩⟩
      · have hsk : s ≠ k := by
          rintro rfl
          have hinv := inv_str h.tab.inv s
          have e1 := (hinv.map s j).2 hj
          have e2 := (hinv.map s i).2 hidx
          rw [e1] at e2
          exact hji (Option.some.inj e2)
        have hold : (∃ r, l.rules[j]? = some (some r)) ↔ (s, true) ∈ tr := by
          rw [str_table _ h.tab.inv] at hj
          split at hj
          · exact h.ruled j s hj
          · rcases Nat.lt_or_ge j l.set.symb2str.length with hlt | hge
            · rw [List.getElem?_append_left hlt] at hj
              exact h.ruled j s hj
            · rw [List.getElem?_append_right hge] at hj
              have := List.mem_of_getElem? hj
              exact absurd (List.mem_singleton.1 this) hsk
        have : (s, true) ∈ tr ++ [(k, true)] ↔ (s, true) ∈ tr := by simp [hsk]
        rw [this, ← hold]
        constructor
        · rintro ⟨r, hr⟩
          exact ⟨r, (hget j hji r).1 hr⟩
        · rintro ⟨r, hr⟩
          exact ⟨r, (hget j hji r).2 hr⟩
    · simp only [List.length_set, hlen] at hj ⊢
      by_cases hji : j = i
      · subst hji
        exact ⟨_, hself⟩
      · obtain ⟨r, hr⟩ := h.last j (by omega)
        exact ⟨r, (hget j hji r).2 hr⟩
    · by_cases hji : j = i
      · subst hji
        exact ⟨_, hself⟩
      · have hj' : j ∈ l.order := by simpa [hji] using hj
        obtain ⟨r, hr⟩ := h.ordered j hj'
        exact ⟨r, (hget j hji r).2 hr⟩

theorem render_err (b : Bytes) (ek : Nat) : ∀ (p ln : Nat) (segs : List (Seg Rule)),
    (render b ek p ln segs).any (·.err) = segs.any Seg.isErr := by
  intro p ln segs
  induction segs generalizing p ln with
  | nil => rfl
  | cons s segs ih =>
    cases s with
    | tok r v => by_cases hd : r.discard = true <;> simp [render, hd, ih, Seg.isErr]
    | err v => simp [render, Seg.isErr]

theorem Hist.call {l l' tr} (h : Hist l tr) {c : Call} (e : call l c = .ok l') (hF : (∃ b, c = .lex b) → Full l) :
    Hist l' (tr ++ mentions l c) := by
  cases c with
  | add k re d =>
    cases e
    exact h.add k re d
  | lex b =>
    obtain ⟨segs, hs⟩ := lex_full h.tab (hF ⟨b, rfl⟩) b
    have hl := (hs l rfl rfl rfl _ (Nat.le_refl _)).1
    have hany : (pre l ++ render b (str l.set l.error).2 0 0 segs ++ post l).any (·.err) = segs.any Seg.isErr := by
      have h1 : (pre l).any (·.err) = false := by
        unfold pre; split <;> simp [insertLx]
      have h2 : (post l).any (·.err) = false := by
        unfold post; split <;> simp [insertLx]
      simp only [List.any_append, h1, h2, render_err, Bool.false_or, Bool.or_false]
    simp only [Verif.SimpleLexer.call, hl, Out.bind_ok, Out.ok.injEq] at e
    subst e
    simp only [mentions, hl, hany]
    split
    · obtain ⟨hk1, hk2⟩ := h.mention l.error false
      refine ⟨tab_set h.tab _, hk1, fun i s hi => ?_, h.last, hk2, h.ordered⟩
      have : (s, true) ∈ tr ++ [(l.error, false)] ↔ (s, true) ∈ tr := by simp
      rw [this]
      simp only at hi ⊢
      rw [str_table _ h.tab.inv] at hi
      split at hi
      · exact h.ruled i s hi
      · next hx =>
        rcases Nat.lt_or_ge i l.set.symb2str.length with hlt | hge
        · rw [List.getElem?_append_left hlt] at hi
          exact h.ruled i s hi
        · rw [List.getElem?_append_right hge] at hi
          have hse := List.mem_singleton.1 (List.mem_of_getElem? hi)
          have hle := h.tab.le
          constructor
          · rintro ⟨r, hr⟩
            have := (List.getElem?_eq_some_iff.1 hr).1
            omega
          · intro hm
            exact absurd ((h.known l.error).2 (List.mem_map.2 ⟨_, hm, hse⟩)) hx
    · rw [List.append_nil]
      exact h
  | byLength => cases e; rw [show mentions l .byLength = [] from rfl, List.append_nil]; exact ⟨⟨h.tab.inv, h.tab.kind, h.tab.le, .inl rfl⟩, h.known, h.ruled, h.last, h.early, h.ordered⟩
  | byPriority => cases e; rw [show mentions l .byPriority = [] from rfl, List.append_nil]; exact ⟨⟨h.tab.inv, h.tab.kind, h.tab.le, .inr rfl⟩, h.known, h.ruled, h.last, h.early, h.ordered⟩
  | insertStart k v => cases e; rw [show mentions l (.insertStart k v) = [] from rfl, List.append_nil]; exact ⟨⟨h.tab.inv, h.tab.kind, h.tab.le, h.tab.cmp⟩, h.known, h.ruled, h.last, h.early, h.ordered⟩
  | insertEnd k v => cases e; rw [show mentions l (.insertEnd k v) = [] from rfl, List.append_nil]; exact ⟨⟨h.tab.inv, h.tab.kind, h.tab.le, h.tab.cmp⟩, h.known, h.ruled, h.last, h.early, h.ordered⟩
  | setError x => cases e; rw [show mentions l (.setError x) = [] from rfl, List.append_nil]; exact ⟨⟨h.tab.inv, h.tab.kind, h.tab.le, h.tab.cmp⟩, h.known, h.ruled, h.last, h.early, h.ordered⟩

/-- With a gap, lexing panics. -/
theorem lex_gap {l : Lexer} (hF : ¬ Full l) (n : Nat) (b : Bytes) : lex n l b = .panic := by
  have : populateNext b l.rules = .panic := by
    have hm : none ∈ l.rules := Classical.byContradiction hF
    generalize l.rules = rules at hm
    induction rules with
    | nil => cases hm
    | cons r rs ih =>
      cases r with
      | none => rfl
      | some r =>
        have : none ∈ rs := by simpa using hm
        simp [populateNext, ih this, Out.bind]
  simp [lex, this, Out.bind]

theorem Hist.calls {h : List Call} : ∀ {l l' tr}, Hist l tr → calls l h = .ok l' → Hist l' (tr ++ trace l h) := by
  induction h with
  | nil =>
    intro l l' tr hh e
    cases e
    simpa [trace] using hh
  | cons c cs ih =>
    intro l l' tr hh e
    simp only [Verif.SimpleLexer.calls] at e
    obtain ⟨m, e1, e2⟩ := Out.bind_eq_ok.1 e
    have := hh.call e1 (by
      rintro ⟨b, rfl⟩
      refine Classical.byContradiction fun hF => ?_
      simp [Verif.SimpleLexer.call, lex_gap hF, Out.bind] at e1)
    simp only [trace, e1]
    rw [← List.append_assoc]
    exact ih this e2

end Verif.SimpleLexer
