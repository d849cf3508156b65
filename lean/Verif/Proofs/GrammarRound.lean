import Verif.Proofs.GrammarText
/- String followed by New. -/
namespace Verif.Grammar
open Verif.SetSymbol Verif.Spec

/-- A name that survives printing as a nonterminal. -/
structure GoodName (A : Str) : Prop where
  ne : A ≠ []
  trim : Trim A
  line : '\n' ∉ A
  free : ¬ arrow <:+: A

/-- A name that survives printing in a production. -/
def GoodTok (t : Str) : Prop := GoodName t ∧ ' ' ∉ t

theorem good_start : GoodName "START".toList := by
  refine ⟨by decide, ⟨by decide, by decide⟩, by decide, ?_⟩
  intro h
  have := h.subset (show '-' ∈ arrow by simp [arrow])
  revert this; decide

theorem tokens_good {s : Str} {ts} (h : Tokens s ts) (hl : '\n' ∉ s) (hf : ¬ arrow <:+: s) :
    ∀ t ∈ ts, GoodTok t := by
  intro t ht
  obtain ⟨h1, h2, h3, h4⟩ := tokens_mem h t ht
  exact ⟨⟨h1, h2, fun hm => hl (h4.subset hm), free_of_infix hf h4⟩, h3⟩

theorem line_good {s nt p} (h : Line s nt p) (hl : '\n' ∉ s) :
    (∀ A, nt = some A → GoodName A) ∧ ∀ ts, p = some ts → ∀ t ∈ ts, GoodTok t := by
  cases h with
  | blank => exact ⟨by simp, by simp⟩
  | plain _ hf ht =>
    exact ⟨by simp, by rintro ts ⟨⟩; exact tokens_good ht hl hf⟩
  | right e _ hb _ ht =>
    refine ⟨by simp, ?_⟩
    rintro ts ⟨⟩
    exact tokens_good ht (fun hm => hl (by rw [e]; simp [hm])) hb
  | rule e ha hb hA hne ht =>
    refine ⟨?_, ?_⟩
    · rintro A ⟨⟩
      have hin := trimsTo_infix hA
      refine ⟨hne, hA.1, fun hm => hl ?_, free_of_infix ha hin⟩
      have := hin.subset hm
      rw [e]; simp [this]
    · rintro ts ⟨⟩
      exact tokens_good ht (fun hm => hl (by rw [e]; simp [hm])) hb

/-- All names of a list of rules are good. -/
def GoodAdds (r : List (Str × List Str)) : Prop := ∀ x ∈ r, GoodName x.1 ∧ ∀ t ∈ x.2, GoodTok t

theorem rules_good {cur ls r} (h : Rules cur ls r) : (∀ l ∈ ls, '\n' ∉ l) → (∀ A, cur = some A → GoodName A) →
    GoodAdds r := by
  induction h with
  | nil => intro _ _ x hx; cases hx
  | blank _ _ ih => intro hl hc; exact ih (fun l h => hl l (by simp [h])) hc
  | rule hln _ ih =>
    intro hl hc
    obtain ⟨h1, h2⟩ := line_good hln (hl _ (by simp))
    intro x hx
    rcases List.mem_cons.1 hx with rfl | hx
    · exact ⟨h1 _ rfl, h2 _ rfl⟩
    · exact ih (fun l h => hl l (by simp [h])) (by rintro A ⟨⟩; exact h1 _ rfl) x hx
  | more hln _ ih =>
    intro hl hc
    obtain ⟨h1, h2⟩ := line_good hln (hl _ (by simp))
    intro x hx
    rcases List.mem_cons.1 hx with rfl | hx
    · exact ⟨hc _ rfl, h2 _ rfl⟩
    · exact ih (fun l h => hl l (by simp [h])) hc x hx
  | start hln _ ih =>
    intro hl hc
    obtain ⟨h1, h2⟩ := line_good hln (hl _ (by simp))
    intro x hx
    rcases List.mem_cons.1 hx with rfl | hx
    · exact ⟨good_start, h2 _ rfl⟩
    · exact ih (fun l h => hl l (by simp [h])) (by rintro A ⟨⟩; exact good_start) x hx

/-! ### Printed lines -/

theorem pieces_join {c : Char} : ∀ (ps : List Str), ps ≠ [] → (∀ p ∈ ps, c ∉ p) → Pieces c (join [c] ps) ps := by
  intro ps
  induction ps with
  | nil => intro h; exact absurd rfl h
  | cons p ps ih =>
    intro _ h
    cases ps with
    | nil => exact ⟨rfl, h p (by simp)⟩
    | cons q qs =>
      exact ⟨join [c] (q :: qs), by simp [join], h p (by simp), ih (by simp) fun p hp => h p (by simp [hp])⟩

theorem free_join {ps : List Str} (h : ∀ p ∈ ps, ¬ arrow <:+: p) : ¬ arrow <:+: join [' '] ps := by
  induction ps with
  | nil => exact free_nil
  | cons p ps ih =>
    cases ps with
    | nil => exact h p (by simp)
    | cons q qs =>
      simp only [join, List.append_assoc, List.singleton_append]
      exact free_mid isSpace_blank (h p (by simp)) (ih fun p hp => h p (by simp [hp]))

theorem mem_join {c : Char} {sep : Str} {ps : List Str} (h : c ∈ join sep ps) : c ∈ sep ∨ ∃ p ∈ ps, c ∈ p := by
  induction ps with
  | nil => cases h
  | cons p ps ih =>
    cases ps with
    | nil => exact .inr ⟨p, by simp, h⟩
    | cons q qs =>
      simp only [join, List.mem_append] at h
      rcases h with (h | h) | h
      · exact .inr ⟨p, by simp, h⟩
      · exact .inl h
      · rcases ih h with h | ⟨r, hr, h⟩
        · exact .inl h
        · exact .inr ⟨r, by simp [hr], h⟩

theorem trim_self {t : Str} (h : Trim t) : TrimsTo t t := ⟨h, [], [], by simp, by simp, by simp⟩

theorem zip_self_mem {l : List Str} {x} (h : x ∈ l.zip l) : x.1 = x.2 ∧ x.1 ∈ l := by
  induction l with
  | nil => cases h
  | cons a l ih =>
    simp only [List.zip_cons_cons, List.mem_cons] at h
    rcases h with rfl | h
    · exact ⟨rfl, by simp⟩
    · exact ⟨(ih h).1, by simp [(ih h).2]⟩

theorem tokens_join {p : List Str} (h : ∀ t ∈ p, GoodTok t) : Tokens (' ' :: join [' '] p) p := by
  have htr : Trim [] := ⟨by simp, by simp⟩
  cases p with
  | nil =>
    refine ⟨[[], []], [[], []], ⟨[], rfl, by simp, rfl, by simp⟩, rfl, ?_, by simp⟩
    intro x hx
    simp at hx
    subst hx
    exact trim_self htr
  | cons t ts =>
    refine ⟨[] :: t :: ts, [] :: t :: ts, ⟨_, rfl, by simp, pieces_join _ (by simp) fun p hp => (h p hp).2⟩, rfl, ?_, ?_⟩
    · intro x hx
      obtain ⟨e, hm⟩ := zip_self_mem hx
      rw [← e]
      rcases List.mem_cons.1 hm with e | hm
      · rw [e]; exact trim_self htr
      · exact trim_self (h _ hm).1.trim
    · rw [List.filter_cons_of_neg (by simp), List.filter_eq_self.2]
      intro t ht
      simpa using (h t ht).1.ne

theorem pad_spaces (n : Nat) : ∀ c ∈ List.replicate n ' ', isSpace c = true := by
  intro c hc
  rw [List.mem_replicate] at hc
  rw [hc.2]; exact isSpace_blank

theorem fmtLine_eq (w : Nat) (nt : Str) (p : List Str) :
    fmtLine w nt p = (nt ++ (List.replicate (w - nt.length) ' ' ++ [' '])) ++ arrow ++ (' ' :: join [' '] p) := by
  simp [fmtLine, pad, arrow]

theorem line_fmt_rule (w : Nat) {nt : Str} {p : List Str} (hn : GoodName nt) (hp : ∀ t ∈ p, GoodTok t) :
    Line (fmtLine w nt p) (some nt) (some p) := by
  have hsp : ∀ c ∈ List.replicate (w - nt.length) ' ' ++ [' '], isSpace c = true := by
    intro c hc
    rcases List.mem_append.1 hc with hc | hc
    · exact pad_spaces _ c hc
    · simp at hc; subst hc; exact isSpace_blank
  refine .rule (fmtLine_eq w nt p) (free_post hsp hn.free) ?_ ⟨hn.trim, [], _, by simp; rfl, by simp, ?_⟩ hn.ne
    (tokens_join hp)
  · exact free_mid (l := []) isSpace_blank free_nil (free_join fun t ht => (hp t ht).1.free)
  · exact hsp

theorem line_fmt_more (w : Nat) {p : List Str} (hp : ∀ t ∈ p, GoodTok t) :
    Line (fmtLine w [] p) none (some p) := by
  have hsp : ∀ c ∈ ([] : Str) ++ (List.replicate (w - ([] : Str).length) ' ' ++ [' ']), isSpace c = true := by
    intro c hc
    rcases List.mem_append.1 hc with hc | hc
    · cases hc
    · rcases List.mem_append.1 hc with hc | hc
      · exact pad_spaces _ c hc
      · simp at hc; subst hc; exact isSpace_blank
  refine .right (fmtLine_eq w [] p) (free_spaces hsp) ?_ hsp (tokens_join hp)
  exact free_mid (l := []) isSpace_blank free_nil (free_join fun t ht => (hp t ht).1.free)

theorem fmtLine_noline (w : Nat) {nt : Str} {p : List Str} (hn : '\n' ∉ nt) (hp : ∀ t ∈ p, '\n' ∉ t) :
    '\n' ∉ fmtLine w nt p := by
  rw [fmtLine_eq]
  intro h
  simp only [List.mem_append, List.mem_cons, List.mem_replicate, List.not_mem_nil, or_false] at h
  rcases h with ((h | h | h) | h) | h | h
  · exact hn h
  · exact absurd h.2 (by decide)
  · exact absurd h (by decide)
  · revert h; decide
  · exact absurd h (by decide)
  · rcases mem_join h with h | ⟨t, ht, h⟩
    · revert h; decide
    · exact hp t ht h

/-- Lines of one nonterminal read back. -/
theorem rules_fmtNT (w : Nat) {nt : Str} {p : List Str} {ps cur rest r} (hn : GoodName nt)
    (hp : ∀ q ∈ p :: ps, ∀ t ∈ q, GoodTok t) (h : Rules (some nt) rest r) :
    Rules cur (fmtNT w nt (p :: ps) ++ rest) ((p :: ps).map (fun q => (nt, q)) ++ r) := by
  refine .rule (line_fmt_rule w hn (hp p (by simp))) ?_
  replace hp : ∀ q ∈ ps, ∀ t ∈ q, GoodTok t := fun q hq => hp q (by simp [hq])
  clear p
  induction ps with
  | nil => exact h
  | cons q qs ih =>
    exact .more (line_fmt_more w (hp q (by simp))) (ih fun r hr => hp r (by simp [hr]))

theorem rules_render (w : Nat) (f : Str → List (List Str)) : ∀ (order : List Str) cur,
    (∀ nt ∈ order, GoodName nt ∧ f nt ≠ [] ∧ ∀ q ∈ f nt, ∀ t ∈ q, GoodTok t) →
    Rules cur (order.flatMap fun nt => fmtNT w nt (f nt)) (order.flatMap fun nt => (f nt).map fun q => (nt, q)) := by
  intro order
  induction order with
  | nil => intro _ _; exact .nil
  | cons nt order ih =>
    intro cur h
    obtain ⟨h1, h2, h3⟩ := h nt (by simp)
    have hrest := ih (some nt) fun x hx => h x (by simp [hx])
    simp only [List.flatMap_cons]
    cases e : f nt with
    | nil => exact absurd e h2
    | cons p ps => rw [e] at h3; exact rules_fmtNT w h1 h3 hrest

/-! ### The record of the printed rules -/

section
variable {α : Type} [DecidableEq α]

theorem record_order_nodup (adds : List (α × List α)) : (record adds).order.Nodup := by
  unfold record
  simp only
  have : ∀ (l o : List α), o.Nodup → (l.foldl (fun o A => if A ∈ o then o else o ++ [A]) o).Nodup := by
    intro l
    induction l with
    | nil => intro o h; exact h
    | cons x xs ih =>
      intro o h
      rw [List.foldl_cons]
      apply ih
      split
      · exact h
      · rename_i hx
        rw [List.nodup_append]
        exact ⟨h, by simp, by rintro a ha b hb rfl; simp at hb; subst hb; exact hx ha⟩
  exact this _ _ (by simp)

theorem record_prods_ne {adds : List (α × List α)} {A ps} (h : (record adds).prods A = some ps) : ps ≠ [] := by
  simp only [record] at h
  split at h
  · rename_i hm
    cases h
    obtain ⟨x, hx, e⟩ := List.mem_map.1 hm
    intro h
    have : x ∈ adds.filter (fun y => decide (y.1 = A)) := List.mem_filter.2 ⟨hx, by simpa using e⟩
    have := List.mem_map_of_mem (f := Prod.snd) this
    rw [h] at this
    cases this
  · cases h

theorem record_prods_mem {adds : List (α × List α)} {A ps} (h : (record adds).prods A = some ps) :
    ∀ p ∈ ps, (A, p) ∈ adds := by
  simp only [record] at h
  split at h
  · cases h
    intro p hp
    obtain ⟨x, hx, rfl⟩ := List.mem_map.1 hp
    obtain ⟨h1, h2⟩ := List.mem_filter.1 hx
    have h2 : x.1 = A := by simpa using h2
    rw [← h2]; exact h1
  · cases h

theorem foldl_same (x : α) : ∀ (l o : List α), (∀ y ∈ l, y = x) → x ∈ o →
    l.foldl (fun o A => if A ∈ o then o else o ++ [A]) o = o := by
  intro l
  induction l with
  | nil => intro o _ _; rfl
  | cons y l ih =>
    intro o h hx
    have hy := h y (by simp)
    subst hy
    rw [List.foldl_cons, if_pos hx, ih o (fun z hz => h z (by simp [hz])) hx]

theorem record_flat_order (f : α → List (List α)) : ∀ (order : List α), order.Nodup → (∀ x ∈ order, f x ≠ []) →
    ∀ o : List α, (∀ x ∈ order, x ∉ o) →
    ((order.flatMap fun nt => (f nt).map fun q => (nt, q)).map (·.1)).foldl
      (fun o A => if A ∈ o then o else o ++ [A]) o = o ++ order := by
  intro order
  induction order with
  | nil => intro _ _ o _; simp
  | cons x order ih =>
    intro hn hne o ho
    obtain ⟨hx, hn⟩ := List.nodup_cons.1 hn
    simp only [List.flatMap_cons, List.map_append, List.foldl_append]
    cases e : f x with
    | nil => exact absurd e (hne x (by simp))
    | cons q qs =>
      simp only [List.map_cons, List.foldl_cons, if_neg (ho x (by simp))]
      rw [foldl_same x _ (o ++ [x]) (by
        intro y hy
        simp only [List.map_map, List.mem_map, Function.comp] at hy
        obtain ⟨_, _, rfl⟩ := hy; rfl) (by simp)]
      rw [ih hn (fun y hy => hne y (by simp [hy])) (o ++ [x]) (by
        intro y hy hm
        rcases List.mem_append.1 hm with hm | hm
        · exact ho y (by simp [hy]) hm
        · simp at hm; subst hm; exact hx hy)]
      simp

theorem record_flat_filter (f : α → List (List α)) (A : α) : ∀ (order : List α), order.Nodup →
    (((order.flatMap fun nt => (f nt).map fun q => (nt, q)).filter (fun y => decide (y.1 = A))).map (·.2)) =
      if A ∈ order then f A else [] := by
  intro order
  induction order with
  | nil => simp
  | cons x order ih =>
    intro hn
    obtain ⟨hx, hn⟩ := List.nodup_cons.1 hn
    simp only [List.flatMap_cons, List.filter_append, List.map_append, ih hn]
    by_cases h : x = A
    · subst h
      have : ((f x).map fun q => (x, q)).filter (fun y => decide (y.1 = x)) = (f x).map fun q => (x, q) := by
        rw [List.filter_eq_self]
        intro y hy
        obtain ⟨_, _, rfl⟩ := List.mem_map.1 hy
        simp
      simp [this, hx, Function.comp_def]
    · have h' : ¬ A = x := fun e => h e.symm
      have : ((f x).map fun q => (x, q)).filter (fun y => decide (y.1 = A)) = [] := by
        rw [List.filter_eq_nil_iff]
        intro y hy
        obtain ⟨_, _, rfl⟩ := List.mem_map.1 hy
        simpa using h
      simp [this, h']

/-- Listing the productions nonterminal by nonterminal records the same grammar. -/
theorem record_flat (adds : List (α × List α)) :
    record ((record adds).order.flatMap fun nt => (((record adds).prods nt).getD []).map fun q => (nt, q)) =
      record adds := by
  have hsome : ∀ x ∈ (record adds).order, ∃ ps, (record adds).prods x = some ps := fun x hx =>
    Option.isSome_iff_exists.1 ((record_wf adds x).2 hx)
  have hne : ∀ x ∈ (record adds).order, ((record adds).prods x).getD [] ≠ [] := by
    intro x hx
    obtain ⟨ps, e⟩ := hsome x hx
    rw [e]; exact record_prods_ne e
  have ho := record_flat_order (fun nt => ((record adds).prods nt).getD []) _ (record_order_nodup adds) hne [] (by simp)
  have hord : (record ((record adds).order.flatMap fun nt => (((record adds).prods nt).getD []).map fun q => (nt, q))).order =
      (record adds).order := by simpa [record] using ho
  have hp : (record ((record adds).order.flatMap fun nt => (((record adds).prods nt).getD []).map fun q => (nt, q))).prods =
      (record adds).prods := by
    funext A
    have hm := record_mem_order ((record adds).order.flatMap fun nt => (((record adds).prods nt).getD []).map fun q => (nt, q)) A
    rw [hord] at hm
    have hf := record_flat_filter (fun nt => ((record adds).prods nt).getD []) A _ (record_order_nodup adds)
    generalize hl : ((record adds).order.flatMap fun nt => (((record adds).prods nt).getD []).map fun q => (nt, q)) = L
      at hm hf ⊢
    by_cases hA : A ∈ (record adds).order
    · obtain ⟨ps, e⟩ := hsome A hA
      rw [if_pos hA] at hf
      have : (record L).prods A = some ps := by
        simp only [record]
        rw [if_pos (hm.1 hA), hf, e]; rfl
      rw [this, e]
    · have : (record L).prods A = none := by
        simp only [record]
        rw [if_neg fun h => hA (hm.2 h)]
      rw [this]
      cases e : (record adds).prods A with
      | none => rfl
      | some ps => exact absurd ((record_wf adds A).1 (by simp [e])) hA
  cases h : record ((record adds).order.flatMap fun nt => (((record adds).prods nt).getD []).map fun q => (nt, q)) with
  | mk o p =>
    rw [h] at hord hp
    simp only at hord hp
    rw [hord, hp]

end

/-! ### String -/

theorem readAll_ok {g : Gram Str} {adds} (h : Rep g adds) : ∀ nts, readAll g nts =
    .ok (nts.map fun nt => (nt, ((record adds).prods nt).getD [])) := by
  intro nts
  induction nts with
  | nil => rfl
  | cons nt nts ih =>
    obtain ⟨_, _, _, e⟩ := h.productions (false, nt)
    have e : readProductions g (.other nt) = .ok ((record adds).prods nt) := e
    simp [readAll, e, ih]

theorem string_ok {g : Gram Str} {adds} (h : Rep g adds) : ∃ w, string g = .ok (join ['\n']
    ((record adds).order.flatMap fun nt => fmtNT w nt (((record adds).prods nt).getD []))) := by
  simp only [string, h.nonTerminals, Out.bind_ok, readAll_ok h, List.flatMap_map]
  exact ⟨_, rfl⟩

/-- Printing and reading back a grammar with good names. -/
theorem string_new {g : Gram Str} {adds} (h : Rep g adds) (hg : GoodAdds adds) :
    ∃ txt g', string g = .ok txt ∧ new txt = some g' ∧ ∃ adds', Rep g' adds' ∧ record adds' = record adds := by
  obtain ⟨w, hs⟩ := string_ok h
  have hgood : ∀ nt ∈ (record adds).order, GoodName nt ∧ (((record adds).prods nt).getD []) ≠ [] ∧
      ∀ q ∈ ((record adds).prods nt).getD [], ∀ t ∈ q, GoodTok t := by
    intro nt hnt
    obtain ⟨ps, e⟩ := Option.isSome_iff_exists.1 ((record_wf adds nt).2 hnt)
    rw [e, Option.getD_some]
    refine ⟨?_, record_prods_ne e, ?_⟩
    · obtain ⟨x, hx, rfl⟩ := List.mem_map.1 ((record_mem_order adds nt).1 hnt)
      exact (hg x hx).1
    · intro q hq
      exact (hg _ (record_prods_mem e q hq)).2
  have hr := rules_render w (fun nt => ((record adds).prods nt).getD []) (record adds).order none hgood
  have hlines : ∀ l ∈ (record adds).order.flatMap fun nt => fmtNT w nt (((record adds).prods nt).getD []), '\n' ∉ l := by
    intro l hl
    obtain ⟨nt, hnt, hl⟩ := List.mem_flatMap.1 hl
    obtain ⟨h1, h2, h3⟩ := hgood nt hnt
    cases e : ((record adds).prods nt).getD [] with
    | nil => exact absurd e h2
    | cons p ps =>
      rw [e] at hl h3
      rcases List.mem_cons.1 hl with rfl | hl
      · exact fmtLine_noline w h1.line fun t ht => (h3 p (by simp) t ht).1.line
      · obtain ⟨q, hq, rfl⟩ := List.mem_map.1 hl
        exact fmtLine_noline w (by simp) fun t ht => (h3 q (by simp [hq]) t ht).1.line
  have hrules : ∃ r, Rules none (split '\n' (join ['\n']
      ((record adds).order.flatMap fun nt => fmtNT w nt (((record adds).prods nt).getD [])))) r ∧
      record r = record adds := by
    by_cases hne : ((record adds).order.flatMap fun nt => fmtNT w nt (((record adds).prods nt).getD [])) = []
    · have hord : (record adds).order = [] := by
        cases e : (record adds).order with
        | nil => rfl
        | cons nt o =>
          exfalso
          rw [e] at hne hgood
          obtain ⟨_, h2, _⟩ := hgood nt (by simp)
          simp only [List.flatMap_cons, List.append_eq_nil_iff] at hne
          cases e2 : ((record adds).prods nt).getD [] with
          | nil => exact absurd e2 h2
          | cons p ps => rw [e2] at hne; cases hne.1
      rw [hne]
      refine ⟨[], .blank (.blank (by simp)) .nil, ?_⟩
      have := record_flat adds
      rw [hord] at this
      exact this
    · rw [← pieces_unique (pieces_join _ hne hlines)]
      exact ⟨_, hr, record_flat adds⟩
  obtain ⟨r, hrules, hrec⟩ := hrules
  rcases new_spec (join ['\n']
      ((record adds).order.flatMap fun nt => fmtNT w nt (((record adds).prods nt).getD []))) with ⟨⟨l, hl, hb⟩, _⟩ | ⟨g', r', e, h1, h2⟩
  · exact absurd hb (rules_not_bad hrules l hl)
  · have := rules_unique hrules h1
    subst this
    exact ⟨_, g', hs, e, r, h2, hrec⟩

end Verif.Grammar
