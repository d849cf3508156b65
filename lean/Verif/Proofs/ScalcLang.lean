import Verif.Proofs.ScalcRed
import Verif.Props.Packrat
/- The sentences of the grammar of the stack calculator are the programs, and what `Eval` does with lexemes. -/
namespace Verif.Scalc
open Verif Verif.Spec Verif.Spec.Scalc

variable {N : Type}

/-- Kinds of tokens as the lexer names them. -/
def kn : Kind → Str
  | .int => "int".toList
  | .dec => "dec".toList
  | .uop => "uop".toList
  | .bop => "bop".toList
  | .sop => "sop".toList
  | .smp => "smp".toList
  | .choice => "?".toList
  | .opening => "(".toList
  | .closing => ")".toList

/-- Parts of programs as the grammar names them. -/
def pn : Part → Str
  | .stack => "Stack".toList
  | .value => "E".toList
  | .unary => "Uop".toList
  | .binary => "Bop".toList
  | .fold => "Sop".toList
  | .manip => "Smp".toList

theorem kn_inj {a b : Kind} (h : kn a = kn b) : a = b := by
  cases a <;> cases b <;> first | rfl | exact absurd h (by decide)

theorem pn_inj {a b : Part} (h : pn a = pn b) : a = b := by
  cases a <;> cases b <;> first | rfl | exact absurd h (by decide)

theorem kn_no (k : Kind) : kn k ∉ sTable.map (·.1) := by cases k <;> decide

theorem SOK.term {G} (h : SOK G) (k : Kind) : G.Term (kn k) := h.other (kn_no k)

theorem SOK.rule {G} (h : SOK G) {A : Str} {ps : List (List Str)} {p : List Str} (hm : (A, ps) ∈ sTable) (hp : p ∈ ps) :
    ∃ k, G.Rule A k p := by
  obtain ⟨k, hk⟩ := List.mem_iff_getElem?.1 hp
  exact ⟨k, ps, h.prods _ hm, hk⟩

theorem derives_append {G : Grammar Str} {a b : List Str} {u v : List Str} (h : G.Derives a u) (h' : G.Derives b v) : G.Derives (a ++ b) (u ++ v) := by
  induction h with
  | nil => exact h'
  | term ht _ ih => exact .term ht ih
  | nonterm hr hp _ _ ih => rw [List.append_assoc]; exact .nonterm hr hp ih

theorem derives_one {G : Grammar Str} {A : Str} {k p w} (hr : G.Rule A k p) (h : G.Derives p w) : G.Derives [A] w := by
  have := Grammar.Derives.nonterm (ss := []) (v := []) hr h .nil
  rwa [List.append_nil] at this

theorem derives_is {G : Grammar Str} (hG : SOK G) {q : Part} {w : List Kind} (h : Is q w) : G.Derives [pn q] (w.map kn) := by
  have use : ∀ {A : Str} (p : List Str) {w}, (sTable.any fun x => decide (x.1 = A) && decide (p ∈ x.2)) = true → G.Derives p w → G.Derives [A] w := by
    intro A p w h1 h3
    obtain ⟨⟨A', ps⟩, hm, h2⟩ := List.any_eq_true.1 h1
    simp only [Bool.and_eq_true, decide_eq_true_eq] at h2
    obtain ⟨rfl, h2⟩ := h2
    obtain ⟨k, hk⟩ := hG.rule hm h2
    exact derives_one hk h3
  have tk : ∀ {k ss w}, G.Derives ss w → G.Derives (kn k :: ss) (kn k :: w) := fun h => .term (hG.term _) h
  have cat : ∀ {A : Str} {ss u v}, G.Derives [A] u → G.Derives ss v → G.Derives (A :: ss) (u ++ v) := fun h h' => derives_append h h'
  induction h with
  | none => exact use [] (by decide) .nil
  | push _ _ iha ihb => rw [List.map_append]; exact use [pn .value, pn .stack] (by decide) (cat iha ihb)
  | paren _ _ _ iha ihb ihc =>
    simp only [List.map_append, List.map_cons]
    have hP : ∀ {b}, G.Derives [pn .stack] b → G.Derives ["P".toList] (kn .opening :: (b ++ [kn .closing])) := fun hb =>
      use [kn .opening, pn .stack, kn .closing] (by decide) (tk (k := .opening) (cat hb (tk (k := .closing) .nil)))
    have := use (A := pn .stack) [pn .stack, "P".toList, pn .stack] (by decide) (cat iha (cat (hP ihb) ihc))
    simpa only [List.cons_append, List.append_assoc, List.nil_append] using this
  | manip _ _ iha ihb => rw [List.map_append]; exact use [pn .stack, pn .manip] (by decide) (cat iha ihb)
  | int => exact use ["Number".toList] (by decide) (use [kn .int] (by decide) (tk .nil))
  | dec => exact use ["Number".toList] (by decide) (use [kn .int, kn .dec] (by decide) (tk (tk .nil)))
  | un _ _ iha ihb => rw [List.map_append]; exact use [pn .value, pn .unary] (by decide) (cat iha ihb)
  | bin _ _ _ iha ihb ihc =>
    rw [List.map_append, List.map_append]
    exact use [pn .value, pn .value, pn .binary] (by decide) (cat iha (cat ihb ihc))
  | fold _ _ iha ihb => rw [List.map_append]; exact use [pn .stack, pn .fold] (by decide) (cat iha ihb)
  | cond _ _ _ iha ihb ihc =>
    simp only [List.map_append]
    exact use [pn .value, pn .value, pn .value, kn .choice] (by decide) (cat iha (cat ihb (cat ihc (tk .nil))))
  | @op q k h =>
    have hd : ∀ x ∈ operators, (sTable.any fun y => decide (y.1 = pn x.1) && decide ([kn x.2] ∈ y.2)) = true := by decide
    exact use [kn k] (hd _ h) (tk .nil)
  | @choose q k a b c h _ _ _ iha ihb ihc =>
    simp only [List.map_append]
    have hd : ∀ x ∈ operators, (sTable.any fun y => decide (y.1 = pn x.1) && decide ([pn x.1, pn x.1, pn .value, kn .choice] ∈ y.2)) = true := by
      decide
    exact use [pn q, pn q, pn .value, kn .choice] (hd _ h) (cat iha (cat ihb (cat ihc (tk .nil))))

/-- What a symbol stands for. -/
def For (s : Str) (w : List Kind) : Prop :=
  (∃ q, s = pn q ∧ Is q w) ∨ (s = "Number".toList ∧ (w = [.int] ∨ w = [.int, .dec])) ∨
  (s = "P".toList ∧ ∃ b, Is .stack b ∧ w = .opening :: (b ++ [.closing])) ∨ (∃ k, s = kn k ∧ w = [k])

theorem For.part {q : Part} {w : List Kind} (h : For (pn q) w) : Is q w := by
  rcases h with ⟨q', e, h⟩ | ⟨e, -⟩ | ⟨e, -⟩ | ⟨k, e, -⟩
  · rw [pn_inj e]; exact h
  · cases q <;> exact absurd e (by decide)
  · cases q <;> exact absurd e (by decide)
  · cases q <;> cases k <;> exact absurd e (by decide)

theorem For.tok {k : Kind} {w : List Kind} (h : For (kn k) w) : w = [k] := by
  rcases h with ⟨q, e, -⟩ | ⟨e, -⟩ | ⟨e, -⟩ | ⟨k', e, h⟩
  · cases q <;> cases k <;> exact absurd e (by decide)
  · cases k <;> exact absurd e (by decide)
  · cases k <;> exact absurd e (by decide)
  · rw [kn_inj e]; exact h

theorem For.number {w : List Kind} (h : For "Number".toList w) : w = [.int] ∨ w = [.int, .dec] := by
  rcases h with ⟨q, e, -⟩ | ⟨-, h⟩ | ⟨e, -⟩ | ⟨k, e, -⟩
  · cases q <;> exact absurd e (by decide)
  · exact h
  · exact absurd e (by decide)
  · cases k <;> exact absurd e (by decide)

theorem For.paren {w : List Kind} (h : For "P".toList w) : ∃ b, Is .stack b ∧ w = .opening :: (b ++ [.closing]) := by
  rcases h with ⟨q, e, -⟩ | ⟨e, -⟩ | ⟨-, h⟩ | ⟨k, e, -⟩
  · cases q <;> exact absurd e (by decide)
  · exact absurd e (by decide)
  · exact h
  · cases k <;> exact absurd e (by decide)

/-- Sequences of symbols. -/
inductive Fors : List Str → List Kind → Prop
  | nil : Fors [] []
  | cons {s ss u v} : For s u → Fors ss v → Fors (s :: ss) (u ++ v)

theorem fors_part {q : Part} {ss : List Str} {w : List Kind} (h : Fors (pn q :: ss) w) : ∃ u v, w = u ++ v ∧ Is q u ∧ Fors ss v := by
  generalize e : pn q :: ss = s at h
  cases h with
  | nil => cases e
  | cons h1 h2 => cases e; exact ⟨_, _, rfl, h1.part, h2⟩

theorem fors_tok {k : Kind} {ss : List Str} {w : List Kind} (h : Fors (kn k :: ss) w) : ∃ v, w = k :: v ∧ Fors ss v := by
  generalize e : kn k :: ss = s at h
  cases h with
  | nil => cases e
  | cons h1 h2 => cases e; exact ⟨_, by rw [h1.tok]; rfl, h2⟩

theorem fors_nil {w : List Kind} (h : Fors [] w) : w = [] := by cases h; rfl

/-- What a production stands for. -/
theorem for_rule {A : Str} {ps : List (List Str)} {p : List Str} {w : List Kind} (hm : (A, ps) ∈ sTable) (hp : p ∈ ps) (h : Fors p w) : For A w := by
  have op : ∀ {q k}, (q, k) ∈ operators → Fors [kn k] w → For (pn q) w := by
    intro q k hq h
    obtain ⟨v, rfl, h1'⟩ := fors_tok h
    rw [fors_nil h1']
    exact .inl ⟨_, rfl, .op hq⟩
  have ch : ∀ {q k}, (q, k) ∈ operators → Fors [pn q, pn q, pn .value, kn .choice] w → For (pn q) w := by
    intro q k hq h
    obtain ⟨a, _, rfl, ha, h2'⟩ := fors_part h
    obtain ⟨b, _, rfl, hb, h3'⟩ := fors_part h2'
    obtain ⟨c, _, rfl, hc, h4'⟩ := fors_part h3'
    obtain ⟨v, rfl, h5'⟩ := fors_tok h4'
    rw [fors_nil h5']
    exact .inl ⟨_, rfl, .choose hq ha hb hc⟩
  simp only [sTable, List.mem_cons, Prod.mk.injEq, List.not_mem_nil, or_false] at hm
  rcases hm with ⟨rfl, rfl⟩ | ⟨rfl, rfl⟩ | ⟨rfl, rfl⟩ | ⟨rfl, rfl⟩ | ⟨rfl, rfl⟩ | ⟨rfl, rfl⟩ | ⟨rfl, rfl⟩ | ⟨rfl, rfl⟩ <;>
    simp only [List.mem_cons, List.not_mem_nil, or_false] at hp
  · rcases hp with rfl | rfl | rfl | rfl
    · obtain ⟨a, _, rfl, ha, h6'⟩ := fors_part (q := .stack) h
      obtain ⟨b, _, rfl, hb, h7'⟩ := fors_part (q := .manip) h6'
      rw [fors_nil h7', List.append_nil]
      exact .inl ⟨.stack, rfl, .manip ha hb⟩
    · obtain ⟨a, _, rfl, ha, h8'⟩ := fors_part (q := .value) h
      obtain ⟨b, _, rfl, hb, h9'⟩ := fors_part (q := .stack) h8'
      rw [fors_nil h9', List.append_nil]
      exact .inl ⟨.stack, rfl, .push ha hb⟩
    · obtain ⟨a, _, rfl, ha, h10'⟩ := fors_part (q := .stack) h
      cases h10' with
      | cons h1 hs =>
        obtain ⟨b, hb, rfl⟩ := h1.paren
        obtain ⟨c, _, rfl, hc, hz⟩ := fors_part (q := .stack) hs
        rw [fors_nil hz, List.append_nil]
        refine .inl ⟨.stack, rfl, ?_⟩
        have := Is.paren ha hb hc
        simpa using this
    · rw [fors_nil h]
      exact .inl ⟨.stack, rfl, .none⟩
  · rcases hp with rfl | rfl | rfl | rfl | rfl
    · obtain ⟨a, _, rfl, ha, h12'⟩ := fors_part (q := .stack) h
      obtain ⟨b, _, rfl, hb, h13'⟩ := fors_part (q := .fold) h12'
      rw [fors_nil h13', List.append_nil]
      exact .inl ⟨.value, rfl, .fold ha hb⟩
    · obtain ⟨a, _, rfl, ha, h14'⟩ := fors_part (q := .value) h
      obtain ⟨b, _, rfl, hb, h15'⟩ := fors_part (q := .value) h14'
      obtain ⟨c, _, rfl, hc, h16'⟩ := fors_part (q := .value) h15'
      obtain ⟨v, rfl, h17'⟩ := fors_tok (k := .choice) h16'
      rw [fors_nil h17']
      exact .inl ⟨.value, rfl, .cond ha hb hc⟩
    · obtain ⟨a, _, rfl, ha, h18'⟩ := fors_part (q := .value) h
      obtain ⟨b, _, rfl, hb, h19'⟩ := fors_part (q := .unary) h18'
      rw [fors_nil h19', List.append_nil]
      exact .inl ⟨.value, rfl, .un ha hb⟩
    · obtain ⟨a, _, rfl, ha, h20'⟩ := fors_part (q := .value) h
      obtain ⟨b, _, rfl, hb, h21'⟩ := fors_part (q := .value) h20'
      obtain ⟨c, _, rfl, hc, h22'⟩ := fors_part (q := .binary) h21'
      rw [fors_nil h22', List.append_nil]
      exact .inl ⟨.value, rfl, .bin ha hb hc⟩
    · cases h with
      | cons h1 h =>
        rw [fors_nil h, List.append_nil]
        rcases h1.number with rfl | rfl
        · exact .inl ⟨.value, rfl, .int⟩
        · exact .inl ⟨.value, rfl, .dec⟩
  · rcases hp with rfl | rfl
    · obtain ⟨v, rfl, h23'⟩ := fors_tok (k := .int) h
      rw [fors_nil h23']
      exact .inr (.inl ⟨rfl, .inl rfl⟩)
    · obtain ⟨v, rfl, h24'⟩ := fors_tok (k := .int) h
      obtain ⟨v, rfl, h25'⟩ := fors_tok (k := .dec) h24'
      rw [fors_nil h25']
      exact .inr (.inl ⟨rfl, .inr rfl⟩)
  · subst hp
    obtain ⟨v, rfl, h26'⟩ := fors_tok (k := .opening) h
    obtain ⟨b, _, rfl, hb, h27'⟩ := fors_part (q := .stack) h26'
    obtain ⟨v, rfl, h28'⟩ := fors_tok (k := .closing) h27'
    rw [fors_nil h28']
    exact .inr (.inr (.inl ⟨rfl, b, hb, rfl⟩))
  · rcases hp with rfl | rfl
    · exact op (q := .binary) (k := .bop) (by simp [operators]) h
    · exact ch (q := .binary) (k := .bop) (by simp [operators]) h
  · rcases hp with rfl | rfl
    · exact op (q := .unary) (k := .uop) (by simp [operators]) h
    · exact ch (q := .unary) (k := .uop) (by simp [operators]) h
  · rcases hp with rfl | rfl
    · exact op (q := .fold) (k := .sop) (by simp [operators]) h
    · exact ch (q := .fold) (k := .sop) (by simp [operators]) h
  · rcases hp with rfl | rfl
    · exact ch (q := .manip) (k := .smp) (by simp [operators]) h
    · exact op (q := .manip) (k := .smp) (by simp [operators]) h

theorem fors_of_derives {G : Grammar Str} (hG : SOK G) {ss u : List Str} (h : G.Derives ss u) :
    ∀ w : List Kind, u = w.map kn → Fors ss w := by
  induction h with
  | nil => intro w e; obtain rfl : w = [] := by simpa using e.symm
           exact .nil
  | term ht h ih =>
    intro w e
    cases w with
    | nil => cases e
    | cons k w =>
      simp only [List.map_cons, List.cons.injEq] at e
      obtain ⟨rfl, e⟩ := e
      exact .cons (u := [k]) (.inr (.inr (.inr ⟨k, rfl, rfl⟩))) (ih w e)
  | nonterm hr _ _ ihp ihs =>
    intro w e
    obtain ⟨w1, w2, rfl, e1, e2⟩ := List.map_eq_append_iff.1 e.symm
    obtain ⟨ps, h1, h2⟩ := hG.inv hr
    exact .cons (for_rule h1 h2 (ihp _ e1.symm)) (ihs _ e2.symm)

/-- **The sentences are the programs.** -/
theorem sentence_iff {G : Grammar Str} (hG : SOK G) (w : List Kind) : G.Sentence (w.map kn) ↔ Is .stack w := by
  have h0 : G.order.head? = some (pn .stack) := by rw [hG.order]; rfl
  constructor
  · rintro ⟨S, hS, hd⟩
    rw [h0] at hS
    obtain rfl := Option.some.inj hS
    obtain ⟨u, v, rfl, hu, hv⟩ := fors_part (fors_of_derives hG hd w rfl)
    rw [fors_nil hv, List.append_nil]
    exact hu
  · exact fun h => ⟨_, h0, derives_is hG h⟩

/-- Only terminals that occur in productions occur in sentences. -/
theorem derives_known {G : Grammar Str} (hG : SOK G) {ss u : List Str} (h : G.Derives ss u) : (∀ s ∈ ss, G.Term s → ∃ k, s = kn k) →
    ∀ s ∈ u, ∃ k, s = kn k := by
  have all : ∀ x ∈ sTable, ∀ p ∈ x.2, ∀ s ∈ p, s ∈ sTable.map (·.1) ∨ s ∈ [Kind.int, .dec, .uop, .bop, .sop, .smp, .choice, .opening, .closing].map kn := by
    decide
  induction h with
  | nil => simp
  | term ht _ ih =>
    intro hs s hm
    rcases List.mem_cons.1 hm with rfl | hm
    · exact hs _ (.head _) ht
    · exact ih (fun s hm => hs s (.tail _ hm)) s hm
  | nonterm hr _ _ ihp ihs =>
    intro hs s hm
    rcases List.mem_append.1 hm with hm | hm
    · obtain ⟨ps, h1, h2⟩ := hG.inv hr
      refine ihp (fun s hm ht => ?_) s hm
      rcases all _ h1 _ h2 s hm with h | h
      · obtain ⟨x, hx, rfl⟩ := List.mem_map.1 h
        have := hG.prods x hx
        rw [ht] at this
        cases this
      · obtain ⟨k, -, e⟩ := List.mem_map.1 h
        exact ⟨k, e.symm⟩
    · exact ihs (fun s hm => hs s (.tail _ hm)) s hm

theorem sentence_known {G : Grammar Str} (hG : SOK G) {u : List Str} (h : G.Sentence u) : ∀ s ∈ u, ∃ k, s = kn k := by
  obtain ⟨S, hS, hd⟩ := h
  have h0 : G.order.head? = some (pn .stack) := by rw [hG.order]; rfl
  rw [h0] at hS
  obtain rfl := Option.some.inj hS
  refine derives_known hG hd fun s hm ht => ?_
  rw [List.mem_singleton] at hm
  subst hm
  have h1 : G.prods (pn .stack) = some _ := hG.prods _ (.head _)
  rw [show G.prods (pn .stack) = none from ht] at h1
  cases h1

/-- **Evaluating lexemes.** -/
theorem eval_lexemes (A : Arith N) {G : Grammar Str} (hg : grmr = .ok G) (hG : SOK G) {ls : List (Lexeme Str Str)} (ht : ∀ l ∈ ls, G.Term l.kind) :
    (G.Sentence (ls.map (·.kind)) → ∃ vs, Out.Returns (fun n => evalLexemes A n ls) (some vs)) ∧
    (¬ G.Sentence (ls.map (·.kind)) → Out.Returns (fun n => evalLexemes A n ls) none) := by
  constructor
  · intro hs
    obtain ⟨t, ⟨K, hK⟩, hp⟩ := Props.Packrat.C20_complete [] G hG.wf ls ht hs
    obtain ⟨t', h1, h2⟩ := reduces hG hp.2.1
    have h0 : G.order.head? = some (pn .stack) := by rw [hG.order]; rfl
    have hk : t.kind = "Stack".toList := by
      have := hp.1
      rw [h0] at this
      exact (Option.some.inj this).symm
    obtain ⟨-, vs, J, hJ⟩ := (h2.val (by rw [hk]; simp)).evals A
    refine ⟨vs, max K J, fun n hn => ?_⟩
    simp only [evalLexemes, parseLexemes]
    rw [hg, Out.bind_ok, hK n (by omega), Out.bind_ok, Tree.reduce, h1, Out.bind_ok, Out.bind_ok, Out.bind_ok]
    simp only
    rw [show evalStack A n t' = _ from hJ n (by omega), Out.bind_ok]
  · intro hs
    have hne : ls ≠ [] := by
      rintro rfl
      exact hs ((sentence_iff hG []).2 .none)
    obtain ⟨K, hK⟩ := Props.Packrat.C21_rejects_partial [] G hG.wf ls hne ht hs
    refine ⟨K, fun n hn => ?_⟩
    simp only [evalLexemes, parseLexemes]
    rw [hg, Out.bind_ok, hK n (by omega), Out.bind_ok, Tree.reduce, Out.bind_ok, Out.bind_ok]

end Verif.Scalc
