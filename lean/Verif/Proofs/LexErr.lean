import Verif.Proofs.LexText
/-
Lexing texts that cannot be cut: the kinds of the lexemes, errors included.
-/
namespace Verif.SimpleLexer
open Verif Verif.SetSymbol Verif.Spec Verif.Props.SimpleLexer

theorem render_mem {b : Bytes} {ek p ln : Nat} {segs : List (Seg Rule)} {x : Lx} (h : x ∈ render b ek p ln segs) :
    (x.err = true ∧ x.kind = .idx ek ∧ segs.any Seg.isErr = true) ∨ (x.err = false ∧ ∃ r v, Seg.tok r v ∈ segs ∧ x.kind = .idx r.kind) := by
  induction segs generalizing p ln with
  | nil => cases h
  | cons s segs ih =>
    cases s with
    | tok r v =>
      rw [render, List.mem_append] at h
      rcases h with h | h
      · split at h
        · cases h
        · rw [List.mem_singleton] at h
          subst h
          exact .inr ⟨rfl, r, v, by simp, rfl⟩
      · rcases ih h with ⟨h1, h2, h3⟩ | ⟨h1, r', v', h2, h3⟩
        · exact .inl ⟨h1, h2, by simp [h3]⟩
        · exact .inr ⟨h1, r', v', by simp [h2], h3⟩
    | err v =>
      rw [render, List.mem_cons] at h
      rcases h with rfl | h
      · exact .inl ⟨rfl, rfl, by simp [Seg.isErr]⟩
      · rcases ih h with ⟨h1, h2, h3⟩ | ⟨h1, r', v', h2, h3⟩
        · exact .inl ⟨h1, h2, by simp [h3]⟩
        · exact .inr ⟨h1, r', v', by simp [h2], h3⟩

/-- The kinds of lexemes. -/
theorem lex_kinds {a : Rules} {l : Lexer} (hR : Ready a [] [] l) (hi : Inv l.set) (ha : ∀ x ∈ a, AsciiFirst x.2.1.len) (b : Bytes) :
    ∃ ls l', Out.Returns (fun n => lex n l b) (ls, l') ∧ Inv l'.set ∧ l'.error = l.error ∧
      ∀ x ∈ ls, (x.err = true ∧ kindStr l' x = l.error) ∨ (x.err = false ∧ ∃ r ∈ a, kindStr l' x = r.1) := by
  have hL : ∀ r ∈ a.table, Leftmost unit1 (tm a r) r.re.find := by
    intro r hr
    obtain ⟨i, x, hx, rfl⟩ := mem_table.1 hr
    have e : tm a ⟨i, ofRex x.2.1, x.2.2, i⟩ = x.2.1.len := by funext s; simp only [tm, hx]
    rw [e]
    exact leftmost_one (ha x (List.mem_of_getElem? hx)) (search_leftmost x.2.1.len)
  obtain ⟨segs, h1, -, h3⟩ := lex_ctx l.error sync_one hL b
  have h1 : Lexes (fun p => Wins (· ∈ a.table) (tm a) (fun r => r.priority) (b.drop p))
      (fun p => ∀ r ∈ a.table, ∀ n, tm a r (b.drop p) = some n → n = 0) b 0 segs :=
    lexes_mono h1 (fun p r n hp _ h => h.2.2 (bd_one.2 hp)) (fun p hp h => h (bd_one.2 (by omega)))
  have hmem : ∀ r v, Seg.tok r v ∈ segs → r ∈ a.table := by
    intro r v hm
    clear h3
    have : ∀ {dead : Nat → Prop} {p segs}, Seg.tok r v ∈ segs →
        Lexes (fun p => Wins (· ∈ a.table) (tm a) (fun r => r.priority) (b.drop p)) dead b p segs → r ∈ a.table := by
      intro dead p segs hm h1
      induction h1 with
      | done => cases hm
      | tok h pos le rest ih =>
        rcases List.mem_cons.1 hm with e | hm
        · cases e; exact h.1
        · exact ih hm
      | err pos le h stop rest ih =>
        rcases List.mem_cons.1 hm with e | hm
        · cases e
        · exact ih hm
    exact this hm h1
  have hlex := h3 l hR.rules hR.compare rfl
  have hpre : pre l = [] := by rw [pre_eq, hR.start.1]; rfl
  have hpost : post l = [] := by rw [post_eq, hR.stop]; rfl
  refine ⟨_, _, ⟨b.length + 1, hlex⟩, ?_, rfl, ?_⟩
  · show Inv (if segs.any Seg.isErr then (str l.set l.error).1 else l.set)
    split
    · exact inv_str hi _
    · exact hi
  · intro x hx
    rw [hpre, hpost, List.nil_append, List.append_nil] at hx
    rcases render_mem hx with ⟨h4, h5, h6⟩ | ⟨h4, r, v, h5, h6⟩
    · refine .inl ⟨h4, ?_⟩
      simp only [kindStr, h5, h6, if_true]
      rw [str_idx hi]
      rfl
    · refine .inr ⟨h4, ?_⟩
      obtain ⟨i, y, hy, rfl⟩ := mem_table.1 (hmem r v h5)
      refine ⟨y, List.mem_of_getElem? hy, ?_⟩
      have hp : a.map (·.1) <+: (if segs.any Seg.isErr then (str l.set l.error).1 else l.set).symb2str := by
        split
        · exact List.IsPrefix.trans hR.names (str_prefix _ _)
        · exact hR.names
      have := prefix_getElem? hp (i := i) (x := y.1) (by rw [List.getElem?_map, hy]; rfl)
      simp only [kindStr, h6]
      rw [this]
      rfl

/-- **Lexing any text.** -/
theorem lex_cut {a : Rules} {l : Lexer} (hR : Ready a [] [] l) (hi : Inv l.set) (ha : ∀ x ∈ a, AsciiFirst x.2.1.len) (b : Bytes) :
    ∃ ls l', Out.Returns (fun n => lex n l b) (ls, l') ∧ Ready a [] [] l' ∧ Inv l'.set ∧ l'.error = l.error ∧
      ((∃ c, Cut a.ms b c ∧ (ls.map (toLexeme l')).map kv = c.filterMap a.kept) ∨
       ((∀ c, ¬ Cut a.ms b c) ∧ (∃ x ∈ ls.map (toLexeme l'), x.kind = chars l.error) ∧
        ∀ x ∈ ls.map (toLexeme l'), x.kind = chars l.error ∨ ∃ r ∈ a, x.kind = chars r.1)) := by
  obtain ⟨ls, l', ⟨M, h1⟩, h2, h3, h4⟩ := lex_kinds hR hi ha b
  obtain ⟨r, l'', ⟨K, h5⟩, h6, h7⟩ := lexText_cut hR ha b
  have e := h5 (max M K) (by omega)
  simp only at e
  rw [lexText, show lex _ l b = _ from h1 (max M K) (by omega), Out.bind_ok] at e
  have e := Out.ok.inj e
  obtain rfl : l' = l'' := congrArg Prod.snd e
  have er : _ = r := congrArg Prod.fst e
  simp only at er
  refine ⟨ls, l', ⟨M, h1⟩, h6, h2, h3, ?_⟩
  rcases h7 with ⟨c, ls', h8, rfl, h9⟩ | ⟨rfl, h8⟩
  · refine .inl ⟨c, h8, ?_⟩
    split at er
    · cases er
    · rw [Option.some.inj er, h9]
      rfl
  · refine .inr ⟨h8, ?_, ?_⟩
    · split at er
      · next h =>
        obtain ⟨x, hx, he⟩ := List.any_eq_true.1 h
        refine ⟨_, List.mem_map.2 ⟨x, hx, rfl⟩, ?_⟩
        rcases h4 x hx with ⟨-, h⟩ | ⟨h, -⟩
        · exact congrArg chars h
        · rw [h] at he; cases he
      · cases er
    · intro y hy
      obtain ⟨x, hx, rfl⟩ := List.mem_map.1 hy
      rcases h4 x hx with ⟨-, h⟩ | ⟨-, r, hr, h⟩
      · exact .inl (congrArg chars h)
      · exact .inr ⟨r, hr, congrArg chars h⟩

end Verif.SimpleLexer
