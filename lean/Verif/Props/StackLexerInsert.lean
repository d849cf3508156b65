import Verif.Props.StackLexer
/-
C42 for stack lexers: what `InsertStart` and `InsertEnd` insert stands around the lexemes of the plain lexer.
-/
namespace Verif.Props.StackLexerInsert
open Verif Verif.StackLexer
open Verif.SimpleLexer (Bytes Lx)

/-- Lexemes put before those found so far. -/
private def pfx (p : List Lx) (op : Op) : Op := { op with lxs := p ++ op.lxs }

private def pfxN (p : List Lx) : Next → Next
  | .done op => .done (pfx p op)
  | .more op => .more (pfx p op)

private theorem pfx_setError (p : List Lx) (op : Op) : setError (pfx p op) = pfx p (setError op) := by
  unfold setError pfx
  split <;> rfl

private theorem pfx_checkError (p : List Lx) (ek : Nat) (b : Bytes) (op : Op) :
    checkError ek b (pfx p op) = pfx p (checkError ek b op) := by
  unfold checkError
  by_cases h : (!op.errFlag || decide (op.cur > List.length b)) = true
  · rw [if_pos h]
    exact if_pos h
  · rw [if_neg h]
    refine (if_neg h).trans ?_
    simp [pfx]

private theorem pfx_pop (p : List Lx) (b : Bytes) (i : Nat) (op : Op) :
    pop b i (pfx p op) = (pop b i op).bind fun op => .ok (pfx p op) := by
  unfold pop
  simp only [pfx]
  split <;> rfl

private theorem pfx_stop (p : List Lx) (b : Bytes) (op : Op) :
    stopStep b (pfx p op) = (stopStep b op).bind fun x => .ok (pfxN p x) := by
  unfold stopStep
  rw [pfx_pop, pfx_setError]
  by_cases h : op.stack.length = 0
  · rw [if_pos h]
    refine (if_pos h).trans ?_
    by_cases h' : op.cur + 1 ≥ b.length
    · rw [if_pos h']
      exact if_pos h'
    · rw [if_neg h']
      exact if_neg h'
  · rw [if_neg h]
    refine (if_neg h).trans ?_
    cases pop b 1 op <;> rfl

private theorem pfx_move (p : List Lx) (lexers : Bytes → Option Sub) (b : Bytes) (r : Rule) (op : Op) :
    moveStep lexers b r (pfx p op) = (moveStep lexers b r op).bind fun x => .ok (pfxN p x) := by
  unfold moveStep
  rw [pfx_pop]
  by_cases h : op.cur ≥ b.length
  · rw [if_pos h]
    exact if_pos h
  · rw [if_neg h]
    refine (if_neg h).trans ?_
    split
    · cases pop b r.pop op <;> rfl
    · split
      · cases lexers r.push <;> rfl
      · rfl

private theorem pfx_body (p : List Lx) (cmp : Int → Int → Int → Int → Bool) (lexers : Bytes → Option Sub) (ek : Nat) (b : Bytes) (op : Op) :
    body cmp lexers ek b (pfx p op) = (body cmp lexers ek b op).bind fun x => .ok (pfxN p x) := by
  unfold body
  simp only [show (pfx p op).cur = op.cur from rfl, show (pfx p op).next = op.next from rfl, show (pfx p op).lines = op.lines from rfl]
  cases choose cmp op.cur none op.next with
  | none => exact pfx_stop p b op
  | some c =>
    obtain ⟨r, loc⟩ := c
    simp only
    cases value b r loc with
    | panic => rfl
    | fuel => rfl
    | ok val =>
      simp only [Out.bind_ok]
      split
      · exact pfx_stop p b { op with lines := op.lines + SimpleLexer.countNl (SimpleLexer.slice b (loc.off + loc.a) (loc.off + loc.e)) }
      · rw [← pfx_move]
        have := pfx_checkError p ek b { op with lines := op.lines + SimpleLexer.countNl (SimpleLexer.slice b (loc.off + loc.a) (loc.off + loc.e)) }
        simp only [pfx] at this ⊢
        rw [this]
        congr 1
        split <;> simp

private theorem pfx_loop (p : List Lx) (cmp : Int → Int → Int → Int → Bool) (lexers : Bytes → Option Sub) (ek : Nat) (b : Bytes) :
    ∀ n op, loop cmp lexers ek b n (pfx p op) = (loop cmp lexers ek b n op).bind fun op => .ok (pfx p op)
  | 0, _ => rfl
  | n + 1, op => by
    unfold loop
    rw [pfx_body]
    cases body cmp lexers ek b op with
    | panic => rfl
    | fuel => rfl
    | ok x =>
      cases x with
      | done op => rfl
      | more op => exact pfx_loop p cmp lexers ek b n op

/-- C42 for stack lexers: whatever the rules and the input, the result is that of the plain lexer with the lexemes inserted before and
behind it; where the plain lexer panics or does not return, so does this one, and it leaves the lexer in the same state. -/
theorem C42_stack (l : Lexer) (hs : l.startKind = []) (he : l.endKind = []) (k v k' v' : Bytes) (hk : k ≠ []) (hk' : k' ≠ []) (b : Bytes) (n : Nat) :
    lex n (insertStart l k v) b = (lex n l b).bind (fun r => .ok (⟨.plain k, v, -1, 0, false⟩ :: r.1, insertStart r.2 k v)) ∧
    lex n (insertEnd l k' v') b = (lex n l b).bind (fun r => .ok (r.1 ++ [⟨.plain k', v', -1, 0, false⟩], insertEnd r.2 k' v')) ∧
    lex n (insertEnd (insertStart l k v) k' v') b = (lex n l b).bind (fun r =>
      .ok (⟨.plain k, v, -1, 0, false⟩ :: r.1 ++ [⟨.plain k', v', -1, 0, false⟩], insertEnd (insertStart r.2 k v) k' v')) := by
  obtain ⟨lexers, start, set, error, compare, sk, sv, ek, ev⟩ := l
  simp only at hs he
  subst hs he
  unfold lex
  cases start with
  | none => exact ⟨rfl, rfl, rfl⟩
  | some s =>
    simp only [insertStart, insertEnd, ne_eq, not_true_eq_false, if_false, hk, hk', not_false_eq_true, if_true, List.append_nil]
    have key := pfx_loop [SimpleLexer.insertLx k v] compare lexers (SetSymbol.str set error).2 b n (populateNext b
      { sub := s, stack := [], next := [], lxs := [], errFlag := false, errStart := 0, cur := 0, lines := 1 })
    have e : pfx [SimpleLexer.insertLx k v] (populateNext b
        { sub := s, stack := [], next := [], lxs := [], errFlag := false, errStart := 0, cur := 0, lines := 1 }) =
      populateNext b { sub := s, stack := [], next := [], lxs := [SimpleLexer.insertLx k v], errFlag := false, errStart := 0, cur := 0, lines := 1 } := rfl
    rw [e] at key
    rw [key]
    have hrest : ∀ op, (checkError (SetSymbol.str set error).2 b (consumeRemainingAsError b (pfx [SimpleLexer.insertLx k v] op))).lxs =
        SimpleLexer.insertLx k v :: (checkError (SetSymbol.str set error).2 b (consumeRemainingAsError b op)).lxs := by
      intro op
      have h1 : consumeRemainingAsError b (pfx [SimpleLexer.insertLx k v] op) = pfx [SimpleLexer.insertLx k v] (consumeRemainingAsError b op) := by
        unfold consumeRemainingAsError
        rw [pfx_setError]
        by_cases h : op.cur ≥ b.length
        · rw [if_pos h]
          exact if_pos h
        · rw [if_neg h]
          exact if_neg h
      rw [h1, pfx_checkError]
      rfl
    cases loop compare lexers (SetSymbol.str set error).2 b n (populateNext b
      { sub := s, stack := [], next := [], lxs := [], errFlag := false, errStart := 0, cur := 0, lines := 1 }) with
    | panic => exact ⟨rfl, rfl, rfl⟩
    | fuel => exact ⟨rfl, rfl, rfl⟩
    | ok op =>
      simp only [Out.bind_ok, hrest]
      exact ⟨rfl, rfl, rfl⟩

/-- The hypotheses are met by the lexer for words and parentheses, with sub-lexers pushed and popped. -/
example : Props.StackLexer.lxsOf (lex 20 (insertEnd (insertStart Props.StackLexer.parens [83] [1]) [69] [2]) [97, 40, 98, 41, 33]) = some
    [⟨.plain [83], [1], -1, 0, false⟩, ⟨.idx 0, [97], 1, 1, false⟩, ⟨.idx 1, [40], 1, 2, false⟩, ⟨.idx 0, [98], 1, 3, false⟩,
     ⟨.idx 2, [41], 1, 4, false⟩, ⟨.idx 5, [33], 1, 5, true⟩, ⟨.plain [69], [2], -1, 0, false⟩] := by decide +kernel

example : Props.StackLexer.parens.startKind = [] ∧ Props.StackLexer.parens.endKind = [] := ⟨rfl, rfl⟩

/-- With both set nothing else is returned for the empty input. -/
example : Props.StackLexer.lxsOf (lex 20 (insertEnd (insertStart Props.StackLexer.parens [83] [1]) [69] [2]) []) = some
    [⟨.plain [83], [1], -1, 0, false⟩, ⟨.plain [69], [2], -1, 0, false⟩] := by decide +kernel

end Verif.Props.StackLexerInsert
