import Verif.Model.Concurrent
import Verif.Model.Grammar
import Verif.Model.Topdown
/-
`Parse` of both parsers as what it does with the set of symbols of the grammar, which is all of the memory of a parser that could be
written to. A goroutine that calls `Parse` has its own operation with its own set, which are values here, and shares the grammar. The
kinds of the lexemes are strings here; in the code they may be symbols of the set of the lexer (C105).
-/
namespace Verif
open Verif.Spec Verif.SetSymbol Verif.Grammar
variable {τ V : Type} [DecidableEq τ]

/-- Code that uses the set of a grammar. -/
abbrev GramProg (τ α : Type) := Prog SetField (SymSet τ) α

/-- `(*Symbol).String` of the symbol with an index (symbol/setsymbol/set.go:107). -/
def nameP (i : Nat) : GramProg τ (Out τ) :=
  .read .symb2str fun s =>
    match s.symb2str[i]? with
    | some x => .ret (.ok x)
    | none => .ret .panic

/-- The names of some symbols, one after the other (symbol/setsymbol/set.go:107). -/
def namesP : List Nat → GramProg τ (Out (List τ))
  | [] => .ret (.ok [])
  | i :: is => (nameP i).andThen fun x => (namesP is).andThen fun xs => .ret (.ok (x :: xs))

/-- The names in some productions (symbol/setsymbol/set.go:107, 182-190, 262-270). -/
def namessP : List (List Nat) → GramProg τ (Out (List (List τ)))
  | [] => .ret (.ok [])
  | p :: ps => (namesP p).andThen fun x => (namessP ps).andThen fun xs => .ret (.ok (x :: xs))

/-- `NonTerminals` (grammar/grammar.go:138-144) calls `ByIdx` for each of them. -/
def ntsP {α : Type} (p : GramProg τ α) : Nat → GramProg τ α
  | 0 => p
  | n + 1 => sizeP (ntsP p n)

/-- `Productions` (grammar/grammar.go:122-132) of a symbol of another set. -/
def queryP (g : Gram τ) (x : τ) : GramProg τ (Option (List (List Nat))) :=
  (strP x).bind fun i => .ret g.productions[i]?.join

/-- Loop of `LoadGrammar` (symbol/setsymbol/set.go:281-290) without its first line: the names loaded, in order. `Productions` is called
with a symbol of the grammar's own set (line 283), for which `Symbol` does not look at the set (54-56). -/
def loadP (g : Gram τ) : List Nat → GramProg τ (Out (List τ))
  | [] => .ret (.ok [])
  | nt :: nts => (nameP nt).andThen fun x =>
      match g.productions[nt]?.join with
      | none => .ret .panic
      | some ps => (namesP ps.flatten).andThen fun xs => (loadP g nts).andThen fun r => .ret (.ok (x :: xs ++ r))

/-- The set of the operation after `LoadGrammar` and `LoadLexemes` (symbol/setsymbol/set.go:281-300). -/
def opSet (syms : List τ) (lexemes : List (Lexeme τ V)) : SymSet τ :=
  (castSyms (castSyms SetSymbol.new syms).1 (lexemes.map (·.kind))).1

namespace Topdown

/-- Loop of `acceptProd` (parser/topdown/topdown.go:126-133); `rec` is the call of `accept` with `all = false`. -/
def prodLoopP (os : SymSet τ) (rec : Memo Nat V → Nat → Nat → GramProg τ (Out (Memo Nat V × Option (Resp Nat V)))) :
    Memo Nat V → List Nat → Nat → GramProg τ (Out (Memo Nat V × Option (List (PN Nat V) × Nat)))
  | m, [], pos => .ret (.ok (m, some ([], pos)))
  | m, X :: p, pos => (nameP X).andThen fun x => (rec m (Packrat.symIdx os x) pos).andThen fun r =>
      match r.2 with
      | none => .ret (.ok (r.1, none))
      | some a => (prodLoopP os rec r.1 p a.stop).andThen fun q =>
          match q.2 with
          | none => .ret (.ok (q.1, none))
          | some (ks, e) => .ret (.ok (q.1, some (a.tree :: ks, e)))

/-- Loop of `tryAccept` over the productions (parser/topdown/topdown.go:112-119), with `acceptProd` (122-137). -/
def prodsLoopP (ev : V) (os : SymSet τ) (rec : Memo Nat V → Nat → Nat → GramProg τ (Out (Memo Nat V × Option (Resp Nat V))))
    (len : Nat) (s : Nat) (pos : Nat) (all : Bool) :
    Memo Nat V → List (List Nat) → GramProg τ (Out (Memo Nat V × Option (Resp Nat V)))
  | m, [] => .ret (.ok (m, none))
  | m, p :: ps => (prodLoopP os rec m p pos).andThen fun r =>
      match r.2 with
      | none => prodsLoopP ev os rec len s pos all r.1 ps
      | some (ks, e) =>
        if !all || decide (e = len) then .ret (.ok (r.1, some ⟨.node ⟨s, ev, -1, 0⟩ ks, e⟩))
        else prodsLoopP ev os rec len s pos all r.1 ps

/-- What `tryAccept` does for a symbol without productions (parser/topdown/topdown.go:105-110). -/
def leaf (lxs : List (Lexeme Nat V)) (m : Memo Nat V) (s : Nat) (pos : Nat) : Out (Memo Nat V × Option (Resp Nat V)) :=
  match lxs[pos]? with
  | some l => if s = l.kind then .ok (m, some ⟨.node l [], pos + 1⟩) else .ok (m, none)
  | none => .ok (m, none)

/-- `tryAccept` (parser/topdown/topdown.go:101-120). The index of a symbol is always in the set of the operation. -/
def tryAcceptP (ev : V) (g : Gram τ) (os : SymSet τ) (lxs : List (Lexeme Nat V))
    (rec : Memo Nat V → Nat → Nat → GramProg τ (Out (Memo Nat V × Option (Resp Nat V))))
    (m : Memo Nat V) (s : Nat) (pos : Nat) (all : Bool) : GramProg τ (Out (Memo Nat V × Option (Resp Nat V))) :=
  match os.symb2str[s]? with
  | none => .ret .panic
  | some x => (queryP g x).bind fun
    | none => .ret (leaf lxs m s pos)
    | some ps => prodsLoopP ev os rec lxs.length s pos all m ps

/-- `accept` (parser/topdown/topdown.go:88-95). -/
def acceptP (ev : V) (g : Gram τ) (os : SymSet τ) (lxs : List (Lexeme Nat V)) :
    Nat → Memo Nat V → Nat → Nat → Bool → GramProg τ (Out (Memo Nat V × Option (Resp Nat V)))
  | 0, _, _, _, _ => .ret .fuel
  | n + 1, m, s, pos, all =>
    match m (s, pos) with
    | some r => .ret (.ok (m, r))
    | none =>
      (tryAcceptP ev g os lxs (fun m X p => acceptP ev g os lxs n m X p false) m s pos all).andThen
        fun r => .ret (.ok (upd r.1 (s, pos) (some r.2), r.2))

/-- `Parse` (parser/topdown/topdown.go:32-51). -/
def parseP (ev : V) (g : Gram τ) (lexemes : List (Lexeme τ V)) (fuel : Nat) : GramProg τ (Out (Option (PN τ V))) :=
  flip ntsP g.order.length <|
  match g.order with
  | [] => .ret (.ok none)
  | start :: _ => flip ntsP g.order.length <| (loadP g g.order).andThen fun syms => (nameP start).andThen fun x =>
      (acceptP ev g (opSet syms lexemes)
        (lexemes.map fun l => ⟨Packrat.symIdx (opSet syms lexemes) l.kind, l.val, l.line, l.col⟩) fuel (fun _ => none)
        (Packrat.symIdx (opSet syms lexemes) x) 0 true).andThen fun r =>
        match r.2 with
        | none => .ret (.ok none)
        | some a => .ret ((Packrat.nameTree (opSet syms lexemes) a.tree).bind fun t => .ok (some t))

end Topdown

namespace Packrat

/-- Loop of `addProds` (parser/packrat/packrat.go:128-148). -/
def addProdsLoopP (env : Env) (fuel : Nat) (rec : St → Marker → GramProg τ (Out St)) (root : Marker) :
    St → Nat → List (List Nat) → GramProg τ (Out St)
  | st, _, [] => .ret (.ok st)
  | st, k, [] :: ps =>
    Prog.andThen (.ret (addToMemo fuel st (nilDef root k))) fun st' => addProdsLoopP env fuel rec root st' (k + 1) ps
  | st, k, (X :: p) :: ps =>
    Prog.andThen (.ret (addPartialPre env fuel st (initPartial root k (X :: p)) ⟨X, root.start⟩)) fun st1 =>
      (rec st1 ⟨X, root.start⟩).andThen fun st2 => addProdsLoopP env fuel rec root st2 (k + 1) ps

/-- `addProds` (parser/packrat/packrat.go:118-149). The code reads the names in a production when it gets to them (lines 139, 165); here
they are read when the productions are asked for. The index of a symbol is always in the set of the operation. -/
def addProdsP (g : Gram τ) (os : SymSet τ) (env : Env) (fuel : Nat) : Nat → St → Marker → GramProg τ (Out St)
  | 0, _, _ => .ret .fuel
  | depth + 1, st, root =>
    if st.queued root then .ret (.ok st)
    else
      let st1 : St := { st with queued := upd st.queued root true }
      match os.symb2str[root.idx]? with
      | none => .ret .panic
      | some x => (queryP g x).bind fun
        | none => .ret (.ok st1)
        | some ps => (namessP ps).andThen fun xss =>
            addProdsLoopP env fuel (addProdsP g os env fuel depth) root st1 0 (xss.map fun p => p.map (symIdx os))

/-- `update` (parser/packrat/packrat.go:150-178) with `addPartial` (229-241). -/
def updateP (g : Gram τ) (os : SymSet τ) (env : Env) (fuel : Nat) : Nat → St → Partial → Key → GramProg τ (Out St)
  | 0, _, _, _ => .ret .fuel
  | n + 1, st, base, ext =>
    let ex := extend base ext
    if base.td.children.length + 1 = ex.prod.length then .ret (addToMemo fuel st ex.td)
    else
      match ex.prod[base.td.children.length + 1]? with
      | none => .ret .panic
      | some X =>
        Prog.andThen (.ret (checkNonTerminal env fuel st ex.td.key.marker)) fun r =>
          match r.2 with
          | some td => updateP g os env fuel n r.1 ex td.key
          | none => Prog.andThen (.ret (addPartialPre env fuel r.1 ex ⟨X, ex.td.key.stop⟩)) fun st1 =>
              addProdsP g os env fuel fuel st1 ⟨X, ex.td.key.stop⟩

/-- The main loop of `Parse` (parser/packrat/packrat.go:102-106). -/
def loopP (g : Gram τ) (os : SymSet τ) (env : Env) (fuel : Nat) : Nat → St → GramProg τ (Out St)
  | 0, _ => .ret .fuel
  | n + 1, st =>
    match st.stack with
    | [] => .ret (.ok st)
    | (tp, k) :: rest =>
      (updateP g os env fuel fuel { st with stack := rest } tp k).andThen fun st' => loopP g os env fuel n st'

/-- `Parse` (parser/packrat/packrat.go:76-116). The field `prods` of `Env` is not used: productions are asked for. -/
def parseP (ev : V) (g : Gram τ) (lexemes : List (Lexeme τ V)) (fuel : Nat) : GramProg τ (Out (Option (PN τ V))) :=
  flip ntsP g.order.length <|
  match g.order with
  | [] => .ret (.ok none)
  | start :: _ => flip ntsP g.order.length <| (loadP g g.order).andThen fun syms =>
      flip ntsP g.order.length <| (namesP g.order).andThen fun nts =>
      (nameP start).andThen fun x =>
      let os := opSet syms lexemes
      let env : Env := ⟨fun _ => none, fun i => decide (i ∈ nts.map (symIdx os)), lexemes.map fun l => symIdx os l.kind⟩
      let lxms := lexemes.map fun l => (⟨symIdx os l.kind, l.val, l.line, l.col⟩ : Lexeme Nat V)
      (addProdsP g os env fuel fuel St.init ⟨symIdx os x, 0⟩).andThen fun st0 =>
        (loopP g os env fuel fuel st0).andThen fun st =>
          let accepted := st.get ⟨symIdx os x, 0, lxms.length⟩
          if accepted.key.stop ≠ lxms.length then .ret (.ok none)
          else .ret ((toPN ev lxms st.get fuel accepted).bind fun t => (nameTree os t).bind fun t' => .ok (some t'))

end Packrat

end Verif
