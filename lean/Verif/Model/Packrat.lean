import Verif.Model.SetSymbol
import Verif.Spec.CFG
/-
Model of parser/packrat/packrat.go.
Symbols inside the engine are the indices of the interning table built by `Parse`.
-/
namespace Verif.Packrat
open Verif.Spec

/-- `treeMarker` (packrat.go:18-21). -/
structure Marker where
  idx : Nat
  start : Nat
  deriving DecidableEq, Repr

/-- `treeKey` (packrat.go:23-26); `stop` is the field `end`. -/
structure Key where
  idx : Nat
  start : Nat
  stop : Nat
  deriving DecidableEq, Repr

/-- The embedded `treeMarker` of a `treeKey` (packrat.go:24). -/
def Key.marker (k : Key) : Marker := ⟨k.idx, k.start⟩

/-- `treeDef` (packrat.go:28-32). -/
structure Def where
  key : Key
  children : List Key
  priority : Nat
  deriving DecidableEq, Repr

/-- Go's zero value of `treeDef` (packrat.go:28-32), read from the map for an absent key. -/
def Def.zero : Def := ⟨⟨0, 0, 0⟩, [], 0⟩

/-- `treePartial` (packrat.go:34-37). `prod` is the production as symbol indices. -/
structure Partial where
  td : Def
  prod : List Nat
  deriving DecidableEq, Repr

/-- What the engine reads but never changes: the fields `grmr` (productions by symbol index),
`nonterms` and `lxms` (kinds only) of `prOp` (packrat.go:48-58). -/
structure Env where
  prods : Nat → Option (List (List Nat))
  nonterms : Nat → Bool
  lex : List Nat

/-- The mutable fields of `prOp` (packrat.go:48-58). The linked list of updaters (41-45) is a list of
(base, extension), top first. -/
structure St where
  memo : Key → Option Def
  markers : Marker → List Def
  partials : Marker → List Partial
  queued : Marker → Bool
  stack : List (Partial × Key)

/-- The maps as created in `Parse` (packrat.go:86-89). -/
def St.init : St := ⟨fun _ => none, fun _ => [], fun _ => [], fun _ => false, []⟩

/-- `op.memo[k]` (packrat.go:111, 195, 220, 277): absent keys read as the zero `treeDef`. -/
def St.get (st : St) (k : Key) : Def := (st.memo k).getD Def.zero

/-- `push` (packrat.go:255-261). -/
def push (st : St) (tp : Partial) (k : Key) : St := { st with stack := (tp, k) :: st.stack }

/-- Loop body of `comparePriority` (packrat.go:215-226) over the children of both sides; `cmp` is the
recursive call. Running out of children on the right is Go's index-out-of-range panic (216). -/
def compareKids (cmp : Def → Def → Out Int) (get : Key → Def) : List Key → List Key → Out Int
  | [], _ => .ok 0
  | _ :: _, [] => .panic
  | k1 :: ks1, k2 :: ks2 =>
    if k1 = k2 then compareKids cmp get ks1 ks2
    else (cmp (get k1) (get k2)).bind fun p =>
      if p ≠ 0 then .ok p else compareKids cmp get ks1 ks2

/-- `comparePriority` (packrat.go:205-227). The recursion follows memo entries, hence the fuel. -/
def comparePriority (get : Key → Def) : Nat → Def → Def → Out Int
  | 0, _, _ => .fuel
  | n + 1, a, b =>
    if a.priority ≠ b.priority then
      if a.priority < b.priority then .ok 1 else .ok (-1)
    else compareKids (comparePriority get n) get a.children b.children

/-- Loop of `createsCircularDep` (packrat.go:194-198); `rec` is the recursive call. -/
def circKids (rec : Def → Out Bool) (get : Key → Def) (root : Key) : List Key → Out Bool
  | [] => .ok false
  | k :: ks =>
    if k = root then .ok true
    else (rec (get k)).bind fun b => if b then .ok true else circKids rec get root ks

/-- `createsCircularDep` (packrat.go:193-200). -/
def createsCircularDep (get : Key → Def) (root : Key) : Nat → Def → Out Bool
  | 0, _ => .fuel
  | n + 1, d => circKids (createsCircularDep get root n) get root d.children

/-- `addToMemo` (packrat.go:180-191). -/
def addToMemo (fuel : Nat) (st : St) (td : Def) : Out St :=
  match st.memo td.key with
  | none =>
    let st1 : St := { st with
      memo := upd st.memo td.key (some td)
      markers := upd st.markers td.key.marker (st.markers td.key.marker ++ [td]) }
    .ok ((st1.partials td.key.marker).foldl (fun s tp => push s tp td.key) st1)
  | some old =>
    (comparePriority st.get fuel td old).bind fun c =>
      if c = 1 then
        (createsCircularDep st.get td.key fuel td).bind fun b =>
          if b then .ok st else .ok { st with memo := upd st.memo td.key (some td) }
      else .ok st

/-- The `treeDef` made by `checkNonTerminal` for a marker (packrat.go:248-250). -/
def leafDef (m : Marker) : Def := ⟨⟨m.idx, m.start, m.start + 1⟩, [], 0⟩

/-- `checkNonTerminal` (packrat.go:243-253): returns the new state and the definition, if the lexeme
at the marker's position has the marker's symbol as kind. -/
def checkNonTerminal (env : Env) (fuel : Nat) (st : St) (m : Marker) : Out (St × Option Def) :=
  if env.lex[m.start]? = some m.idx then
    (addToMemo fuel st (leafDef m)).bind fun st' => .ok (st', some (leafDef m))
  else .ok (st, none)

/-- `addPartial` up to the final call (packrat.go:230-238). -/
def addPartialPre (env : Env) (fuel : Nat) (st : St) (tp : Partial) (req : Marker) : Out St :=
  (if env.nonterms req.idx then
    Out.ok { st with partials := upd st.partials req (st.partials req ++ [tp]) }
  else (checkNonTerminal env fuel st req).bind fun r => .ok r.1).bind fun st1 =>
    .ok ((st1.markers req).foldl (fun s td => push s tp td.key) st1)

/-- The partial made by `addProds` for a non-empty production (packrat.go:142-145); its `end` is the
zero value. -/
def initPartial (root : Marker) (k : Nat) (p : List Nat) : Partial :=
  ⟨⟨⟨root.idx, root.start, 0⟩, [], k⟩, p⟩

/-- The definition made by `addProds` for an empty production (packrat.go:130-133). -/
def nilDef (root : Marker) (k : Nat) : Def := ⟨⟨root.idx, root.start, root.start⟩, [], k⟩

/-- Loop of `addProds` (packrat.go:128-148) over the productions from number `k` on; `rec` is the
recursive call `addProds` made by `addPartial` (240). -/
def addProdsLoop (env : Env) (fuel : Nat) (rec : St → Marker → Out St) (root : Marker) :
    St → Nat → List (List Nat) → Out St
  | st, _, [] => .ok st
  | st, k, [] :: ps =>
    (addToMemo fuel st (nilDef root k)).bind fun st' => addProdsLoop env fuel rec root st' (k + 1) ps
  | st, k, (X :: p) :: ps =>
    (addPartialPre env fuel st (initPartial root k (X :: p)) ⟨X, root.start⟩).bind fun st1 =>
      (rec st1 ⟨X, root.start⟩).bind fun st2 => addProdsLoop env fuel rec root st2 (k + 1) ps

/-- `addProds` (packrat.go:118-149). `depth` bounds the recursion addProds → addPartial → addProds. -/
def addProds (env : Env) (fuel : Nat) : Nat → St → Marker → Out St
  | 0, _, _ => .fuel
  | depth + 1, st, root =>
    if st.queued root then .ok st
    else
      let st1 : St := { st with queued := upd st.queued root true }
      match env.prods root.idx with
      | none => .ok st1
      | some ps => addProdsLoop env fuel (addProds env fuel depth) root st1 0 ps

/-- `addPartial` (packrat.go:229-241). -/
def addPartial (env : Env) (fuel : Nat) (st : St) (tp : Partial) (req : Marker) : Out St :=
  (addPartialPre env fuel st tp req).bind fun st1 => addProds env fuel fuel st1 req

/-- The extended partial built by `update` (packrat.go:152-157). -/
def extend (tp : Partial) (k : Key) : Partial :=
  ⟨⟨⟨tp.td.key.idx, tp.td.key.start, k.stop⟩, tp.td.children ++ [k], tp.td.priority⟩, tp.prod⟩

/-- `update` (packrat.go:150-178). The production symbol read at 165 exists because
`ln+1 < Symbols()`; if `ln+1 > Symbols()` Go would call a method on nil and panic. -/
def update (env : Env) (fuel : Nat) : Nat → St → Partial → Key → Out St
  | 0, _, _, _ => .fuel
  | n + 1, st, base, ext =>
    let ex := extend base ext
    if base.td.children.length + 1 = ex.prod.length then addToMemo fuel st ex.td
    else
      match ex.prod[base.td.children.length + 1]? with
      | none => .panic
      | some X =>
        (checkNonTerminal env fuel st ex.td.key.marker).bind fun r =>
          match r.2 with
          | some td => update env fuel n r.1 ex td.key
          | none => addPartial env fuel r.1 ex ⟨X, ex.td.key.stop⟩

/-- The main loop of `Parse` (packrat.go:102-106). -/
def loop (env : Env) (fuel : Nat) : Nat → St → Out St
  | 0, _ => .fuel
  | n + 1, st =>
    match st.stack with
    | [] => .ok st
    | (tp, k) :: rest =>
      (update env fuel fuel { st with stack := rest } tp k).bind fun st' => loop env fuel n st'

/-- Loop of `toPN` over the children (packrat.go:276-281); `rec` is the recursive call. -/
def kidsPN {V : Type} (rec : Def → Out (PN Nat V)) (get : Key → Def) : List Key → Out (List (PN Nat V))
  | [] => .ok []
  | k :: ks => (rec (get k)).bind fun t => (kidsPN rec get ks).bind fun ts => .ok (t :: ts)

/-- The lexeme of a node (packrat.go:264-275, 282-284): the input lexeme if it matches, else a new
lexeme with the node's symbol and the position of the first child (`(-1, 0)` without children). -/
def nodeLexeme {V : Type} (emptyVal : V) (lxms : List (Lexeme Nat V)) (d : Def)
    (kids : List (PN Nat V)) : Lexeme Nat V :=
  let fresh : Lexeme Nat V :=
    match kids with
    | [] => ⟨d.key.idx, emptyVal, -1, 0⟩
    | c :: _ => ⟨d.key.idx, emptyVal, c.lx.line, c.lx.col⟩
  match lxms[d.key.start]? with
  | some l => if l.kind = d.key.idx then l else fresh
  | none => fresh

/-- `toPN` (packrat.go:263-286), without the parent links (line 279). -/
def toPN {V : Type} (emptyVal : V) (lxms : List (Lexeme Nat V)) (get : Key → Def) :
    Nat → Def → Out (PN Nat V)
  | 0, _ => .fuel
  | n + 1, d =>
    (kidsPN (toPN emptyVal lxms get n) get d.children).bind fun ks =>
      .ok (.node (nodeLexeme emptyVal lxms d ks) ks)

/-- Core of `Parse` on indices (packrat.go:97-115): start symbol index `s`. `none` is the nil
result. -/
def parseIdx {V : Type} (emptyVal : V) (env : Env) (s : Nat) (lxms : List (Lexeme Nat V))
    (fuel : Nat) : Out (Option (PN Nat V)) :=
  (addProds env fuel fuel St.init ⟨s, 0⟩).bind fun st0 =>
    (loop env fuel fuel st0).bind fun st =>
      let accepted := st.get ⟨s, 0, lxms.length⟩
      if accepted.key.stop ≠ lxms.length then .ok none
      else (toPN emptyVal lxms st.get fuel accepted).bind fun t => .ok (some t)

variable {α : Type} [DecidableEq α]

/-- Symbols loaded by `LoadGrammar` (set.go:281-290), in order; it panics when a listed nonterminal
has nil productions (method call on a nil interface). -/
def grammarSyms (g : Grammar α) : List α → Out (List α)
  | [] => .ok []
  | nt :: nts =>
    match g.prods nt with
    | none => .panic
    | some ps => (grammarSyms g nts).bind fun r => .ok (nt :: ps.flatten ++ r)

/-- The set after `LoadGrammar` and `LoadLexemes` (packrat.go:81-85, set.go:281-300). -/
def loadSet {V : Type} (g : Grammar α) (lexemes : List (Lexeme α V)) : Out (SetSymbol.SymSet α) :=
  (grammarSyms g g.order).bind fun syms =>
    .ok (SetSymbol.castSyms (SetSymbol.castSyms SetSymbol.new syms).1 (lexemes.map (·.kind))).1

/-- `set.Symbol(x).Idx()` for a string that is in the set (set.go:51-77, 110). For such strings
`Symbol` leaves the set unchanged, so the model keeps using the loaded set. -/
def symIdx (s : SetSymbol.SymSet α) (x : α) : Nat := (SetSymbol.str s x).2

/-- `op.grmr.Productions(op.set.ByIdx(i))` with the symbols of the productions looked up in the set,
as done at packrat.go:123-124, 139, 165. -/
def idxProds (g : Grammar α) (s : SetSymbol.SymSet α) (i : Nat) : Option (List (List Nat)) :=
  match s.symb2str[i]? with
  | none => none
  | some x => (g.prods x).map fun ps => ps.map fun p => p.map (symIdx s)

/-- The read-only part of `prOp` built at packrat.go:83-95. -/
def mkEnv {V : Type} (g : Grammar α) (s : SetSymbol.SymSet α) (lexemes : List (Lexeme α V)) : Env :=
  { prods := idxProds g s
    nonterms := fun i => decide (i ∈ g.order.map (symIdx s))
    lex := lexemes.map fun l => symIdx s l.kind }

mutual
/-- Reading a result tree's kinds back as strings (`(*Symbol).String`, set.go:107). -/
def nameTree {V : Type} (s : SetSymbol.SymSet α) : PN Nat V → Out (PN α V)
  | .node l ks =>
    match s.symb2str[l.kind]? with
    | none => .panic
    | some x => (nameTrees s ks).bind fun ts => .ok (.node ⟨x, l.val, l.line, l.col⟩ ts)
/-- `nameTree` on each tree of a list (`(*Symbol).String`, set.go:107). -/
def nameTrees {V : Type} (s : SetSymbol.SymSet α) : List (PN Nat V) → Out (List (PN α V))
  | [] => .ok []
  | t :: ts => (nameTree s t).bind fun t' => (nameTrees s ts).bind fun ts' => .ok (t' :: ts')
end

/-- `Parse` (packrat.go:76-116), returning the tree with its kinds as strings. -/
def parse {V : Type} (emptyVal : V) (g : Grammar α) (lexemes : List (Lexeme α V)) (fuel : Nat) :
    Out (Option (PN α V)) :=
  match g.order with
  | [] => .ok none
  | start :: _ =>
    (loadSet g lexemes).bind fun s =>
      (parseIdx emptyVal (mkEnv g s lexemes) (symIdx s start)
        (lexemes.map fun l => ⟨symIdx s l.kind, l.val, l.line, l.col⟩) fuel).bind fun
        | none => .ok none
        | some t => (nameTree s t).bind fun t' => .ok (some t')

end Verif.Packrat
