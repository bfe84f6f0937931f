/-
Model of the relational analysis behind bounds-check elimination
(src/mir/pass/relations.rs and src/mir/pass/bounds_check.rs).

The interner (relations.rs:104-303) is dropped: a place is its root and its path, a symbol is its
name; the dense identities only matter for the order in which terms and predicates are sorted, which
is the parameter `rank` below.  A register naming a place (`alloca` and `subfield` results,
`seed_register_places`, relations.rs:1123-1167) is written as that place.  Range loops
(`recognize`, `yield_fact`) are not part of this file: no iterator is recognised, so no `Yield` and
no `Implies` fact ever arises (relations.rs:1974-2013 returns `None` when `inductions` is empty).
-/

namespace Ferlium.Relations

/-- Ferlium's `int`: a wrapping 64 bit integer (src/std/math.rs `Int = isize`). -/
abbrev W := BitVec 64

/-- Storage roots (src/mir/pass/dataflow.rs:59-73, dictionary entries left out). -/
inductive Root where
  | alloca (id : Nat)
  | param (id : Nat)
  deriving DecidableEq, Repr

/-- A storage slot: a root and the fields leading to it (relations.rs:116-136). -/
structure Place where
  root : Root
  path : List Nat
  deriving DecidableEq, Repr

/-- `Places::field` (relations.rs:155-163). -/
def Place.field (p : Place) (i : Nat) : Place := ⟨p.root, p.path ++ [i]⟩

/-- The slot reached from `p` by the path `q`. -/
def Place.down (p : Place) (q : List Nat) : Place := ⟨p.root, p.path ++ q⟩

/-- Whether `q` is `p` or a slot inside it. -/
def Place.covers (p q : Place) : Bool := p.root == q.root && p.path.isPrefixOf q.path

/-- Whether `q` is a slot strictly inside `p` (`Places::inside`, relations.rs:211-217). -/
def Place.inside (p q : Place) : Bool := p.covers q && p != q

/-- `DefSite` (relations.rs:86-98). -/
inductive Def where
  | entry
  | op (block index : Nat)
  | join (block : Nat)
  deriving DecidableEq, Repr

/-- `Symbol` (relations.rs:221-228). -/
inductive Symbol where
  | stored (p : Place) (d : Def)
  | reg (r : Nat)
  deriving DecidableEq, Repr

/-- `Affine` (relations.rs:318-323): `constant + Σ coefficient × symbol`. -/
structure Affine where
  constant : W
  terms : List (Symbol × W)
  deriving DecidableEq, Repr

/-- `MAX_TERMS` (relations.rs:77). -/
def maxTerms : Nat := 4

/-- `MAX_KNOWN` (relations.rs:84). -/
def maxKnown : Nat := 8

section
variable (rank : Symbol → Nat)

/-- `Affine::constant` (relations.rs:326-331). -/
def Affine.const (w : W) : Affine := ⟨w, []⟩

/-- `Affine::symbol` (relations.rs:333-338). -/
def Affine.sym (s : Symbol) : Affine := ⟨0, [(s, 1)]⟩

/-- `Affine::as_constant` (relations.rs:345-347). -/
def Affine.asConst (a : Affine) : Option W := if a.terms.isEmpty then some a.constant else none

/-- One round of the loop of `Affine::add` (relations.rs:360-365); the terms are sorted by symbol
identity, so the binary search is this scan. -/
def insertTerm : List (Symbol × W) → Symbol → W → List (Symbol × W)
  | [], s, c => [(s, c)]
  | (t, d) :: rest, s, c =>
    if t = s then (t, d + c) :: rest
    else if rank s < rank t then (s, c) :: (t, d) :: rest
    else (t, d) :: insertTerm rest s c

/-- The terms of a sum before zero coefficients are dropped (relations.rs:359-365). -/
def addTerms (ts us : List (Symbol × W)) : List (Symbol × W) :=
  us.foldl (fun acc u => insertTerm rank acc u.1 u.2) ts

/-- `Affine::add` (relations.rs:358-371). -/
def Affine.add (a b : Affine) : Option Affine :=
  let terms := (addTerms rank a.terms b.terms).filter (fun t => t.2 != 0)
  if terms.length ≤ maxTerms then some ⟨a.constant + b.constant, terms⟩ else none

/-- `Affine::scale` (relations.rs:377-389). -/
def Affine.scale (a : Affine) (k : W) : Affine :=
  if k = 0 then .const 0 else ⟨a.constant * k, a.terms.map (fun t => (t.1, t.2 * k))⟩

/-- `Affine::sub` (relations.rs:373-375). -/
def Affine.sub (a b : Affine) : Option Affine := a.add rank (b.scale (-1))

/-- `Affine::mul` (relations.rs:392-398). -/
def Affine.mul (a b : Affine) : Option Affine :=
  match a.asConst, b.asConst with
  | some k, _ => some (b.scale k)
  | none, some k => some (a.scale k)
  | none, none => none

/-- `Comparison` (relations.rs:402-409). -/
inductive Comparison where
  | less | lessOrEqual | equal | notEqual
  deriving DecidableEq, Repr

/-- The place of a comparison in the derived order (relations.rs:403). -/
def Comparison.index : Comparison → Nat
  | .less => 0
  | .lessOrEqual => 1
  | .equal => 2
  | .notEqual => 3

/-- `Predicate` (relations.rs:415-419): a comparison of a difference with zero. -/
structure Predicate where
  difference : Affine
  comparison : Comparison
  deriving DecidableEq, Repr

/-- `Predicate::between` (relations.rs:423-428). -/
def between (l : Affine) (c : Comparison) (r : Affine) : Option Predicate :=
  (l.sub rank r).map (fun d => ⟨d, c⟩)

/-- `Predicate::negated` (relations.rs:435-455). -/
def Predicate.negated (p : Predicate) : Predicate :=
  match p.comparison with
  | .less => ⟨p.difference.scale (-1), .lessOrEqual⟩
  | .lessOrEqual => ⟨p.difference.scale (-1), .less⟩
  | .equal => ⟨p.difference, .notEqual⟩
  | .notEqual => ⟨p.difference, .equal⟩

/-- `Predicate::is_certain` (relations.rs:458-466). -/
def Predicate.isCertain (p : Predicate) : Option Bool :=
  p.difference.asConst.map fun (c : W) =>
    match p.comparison with
    | .less => c.slt 0
    | .lessOrEqual => c.sle 0
    | .equal => c == 0
    | .notEqual => c != 0

/-- `Predicate::entails` (relations.rs:478-495). -/
def Predicate.entails (p goal : Predicate) : Bool :=
  match (goal.difference.sub rank p.difference).bind Affine.asConst with
  | none => false
  | some offset =>
    if p.comparison = goal.comparison ∧ offset = 0 then true
    else match p.comparison, goal.comparison with
      | .less, .lessOrEqual => offset == 0 || offset == 1
      | .less, .notEqual => offset == 0
      | _, _ => false

/-- `Fact` (relations.rs:499-522), without the two range loop facts. -/
inductive Fact where
  | value (a : Affine)
  | ordering (l r : Affine)
  | truth (p : Predicate)
  deriving DecidableEq, Repr

/-- `State` (relations.rs:526-542); the maps are functions. -/
structure State where
  current : Place → Option Symbol
  facts : Symbol → Option Fact
  known : List Predicate

/-- `State::default` (relations.rs:525). -/
def State.empty : State := ⟨fun _ => none, fun _ => none, []⟩

/-- `State::symbol_of` (relations.rs:546-551). -/
def State.symbolOf (st : State) (p : Place) : Symbol := (st.current p).getD (.stored p .entry)

/-- `State::set_fact` (relations.rs:558-567). -/
def State.setFact (st : State) (s : Symbol) (f : Option Fact) : State :=
  { st with facts := fun t => if t = s then f else st.facts t }

/-- `State::implies` (relations.rs:575-578). -/
def State.implies (st : State) (goal : Predicate) : Bool :=
  match goal.isCertain with
  | some b => b
  | none => st.known.any (fun p => p.entails rank goal)

/-- The order of a list of terms, derived from that of its elements (relations.rs:317). -/
def termsLt : List (Symbol × W) → List (Symbol × W) → Bool
  | [], [] => false
  | [], _ :: _ => true
  | _ :: _, [] => false
  | (s, c) :: xs, (t, d) :: ys =>
    if rank s < rank t then true
    else if rank t < rank s then false
    else if c.slt d then true
    else if d.slt c then false
    else termsLt xs ys

/-- The derived order of predicates (relations.rs:317, 414). -/
def Predicate.lt (p q : Predicate) : Bool :=
  if p.difference.constant.slt q.difference.constant then true
  else if q.difference.constant.slt p.difference.constant then false
  else if termsLt rank p.difference.terms q.difference.terms then true
  else if termsLt rank q.difference.terms p.difference.terms then false
  else p.comparison.index < q.comparison.index

/-- Insertion at the position found by the binary search (relations.rs:591-592). -/
def insertSorted (p : Predicate) : List Predicate → List Predicate
  | [] => [p]
  | q :: qs => if p.lt rank q then p :: q :: qs else q :: insertSorted p qs

/-- `State::assume` (relations.rs:585-595). -/
def State.assume (st : State) (p : Predicate) : State :=
  if p.isCertain = some true then st
  else if p ∈ st.known then st
  else { st with known := (insertSorted rank p st.known).take maxKnown }

/-- `State::place_affine` (relations.rs:624-638); without range loops no ancestor has a `Yield`. -/
def State.placeAffine (st : State) (p : Place) : Affine :=
  match st.facts (st.symbolOf p) with
  | some (.value a) => a
  | _ => .sym (st.symbolOf p)

/-- `State::define` (relations.rs:655-673): the slots strictly inside the place are removed from the
map, the place is bound to its new symbol. -/
def State.define (st : State) (p : Place) (d : Def) (f : Option Fact) : State :=
  State.setFact
    { st with current := fun q =>
        if q = p then some (.stored p d) else if p.inside q then none else st.current q }
    (.stored p d) f

/-- The meaning of a call's callee, as far as the analysis knows one (known_callee.rs:96-172).
`other known` stands for every other callee: `known` tells whether the analysis resolves it, and so
lets its mutable arguments stay tracked. -/
inductive Callee where
  | intAdd | intSub | intMul | intNeg | intFromInt | intCmp
  | arrayLen | arrayResolveIndex | arrayIndex
  | other (known : Bool)
  deriving DecidableEq, Repr

/-- What a `comp_eq` inspects: a place, or a materialised register (relations.rs:2059-2066). -/
inductive Scrutinee where
  | place (p : Place)
  | reg (r : Nat)
  deriving DecidableEq, Repr

/-- The operations `transfer` describes (relations.rs:1606-1862). A call lists its visible arguments
with whether they are passed by mutable reference (`CallOperands`, dataflow.rs:942-948). -/
inductive Op where
  | alloca (id : Nat)
  | storeConst (w : W) (dst : Place)
  | storeReg (r : Nat) (dst : Place)
  | buildArray (count : Nat) (dst : Place)
  | load (r : Nat) (src : Place)
  | subfield (base : Place) (field : Nat)
  | memcpy (src dst : Place)
  | move (src dst : Place)
  | drop (p : Place)
  | extractTag (r : Nat) (src : Place)
  | compEq (r : Nat) (s : Scrutinee) (tag : String)
  | call (callee : Callee) (args : List (Place × Bool)) (result : Place)
  | clone (src dst : Place)
  deriving DecidableEq, Repr

/-- Terminators (src/mir/terminator.rs): jump, branch on a register, a call with an error edge, and
the ones without successor. -/
inductive Term where
  | goto (t : Nat)
  | condBr (cond : Nat) (thn els : Nat)
  | invoke (op : Op) (normal error : Nat)
  | exit
  deriving DecidableEq, Repr

/-- A block. -/
structure Block where
  ops : List Op
  term : Term
  deriving DecidableEq, Repr

/-- A function body; the entry is block 0. `arrays` are the roots of array type
(`RootTypes`, relations.rs:707-737). -/
structure Body where
  blocks : List Block
  arrays : List Root
  deriving DecidableEq, Repr

/-- `Terminator::successors`. -/
def Term.succs : Term → List Nat
  | .goto t => [t]
  | .condBr _ t e => [t, e]
  | .invoke _ n e => [n, e]
  | .exit => []

/-- The operations of a block, with the one of an `invoke` at the end. -/
def Block.allOps (b : Block) : List Op :=
  b.ops ++ match b.term with
    | .invoke op _ _ => [op]
    | _ => []

/-- The position of `len` in the array layout (src/std/prelude/array_type.fer:4-9). -/
def lenField : Nat := 2

/-- The roots an operation makes escape: those a callee of unknown meaning may write through
(`escaping_roots`, dataflow.rs:761-931, with the `mutations_modelled` of relations.rs:934-936). The
operations which store or project pointers are not part of the model. -/
def Op.escapes (op : Op) (r : Root) : Bool :=
  match op with
  | .call (.other false) args _ => args.any (fun a => a.2 && a.1.root == r)
  | _ => false

/-- `escaping_roots` (dataflow.rs:761-931). -/
def Body.escaped (f : Body) (r : Root) : Bool :=
  f.blocks.any (fun b => b.allOps.any (fun op => op.escapes r))

/-- `State::place_of` (relations.rs:607-617) with `seed_register_places` (relations.rs:1123-1167): a
register naming a slot of an escaped root is bound to nothing, whereas a parameter names its slot
whether or not it escaped. -/
def placeOf (f : Body) (p : Place) : Option Place :=
  match p.root, p.path with
  | .param _, [] => some p
  | _, _ => if f.escaped p.root then none else some p

/-- `tracked_place` (relations.rs:1593-1601). -/
def tracked (f : Body) (p : Place) : Option Place :=
  match placeOf f p with
  | some q => if f.escaped q.root then none else some q
  | none => none

/-- `argument_affine` (relations.rs:2019-2022). -/
def argumentAffine (f : Body) (st : State) (p : Place) : Option Affine :=
  (placeOf f p).map st.placeAffine

/-- The form of the `i`th argument of a call (relations.rs:1873-1876). -/
def argAffine (f : Body) (st : State) (args : List (Place × Bool)) (i : Nat) : Option Affine :=
  match args[i]? with
  | some a => argumentAffine f st a.1
  | none => none

/-- `result_fact` (relations.rs:1865-1929). -/
def resultFact (f : Body) (st : State) (c : Callee) (args : List (Place × Bool)) : Option Fact :=
  match c with
  | .intAdd =>
    match argAffine f st args 0, argAffine f st args 1 with
    | some l, some r => (l.add rank r).map .value
    | _, _ => none
  | .intSub =>
    match argAffine f st args 0, argAffine f st args 1 with
    | some l, some r => (l.sub rank r).map .value
    | _, _ => none
  | .intMul =>
    match argAffine f st args 0, argAffine f st args 1 with
    | some l, some r => (l.mul r).map .value
    | _, _ => none
  | .intNeg => (argAffine f st args 0).map (fun a => .value (a.scale (-1)))
  | .intFromInt => (argAffine f st args 0).map .value
  | .intCmp =>
    match argAffine f st args 0, argAffine f st args 1 with
    | some l, some r => some (.ordering l r)
    | _, _ => none
  | .arrayLen =>
    match args[0]? with
    | some a => (tracked f a.1).map (fun p => .value (st.placeAffine (p.field lenField)))
    | none => none
  | .arrayResolveIndex | .arrayIndex | .other _ => none

/-- The fact recorded about a copied slot (relations.rs:1700-1706, 1717-1722). -/
def copiedFact (st : State) (p : Place) : Fact :=
  (st.facts (st.symbolOf p)).getD (.value (.sym (st.symbolOf p)))

/-- The definitions of a whole-value copy (relations.rs:1712-1742): the destination, then every slot
inside it whose counterpart in the source has a current symbol. Defining them from the shallowest to
the deepest leaves each of them bound to its own new symbol, which is said here at once. -/
def State.copy (st : State) (src : Option Place) (dst : Place) (d : Def) : State :=
  match src with
  | none => st.define dst d none
  | some s =>
    let counterpart (q : Place) : Place := s.down (q.path.drop dst.path.length)
    let copies (q : Place) : Bool :=
      dst.inside q && (st.current (counterpart q)).isSome
    let base := st.define dst d (some (copiedFact st s))
    { base with
      current := fun q => if copies q then some (.stored q d) else base.current q
      facts := fun t =>
        match t with
        | .stored q d' =>
          if d' = d ∧ copies q then some (copiedFact st (counterpart q)) else base.facts t
        | .reg _ => base.facts t }

/-- The slots a call forgets: its mutable arguments, except those of the array accessors
(relations.rs:1793-1817). -/
def forgetArgs (f : Body) (c : Callee) (d : Def) (args : List (Place × Bool)) (st : State) : State :=
  if c = .arrayIndex then st
  else args.foldl (fun st a =>
    match a.2, tracked f a.1 with
    | true, some p => st.define p d none
    | _, _ => st) st

/-- `comparison_fact` (relations.rs:2052-2089). -/
def comparisonFact (f : Body) (st : State) (s : Scrutinee) (tag : String) : Option Fact :=
  let scrutinee := match s with
    | .place p =>
      match tracked f p with
      | some q => st.facts (st.symbolOf q)
      | none => none
    | .reg r => st.facts (.reg r)
  match scrutinee with
  | some (.ordering l r) =>
    if tag = "Less" then (between rank l .less r).map .truth
    else if tag = "Greater" then (between rank r .less l).map .truth
    else if tag = "Equal" then (between rank l .equal r).map .truth
    else none
  | _ => none

/-- Whether a projection names the length of an array root (relations.rs:1672-1677). -/
def isLength (f : Body) (base : Place) (field : Nat) : Bool :=
  base.path.isEmpty && field == lenField && f.arrays.contains base.root

/-- `transfer` (relations.rs:1606-1862). -/
def transfer (f : Body) (op : Op) (d : Def) (st : State) : State :=
  match op with
  | .alloca id => if f.escaped (.alloca id) then st else st.define ⟨.alloca id, []⟩ d none
  | .storeConst w dst =>
    match tracked f dst with
    | some p => st.define p d (some (.value (.const w)))
    | none => st
  | .storeReg r dst =>
    match tracked f dst with
    | some p => st.define p d (st.facts (.reg r))
    | none => st
  | .buildArray count dst =>
    match tracked f dst with
    | some p =>
      (st.define p d none).define (p.field lenField) d
        (some (.value (.const (BitVec.ofNat 64 count))))
    | none => st
  | .load r src =>
    st.setFact (.reg r) ((tracked f src).map fun p =>
      (st.facts (st.symbolOf p)).getD (.value (st.placeAffine p)))
  | .subfield base field =>
    match tracked f base with
    | some p =>
      if isLength f p field then
        match between rank (.const 0) .lessOrEqual (st.placeAffine (p.field field)) with
        | some pred => st.assume rank pred
        | none => st
      else st
    | none => st
  | .memcpy src dst =>
    match tracked f dst with
    | some q => st.copy (tracked f src) q d
    | none => st
  | .move src dst =>
    let st' := match tracked f dst with
      | some q => st.copy (tracked f src) q d
      | none => st
    match tracked f src with
    | some p => st'.define p d none
    | none => st'
  | .drop p =>
    match tracked f p with
    | some q => st.define q d none
    | none => st
  | .extractTag r src =>
    st.setFact (.reg r) (match tracked f src with
      | some p => match st.facts (st.symbolOf p) with
        | some (.ordering a b) => some (.ordering a b)
        | _ => none
      | none => none)
  | .compEq r s tag => st.setFact (.reg r) (comparisonFact rank f st s tag)
  | .call c args result =>
    let st' := forgetArgs f c d args st
    let fact := resultFact rank f st' c args
    match tracked f result with
    | some p => st'.define p d fact
    | none => st'
  | .clone _ dst =>
    match tracked f dst with
    | some p => st.define p d none
    | none => st

/-- The states along a list of operations of block `b` from position `i` (relations.rs:1064-1083). -/
def transferOps (f : Body) (b : Nat) : Nat → List Op → State → State
  | _, [], st => st
  | i, op :: ops, st => transferOps f b (i + 1) ops (transfer rank f op (.op b i) st)

/-- `Context::array_index_forms` (relations.rs:832-862): the index and the length of a checked
access. -/
def arrayIndexForms (f : Body) (st : State) (args : List (Place × Bool)) :
    Option (Affine × Affine) :=
  match args with
  | [a, i] =>
    match tracked f a.1 with
    | some p =>
      if f.arrays.contains p.root then
        (argumentAffine f st i.1).map (fun x => (x, st.placeAffine (p.field lenField)))
      else none
    | none => none
  | _ => none

/-- `resolved_index_bounds` (relations.rs:1485-1511). -/
def resolvedIndexBounds (f : Body) (st : State) (args : List (Place × Bool)) (result : Place) :
    List Predicate :=
  match argAffine f st args 0, argAffine f st args 1 with
  | some index, some len =>
    match between rank (.const 0) .lessOrEqual index with
    | some nonneg =>
      let offset :=
        if st.implies rank nonneg then some index else (tracked f result).map st.placeAffine
      match offset with
      | some o =>
        match between rank (.const 0) .lessOrEqual o, between rank o .less len with
        | some a, some b => [a, b]
        | _, _ => []
      | none => []
    | none => []
  | _, _ => []

/-- `checked_array_index_bounds` (relations.rs:1519-1536). -/
def checkedArrayIndexBounds (f : Body) (st : State) (args : List (Place × Bool)) :
    List Predicate :=
  match arrayIndexForms f st args with
  | some (index, len) =>
    match between rank (.const 0) .lessOrEqual index with
    | some nonneg =>
      if st.implies rank nonneg then
        match between rank index .less len with
        | some b => [nonneg, b]
        | none => []
      else []
    | none => []
  | none => []

/-- What is assumed on the edge from a terminator to `target` (`refine`, relations.rs:1420-1472). -/
def assumed (f : Body) (t : Term) (target : Nat) (st : State) : List Predicate :=
  match t with
  | .condBr c thn els =>
    if thn = els then []
    else match st.facts (.reg c) with
      | some (.truth p) => if target = thn then [p] else [p.negated]
      | _ => []
  | .invoke (.call c args result) normal _ =>
    if target = normal then
      match c with
      | .arrayResolveIndex => resolvedIndexBounds rank f st args result
      | .arrayIndex => checkedArrayIndexBounds rank f st args
      | _ => []
    else []
  | _ => []

/-- `refine` (relations.rs:1420-1472). -/
def refine (f : Body) (t : Term) (target : Nat) (st : State) : State :=
  (assumed rank f t target st).foldl (fun st p => st.assume rank p) st

/-- `rejoin` (relations.rs:1565-1590) with `common_facts_and_predicates` (relations.rs:675-701). -/
def rejoin (b : Nat) (e i : State) : State where
  current p := if e.current p = i.current p then e.current p else some (.stored p (.join b))
  facts s := if e.facts s = i.facts s then e.facts s else none
  known := e.known.filter (fun p => p ∈ i.known)

/-- The blocks with an edge into `b`, once per edge (relations.rs:1002-1008). -/
def Body.preds (f : Body) (b : Nat) : List Nat :=
  (List.range f.blocks.length).flatMap fun a =>
    match f.blocks[a]? with
    | some blk => (blk.term.succs.filter (· = b)).map (fun _ => a)
    | none => []

/-- The state at the end of a block, including the call of an `invoke` (relations.rs:1064-1083). -/
def exitState (f : Body) (b : Nat) (st : State) : State :=
  match f.blocks[b]? with
  | some blk => transferOps rank f b 0 blk.allOps st
  | none => st

/-- The entry state of a block, from the exit states of its predecessors
(relations.rs:1046-1066). -/
def joinEntry (f : Body) (exits : Nat → Option State) (b : Nat) : Option State :=
  if b = 0 then some .empty
  else (f.preds b).foldl (fun acc a =>
    match exits a, f.blocks[a]? with
    | some st, some blk =>
      let edge := refine rank f blk.term b st
      match acc with
      | some e => some (rejoin b e edge)
      | none => some edge
    | _, _ => acc) none

/-- The variables of the loop of `run` (relations.rs:998-1116). -/
structure Run where
  entries : Nat → Option State
  exits : Nat → Option State
  queued : Nat → Prop

/-- The start of `run` (relations.rs:1026-1036). -/
def Run.start : Run := ⟨fun _ => none, fun _ => none, fun b => b = 0⟩

/-- One round of the loop of `run` (relations.rs:1039-1110), for any choice of the block taken from
the work list. A run which exceeds its budget gives nothing, and is not described. -/
inductive RunStep (f : Body) : Run → Run → Prop
  | unreached {r b} (hq : r.queued b) (he : joinEntry rank f r.exits b = none) :
      RunStep f r ⟨r.entries, r.exits, fun x => r.queued x ∧ x ≠ b⟩
  | unchanged {r b e} (hq : r.queued b) (he : joinEntry rank f r.exits b = some e)
      (hold : r.entries b = some e) (hx : r.exits b ≠ none) :
      RunStep f r ⟨r.entries, r.exits, fun x => r.queued x ∧ x ≠ b⟩
  | sameExit {r b e} (hq : r.queued b) (he : joinEntry rank f r.exits b = some e)
      (hnew : ¬(r.entries b = some e ∧ r.exits b ≠ none))
      (hx : r.exits b = some (exitState rank f b e)) :
      RunStep f r ⟨fun x => if x = b then some e else r.entries x, r.exits,
        fun x => r.queued x ∧ x ≠ b⟩
  | newExit {r b e} (hq : r.queued b) (he : joinEntry rank f r.exits b = some e)
      (hnew : ¬(r.entries b = some e ∧ r.exits b ≠ none))
      (hx : r.exits b ≠ some (exitState rank f b e)) :
      RunStep f r ⟨fun x => if x = b then some e else r.entries x,
        fun x => if x = b then some (exitState rank f b e) else r.exits x,
        fun x => (r.queued x ∧ x ≠ b) ∨
          ∃ blk, f.blocks[b]? = some blk ∧ x ∈ blk.term.succs⟩

/-- The states reachable by the loop of `run`. -/
inductive Runs (f : Body) : Run → Prop
  | start : Runs f Run.start
  | step {r r'} (h : Runs f r) (s : RunStep rank f r r') : Runs f r'

/-- What a finished run leaves: the work list is empty. -/
def Finished (f : Body) (r : Run) : Prop := Runs rank f r ∧ ∀ b, ¬r.queued b

/-- `Normalization` (bounds_check.rs:50-58). -/
inductive Normalization where
  | nonNegative | negative
  deriving DecidableEq, Repr

/-- The forms a checked access is decided on (bounds_check.rs:170-217). -/
def checkForms (f : Body) (st : State) (op : Op) : Option (Affine × Affine) :=
  match op with
  | .call .arrayResolveIndex [i, l] _ =>
    match argumentAffine f st i.1, argumentAffine f st l.1 with
    | some x, some y => some (x, y)
    | _, _ => none
  | .call .arrayIndex args _ => arrayIndexForms f st args
  | _ => none

/-- Whether the state implies a comparison (bounds_check.rs:219-222). -/
def impliesBetween (st : State) (l : Affine) (c : Comparison) (r : Affine) : Bool :=
  match between rank l c r with
  | some goal => st.implies rank goal
  | none => false

/-- The decision of `eliminate_bounds_checks` on one call (bounds_check.rs:218-238). -/
def decision (f : Body) (st : State) (op : Op) : Option Normalization :=
  match checkForms f st op with
  | none => none
  | some (index, len) =>
    if impliesBetween rank st (.const 0) .lessOrEqual index &&
        impliesBetween rank st index .less len then some .nonNegative
    else match len.add rank index with
      | none => none
      | some offset =>
        if impliesBetween rank st index .less (.const 0) &&
            impliesBetween rank st (.const 0) .lessOrEqual offset &&
            impliesBetween rank st offset .less len then some .negative
        else none

end

end Ferlium.Relations
