/-!
# Moving calls out of loops

Model of `/repo/src/mir/pass/licm.rs`, which moves one call at a time from a loop to the block before it, with
the storage of its result if that is made in the loop.

Types are numbers; `trivial` is `concrete_type_is_trivial_copy`, `willReturn` the summary of functions that
return, and `dom` the relation of dominance, which C26 shows exact.  The order in which loops are tried (by
size, and for equal sizes in the order of a hash map, 215-219, 359-360) is a parameter.  The early exits at
138-158 are not modelled: they only save work.

The second half of the file runs functions.  It models what `/repo/src/mir/interpreter.rs` does with registers,
storage and stack regions, with the meaning of the other operations left as a parameter.  Storage is named by
its root.  Storage behind places that are not rooted (loaded from a cell of places) is part of the world.
-/

namespace Ferlium.Licm

abbrev Reg := Nat

/-- `Root`, dataflow.rs 57-68. -/
inductive Root where
  | alloca (r : Reg)
  | param (p : Nat)
  | dict (r : Reg)
deriving DecidableEq, Repr

/-- `mir::Value`, as far as the pass looks at it. -/
inductive Operand where
  | reg (r : Reg)
  | param (p : Nat)
  | func (f : Nat)
  | other (k : Nat)
deriving DecidableEq, Repr

/-- What is asked about the type and the metadata of a call, licm.rs 176-197: `muts` are the conventions of the
visible arguments, `true` for `MutableRef`; `owned` the indices of `owned_arguments`. -/
structure CallInfo where
  muts : List Bool
  effectFree : Bool
  valueResult : Bool
  ret : Nat
  owned : List Nat
deriving DecidableEq, Repr

/-- `OperationKind`, operation.rs 896-982.  The last two are the operands of terminators, as operations. -/
inductive Kind where
  | alloca (ty : Nat)
  | allocaPlace
  | call (info : CallInfo)
  | project
  | endProject
  | compareEqual
  | load
  | subfield
  | dictEntry
  | subscriptMember
  | buildSubscript
  | variant
  | buildArray
  | extractTag
  | store
  | clear
  | memcpy
  | move
  | stackSave
  | stackRestore
  | checkCallDepth
  | checkFuel
  | clone
  | drop
  | buildClosure
  | cloneClosureEnv
  | dropClosureEnv
  | yield
  | branch
deriving DecidableEq, Repr

/-- `Operation`, operation.rs 60-76; `data` stands for everything else about it. -/
structure Op where
  kind : Kind
  data : Nat
  operands : List Operand
  result : Option Reg
deriving DecidableEq, Repr

/-- `TerminatorKind`, terminator.rs 161-186; `leave` is one of the last three. -/
inductive Term where
  | goto (target : Nat)
  | condBr (condition : Operand) (yes no : Nat)
  | invoke (op : Op) (normal error : Nat)
  | yield (place : Operand) (resume : Nat)
  | leave (tag : Nat)
deriving DecidableEq, Repr

structure Block where
  ops : List Op
  term : Term
deriving DecidableEq, Repr

/-- `mir::Function`; the entry is block 0, function.rs 158-164. -/
abbrev Fn := List Block

/-- `OperationSite`: block and index; the index of a terminator is the number of operations. -/
abbrev Site := Nat × Nat

/-- `successors`, terminator.rs 190-203. -/
def Term.successors : Term → List Nat
  | .goto t => [t]
  | .condBr _ a b => [a, b]
  | .invoke _ a b => [a, b]
  | .yield _ t => [t]
  | .leave _ => []

/-- What a terminator does with its operands, as an operation. -/
def Term.op : Term → Option Op
  | .condBr c _ _ => some ⟨.branch, 0, [c], none⟩
  | .invoke op _ _ => some op
  | .yield p _ => some ⟨.yield, 0, [p], none⟩
  | _ => none

/-- The operations of a block with that of the terminator. -/
def Block.all (b : Block) : List Op := b.ops ++ b.term.op.toList

/-- All operations with their sites, those of terminators at the end. -/
def opsFrom (b : Nat) : Nat → List Op → List (Site × Op)
  | _, [] => []
  | i, op :: rest => ((b, i), op) :: opsFrom b (i + 1) rest

def sitesFrom : Nat → List Block → List (Site × Op)
  | _, [] => []
  | b, blk :: rest => opsFrom b 0 blk.ops ++ sitesFrom (b + 1) rest

/-- The operations of all blocks, without terminators. -/
def Fn.sites (F : Fn) : List (Site × Op) := sitesFrom 0 F

/-! ## Roots of places -/

abbrev Roots := List (Reg × Root)

def Roots.get (m : Roots) (r : Reg) : Option Root := (m.find? (·.1 == r)).map (·.2)

/-- The root that an operation makes, licm.rs 82-88. -/
def ownRoot (op : Op) : Option Root :=
  match op.result with
  | none => none
  | some r =>
    match op.kind with
    | .alloca _ | .allocaPlace | .subscriptMember => some (.alloca r)
    | .dictEntry => some (.dict r)
    | _ => none

/-- `root_of`, licm.rs 119-125. -/
def Roots.of (m : Roots) : Operand → Option Root
  | .reg r => m.get r
  | .param p => some (.param p)
  | _ => none

/-- The first loop, licm.rs 77-93. -/
def baseRoots (F : Fn) : Roots :=
  (F.sites.filterMap fun p => p.2.result.bind fun r => (ownRoot p.2).map (r, ·)).reverse

/-- One subfield, licm.rs 101-109. -/
def rootStep (p : Roots × Bool) (op : Op) : Roots × Bool :=
  if op.kind = .subfield then
    match op.result, op.operands.head?.bind p.1.of with
    | some r, some root => if p.1.get r = some root then p else ((r, root) :: p.1, true)
    | _, _ => p
  else p

/-- The fixed point, licm.rs 97-115, with a bound. -/
def rootsLoop (ops : List Op) : Nat → Roots → Option Roots
  | 0, _ => none
  | n + 1, m =>
    match ops.foldl rootStep (m, false) with
    | (m', true) => rootsLoop ops n m'
    | (m', false) => some m'

/-- `PlaceRoots::of`, licm.rs 75-117: every sweep but the last finds the root of another register. -/
def placeRoots (F : Fn) : Option Roots :=
  rootsLoop (F.sites.map (·.2)) (F.sites.length + 1) (baseRoots F)

/-! ## Calls -/

/-- `CallOperands`, dataflow.rs. -/
structure CallOperands where
  callee : Operand
  extras : List Operand
  arguments : List (Operand × Bool)
  result : Operand

/-- `call_operands`, dataflow.rs 954-981. -/
def callOperands (info : CallInfo) (operands : List Operand) : Option CallOperands :=
  let visible := info.muts.length
  if visible + 2 ≤ operands.length then
    let extras := operands.length - (visible + 2)
    match operands.head?, operands[1 + extras + visible]? with
    | some callee, some result =>
      some ⟨callee, (operands.drop 1).take extras, ((operands.drop (1 + extras)).take visible).zip info.muts, result⟩
    | _, _ => none
  else none

/-- `eligible_call`, licm.rs 171-205. -/
def eligibleCall (trivial willReturn : Nat → Bool) (op : Op) : Option CallOperands :=
  match op.kind with
  | .call info =>
    if !info.effectFree || !info.valueResult || !trivial info.ret || !info.owned.isEmpty then none
    else
      match callOperands info op.operands with
      | none => none
      | some call =>
        if call.arguments.any (·.2) then none
        else
          match call.callee with
          | .func f => if willReturn f then some call else none
          | _ => none
  | _ => none

/-! ## Writes -/

/-- The operands that `record_writes`, licm.rs 456-523, takes to be written. -/
def written (op : Op) : List Operand :=
  match op.kind with
  | .call info =>
    match callOperands info op.operands with
    | none => op.operands
    | some call =>
      call.result :: (call.arguments.filter (·.2)).map (·.1) ++
        info.owned.filterMap fun i => (call.arguments[i]?).map (·.1)
  | .store | .memcpy | .clone => (op.operands[1]?).toList
  | .move => (op.operands[0]?).toList ++ (op.operands[1]?).toList
  | .clear | .drop | .dropClosureEnv => (op.operands[0]?).toList
  | .buildArray => op.operands.getLast?.toList
  | .project | .endProject | .buildSubscript | .buildClosure => op.operands
  | .yield => op.operands
  | _ => []

/-- All writes of a block, licm.rs 422-451: `Invoke` and `Yield` at the index after the operations. -/
def blockWrites (m : Roots) (b : Nat) (blk : Block) : List (Root × Site) :=
  (opsFrom b 0 blk.all).flatMap fun p => (written p.2).filterMap fun o => (m.of o).map (·, p.1)

/-- `writes_in`, licm.rs 415-454. -/
def writesIn (m : Roots) (F : Fn) (blocks : List Nat) : List (Root × Site) :=
  blocks.flatMap fun b =>
    match F[b]? with
    | none => []
    | some blk => blockWrites m b blk

def sitesOf (w : List (Root × Site)) (root : Root) : List Site := (w.filter (·.1 == root)).map (·.2)

/-- `root_used_outside`, licm.rs 525-544. -/
def usedOutside (m : Roots) (F : Fn) (root : Root) (blocks : List Nat) : Bool :=
  (List.range F.length).any fun b =>
    !blocks.contains b &&
      match F[b]? with
      | none => false
      | some blk => blk.all.any fun op => op.operands.any fun o => m.of o == some root

/-! ## Loops -/

structure NaturalLoop where
  blocks : List Nat
  preheader : Nat
deriving Repr

def Fn.successors (F : Fn) (b : Nat) : List Nat :=
  match F[b]? with
  | none => []
  | some blk => blk.term.successors

/-- `predecessors`, licm.rs 313-326. -/
def Fn.predecessors (F : Fn) (b : Nat) : List Nat := (List.range F.length).filter fun p => (F.successors p).contains b

/-- One predecessor, licm.rs 349-353: the set, and what is pending. -/
def growStep (header : Nat) (p : List Nat × List Nat) (pred : Nat) : List Nat × List Nat :=
  if pred ∈ p.1 then p else (pred :: p.1, if pred ≠ header then pred :: p.2 else p.2)

/-- The walk against the edges, licm.rs 348-354, with a bound. -/
def grow (F : Fn) (header : Nat) : Nat → List Nat × List Nat → Option (List Nat)
  | _, (set, []) => some set
  | 0, _ => none
  | n + 1, (set, b :: pending) => grow F header n ((F.predecessors b).foldl (growStep header) (set, pending))

/-- One edge back to the header, licm.rs 343-355. -/
def addTail (F : Fn) (header : Nat) (set : List Nat) (tail : Nat) : Option (List Nat) :=
  let set := if header ∈ set then set else header :: set
  if tail ∈ set then some set else grow F header F.length (tail :: set, [tail])

/-- All of them, licm.rs 335-357. -/
def loopBlocks (F : Fn) (dom : Nat → Nat → Bool) (reachable : Nat → Bool) (header : Nat) : Option (List Nat) :=
  ((List.range F.length).filter fun t => reachable t && (F.successors t).contains header && dom header t).foldlM
    (addTail F header) []

/-- The loop of a header, licm.rs 359-379.  `none` for the bound; `some none` when there is no such loop. -/
def naturalLoop (F : Fn) (dom : Nat → Nat → Bool) (reachable : Nat → Bool) (header : Nat) : Option (Option NaturalLoop) :=
  match loopBlocks F dom reachable header with
  | none => none
  | some [] => some none
  | some blocks =>
    match (F.predecessors header).filter fun p => !blocks.contains p with
    | [pre] =>
      match F[pre]? with
      | some ⟨_, .goto t⟩ => if t = header then some (some ⟨blocks, pre⟩) else some none
      | _ => some none
    | _ => some none

/-! ## Finding a call to move -/

/-- `Hoist`, licm.rs 61-67. -/
structure Hoist where
  call : Site
  alloca : Option Site
  preheader : Nat
  insertion : Nat
deriving DecidableEq, Repr

/-- `definitions`, licm.rs 382-413: the last one found. -/
def definition (F : Fn) (r : Reg) : Option (Site × Op) := F.sites.reverse.find? fun p => p.2.result == some r

/-- `definition_dominates`, licm.rs 546-556. -/
def definitionDominates (dom : Nat → Nat → Bool) (d u : Site) : Bool :=
  if d.1 = u.1 then decide (d.2 < u.2) else dom d.1 u.1

/-- One input at licm.rs 568-591: the earliest index, or `none`. -/
def inputEarliest (F : Fn) (dom : Nat → Nat → Bool) (m : Roots) (pre : Nat) (preWrites : List (Root × Site))
    (earliest : Nat) (o : Operand) : Option Nat :=
  let fromDef : Option Nat :=
    match o with
    | .reg r =>
      match definition F r with
      | none => none
      | some ((d, i), _) => if d = pre then some (max earliest (i + 1)) else if dom d pre then some earliest else none
    | _ => some earliest
  fromDef.map fun e =>
    match m.of o with
    | none => e
    | some root => (sitesOf preWrites root).foldl (fun e s => max e (s.2 + 1)) e

/-- One operation of the loop at licm.rs 595-610: the latest index, or `none`. -/
def restoreLatest (F : Fn) (nl : NaturalLoop) (latest : Nat) (op : Op) : Option Nat :=
  if op.kind = .stackRestore then
    match op.operands.head? with
    | some (.reg marker) =>
      match definition F marker with
      | none => none
      | some ((d, i), _) =>
        if nl.blocks.contains d then some latest else if d = nl.preheader then some (min latest i) else none
    | _ => none
  else some latest

/-- `insertion_point`, licm.rs 558-616. -/
def insertionPoint (F : Fn) (dom : Nat → Nat → Bool) (m : Roots) (nl : NaturalLoop) (inputs : List Operand)
    (preWrites : List (Root × Site)) : Option Nat :=
  match inputs.foldlM (inputEarliest F dom m nl.preheader preWrites) 0, F[nl.preheader]? with
  | some earliest, some pre =>
    match (nl.blocks.flatMap fun b => ((F[b]?).map (·.ops)).getD []).foldlM (restoreLatest F nl) pre.ops.length with
    | none => none
    | some latest => if earliest ≤ latest then some latest else none
  | _, _ => none

/-- The body of the loops at licm.rs 236-307, for one operation. -/
def candidate (F : Fn) (dom : Nat → Nat → Bool) (trivial willReturn : Nat → Bool) (m : Roots) (nl : NaturalLoop)
    (site : Site) (op : Op) : Option Hoist :=
  match eligibleCall trivial willReturn op with
  | none => none
  | some call =>
    match call.result, op.kind with
    | .reg result, .call info =>
      match definition F result with
      | some (defSite, ⟨.alloca ty, _, operands, _⟩) =>
        if !operands.isEmpty || ty ≠ info.ret || !trivial ty then none
        else
          let root := Root.alloca result
          let writes := writesIn m F nl.blocks
          if sitesOf writes root ≠ [site] || usedOutside m F root nl.blocks then none
          else
            let inputs := call.extras ++ call.arguments.map (·.1)
            if inputs.any fun o =>
                match m.of o with
                | none => true
                | some q => writes.any (·.1 == q) || q == root then none
            else
              let moved := nl.blocks.contains defSite.1
              if moved && !definitionDominates dom defSite site then none
              else
                match insertionPoint F dom m nl (if moved then inputs else inputs ++ [call.result])
                    (writesIn m F [nl.preheader]) with
                | none => none
                | some k => some ⟨site, if moved then some defSite else none, nl.preheader, k⟩
      | _ => none
    | _, _ => none

/-- One loop, licm.rs 223-309. -/
def findInLoop (F : Fn) (dom : Nat → Nat → Bool) (trivial willReturn : Nat → Bool) (m : Roots) (nl : NaturalLoop) :
    Option Hoist :=
  if nl.blocks.any fun b => decide (b ≤ nl.preheader) then none
  else
    ((List.range F.length).filter nl.blocks.contains).findSome? fun b =>
      match F[b]? with
      | none => none
      | some blk => (opsFrom b 0 blk.ops).findSome? fun p => candidate F dom trivial willReturn m nl p.1 p.2

/-- `find_hoist`, licm.rs 207-311; `headers` in the order in which loops are tried. -/
def findHoist (F : Fn) (dom : Nat → Nat → Bool) (reachable : Nat → Bool) (trivial willReturn : Nat → Bool)
    (headers : List Nat) : Option Hoist :=
  match placeRoots F with
  | none => none
  | some m =>
    headers.findSome? fun h =>
      match naturalLoop F dom reachable h with
      | some (some nl) => findInLoop F dom trivial willReturn m nl
      | _ => none

/-! ## Moving it -/

def Fn.modify (F : Fn) (b : Nat) (f : List Op → List Op) : Fn := List.modify F b fun blk => { blk with ops := f blk.ops }

/-- `apply_hoist`, licm.rs 618-642.  `none` is a panic of `remove`. -/
def applyHoist (F : Fn) (h : Hoist) : Option Fn :=
  match (F[h.call.1]?).bind (·.ops[h.call.2]?) with
  | none => none
  | some call =>
    let F1 := F.modify h.call.1 (·.eraseIdx h.call.2)
    match h.alloca with
    | none => some (F1.modify h.preheader (·.insertIdx h.insertion call))
    | some site =>
      let index := site.2 - (if site.1 = h.call.1 ∧ site.2 > h.call.2 then 1 else 0)
      match (F1[site.1]?).bind (·.ops[index]?) with
      | none => none
      | some alloca =>
        let F2 := F1.modify site.1 (·.eraseIdx index)
        some (F2.modify h.preheader fun l => (l.insertIdx h.insertion alloca).insertIdx (h.insertion + 1) call)

/-- `hoist_loop_invariant_calls`, licm.rs 160-168, with a bound; `orders` gives the order of loops each time. -/
def hoistAll (dom : Fn → Nat → Nat → Bool) (reachable : Fn → Nat → Bool) (trivial willReturn : Nat → Bool)
    (orders : Fn → List Nat) : Nat → Fn → Option Fn
  | 0, _ => none
  | n + 1, F =>
    match findHoist F (dom F) (reachable F) trivial willReturn (orders F) with
    | none => some F
    | some h =>
      match applyHoist F h with
      | none => none
      | some F' => hoistAll dom reachable trivial willReturn orders n F'

/-! ## Running functions -/

/-- What an operation gives: a result, the contents of the storage of each operand afterwards, the world. -/
inductive Res (V W : Type) where
  | ok (result : Option V) (contents : List (Option V)) (world : W)
  | stop (world : W)

/-- The meaning of operations, on the values and the contents of the storage of their operands; and which
successor a terminator takes. -/
structure Sem (V W : Type) where
  op : Op → List (Option V × Option V) → W → Res V W
  first : Term → List (Option V × Option V) → W → Bool

structure State (V W : Type) where
  vals : Reg → Option V
  marks : Reg → Option (Reg → Bool)
  live : Reg → Bool
  cells : Root → Option V
  world : W

/-- The storage to which a register refers: its own, or that of the place it is a part of. -/
inductive RootOf (F : Fn) : Reg → Root → Prop
  | own {s : Site} {op : Op} {r : Reg} {q : Root} : (s, op) ∈ F.sites → op.result = some r → ownRoot op = some q →
    RootOf F r q
  | part {s : Site} {op : Op} {r x : Reg} {q : Root} : (s, op) ∈ F.sites → op.result = some r → op.kind = .subfield →
    op.operands.head? = some (.reg x) → RootOf F x q → RootOf F r q
  | partParam {s : Site} {op : Op} {r : Reg} {p : Nat} : (s, op) ∈ F.sites → op.result = some r → op.kind = .subfield →
    op.operands.head? = some (.param p) → RootOf F r (.param p)

/-- The storage of an operand, given that of registers. -/
def place (ρ : Reg → Option Root) : Operand → Option Root
  | .reg r => ρ r
  | .param p => some (.param p)
  | _ => none

/-- The operands that an operation may change: interpreter.rs, and operation.rs 896-982. -/
def changes (op : Op) (i : Nat) : Bool :=
  match op.kind with
  | .call info =>
    let first := op.operands.length - (info.muts.length + 1)
    decide (op.operands.length < info.muts.length + 2) || decide (i + 1 = op.operands.length) ||
      (decide (first ≤ i) && (((info.muts[i - first]?).getD false) ||
        (decide (i - first < info.muts.length) && info.owned.contains (i - first))))
  | .store | .memcpy | .clone => i == 1
  | .move => i == 0 || i == 1
  | .clear | .drop | .dropClosureEnv => i == 0
  | .buildArray => decide (i + 1 = op.operands.length)
  | .project | .endProject | .buildSubscript | .buildClosure | .yield => true
  | _ => false

/-- The operands whose contents do not matter: storage is made without looking, a part of a place is only a
place, and the old contents of the result of a call are overwritten. -/
def blind (op : Op) (i : Nat) : Bool :=
  match op.kind with
  | .alloca _ | .allocaPlace | .subfield => true
  | .call _ => decide (i + 1 = op.operands.length)
  | _ => false

variable {V W : Type}

def upd {α β : Type} [DecidableEq α] (f : α → β) (a : α) (b : β) : α → β := fun x => if x = a then b else f x

def State.val (s : State V W) : Operand → Option V
  | .reg r => s.vals r
  | _ => none

def State.content (ρ : Reg → Option Root) (s : State V W) (o : Operand) : Option V :=
  match place ρ o with
  | some q => s.cells q
  | none => none

/-- The operands of an operation, as it sees them. -/
def State.args (ρ : Reg → Option Root) (s : State V W) (op : Op) : List (Option V × Option V) :=
  op.operands.mapIdx fun i o => (s.val o, if blind op i then none else s.content ρ o)

/-- Only storage that exists may be changed. -/
def State.writable (ρ : Reg → Option Root) (s : State V W) (op : Op) : Prop :=
  ∀ i o, op.operands[i]? = some o → changes op i = true → ∀ r, place ρ o = some (.alloca r) → s.live r = true

/-- The contents of storage after an operation that gave `l`: the last operand counts. -/
def after (ρ : Reg → Option Root) (op : Op) (l : List (Option V)) (cells : Root → Option V) : Root → Option V :=
  (List.range op.operands.length).foldl (fun c i =>
    match (op.operands[i]?).bind (place ρ) with
    | some q => if changes op i then upd c q ((l[i]?).getD none) else c
    | none => c) cells

/-- The result of an operation: new storage, or the value of a register. -/
def State.define (s : State V W) (op : Op) (v : Option V) : State V W :=
  match op.result with
  | none => s
  | some r =>
    match ownRoot op with
    | none => { s with vals := upd s.vals r v }
    | some q =>
      { s with
        live := match q with
          | .alloca x => upd s.live x true
          | _ => s.live
        cells := upd s.cells q (match op.kind with
          | .alloca _ => none
          | _ => v) }

inductive Step (V W : Type) where
  | next (s : State V W)
  | stop (world : W)

/-- One operation.  There is no step when it changes storage that does not exist, or restores the stack to a
point that was not saved. -/
inductive Exec (sem : Sem V W) (ρ : Reg → Option Root) (op : Op) (s : State V W) : Step V W → Prop
  | save {m : Reg} : op.kind = .stackSave → op.result = some m →
    Exec sem ρ op s (.next { s with marks := upd s.marks m (some s.live) })
  | restore {m : Reg} {l : Reg → Bool} : op.kind = .stackRestore → op.operands.head? = some (.reg m) →
    s.marks m = some l →
    Exec sem ρ op s (.next { s with
      live := fun x => s.live x && l x
      cells := fun q =>
        match q with
        | .alloca x => if l x then s.cells q else none
        | _ => s.cells q })
  | stop {w : W} : op.kind ≠ .stackSave → op.kind ≠ .stackRestore → s.writable ρ op →
    sem.op op (s.args ρ op) s.world = .stop w → Exec sem ρ op s (.stop w)
  | op {v : Option V} {l : List (Option V)} {w : W} : op.kind ≠ .stackSave → op.kind ≠ .stackRestore →
    s.writable ρ op → sem.op op (s.args ρ op) s.world = .ok v l w →
    Exec sem ρ op s (.next (State.define { s with cells := after ρ op l s.cells, world := w } op v))

/-- How a run ends, or that it does not in the given number of blocks. -/
inductive Out (V W : Type) where
  | running
  | stopped (world : W)
  | left (tag : Nat) (world : W) (cells : Root → Option V)

/-- The operations of a block, one after the other. -/
inductive ExecAll (sem : Sem V W) (ρ : Reg → Option Root) : List Op → State V W → Step V W → Prop
  | nil {s} : ExecAll sem ρ [] s (.next s)
  | stop {op rest s w} : Exec sem ρ op s (.stop w) → ExecAll sem ρ (op :: rest) s (.stop w)
  | cons {op rest s s' t} : Exec sem ρ op s (.next s') → ExecAll sem ρ rest s' t → ExecAll sem ρ (op :: rest) s t

/-- Where a terminator goes from a state before its operation. -/
def Term.target (sem : Sem V W) (ρ : Reg → Option Root) (t : Term) (s : State V W) : Option Nat :=
  match t with
  | .goto t => some t
  | .condBr c a b => some (if sem.first t (s.args ρ ⟨.branch, 0, [c], none⟩) s.world then a else b)
  | .invoke op a b => some (if sem.first t (s.args ρ op) s.world then a else b)
  | .yield _ t => some t
  | .leave _ => none

/-- Runs of at most `n` blocks. -/
inductive Run (sem : Sem V W) (ρ : Reg → Option Root) (F : Fn) : Nat → Nat → State V W → Out V W → Prop
  | running {b s} : Run sem ρ F 0 b s .running
  | stopped {n b s w blk} : F[b]? = some blk → ExecAll sem ρ blk.ops s (.stop w) → Run sem ρ F (n + 1) b s (.stopped w)
  | stoppedTerm {n b s s' w blk} : F[b]? = some blk → ExecAll sem ρ blk.ops s (.next s') →
    ExecAll sem ρ blk.term.op.toList s' (.stop w) → Run sem ρ F (n + 1) b s (.stopped w)
  | left {n b s s' tag blk} : F[b]? = some blk → ExecAll sem ρ blk.ops s (.next s') → blk.term = .leave tag →
    Run sem ρ F (n + 1) b s (.left tag s'.world s'.cells)
  | next {n b s s' s'' blk c o} : F[b]? = some blk → ExecAll sem ρ blk.ops s (.next s') →
    ExecAll sem ρ blk.term.op.toList s' (.next s'') → blk.term.target sem ρ s' = some c →
    Run sem ρ F n c s'' o → Run sem ρ F (n + 1) b s o

end Ferlium.Licm
