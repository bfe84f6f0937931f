/-!
# Removal of unused computations from compiled functions

Model of `/repo/src/mir/pass/dce.rs`: the backward use-count worklist (lines 69-149), its two
clients `remove_dead_trivial_results` (157-179) and `remove_dead_proven_calls` (192-280), and the
storage cleanup `remove_dead_storage` / `remove_dead_nonconsuming_storage` (283-335, 456-564,
639-775, 790-850).

A function is a list of blocks, a block a list of operations followed by a terminator.  The only
parts of an operation which are kept are its kind, its operands and the register it defines.

Not modelled: the cancellation of a clone and a drop in the same block while the cell has other
lifetimes (`note_same_block_clone_drop_pair`, 574-637, 745-755), the removal of empty stack regions
(346-404), and the pruning of the pool of constants (331-333), which removes constants no operation
names.

The second half of the file is an abstract machine that runs functions; it is not a model of one
piece of code but of what `/repo/src/mir/interpreter.rs` does with registers, cells and the rest of
the world, with the meaning of each kind of operation left as a parameter.
-/

namespace Ferlium.Dce

/-- `ValueId` (`/repo/src/mir/value.rs`): the name of a register within a function. -/
abbrev Reg := Nat

/-- An operation is named by its block and its index there: `DeadResultCandidate`, `dce.rs` 63-67. -/
abbrev Site := Nat × Nat

/-- `mir::Value`, as far as `dce.rs` looks at it: a register, a constant of the pool, a function, or
something else (a dictionary, a subscript, a parameter that is not a register). -/
inductive Operand where
  | reg (r : Reg)
  | const (c : Nat)
  | func (f : Nat)
  | other (k : Nat)
deriving DecidableEq, Repr

/-- What `remove_dead_proven_calls` (`dce.rs` 209-260) asks about a call:
* `args`: the number of visible arguments, `ty.fn_ty.args.len()`;
* `effectFree`, `valueResult`: the test at 212;
* `knownTotal`: 221-223;
* `script`: `some conventions` when the callee is a script function of a known module (225-235), the
  conventions of its parameters being `true` for `Let`;
* `ownedArgs`: the metadata lists owned arguments (244-249);
* `trivialResult`: `concrete_type_is_trivial_copy` of the result (257-259);
* `willReturn`: the summary of the callee proves that it returns (260). -/
structure CallInfo where
  args : Nat
  effectFree : Bool
  valueResult : Bool
  knownTotal : Bool
  script : Option (List Bool)
  ownedArgs : Bool
  trivialResult : Bool
  willReturn : Bool
deriving DecidableEq, Repr

/-- `OperationKind` (`/repo/src/mir/operation.rs`), with the kinds that `dce.rs` does not name
collected in `other`; `consuming` is `result_requires_consuming_use` (`operation.rs` 120-134), which
is false for all the named kinds. -/
inductive Kind where
  | alloca
  | store
  | load
  | compareEqual
  | extractTag
  | dictEntry
  | subfield
  | buildArray
  | clone
  | drop
  | call (info : CallInfo)
  | other (k : Nat) (consuming : Bool)
deriving DecidableEq, Repr

/-- `Operation` (`operation.rs` 34-47): kind, operands, and the register of the result. -/
structure Op where
  kind : Kind
  operands : List Operand
  result : Option Reg
deriving DecidableEq, Repr

/-- A terminator: which one it is (`tag`, with everything that is not an operand), its operands, and
the register that an invoked operation defines. -/
structure Term where
  tag : Nat
  operands : List Operand
  result : Option Reg
deriving DecidableEq, Repr

/-- A basic block. -/
structure Block where
  ops : List Op
  term : Term
deriving DecidableEq, Repr

/-- `mir::Function`, as far as these passes look at it. -/
structure Fn where
  blocks : List Block
deriving DecidableEq, Repr

/-- The operation at a site: `func.block(block).operations()[index]`, as at `dce.rs` 118. -/
def Fn.op? (F : Fn) (s : Site) : Option Op := F.blocks[s.1]?.bind (·.ops[s.2]?)

/-! ## Counting uses -/

/-- How many times the register `r` occurs among operands (`count_operands`, `dce.rs` 84-90). -/
def occ (r : Reg) : List Operand → Nat
  | [] => 0
  | .reg x :: rest => (if x = r then 1 else 0) + occ r rest
  | _ :: rest => occ r rest

/-- A sum over a list where each element is looked at together with its index, which starts at
`i`: the loops `for (index, operation) in … .enumerate()`. -/
def sumIdx {α : Type} (f : Nat → α → Nat) : Nat → List α → Nat
  | _, [] => 0
  | i, a :: rest => f i a + sumIdx f (i + 1) rest

/-- A sum over all operations and all terminators of a function: the loop at `dce.rs` 91-97. -/
def total (f : Site → Op → Nat) (g : Term → Nat) (F : Fn) : Nat :=
  sumIdx (fun b blk => sumIdx (fun i op => f (b, i) op) 0 blk.ops + g blk.term) 0 F.blocks

/-- The use counts which `remove_dead_results` starts from (`dce.rs` 83-97). -/
def uses (F : Fn) (r : Reg) : Nat :=
  total (fun _ op => occ r op.operands) (fun t => occ r t.operands) F

/-! ## The worklist -/

/-- The hash map of candidates, with the newest insertion first. -/
abbrev Cands := List (Reg × Site)

/-- `candidates[&result]`. -/
def Cands.get (c : Cands) (r : Reg) : Option Site := (c.find? (·.1 == r)).map (·.2)

/-- The state of the loop at `dce.rs` 105-134: `seen` is `removed_results`. -/
structure Work where
  uses : Reg → Nat
  pending : List Reg
  seen : List Reg
  removed : List Site

/-- Changes a function at one point. -/
def set {α : Type} (f : Reg → α) (r : Reg) (v : α) : Reg → α := fun x => if x = r then v else f x

/-- The loop over the operands of a removed operation (`dce.rs` 117-133).  `none` is the panic of
`expect("every register operand was counted")` at 125.  Popping is from the head of the list. -/
def retire (cand : Reg → Option Site) (deadAt : Nat) :
    List Operand → (Reg → Nat) → List Reg → Option ((Reg → Nat) × List Reg)
  | [], u, p => some (u, p)
  | .reg x :: rest, u, p =>
    match u x with
    | 0 => none
    | n + 1 =>
      retire cand deadAt rest (set u x n)
        (if n = deadAt ∧ (cand x).isSome then x :: p else p)
  | _ :: rest, u, p => retire cand deadAt rest u p

/-- One turn of the loop at `dce.rs` 108-134, once `result` has been popped.  Inserting into
`removed_results` comes before the test of the remaining uses. -/
def turn (F : Fn) (cand : Reg → Option Site) (deadAt : Nat) (r : Reg) (w : Work) : Option Work :=
  if r ∈ w.seen then some w
  else if w.uses r ≠ deadAt then some { w with seen := r :: w.seen }
  else
    match cand r with
    | none => none
    | some s =>
      match F.op? s with
      | none => none
      | some op =>
        match retire cand deadAt op.operands w.uses w.pending with
        | none => none
        | some (u, p) => some ⟨u, p, r :: w.seen, s :: w.removed⟩

/-- The loop at `dce.rs` 108-134.  `none`: a panic, or more turns than `fuel`. -/
def loop (F : Fn) (cand : Reg → Option Site) (deadAt : Nat) : Nat → Work → Option Work
  | 0, _ => none
  | fuel + 1, w =>
    match w.pending with
    | [] => some w
    | r :: rest =>
      match turn F cand deadAt r { w with pending := rest } with
      | none => none
      | some w' => loop F cand deadAt fuel w'

/-- The number of operands of all operations: with the number of candidates, a bound on the number
of turns of the loop, which the code does not need to know. -/
def size (F : Fn) : Nat := total (fun _ op => op.operands.length) (fun _ => 0) F

/-- The sites that `remove_dead_results` (`dce.rs` 74-134) removes.  `order` is the order in which
the hash map gives its keys. -/
def deadResults (F : Fn) (cand : Reg → Option Site) (deadAt : Nat) (order : List Reg) :
    Option (List Site) :=
  (loop F cand deadAt (order.length + size F + 1)
    ⟨uses F, order.filter (fun r => uses F r = deadAt), [], []⟩).map (·.removed)

/-- `retain` with the indices of one block (`dce.rs` 140-147): the operations from index `i` on. -/
def keep (dead : Site → Bool) (b : Nat) : Nat → List Op → List Op
  | _, [] => []
  | i, op :: rest => if dead (b, i) then keep dead b (i + 1) rest else op :: keep dead b (i + 1) rest

/-- All blocks, from index `b` on. -/
def keepBlocks (dead : Site → Bool) : Nat → List Block → List Block
  | _, [] => []
  | b, blk :: rest => { blk with ops := keep dead b 0 blk.ops } :: keepBlocks dead (b + 1) rest

/-- The rewritten function (`dce.rs` 139-148, 318-334). -/
def Fn.remove (F : Fn) (dead : Site → Bool) : Fn := ⟨keepBlocks dead 0 F.blocks⟩

/-- All operations with their sites, in the order of the scans (`dce.rs` 159-161, 510-511). -/
def opsAt (b : Nat) : Nat → List Op → List (Site × Op)
  | _, [] => []
  | i, op :: rest => ((b, i), op) :: opsAt b (i + 1) rest

/-- See `opsAt`. -/
def allOpsFrom : Nat → List Block → List (Site × Op)
  | _, [] => []
  | b, blk :: rest => opsAt b 0 blk.ops ++ allOpsFrom (b + 1) rest

/-- See `opsAt`. -/
def Fn.allOps (F : Fn) : List (Site × Op) := allOpsFrom 0 F.blocks

/-! ## Unread results of representation-only operations -/

/-- The test at `dce.rs` 162-166. -/
def trivialCandidate (p : Site × Op) : Option (Reg × Site) :=
  match p.2.kind with
  | .compareEqual | .load | .extractTag => p.2.result.map (·, p.1)
  | _ => none

/-- The candidates of `remove_dead_trivial_results` (`dce.rs` 158-177), newest first. -/
def trivialCandidates (F : Fn) : Cands := (F.allOps.filterMap trivialCandidate).reverse

/-- `remove_dead_trivial_results` (`dce.rs` 157-179).  `none`: a panic. -/
def removeDeadTrivialResults (F : Fn) (order : List Reg) : Option Fn :=
  (deadResults F (trivialCandidates F).get 0 order).map fun removed => F.remove (· ∈ removed)

/-! ## Unused calls that return -/

/-- `call_result_operand_index` (`/repo/src/mir/pass/dataflow.rs` 954-962). -/
def callResultIndex (info : CallInfo) (operands : List Operand) : Option Nat :=
  if info.args + 2 ≤ operands.length then
    some (1 + (operands.length - (info.args + 2)) + info.args)
  else none

/-- The tests at `dce.rs` 212-263 other than on the operands: `extras` is the number of hidden
operands. -/
def eligible (info : CallInfo) (extras : Nat) : Bool :=
  info.effectFree && info.valueResult &&
    (info.knownTotal ||
      match info.script with
      | none => false
      | some conventions =>
        conventions.length == info.args && !info.ownedArgs && extras == 0 &&
          conventions.all (· == true) && info.trivialResult && info.willReturn)

/-- The candidate that one operation gives (`dce.rs` 209-273). -/
def callCandidate (p : Site × Op) : Option (Reg × Site) :=
  match p.2.kind with
  | .call info =>
    match callResultIndex info p.2.operands with
    | none => none
    | some i =>
      match p.2.operands.head? with
      | some (.func _) =>
        if eligible info (p.2.operands.length - (info.args + 2)) then
          match p.2.operands[i]? with
          | some (.reg r) => some (r, p.1)
          | _ => none
        else none
      | _ => none
  | _ => none

/-- The registers that an `alloca` defines, with its site (`dce.rs` 204-208, 520-527), newest
first. -/
def allocaOf (p : Site × Op) : Option (Reg × Site) :=
  match p.2.kind with
  | .alloca => p.2.result.map (·, p.1)
  | _ => none

/-- See `allocaOf`. -/
def allocas (F : Fn) : Cands := (F.allOps.filterMap allocaOf).reverse

/-- The candidates of `remove_dead_proven_calls` after `retain` (`dce.rs` 199-276). -/
def callCandidates (F : Fn) : Cands :=
  ((F.allOps.filterMap callCandidate).reverse).filter (fun p => ((allocas F).get p.1).isSome)

/-- `remove_dead_proven_calls` (`dce.rs` 192-280).  `none`: a panic. -/
def removeDeadProvenCalls (F : Fn) (order : List Reg) : Option Fn :=
  (deadResults F (callCandidates F).get 1 order).map fun removed => F.remove (· ∈ removed)

/-! ## Dead storage -/

/-- `AllocationUses` (`dce.rs` 470-482) without `definition`, which is in `allocas`, and without
`invalid_clone_pair_use`. -/
structure AllocationUses where
  removableStores : List Site
  storageOnlyInvalid : Bool
  deferred : Bool
  constructor : Option Site
  drops : List Site
  invalidConstruction : Bool
deriving Repr

/-- `AllocationUses::default()`. -/
def AllocationUses.empty : AllocationUses := ⟨[], false, false, none, [], false⟩

/-- `result_requires_consuming_use` (`operation.rs` 120-134). -/
def Kind.consuming : Kind → Bool
  | .other _ c => c
  | _ => false

/-- `non_consuming_results` (`dce.rs` 517-519). -/
def nonConsuming (F : Fn) (admit : Bool) (r : Reg) : Bool :=
  admit && F.allOps.any (fun p => p.2.result == some r && !p.2.kind.consuming)

/-- `removable_store` (`dce.rs` 654-660). -/
def removableStore (F : Fn) (admit : Bool) (op : Op) (pos : Nat) : Bool :=
  decide (op.kind = .store) && pos == 1 &&
    match op.operands.head? with
    | some (.const _) => true
    | some (.reg x) => nonConsuming F admit x
    | _ => false

/-- `is_array_constructor || is_bare_function_constructor || is_clone_constructor`
(`dce.rs` 668-674). -/
def isConstructor (op : Op) (pos : Nat) : Bool :=
  (decide (op.kind = .buildArray) && pos + 1 == op.operands.length) ||
  (decide (op.kind = .store) && pos == 1 &&
    match op.operands.head? with
    | some (.func _) => true
    | _ => false) ||
  (decide (op.kind = .clone) && pos == 1)

/-- `is_drop` (`dce.rs` 675). -/
def isDrop (op : Op) (pos : Nat) : Bool := decide (op.kind = .drop) && pos == 0

/-- `note_operation_use` (`dce.rs` 639-699), for the entry of the allocation that the operand at
`pos` names. -/
def noteUse (F : Fn) (admit : Bool) (s : Site) (op : Op) (pos : Nat) (a : AllocationUses) :
    AllocationUses :=
  let removable := removableStore F admit op pos
  let constructs := isConstructor op pos
  let drops := isDrop op pos
  { removableStores := if removable then a.removableStores ++ [s] else a.removableStores
    storageOnlyInvalid :=
      a.storageOnlyInvalid || (!removable && !(constructs || drops))
    deferred := a.deferred || (!removable && (constructs || drops))
    constructor := if constructs then some s else a.constructor
    drops := if !constructs && drops then a.drops ++ [s] else a.drops
    invalidConstruction :=
      a.invalidConstruction || (constructs && a.constructor.isSome) || (!constructs && !drops) }

/-- The operands of one operation, from position `pos` on (`dce.rs` 555-558), for allocation
`r`. -/
def noteOperands (F : Fn) (admit : Bool) (r : Reg) (s : Site) (op : Op) :
    Nat → List Operand → AllocationUses → AllocationUses
  | _, [], a => a
  | pos, o :: rest, a =>
    noteOperands F admit r s op (pos + 1) rest
      (if o = .reg r then noteUse F admit s op pos a else a)

/-- The operations of a block (`dce.rs` 540-559). -/
def noteOps (F : Fn) (admit : Bool) (r : Reg) (b : Nat) :
    Nat → List Op → AllocationUses → AllocationUses
  | _, [], a => a
  | i, op :: rest, a =>
    noteOps F admit r b (i + 1) rest (noteOperands F admit r (b, i) op 0 op.operands a)

/-- `note_terminator_uses` (`dce.rs` 701-726), for allocation `r`. -/
def noteTerm (r : Reg) (t : Term) (a : AllocationUses) : AllocationUses :=
  if .reg r ∈ t.operands then { a with storageOnlyInvalid := true, invalidConstruction := true }
  else a

/-- All blocks (`dce.rs` 537-561). -/
def noteBlocks (F : Fn) (admit : Bool) (r : Reg) :
    Nat → List Block → AllocationUses → AllocationUses
  | _, [], a => a
  | b, blk :: rest, a =>
    noteBlocks F admit r (b + 1) rest (noteTerm r blk.term (noteOps F admit r b 0 blk.ops a))

/-- The entry of allocation `r` in the finished census (`DceCensus::of`, `dce.rs` 499-564). -/
def census (F : Fn) (admit : Bool) (r : Reg) : AllocationUses :=
  noteBlocks F admit r 0 F.blocks .empty

/-- `has_removable_construction` (`dce.rs` 493-495). -/
def AllocationUses.removable (a : AllocationUses) : Bool :=
  !a.invalidConstruction && !a.drops.isEmpty && a.constructor.isSome

/-- The negation of the test at `dce.rs` 762-767: the allocation goes. -/
def AllocationUses.dead (a : AllocationUses) : Bool :=
  !(a.storageOnlyInvalid || (a.deferred && !a.removable))

/-- What `dead_constructed_values` (`dce.rs` 728-743) and `dead_allocas` (757-775) select for one
allocation. -/
def deadOf (F : Fn) (admit : Bool) (p : Reg × Site) : List Site :=
  let a := census F admit p.1
  (if a.removable then a.constructor.toList ++ a.drops else []) ++
  (if a.dead then p.2 :: a.removableStores else [])

/-- `dead.operations` before the derived places (`dce.rs` 303-308). -/
def deadStorage (F : Fn) (admit : Bool) : List Site := (allocas F).flatMap (deadOf F admit)

/-- `derived_definitions` (`dce.rs` 528-533), newest first. -/
def derivedOf (p : Site × Op) : Option (Reg × Site) :=
  match p.2.kind with
  | .dictEntry | .subfield => p.2.result.map (·, p.1)
  | _ => none

/-- See `derivedOf`. -/
def derived (F : Fn) : Cands := (F.allOps.filterMap derivedOf).reverse

/-- Retires the operands of one removed operation (`dce.rs` 805-817), keeping only registers with a
count left.  The map only has derived places as keys. -/
def retireGone : List Operand → (Reg → Option Nat) → (Reg → Option Nat)
  | [], u => u
  | .reg x :: rest, u =>
    retireGone rest
      (match u x with
       | none => u
       | some n => set u x (if n - 1 = 0 then none else some (n - 1)))
  | _ :: rest, u => retireGone rest u

/-- Retires all removed operations (`dce.rs` 803-819).  They are visited in the order of the
function; the code visits them in the order of hash sets. -/
def retireAllGone (dead : Site → Bool) : List (Site × Op) → (Reg → Option Nat) → (Reg → Option Nat)
  | [], u => u
  | (s, op) :: rest, u =>
    retireAllGone dead rest (if dead s then retireGone op.operands u else u)

/-- `derived_uses` (`dce.rs` 651-653, 706-708): no entry for a register without uses. -/
def derivedUses (F : Fn) (r : Reg) : Option Nat :=
  if ((derived F).get r).isSome ∧ uses F r ≠ 0 then some (uses F r) else none

/-- The loop over the operands of an unread derived place (`dce.rs` 832-842).  `none`: the count
would go below zero. -/
def retireDerived : List Operand → (Reg → Option Nat) → List Reg →
    Option ((Reg → Option Nat) × List Reg)
  | [], u, p => some (u, p)
  | .reg x :: rest, u, p =>
    match u x with
    | none => retireDerived rest u p
    | some 0 => none
    | some (n + 1) => retireDerived rest (set u x (some n)) (if n = 0 then x :: p else p)
  | _ :: rest, u, p => retireDerived rest u p

/-- The loop at `dce.rs` 827-843: `seen` is `dead_results`.  `none`: a panic, or more turns than
`fuel`. -/
def derivedLoop (F : Fn) : Nat → (Reg → Option Nat) → List Reg → List Reg → Option (List Reg)
  | 0, _, _, _ => none
  | _ + 1, _, [], seen => some seen
  | fuel + 1, u, r :: p, seen =>
    if r ∈ seen then derivedLoop F fuel u p seen
    else
      match (derived F).get r with
      | none => none
      | some s =>
        match F.op? s with
        | none => none
        | some op =>
          match retireDerived op.operands u p with
          | none => none
          | some (u', p') => derivedLoop F fuel u' p' (r :: seen)

/-- `unread_derived_places` (`dce.rs` 790-849), the registers: `order` is the order in which the
hash map gives its keys. -/
def unreadDerived (F : Fn) (gone : Site → Bool) (order : List Reg) : Option (List Reg) :=
  let u := retireAllGone gone F.allOps (derivedUses F)
  derivedLoop F (order.length + size F + 1) u (order.filter fun r => (u r).isNone) []

/-- `remove_dead_storage_impl` (`dce.rs` 298-335), without same-block clone pairs and stack
regions.  `none`: a panic. -/
def removeDeadStorage (F : Fn) (admit : Bool) (order : List Reg) : Option Fn :=
  let gone := deadStorage F admit
  (unreadDerived F (· ∈ gone) order).map fun results =>
    F.remove fun s => s ∈ gone ∨ s ∈ results.filterMap (derived F).get

/-! ## A machine that runs functions

The meaning of the operations is a parameter.  An operation sees its operands, the contents of the
cells its operands are places in, and the rest of the world (which includes what the called functions
do).  It yields a value, or a place inside the cell of one of its operands; it changes cells of its
operands and the rest of the world, or it stops the program.

Simplifications: a cell does not hold the address of another cell; a place is a cell together with a
path that only the operations interpret. -/

/-- The contents of a register: a place in the `k`-th cell made by the `alloca` that defines `r`, or
a value. -/
inductive RVal (V : Type) where
  | place (cell : Reg × Nat) (path : V)
  | value (v : V)

/-- What an operation sees of an operand. -/
structure Seen (V : Type) where
  val : RVal V
  cell : Option V

/-- The result of an operation: a value, or a place in the cell of the `i`-th operand. -/
inductive Out (V : Type) where
  | value (v : V)
  | place (i : Nat) (path : V)

/-- What an operation does: its result, the new contents of the cells of its operands, the world. -/
structure Effect (V W : Type) where
  out : Out V
  writes : List (Option V)
  world : W

/-- An operation returns, or stops the program. -/
inductive Act (V W : Type) where
  | ok (e : Effect V W)
  | stop (w : W)

/-- A terminator: continue with a block, return, or stop. -/
inductive TAct (V W : Type) where
  | goto (b : Nat) (e : Effect V W)
  | ret (e : Effect V W)
  | stop (w : W)

/-- The meaning of operations and terminators. -/
structure Sem (V W : Type) where
  op : Kind → List (Seen V) → W → Act V W
  term : Nat → List (Seen V) → W → TAct V W
  /-- Operands that are not registers. -/
  lit : Operand → V
  /-- The contents of a cell that was just made. -/
  fresh : V

/-- The state of a run of a function. -/
structure State (V W : Type) where
  regs : Reg → RVal V
  cells : Reg × Nat → V
  /-- How many cells the `alloca` that defines a register has made. -/
  made : Reg → Nat
  world : W

variable {V W : Type}

/-- The value of an operand. -/
def State.eval (sem : Sem V W) (s : State V W) : Operand → RVal V
  | .reg r => s.regs r
  | o => .value (sem.lit o)

/-- What an operation sees of an operand. -/
def State.look (sem : Sem V W) (s : State V W) (o : Operand) : Seen V :=
  match s.eval sem o with
  | .place c p => ⟨.place c p, some (s.cells c)⟩
  | .value v => ⟨.value v, none⟩

/-- Changes the cells of the operands. -/
def writeCells : List (RVal V) → List (Option V) → (Reg × Nat → V) → (Reg × Nat → V)
  | .place c _ :: vs, some v :: ws, cells =>
    writeCells vs ws (fun a => if a = c then v else cells a)
  | _ :: vs, _ :: ws, cells => writeCells vs ws cells
  | _, _, cells => cells

/-- The contents of the register that receives a result. -/
def Out.val (junk : V) (vals : List (RVal V)) : Out V → RVal V
  | .value v => .value v
  | .place i p =>
    match vals[i]? with
    | some (.place c _) => .place c p
    | _ => .value junk

/-- Applies an effect. -/
def State.apply (sem : Sem V W) (s : State V W) (operands : List Operand) (result : Option Reg)
    (e : Effect V W) : State V W :=
  { s with
    regs :=
      match result with
      | none => s.regs
      | some r => set s.regs r (e.out.val sem.fresh (operands.map (s.eval sem)))
    cells := writeCells (operands.map (s.eval sem)) e.writes s.cells
    world := e.world }

/-- Runs one operation; `.inr`: the program stops. -/
def execOp (sem : Sem V W) (s : State V W) (op : Op) : State V W ⊕ W :=
  if op.kind = .alloca then
    match op.result with
    | none => .inl s
    | some r =>
      .inl { s with
        regs := set s.regs r (.place (r, s.made r) sem.fresh)
        cells := fun a => if a = (r, s.made r) then sem.fresh else s.cells a
        made := set s.made r (s.made r + 1) }
  else
    match sem.op op.kind (op.operands.map (s.look sem)) s.world with
    | .ok e => .inl (s.apply sem op.operands op.result e)
    | .stop w => .inr w

/-- Runs operations one after the other. -/
def execOps (sem : Sem V W) : State V W → List Op → State V W ⊕ W
  | s, [] => .inl s
  | s, op :: rest =>
    match execOp sem s op with
    | .inl s' => execOps sem s' rest
    | .inr w => .inr w

/-- How a run ends. -/
inductive Outcome (V W : Type) where
  | returned (s : State V W)
  | stopped (w : W)
  /-- A jump to a block that does not exist. -/
  | lost

/-- Runs a function from block `b` for at most `n` blocks; `none`: still running. -/
def run (sem : Sem V W) (F : Fn) : Nat → Nat → State V W → Option (Outcome V W)
  | 0, _, _ => none
  | n + 1, b, s =>
    match F.blocks[b]? with
    | none => some .lost
    | some blk =>
      match execOps sem s blk.ops with
      | .inr w => some (.stopped w)
      | .inl s' =>
        match sem.term blk.term.tag (blk.term.operands.map (s'.look sem)) s'.world with
        | .stop w => some (.stopped w)
        | .ret e => some (.returned (s'.apply sem blk.term.operands blk.term.result e))
        | .goto b' e => run sem F n b' (s'.apply sem blk.term.operands blk.term.result e)

end Ferlium.Dce
