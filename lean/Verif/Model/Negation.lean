import Verif.Model.Peephole
import Verif.Model.Dominance

/-!
Model of `src/mir/pass/negation.rs`: a condition which is a (repeated) comparison of a boolean with a boolean literal,
possibly through local storage, is replaced by that boolean, exchanging the targets of the branch if needed.

An outer `none` is a panic or an endless loop, an inner `none` is the `None` of the code.  The hash maps `definitions`,
`allocas` and `stored` are functions of the register.  The dominator tree is built on first use in the code (lines
239-258) and beforehand in the model; building it has no other effect.
-/
namespace Ferlium.Negation

open Ferlium.Mir
open Ferlium.Peephole (boolValue)
open Ferlium.Dominance (Dom)

/-- `struct OperationSite`. -/
structure Site where
  block : Nat
  index : Nat
deriving DecidableEq

/-- `struct Source` negation.rs:75-80. -/
structure Source where
  value : Nat
  negated : Bool
deriving DecidableEq

/-- The operations of a block with their sites. -/
def blockSites (p : Block × Nat) : List (Op × Site) := p.1.ops.zipIdx.map fun q => (q.1, ⟨p.2, q.2⟩)

/-- All operations with their sites, in the order of the loops in negation.rs:214-215. -/
def sites (f : Body) : List (Op × Site) := f.zipIdx.flatMap blockSites

/-- The map `definitions`, negation.rs:212-225: a later insertion replaces an earlier one. -/
def definition (f : Body) (r : Nat) : Option (Op × Site) :=
  (sites f).reverse.find? fun p => p.1.result == some r

/-- Is this an operation `alloca`? -/
def isAlloca (k : Kind) : Bool :=
  match k with
  | .alloca _ => true
  | _ => false

/-- The set `allocas`, negation.rs:226-228. -/
def isLocal (f : Body) (r : Nat) : Bool :=
  (sites f).any fun p => p.1.result == some r && isAlloca p.1.kind

/-- `as_register` negation.rs:434-439. -/
def asRegister (v : Value) : Option Nat :=
  match v with
  | .register r => some r
  | _ => none

/-- One use of a cell: a store (with what is stored, if it is a register), a read, or anything else;
negation.rs:391-401. -/
inductive Use
  | write (stored : Option (Nat × Site))
  | read
  | other
deriving DecidableEq

/-- One operand, negation.rs:385-402. -/
def operandUse (cell : Nat) (op : Op) (site : Site) (p : Value × Nat) : Option Use :=
  if p.1 = .register cell then
    match op.kind with
    | .store => if p.2 = 1 then some (.write ((op.operands.head?.bind asRegister).map fun r => (r, site))) else some .other
    | .load => if p.2 = 0 then some .read else some .other
    | .compareEqual => if p.2 = 0 then some .read else some .other
    | _ => some .other
  else none

/-- One operation, negation.rs:380-403. -/
def opUses (cell : Nat) (p : Op × Site) : List Use := p.1.operands.zipIdx.filterMap (operandUse cell p.1 p.2)

/-- One operand of a terminator, negation.rs:404-409. -/
def termUse (cell : Nat) (v : Value) : Option Use := if v = .register cell then some .other else none

/-- One block, negation.rs:378-410. -/
def blockUses (cell : Nat) (p : Block × Nat) : List Use :=
  (blockSites p).flatMap (opUses cell) ++ p.1.term.operands.filterMap (termUse cell)

/-- All uses of a cell, negation.rs:377-410. -/
def uses (f : Body) (cell : Nat) : List Use := f.zipIdx.flatMap (blockUses cell)

/-- The writes of a census. -/
def writesOf (us : List Use) : List (Option (Nat × Site)) :=
  us.filterMap fun u => match u with
    | .write s => some s
    | _ => none

/-- `forwardable_cells` negation.rs:364-417 at one cell: it is written once, by a store of a register, and never
otherwise used than read. -/
def forwardable (f : Body) (cell : Nat) : Option (Nat × Site) :=
  if Use.other ∈ uses f cell then none
  else match writesOf (uses f cell) with
    | [s] => s
    | _ => none

/-- `Cells::dominates` negation.rs:425-431. -/
def dominates (dom : Dom) (store site : Site) : Option Bool :=
  if store.block = site.block then some (decide (store.index < site.index)) else dom.dominates store.block site.block

/-- `Resolver::read` negation.rs:343-353. -/
def read (f : Body) (dom : Dom) (v : Value) (site : Site) : Option (Option Nat) :=
  match asRegister v with
  | none => some none
  | some r =>
    if isLocal f r then
      match forwardable f r with
      | none => some none
      | some (stored, store) => (dominates dom store site).map fun b => if b then some stored else none
    else some (some r)

/-- `Resolver::step` negation.rs:320-339. -/
def stepBack (f : Body) (dom : Dom) (source : Source) : Option (Option Source) :=
  match definition f source.value with
  | none => some none
  | some (op, site) =>
    match op.kind with
    | .load =>
      match op.operands[0]? with
      | none => none
      | some v => (read f dom v site).map (Option.map fun r => ⟨r, source.negated⟩)
    | .compareEqual =>
      match op.operands[1]? with
      | none => none
      | some p =>
        match boolValue p with
        | none => some none
        | some pattern =>
          match op.operands[0]? with
          | none => none
          | some v => (read f dom v site).map (Option.map fun r => ⟨r, source.negated != !pattern⟩)
    | _ => some none

/-- Does the operation make a boolean? negation.rs:312-315. -/
def makesBool (k : Kind) : Bool :=
  match k with
  | .load => true
  | .compareEqual => true
  | _ => false

/-- `Resolver::is_materialized` negation.rs:310-317. -/
def isMaterialized (f : Body) (r : Nat) : Bool :=
  match definition f r with
  | some (op, _) => makesBool op.kind
  | none => false

/-- The loop of `Resolver::walk` negation.rs:294-304. -/
def walk (f : Body) (dom : Dom) (current : Source) (resolved : Option Source) : Option (Option Source) :=
  stepBack f dom current >>= fun next =>
    match next with
    | none => some resolved
    | some next => walk f dom next (if isMaterialized f next.value then some next else resolved)
partial_fixpoint

/-- `Resolver::resolve` negation.rs:261-267. -/
def resolve (f : Body) (dom : Dom) (value : Nat) : Option (Option Source) :=
  (walk f dom ⟨value, false⟩ none).map fun r => r.filter fun s => decide (s.value ≠ value)

/-- `Resolver::resolve_scrutinee` negation.rs:273-286. -/
def resolveScrutinee (f : Body) (dom : Dom) (scrutinee : Value) (site : Site) : Option (Option Source) :=
  read f dom scrutinee site >>= fun start =>
    match start with
    | none => some none
    | some start =>
      walk f dom ⟨start, false⟩ none >>= fun resolved =>
        match resolved with
        | some s => some (if asRegister scrutinee ≠ some s.value then some s else none)
        | none =>
          if isMaterialized f start then
            some (if asRegister scrutinee ≠ some start then some ⟨start, false⟩ else none)
          else some none

/-- The new form of one operation, if it changes: negation.rs:108-132 and 146-151. -/
def planOp (f : Body) (dom : Dom) (p : Op × Site) : Option (Option Op) :=
  match p.1.kind, p.1.operands with
  | .compareEqual, [scrutinee, pattern] =>
    match boolValue pattern with
    | none => some none
    | some pattern =>
      (resolveScrutinee f dom scrutinee p.2).map (Option.map fun s =>
        { p.1 with operands := [.register s.value, .pattern (.bool (pattern != s.negated))] })
  | _, _ => some none

/-- The new form of a terminator, if it changes: negation.rs:134-139 and 152-172. -/
def planTerm (f : Body) (dom : Dom) (t : Term) : Option (Option Term) :=
  match t with
  | .condBr (.register c) thenTarget elseTarget =>
    (resolve f dom c).map (Option.map fun s =>
      if s.negated then .condBr (.register s.value) elseTarget thenTarget
      else .condBr (.register s.value) thenTarget elseTarget)
  | _ => some none

/-- The changes in one block. -/
def planBlock (f : Body) (dom : Dom) (p : Block × Nat) : Option (List (Option Op) × Option Term) :=
  (blockSites p).mapM (planOp f dom) >>= fun ops =>
    planTerm f dom p.1.term >>= fun t => some (ops, t)

/-- Apply the changes to one block. -/
def editBlock (b : Block) (plan : List (Option Op) × Option Term) : Block :=
  { ops := b.ops.zipWith (fun op new => new.getD op) plan.1, term := plan.2.getD b.term }

/-- Does a block change? negation.rs:142-144. -/
def changes (plan : List (Option Op) × Option Term) : Bool := plan.1.any Option.isSome || plan.2.isSome

/-- `may_forward` negation.rs:183-190. -/
def mayForward (f : Body) : Bool := f.any fun b => b.ops.any fun op => decide (op.kind = .compareEqual)

/-- The successor lists of the blocks, negation.rs:241-252. -/
def succs (f : Body) : List (List Nat) := f.map fun b => b.term.successors

/-- `forward_boolean_negations` negation.rs:99-175. -/
def forwardNegations (f : Body) : Option (Option Body) :=
  if mayForward f then
    Dominance.compute (succs f) 0 >>= fun dom =>
      f.zipIdx.mapM (planBlock f dom) >>= fun plans =>
        some (if plans.any changes then some (f.zipWith editBlock plans) else none)
  else some none

end Ferlium.Negation
