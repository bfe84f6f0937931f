import Verif.Model.Peephole

/-!
Model of `src/mir/pass/branch_forward.rs`: a boolean which is stored into a local only to be read and branched on goes
directly to the target of the branch.  The type of a local is a number in the model; `isBool` is the test
`ty == bool_type()`.  The hash map of uses is a function of the register.
-/
namespace Ferlium.BranchForward

open Ferlium.Mir
open Ferlium.Peephole (boolValue)

/-- One use of a flag, branch_forward.rs:73-84. -/
inductive Use
  | store (block : Nat) (value : Bool)
  | read (block index : Nat)
  | other
  deriving DecidableEq

/-- One operand, branch_forward.rs:192-211. -/
def operandUse (flag block index : Nat) (op : Op) (p : Value × Nat) : Option Use :=
  if p.1 = .register flag then
    match op.kind with
    | .store =>
      if p.2 = 1 then
        match op.operands.head?.bind boolValue with
        | some value => some (.store block value)
        | none => some .other
      else some .other
    | .compareEqual => some (.read block index)
    | .load => some (.read block index)
    | _ => some .other
  else none

/-- One operation, branch_forward.rs:187-212. -/
def opUses (flag block : Nat) (p : Op × Nat) : List Use :=
  p.1.operands.zipIdx.filterMap (operandUse flag block p.2 p.1)

/-- The operands of a terminator, branch_forward.rs:213-220. -/
def termUse (flag : Nat) (v : Value) : Option Use := if v = .register flag then some .other else none

/-- One block, branch_forward.rs:185-221. -/
def blockUses (flag : Nat) (p : Block × Nat) : List Use :=
  p.1.ops.zipIdx.flatMap (opUses flag p.2) ++ p.1.term.operands.filterMap (termUse flag)

/-- The uses of a flag in program order, `census_uses` branch_forward.rs:183-223. -/
def uses (f : Body) (flag : Nat) : List Use := f.zipIdx.flatMap (blockUses flag)

/-- The stores of a census. -/
def storesOf (us : List Use) : List (Nat × Bool) :=
  us.filterMap fun u => match u with
    | .store b v => some (b, v)
    | _ => none

/-- The reads of a census. -/
def readsOf (us : List Use) : List (Nat × Nat) :=
  us.filterMap fun u => match u with
    | .read b i => some (b, i)
    | _ => none

/-- How often a register is used, `value_uses` branch_forward.rs:184-196 and 215. -/
def useCount (f : Body) (r : Nat) : Nat :=
  (f.flatMap fun b => b.ops.flatMap Op.operands ++ b.term.operands).count (.register r)

/-- The local booleans, branch_forward.rs:102-114. -/
def isFlag (isBool : Nat → Bool) (f : Body) (r : Nat) : Bool :=
  f.any fun b => b.ops.any fun op =>
    match op.kind with
    | .alloca ty => isBool ty && op.result == some r
    | _ => false

/-- The predecessors of a block, once per edge, `incoming_predecessors` branch_forward.rs:155-181. -/
def incoming (f : Body) (b : Nat) : List Nat :=
  f.zipIdx.flatMap fun p => (p.1.term.successors.filter (· == b)).map fun _ => p.2

/-- `struct Reaching` branch_forward.rs:299-303. -/
structure Reaching where
  source : Nat
  value : Bool
  replay : List Op

/-- Only `stack_restore`s, branch_forward.rs:268-270 and 353-356. -/
def onlyRestores (ops : List Op) : Bool := ops.all fun op => op.kind == .stackRestore

/-- The loop of `reaching_stores` branch_forward.rs:323-371.  The number is how many more blocks may be visited
(`FORWARD_BOOLEAN_BLOCKS - visited.len()`); the head of `pending` is the top of the stack. -/
def reachingLoop (f : Body) (stores : List (Nat × Bool)) (join : Nat) :
    Nat → List (Nat × List Op) → List Nat → List Reaching → Option (List Reaching)
  | _, [], _, found => some found
  | 0, _ :: _, _, _ => none
  | budget + 1, (b, replay) :: pending, visited, found =>
    if b = join ∨ b ∈ visited then none
    else
      match f[b]? with
      | none => none
      | some blk =>
        match blk.term with
        | .goto _ =>
          match stores.filter fun s => s.1 == b with
          | [s] => reachingLoop f stores join budget pending (b :: visited) (found ++ [⟨b, s.2, replay⟩])
          | _ :: _ :: _ => none
          | [] =>
            if !onlyRestores blk.ops then none
            else if incoming f b = [] then none
            else if 8 < (blk.ops ++ replay).length then none
            else reachingLoop f stores join budget
              ((incoming f b).reverse.map (fun p => (p, blk.ops ++ replay)) ++ pending) (b :: visited) found
        | _ => none

/-- `reaching_stores` branch_forward.rs:310-374. -/
def reachingStores (f : Body) (stores : List (Nat × Bool)) (join : Nat) : Option (List Reaching) :=
  match reachingLoop f stores join 16 ((incoming f join).reverse.map fun p => (p, [])) [] [] with
  | none => none
  | some found => if found.length = stores.length then some found else none

/-- `read_boolean_flag` branch_forward.rs:381-397. -/
def readFlag (op : Op) : Option (Nat × Bool) :=
  match op.kind with
  | .load =>
    match op.operands with
    | [.register flag] => some (flag, true)
    | _ => none
  | _ =>
    match op.operands with
    | [.register flag, literal] => (boolValue literal).map fun v => (flag, v)
    | [literal, .register flag] => (boolValue literal).map fun v => (flag, v)
    | _ => none

/-- `struct Arm` branch_forward.rs:88-92. -/
structure Arm where
  source : Nat
  target : Nat
  replay : List Op

/-- `plan_join` branch_forward.rs:225-296. -/
def planJoin (isBool : Nat → Bool) (f : Body) (join : Nat) : Option (List Arm) :=
  match f[join]? with
  | none => none
  | some blk =>
    match blk.ops.getLast?, blk.term with
    | some read, .condBr (.register condition) t e =>
      if read.kind ≠ .compareEqual ∧ read.kind ≠ .load then none
      else if read.result ≠ some condition ∨ useCount f condition ≠ 1 then none
      else if t = join ∨ e = join then none
      else
        match readFlag read with
        | none => none
        | some (flag, expected) =>
          if !isFlag isBool f flag then none
          else if Use.other ∈ uses f flag ∨ readsOf (uses f flag) ≠ [(join, blk.ops.length - 1)] ∨
              (storesOf (uses f flag)).length < 2 ∨ !onlyRestores blk.ops.dropLast then none
          else
            (reachingStores f (storesOf (uses f flag)) join).map fun found =>
              found.map fun r => ⟨r.source, if r.value = expected then t else e, r.replay ++ blk.ops.dropLast⟩
    | _, _ => none

/-- One redirected edge, branch_forward.rs:143-148. -/
def applyArm (f : Body) (arm : Arm) : Body :=
  match f[arm.source]? with
  | none => f
  | some blk => f.set arm.source { ops := blk.ops ++ arm.replay, term := .goto arm.target }

/-- `forward_boolean_branches` branch_forward.rs:99-153; `some none` if there is nothing to do, the outer `none` stands
for a panic or an endless loop.  The two early exits (115-117 and 119-124) are left out: they are taken only when no
join can be planned. -/
def forwardBranches (isBool : Nat → Bool) (f : Body) : Option (Option Body) :=
  match (List.range f.length).filterMap (planJoin isBool f) with
  | [] => some none
  | plans => (Edit.removeUnreachable (plans.flatten.foldl applyArm f) >>= Edit.mergeBlocks).map some

end Ferlium.BranchForward
