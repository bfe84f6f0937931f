import Verif.Model.Cse

/-!
Removal of redundant stack markers, `src/mir/pass/stack_region.rs`: a forward analysis of the markers which equal the
current top of the stack, and the removal of saves and restores which it shows to be redundant.

What is simplified.

* The map of the states at the entry of blocks is a function; the map of substitutions is a list of pairs of which the
  latest counts.
* Binary search in a sorted list is membership (`sorted_step` and `sorted_intersect` in `Verif/Proofs/StackRegion.lean`
  show that the lists are sorted).
* `prune_constants` has no effect on operands which carry their literal; `finish_unverified` does nothing.
-/
namespace Ferlium.StackRegion

open Ferlium.Mir

/-- `may_leave_frame_storage` dce.rs:410-448. -/
def leaves (op : Op) : Bool :=
  match op.kind with
  | .alloca _ => true
  | .allocaPlace _ => true
  | .project _ => true
  | .endProject => true
  | .dictEntry _ => true
  | .subscriptMember _ => true
  | .drop _ => true
  | .call _ _ => op.operands.any fun v => match v with
    | .subscript _ => true
    | _ => false
  | _ => false

/-- `type Frontier` stack_region.rs:54. -/
abbrev Frontier := List Nat

/-- `holds` stack_region.rs:56-60. -/
def holds (s : Frontier) (m : Nat) : Bool := decide (m ∈ s)

/-- `record` stack_region.rs:62-67. -/
def record : Frontier → Nat → Frontier
  | [], m => [m]
  | x :: s, m => if m = x then x :: s else if m < x then m :: x :: s else x :: record s m

/-- `intersect` stack_region.rs:70-86; the steps which advance on the right are taken together. -/
def intersect : Frontier → Frontier → Frontier
  | [], _ => []
  | a :: l, r =>
    match r.dropWhile fun b => decide (b < a) with
    | [] => []
    | b :: r => if a = b then a :: intersect l r else intersect l (b :: r)

/-- The marker of a restore, stack_region.rs:134 and 235. -/
def restored (op : Op) : Option Nat :=
  match op.operands.head? with
  | some (.register m) => some m
  | _ => none

/-- `step` stack_region.rs:225-248. -/
def step (op : Op) (s : Frontier) : Frontier :=
  match op.kind with
  | .stackSave =>
    match op.result with
    | some m => record s m
    | none => s
  | .stackRestore =>
    match restored op with
    | some m => if holds s m then s else [m]
    | none => s
  | _ => if leaves op then [] else s

/-- The state after the operations, stack_region.rs:203-205. -/
def steps (ops : List Op) (s : Frontier) : Frontier := ops.foldl (fun s op => step op s) s

/-- The operation of an `Invoke`. -/
def invoked : Term → List Op
  | .invoke op _ _ => [op]
  | _ => []

/-- The state at the end of a block, stack_region.rs:201-208. -/
def out (blk : Block) (s : Frontier) : Frontier := steps (invoked blk.term) (steps blk.ops s)

/-- The map `entry_states`. -/
abbrev States := Nat → Option Frontier

/-- The state of a successor once it is reached with the given state, stack_region.rs:210-213. -/
def updated (e : Option Frontier) (s : Frontier) : Frontier :=
  match e with
  | some e => intersect e s
  | none => s

/-- One successor, stack_region.rs:209-218. -/
def visitSucc (s : Frontier) (acc : States × Bool) (t : Nat) : States × Bool :=
  if acc.1 t = some (updated (acc.1 t) s) then acc
  else (Function.update acc.1 t (some (updated (acc.1 t) s)), true)

/-- One block, stack_region.rs:197-219. -/
def visitBlock (f : Body) (acc : States × Bool) (b : Nat) : States × Bool :=
  match f[b]?, acc.1 b with
  | some blk, some e => blk.term.successors.foldl (visitSucc (out blk e)) acc
  | _, _ => acc

/-- One pass over the blocks, stack_region.rs:196-219. -/
def sweep (f : Body) (st : States) : States × Bool := (List.range f.length).foldl (visitBlock f) (st, false)

/-- The loop of `analyze`, stack_region.rs:194-221. -/
def analyzeFrom (f : Body) (st : States) : Option States :=
  match sweep f st with
  | (st, true) => analyzeFrom f st
  | (st, false) => some st
partial_fixpoint

/-- `analyze` stack_region.rs:188-222. -/
def analyze (f : Body) : Option States := analyzeFrom f (Function.update (fun _ => none) 0 (some []))

/-- `resolve` stack_region.rs:176-185; `none` if it runs for ever. The first number bounds the iterations. -/
def resolveFuel (subst : List (Nat × Nat)) : Nat → Nat → Option Nat
  | 0, _ => none
  | n + 1, current =>
    match subst.lookup current with
    | some next => if next = current then some current else resolveFuel subst n next
    | none => some current

/-- `resolve` stack_region.rs:176-185. A chain which is longer than the map has a cycle. -/
def resolve (subst : List (Nat × Nat)) (marker : Nat) : Option Nat := resolveFuel subst (subst.length + 1) marker

/-- The variables `substitution` and `dead`, stack_region.rs:115-116. -/
structure Plan where
  subst : List (Nat × Nat)
  dead : List (Nat × Nat)
deriving DecidableEq

/-- One operation, stack_region.rs:122-141. -/
def planOp (block index : Nat) (op : Op) (s : Frontier) (p : Plan) : Option Plan :=
  match op.kind with
  | .stackSave =>
    match op.result, s.head? with
    | some m, some h =>
      (resolve p.subst h).map fun c => ⟨(m, c) :: p.subst, (block, index) :: p.dead⟩
    | _, _ => some p
  | .stackRestore =>
    match restored op with
    | some m => if holds s m then some { p with dead := (block, index) :: p.dead } else some p
    | none => some p
  | _ => some p

/-- The operations of a block from the given index on, stack_region.rs:122-143. -/
def planOps (block : Nat) : Nat → List Op → Frontier → Plan → Option Plan
  | _, [], _, p => some p
  | i, op :: ops, s, p =>
    match planOp block i op s p with
    | some p => planOps block (i + 1) ops (step op s) p
    | none => none

/-- One block, stack_region.rs:117-144. -/
def planBlock (f : Body) (st : States) (p : Plan) (b : Nat) : Option Plan :=
  match f[b]?, st b with
  | some blk, some s => planOps b 0 blk.ops s p
  | _, _ => some p

/-- All blocks in order of their numbers, stack_region.rs:117-144. -/
def plan (f : Body) (st : States) : Option Plan := (List.range f.length).foldlM (planBlock f st) ⟨[], []⟩

/-- The number of operations of a kind, stack_region.rs:94-104. -/
def count (f : Body) (k : Kind) : Nat := ((f.flatMap Block.ops).filter fun op => decide (op.kind = k)).length

/-- Replace markers and drop the dead operations, stack_region.rs:149-167: the same edit as that of `cse.rs`. -/
def rewrite (p : Plan) (f : Body) : Body := Cse.rewrite ⟨[], p.subst, p.dead⟩ f

/-- `remove_redundant_stack_markers` stack_region.rs:90-168: the rewritten body if anything was removed. -/
def remove (f : Body) : Option (Option Body) :=
  if count f .stackSave < 2 ∧ count f .stackRestore < 2 then some none
  else (analyze f).bind fun st => (plan f st).map fun p => if p.dead = [] then none else some (rewrite p f)

end Ferlium.StackRegion
