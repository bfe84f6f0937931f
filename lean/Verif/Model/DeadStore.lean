import Verif.Model.Mir
import Verif.Model.Dominance

/-!
Model of `src/mir/pass/dead_store.rs`: removal of stores to a local of trivially copyable type which every following
path overwrites before reading.  Hash sets are finite sets; indexing outside a vector and an endless loop are `none`.
-/
namespace Ferlium.DeadStore

open Ferlium.Mir

/-- The type of allocation of an operation, dead_store.rs:35-40. -/
def candidateOf (trivial : Nat → Bool) (op : Op) : Option Nat :=
  match op.kind with
  | .alloca ty => if trivial ty then op.result else none
  | _ => none

/-- The first loop, dead_store.rs:32-42; `trivial` is `concrete_type_is_trivial_copy`.  An `alloca` always has a
result (operation.rs:1115). -/
def allocas (trivial : Nat → Bool) (f : Body) : Finset Nat :=
  (f.flatMap fun b => b.ops.filterMap (candidateOf trivial)).toFinset

/-- The registers which own their value, dead_store.rs:47-52. -/
def consuming (f : Body) : Finset Nat :=
  (f.flatMap fun b => (b.ops.filter Op.owned).filterMap Op.result).toFinset

/-- `whole_place_write_index` dead_store.rs:205-213. -/
def wholePlaceWrite (op : Op) : Option Nat :=
  match op.kind with
  | .store => some 1
  | .memcpy => some 1
  | .call _ visible => callResultIndex op.operands visible
  | _ => none

/-- `is_exact_place_read` dead_store.rs:221-226. -/
def exactRead (op : Op) (position : Nat) : Bool :=
  match op.kind with
  | .load => position == 0
  | .memcpy => position == 0
  | .move => position == 0
  | _ => false

/-- One operand of an operation, dead_store.rs:61-73. -/
def rejectOperand (op : Op) (c : Finset Nat) (p : Value × Nat) : Finset Nat :=
  match p.1 with
  | .register root =>
    if root ∈ c then
      if wholePlaceWrite op = some p.2 ∨ exactRead op p.2 = true then c else c.erase root
    else c
  | _ => c

/-- One operation, dead_store.rs:60-74. -/
def rejectOp (c : Finset Nat) (op : Op) : Finset Nat :=
  op.operands.zipIdx.foldl (rejectOperand op) c

/-- One operand of a terminator, dead_store.rs:75-81. -/
def rejectTermOperand (c : Finset Nat) (v : Value) : Finset Nat :=
  match v with
  | .register root => c.erase root
  | _ => c

/-- One block, dead_store.rs:58-82. -/
def rejectBlock (c : Finset Nat) (b : Block) : Finset Nat :=
  b.term.operands.foldl rejectTermOperand (b.ops.foldl rejectOp c)

/-- The locals the pass considers, dead_store.rs:32-82. -/
def candidates (trivial : Nat → Bool) (f : Body) : Finset Nat :=
  f.foldl rejectBlock (allocas trivial f)

/-- The candidate an operation overwrites, dead_store.rs:161-164. -/
def writtenRoot (c : Finset Nat) (op : Op) : Option Nat :=
  match wholePlaceWrite op with
  | none => none
  | some i =>
    match op.operands[i]? with
    | some (.register root) => if root ∈ c then some root else none
    | _ => none

/-- `store_source_requires_consuming_use` dead_store.rs:190-198. -/
def sourceConsumed (k : Finset Nat) (op : Op) : Bool :=
  match op.operands.head? with
  | some (.register r) => decide (r ∈ k)
  | _ => false

/-- Is the operation a store which is dead at this point? dead_store.rs:161-175. -/
def dead (c k live : Finset Nat) (op : Op) : Bool :=
  match writtenRoot c op with
  | some root => decide (op.kind = .store) && !sourceConsumed k op && decide (root ∉ live)
  | none => false

/-- One operand which may be read, dead_store.rs:178-185. -/
def readOperand (c : Finset Nat) (op : Op) (live : Finset Nat) (p : Value × Nat) : Finset Nat :=
  if exactRead op p.2 then
    match p.1 with
    | .register root => if root ∈ c then insert root live else live
    | _ => live
  else live

/-- Liveness through one operation, dead_store.rs:161-185. -/
def transferOp (c : Finset Nat) (op : Op) (live : Finset Nat) : Finset Nat :=
  op.operands.zipIdx.foldl (readOperand c op)
    (match writtenRoot c op with
    | some root => live.erase root
    | none => live)

/-- `transfer_block` dead_store.rs:152-187, the live set. -/
def transfer (c : Finset Nat) (ops : List Op) (live : Finset Nat) : Finset Nat :=
  ops.foldr (transferOp c) live

/-- The operations kept by `transfer_block` and the later `retain`, dead_store.rs:160-175 and 139-147. -/
def sweep (c k : Finset Nat) : List Op → Finset Nat → List Op
  | [], _ => []
  | op :: ops, live =>
    if dead c k (transfer c ops live) op then sweep c k ops live else op :: sweep c k ops live

/-- The union of the live sets of the successors, dead_store.rs:101-104 and 122-125. -/
def liveOut (liveIn : List (Finset Nat)) (t : Term) : Option (Finset Nat) :=
  t.successors.foldlM (init := ∅) fun live s => liveIn[s]?.map (live ∪ ·)

/-- The worklist, dead_store.rs:100-118; the head of the list is the top of the stack. -/
def liveLoop (f : Body) (c : Finset Nat) (preds : List (List Nat)) (pending : List Nat)
    (liveIn : List (Finset Nat)) : Option (List (Finset Nat)) :=
  match pending with
  | [] => some liveIn
  | b :: pending =>
    match f[b]?, liveIn[b]?, preds[b]? with
    | some block, some old, some ps =>
      liveOut liveIn block.term >>= fun out =>
        if transfer c block.ops out = old then liveLoop f c preds pending liveIn
        else liveLoop f c preds (ps.reverse ++ pending) (liveIn.set b (transfer c block.ops out))
    | _, _, _ => none
partial_fixpoint

/-- The live sets, dead_store.rs:87-118. -/
def liveness (f : Body) (c : Finset Nat) : Option (List (Finset Nat)) :=
  Dominance.predecessors (f.map fun b => b.term.successors) >>= fun preds =>
    liveLoop f c preds (List.range f.length).reverse (List.replicate f.length ∅)

/-- The new version of one block, dead_store.rs:121-147. -/
def sweepBlock (c k : Finset Nat) (liveIn : List (Finset Nat)) (b : Block) : Option Block :=
  (liveOut liveIn b.term).map fun out => { b with ops := sweep c k b.ops out }

/-- `remove_overwritten_trivial_copy_stores` dead_store.rs:28-149.  The early exits (43-45, 83-85, 135-137) leave the
function as it is, which is also what the general path computes in these cases. -/
def removeDeadStores (trivial : Nat → Bool) (f : Body) : Option Body :=
  let c := candidates trivial f
  liveness f c >>= fun liveIn => f.mapM (sweepBlock c (consuming f) liveIn)

end Ferlium.DeadStore
