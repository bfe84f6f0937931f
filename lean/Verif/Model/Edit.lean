import Verif.Model.Mir
import Verif.Model.Graph

/-!
Model of the structural operations of `src/mir/edit.rs`: dropping unreachable blocks, merging blocks into their only
predecessor and reordering blocks.  An index outside a vector, a missing map entry and an endless loop are `none`.
Constants are part of the operands in the model, so `prune_constants` (edit.rs:420-446) has no counterpart.
-/
namespace Ferlium.Edit

open Ferlium.Mir

/-- Visit the targets of a terminator, `successors_mut` edit.rs:569-583. -/
def retarget (m : Nat → Option Nat) : Term → Option Term
  | .goto t => (m t).map .goto
  | .condBr c t e =>
    match m t, m e with
    | some t, some e => some (.condBr c t e)
    | _, _ => none
  | .invoke op n e =>
    match m n, m e with
    | some n, some e => some (.invoke op n e)
    | _, _ => none
  | .yield v r => (m r).map (.yield v)
  | .ret => some .ret
  | .propagateError => some .propagateError
  | .cleanupFailure => some .cleanupFailure

/-- The worklist of edit.rs:246-251; the head of the list is the top of the stack, so the successors, pushed in order,
come in reverse. -/
def reachLoop (f : Body) (worklist : List Nat) (seen : Finset Nat) : Option (Finset Nat) :=
  match worklist with
  | [] => some seen
  | b :: worklist =>
    if b ∈ seen then reachLoop f worklist seen
    else
      match f[b]? with
      | none => none
      | some block => reachLoop f (block.term.successors.reverse ++ worklist) (insert b seen)
partial_fixpoint

/-- `renumbered`, edit.rs:256-263: a reachable block gets the number of reachable blocks before it. -/
def renumber (reachable : Finset Nat) (b : Nat) : Option Nat :=
  if b ∈ reachable then some ((List.range b).filter (· ∈ reachable)).length else none

/-- One retained block, edit.rs:265-272. -/
def retargetBlock (m : Nat → Option Nat) (b : Block) : Option Block :=
  (retarget m b.term).map fun t => { b with term := t }

/-- The blocks which are retained, edit.rs:264-274. -/
def retained (reachable : Finset Nat) (f : Body) : List Block :=
  (f.zipIdx.filter fun p => p.2 ∈ reachable).map Prod.fst

/-- `remove_unreachable_blocks` edit.rs:243-275. -/
def removeUnreachable (f : Body) : Option Body :=
  reachLoop f [0] ∅ >>= fun reachable =>
    if reachable.card = f.length then some f
    else (retained reachable f).mapM (retargetBlock (renumber reachable))

/-- The order of the blocks, edit.rs:290-306: the loop is that of `reverse_postorder` (graph.rs:41-60) with a hash set
in place of a vector of flags; the blocks it does not reach follow. -/
def blockOrder (f : Body) : Option (List Nat) :=
  (Graph.reversePostorder (f.map fun b => b.term.successors) 0).map fun order =>
    order ++ (List.range f.length).filter (· ∉ order)

/-- `reorder_blocks_in_reverse_postorder` edit.rs:289-336. -/
def reorderBlocks (f : Body) : Option Body :=
  blockOrder f >>= fun order =>
    if order = List.range order.length then some f
    else order.mapM fun b => f[b]? >>= retargetBlock order.idxOf?

/-- One edge of the count, edit.rs:363-367. -/
def countEdge (incoming : List Nat) (t : Nat) : Option (List Nat) :=
  incoming[t]?.map fun n => incoming.set t (n + 1)

/-- The edge counts, edit.rs:362-367. -/
def incomingCounts (f : Body) : Option (List Nat) :=
  (f.flatMap fun b => b.term.successors).foldlM (init := List.replicate f.length 0) countEdge

/-- `mergeable_successor` edit.rs:403-413.  The outer `none` is an index outside the vectors. -/
def mergeableSuccessor (f : Body) (incoming : List Nat) (predecessor : Nat) : Option (Option Nat) :=
  match f[predecessor]? with
  | none => none
  | some block =>
    match block.term with
    | .goto target =>
      if target = 0 ∨ target = predecessor then some none
      else incoming[target]?.map fun n => if n = 1 then some target else none
    | _ => some none

/-- One merge, edit.rs:380-391. -/
def mergeInto (f : Body) (predecessor successor : Nat) : Option Body :=
  match f[predecessor]?, f[successor]? with
  | some p, some q =>
    some ((f.set successor { ops := [], term := .ret }).set predecessor { ops := p.ops ++ q.ops, term := q.term })
  | _, _ => none

/-- The loop of edit.rs:376-396; the head of the list is the front of the queue. -/
def mergeLoop (pending : List Nat) (f : Body) (incoming : List Nat) (mergedAny : Bool) : Option (Body × Bool) :=
  match pending with
  | [] => some (f, mergedAny)
  | p :: pending =>
    mergeableSuccessor f incoming p >>= fun m =>
      match m with
      | none => mergeLoop pending f incoming mergedAny
      | some q =>
        mergeInto f p q >>= fun f' => mergeLoop (pending ++ [p]) f' (incoming.set q 0) true
partial_fixpoint

/-- The first queue, edit.rs:368-371. -/
def mergeQueue (f : Body) (incoming : List Nat) : Option (List Nat) :=
  (List.range f.length).filterMapM fun p =>
    (mergeableSuccessor f incoming p).map fun m => m.map fun _ => p

/-- `merge_blocks_into_predecessors` edit.rs:359-400. -/
def mergeBlocks (f : Body) : Option Body :=
  incomingCounts f >>= fun incoming =>
    mergeQueue f incoming >>= fun pending =>
      mergeLoop pending f incoming false >>= fun r =>
        if r.2 then removeUnreachable r.1 else some r.1

end Ferlium.Edit
