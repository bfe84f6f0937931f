import Verif.Model.Edit

/-!
Model of `src/mir/pass/will_return.rs`: which functions of a module certainly return.  A vector of flags for blocks is
the set of the flagged ones.  An index outside a vector, a counter below zero and an endless loop are `none`.  A
function is a number; `index` gives its position in the table of the module if it belongs to it (`callee.module ==
module`), `external` the summaries of the functions of other modules.
-/
namespace Ferlium.WillReturn

open Ferlium.Mir

/-- `direct` will_return.rs:151. -/
def direct (returns : Nat → Bool) : Option Value → Bool
  | some (.function k) => returns k
  | _ => false

/-- `operation_returns` will_return.rs:150-183. -/
def operationReturns (returns : Nat → Bool) (op : Op) : Bool :=
  match op.kind with
  | .call _ _ => direct returns op.operands[0]?
  | .clone _ => direct returns op.operands[2]?
  | .drop _ => direct returns op.operands[1]?
  | .project _ => false
  | .endProject => false
  | .cloneClosureEnv _ => false
  | .dropClosureEnv => false
  | _ => true

/-- The terminators, will_return.rs:130-144. -/
def termReturns (returns : Nat → Bool) : Term → Bool
  | .invoke op _ _ => operationReturns returns op
  | .yield _ _ => false
  | _ => true

/-- One edge of the count, will_return.rs:206-210. -/
def addEdge (reachable : Finset Nat) (degree : List Nat) (t : Nat) : Option (List Nat) :=
  match degree[t]? with
  | none => none
  | some d => some (if t ∈ reachable then degree.set t (d + 1) else degree)

/-- The edges into the reachable blocks, will_return.rs:200-211. -/
def degrees (f : Body) (reachable : Finset Nat) : Option (List Nat) :=
  ((f.zipIdx.filter fun p => p.2 ∈ reachable).flatMap fun p => p.1.term.successors).foldlM (addEdge reachable)
    (List.replicate f.length 0)

/-- One edge of a removed block, will_return.rs:219-227. -/
def removeEdge (reachable : Finset Nat) (s : List Nat × List Nat) (t : Nat) : Option (List Nat × List Nat) :=
  match s.1[t]? with
  | none => none
  | some d =>
    if t ∈ reachable then
      match d with
      | 0 => none
      | d + 1 => some (s.1.set t d, if d = 0 then s.2 ++ [t] else s.2)
    else some s

/-- The loop of will_return.rs:217-228: the number of removed blocks. -/
def removeLoop (f : Body) (reachable : Finset Nat) (degree pending : List Nat) (removed : Nat) : Option Nat :=
  match pending with
  | [] => some removed
  | b :: pending =>
    match f[b]? with
    | none => none
    | some block =>
      block.term.successors.foldlM (removeEdge reachable) (degree, pending) >>= fun s =>
        removeLoop f reachable s.1 s.2 (removed + 1)
partial_fixpoint

/-- `has_cycle` will_return.rs:199-230. -/
def hasCycle (f : Body) (reachable : Finset Nat) : Option Bool :=
  degrees f reachable >>= fun degree =>
    let pending := (List.range f.length).filter fun b => b ∈ reachable && degree[b]? == some 0
    (removeLoop f reachable degree pending 0).map fun removed => removed != reachable.card

/-- `callee_returns` will_return.rs:110-119. -/
def calleeReturns (index : Nat → Option Nat) (known : List Bool) (external : Nat → Bool) (k : Nat) : Bool :=
  match index k with
  | some i => known[i]?.getD false
  | none => external k

/-- `derive` will_return.rs:99-147 with `reachable_blocks` 185-195. -/
def derive (index : Nat → Option Nat) (external : Nat → Bool) (known : List Bool) (f : Body) : Option Bool :=
  Edit.reachLoop f [0] ∅ >>= fun reachable =>
    (hasCycle f reachable).map fun cyclic =>
      !cyclic && (f.zipIdx.filter fun p => p.2 ∈ reachable).all fun p =>
        p.1.ops.all (operationReturns (calleeReturns index known external)) &&
          termReturns (calleeReturns index known external) p.1.term

/-- All operations of a block, call_graph.rs:154-160. -/
def blockOps (b : Block) : List Op :=
  b.ops ++ match b.term with
    | .invoke op _ _ => [op]
    | _ => []

/-- `record` call_graph.rs:142-151. -/
def record (index : Nat → Option Nat) (callees : List Nat) (v : Value) : List Nat :=
  match v with
  | .function k =>
    match index k with
    | some i => if i ∈ callees then callees else callees ++ [i]
    | none => callees
  | _ => callees

/-- `callees_within` call_graph.rs:140-168. -/
def calleesWithin (index : Nat → Option Nat) (f : Body) : List Nat :=
  ((f.flatMap blockOps).flatMap Op.operands).foldl (record index) []

/-- `CallGraph::of_module` call_graph.rs:76-87. -/
def callGraph (index : Nat → Option Nat) (bodies : List (Option Body)) : Graph.Gr :=
  bodies.map fun body =>
    match body with
    | some f => calleesWithin index f
    | none => []

/-- The summary derived for a function, will_return.rs:74-77. -/
def deriveBody (index : Nat → Option Nat) (external : Nat → Bool) (known : List Bool) : Option Body → Option Bool
  | some f => derive index external known f
  | none => some true

/-- One function of a component, will_return.rs:70-82; the flag is `changed`. -/
def visit (index : Nat → Option Nat) (external : Nat → Bool) (bodies : List (Option Body)) (s : List Bool × Bool) (i : Nat) :
    Option (List Bool × Bool) :=
  match s.1[i]?, bodies[i]? with
  | some true, _ => some s
  | some false, some body =>
    (deriveBody index external s.1 body).map fun (derived : Bool) => if derived then (s.1.set i true, true) else s
  | _, _ => none

/-- The loop over a component, will_return.rs:68-86. -/
def componentLoop (index : Nat → Option Nat) (external : Nat → Bool) (bodies : List (Option Body)) (component : List Nat)
    (known : List Bool) : Option (List Bool) :=
  component.foldlM (visit index external bodies) (known, false) >>= fun s =>
    if !s.2 || component.length == 1 then some s.1 else componentLoop index external bodies component s.1
partial_fixpoint

/-- `WillReturnSummaries::of_module` will_return.rs:59-89.  `order` is the iteration order of a hash set in the
topological sort. -/
def ofModule (order : List Nat → List Nat) (index : Nat → Option Nat) (external : Nat → Bool) (bodies : List (Option Body)) :
    Option (List Bool) :=
  Graph.componentsCalleesFirst order (callGraph index bodies) >>= fun components =>
    components.foldlM (fun known component => componentLoop index external bodies component known)
      (List.replicate bodies.length false)

/-- `summary` will_return.rs:91-96. -/
def summary (known : List Bool) (i : Nat) : Bool := known[i]?.getD false

end Ferlium.WillReturn
