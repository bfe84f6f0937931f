import Verif.Model.Graph

/-!
Model of the acceptance of recursive type declarations.

Source in /repo: src/desugar/module.rs (`cycle_info` 52-76, `TypeCycleInfo::collect_from_type` 390-459,
`refs` 462-468, `validate_type_cycle` 482-553).

Simplifications: a parsed type (`ast::PType`) keeps only what the check looks at; a name is already resolved
to the index of the declaration it names (`none` for a name that is not declared in the module); tuples and
records are one constructor; hash sets are lists.  The last loop of `validate_type_cycle` (regularity of
generic arguments, 549-551) is not modelled.
-/

namespace Ferlium.TypeCycle

open Ferlium.Graph

/-- `ast::PType`. -/
inductive PTy where
  | never
  | leaf
  | path (decl : Option Nat) (args : List PTy)
  | variant (payloads : List PTy)
  | product (fields : List PTy)
  | array (element : PTy)
  | function (args : List PTy) (ret : PTy)

/-- `TypeCycleInfo`, src/desugar/module.rs 383-388. -/
structure Info where
  guarded : List Nat
  unguarded : List Nat
  payloads : List (List Nat)

/-- The default `TypeCycleInfo`. -/
def Info.empty : Info := ⟨[], [], []⟩

/-- `refs`, src/desugar/module.rs 462-468. -/
def Info.refs (i : Info) : List Nat := i.guarded ++ i.unguarded

/-- Recording one reference, src/desugar/module.rs 404-408 and 417-421. -/
def Info.add (i : Info) (decl : Option Nat) (guarded : Bool) : Info :=
  match decl with
  | none => i
  | some d => if guarded then { i with guarded := d :: i.guarded } else { i with unguarded := d :: i.unguarded }

mutual
/-- `collect_from_type`, src/desugar/module.rs 392-459. -/
def collect : PTy → Bool → Info → Info
  | .never, _, i => i
  | .leaf, _, i => i
  | .path d args, g, i => collectAll args g (i.add d g)
  | .variant payloads, _, i => collectPayloads payloads i
  | .product fields, g, i => collectAll fields g i
  | .array e, g, i => collect e g i
  | .function args ret, g, i => collect ret g (collectAll args g i)

/-- The loops over arguments, elements and fields. -/
def collectAll : List PTy → Bool → Info → Info
  | [], _, i => i
  | t :: ts, g, i => collectAll ts g (collect t g i)

/-- The loop over the payloads of a variant type, src/desugar/module.rs 426-440. -/
def collectPayloads : List PTy → Info → Info
  | [], i => i
  | p :: ps, i =>
    let payload := collect p true Info.empty
    collectPayloads ps
      ⟨payload.guarded ++ i.guarded, payload.unguarded ++ i.unguarded, i.payloads ++ [payload.refs]⟩
end

/-- `cycle_info`, src/desugar/module.rs 52-76: the shape and, for a type definition, the types of its
where-clause. -/
def cycleInfo (decl : List PTy) : Info := collectAll decl false Info.empty

/-- `InfiniteTypeKind`, the two cases raised here. -/
inductive CycleError where
  | productCycleWithoutSum
  | sumCycleWithoutTerminatingVariant
deriving DecidableEq

/-- The information of declaration `i`. -/
def infoOf (decls : List (List PTy)) (i : Nat) : Info := cycleInfo ((decls[i]?).getD [])

/-- `unguarded_graph`, src/desugar/module.rs 493-511; `scc_pos` is the position in the group. -/
def unguardedGraph (decls : List (List PTy)) (scc : List Nat) : Gr :=
  scc.map fun i => ((infoOf decls i).unguarded.filter fun d => scc.contains d).map fun d => scc.idxOf d

/-- `validate_type_cycle`, src/desugar/module.rs 482-553 (without the check of generic arguments). -/
def validate (decls : List (List PTy)) (scc : List Nat) : Option (Except CycleError Unit) := do
  let g := unguardedGraph decls scc
  let sccs ← findSccs g
  if sccs.any (isRecursiveGroup g) then return .error .productCycleWithoutSum
  let terminating := scc.any fun i =>
    (infoOf decls i).payloads.any fun refs => refs.all fun r => !scc.contains r
  if !terminating then return .error .sumCycleWithoutTerminatingVariant
  return .ok ()

end Ferlium.TypeCycle
