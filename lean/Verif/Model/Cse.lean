import Verif.Model.Mir
import Verif.Model.Dominance

/-!
Elimination of repeated address computations, `src/mir/pass/cse.rs` lines 985-1241: value numbering of the operations
`subfield` and `dict_entry` over the dominator tree.

What is simplified.

* The types and indices an operation carries beside its operands are one number in the model of MIR (`Kind.subfield`,
  `Kind.dictEntry`), so that `Computation` (987-1029) is the kind itself.
* Hash maps are lists of pairs without repeated keys; the order in which `retain` visits a map is the order of the list.
* `prune_constants` (1095) has no effect on operands which carry their literal.
* `finish_unverified` (1096) does nothing.
-/
namespace Ferlium.Cse

open Ferlium.Mir

/-- `Computation::of` is defined, cse.rs:1003-1019. -/
def numberable : Kind → Bool
  | .subfield _ => true
  | .dictEntry _ => true
  | _ => false

/-- `Computation::is_materialized` cse.rs:1023-1028. -/
def materialized : Kind → Bool
  | .dictEntry _ => true
  | _ => false

/-- The operations which make the pass forget materialized places, cse.rs:1170-1175. -/
def pops : Kind → Bool
  | .stackRestore => true
  | .project _ => true
  | .endProject => true
  | _ => false

/-- `struct Expression` cse.rs:1033-1037. -/
structure Expr where
  kind : Kind
  operands : List Value
deriving DecidableEq

/-- `struct Available` cse.rs:1040-1044. -/
structure Avail where
  result : Nat
  block : Nat
deriving DecidableEq

/-- The map `available`, cse.rs:1124-1125. -/
abbrev Table := List (Expr × Avail)

/-- The log of what was displaced, cse.rs:1140; the last entry comes first. -/
abbrev Log := List (Expr × Option Avail)

/-- Look up an expression. -/
def look (a : Table) (e : Expr) : Option Avail := a.lookup e

/-- Insert into the map, replacing what was there. -/
def put (a : Table) (e : Expr) (v : Avail) : Table := (e, v) :: a.filter fun p => p.1 ≠ e

/-- Remove from the map. -/
def del (a : Table) (e : Expr) : Table := a.filter fun p => p.1 ≠ e

/-- The mutable part of `struct Numbering`, cse.rs:1121-1130. -/
structure State where
  available : Table
  merged : List (Nat × Nat)
  removed : List (Nat × Nat)

/-- The representative of an operand, cse.rs:1184-1190. -/
def canon (merged : List (Nat × Nat)) (v : Value) : Value :=
  match v with
  | .register r =>
    match merged.lookup r with
    | some c => .register c
    | none => v
  | _ => v

/-- `forget_materialized` cse.rs:1225-1234. -/
def forget (a : Table) (u : Log) : Table × Log :=
  (a.filter fun p => !materialized p.1.kind,
    ((a.filter fun p => materialized p.1.kind).map fun p => (p.1, some p.2)).reverse ++ u)

/-- Look up an expression and merge or insert, cse.rs:1197-1219. -/
def record (block index result : Nat) (e : Expr) (s : State) (u : Log) : State × Log :=
  match look s.available e with
  | some a =>
    if a.block ≤ block then
      ({ s with merged := (result, a.result) :: s.merged, removed := (block, index) :: s.removed }, u)
    else ({ s with available := put s.available e ⟨result, block⟩ }, (e, some a) :: u)
  | none => ({ s with available := put s.available e ⟨result, block⟩ }, (e, none) :: u)

/-- One iteration of the loop of `number_block`, cse.rs:1167-1220; `none` if a numberable operation has no result. -/
def numberOp (block index : Nat) (op : Op) (s : State) (u : Log) : Option (State × Log) :=
  if pops op.kind then
    some ({ s with available := (forget s.available u).1 }, (forget s.available u).2)
  else if numberable op.kind then
    op.result.map fun r => record block index r ⟨op.kind, op.operands.map (canon s.merged)⟩ s u
  else some (s, u)

/-- `number_block` cse.rs:1166-1221, from the operation with the given index on. -/
def numberOps (block : Nat) : Nat → List Op → State → Log → Option (State × Log)
  | _, [], s, u => some (s, u)
  | i, op :: ops, s, u =>
    match numberOp block i op s u with
    | some (s, u) => numberOps block (i + 1) ops s u
    | none => none

/-- `enum Enter` cse.rs:1237-1241. -/
inductive Enter
  | down
  | up (depth : Nat)
deriving DecidableEq

/-- Undo the log down to the given length, cse.rs:1145-1152. -/
def undoTo (depth : Nat) : Log → Table → Table × Log
  | [], a => (a, [])
  | (e, p) :: u, a =>
    if depth < u.length + 1 then
      undoTo depth u (match p with
        | some v => put a e v
        | none => del a e)
    else (a, (e, p) :: u)

/-- The loop of `walk`, cse.rs:1138-1164; `none` if a block does not exist. -/
def walk (f : Body) (children : List (List Nat)) (stack : List (Nat × Enter)) (s : State) (u : Log) : Option State :=
  match stack with
  | [] => some s
  | (_, .up depth) :: stack =>
    walk f children stack { s with available := (undoTo depth u s.available).1 } (undoTo depth u s.available).2
  | (b, .down) :: stack =>
    match f[b]?, children[b]? with
    | some blk, some cs =>
      match numberOps b 0 blk.ops s u with
      | some (s, u') =>
        walk f children ((cs.reverse.map fun c => (c, Enter.down)) ++ (b, .up u.length) :: stack) s u'
      | none => none
    | _, _ => none
partial_fixpoint

/-- Replace registers by their representatives in an operation, cse.rs:1087-1093. -/
def renameOp (merged : List (Nat × Nat)) (op : Op) : Op := { op with operands := op.operands.map (canon merged) }

/-- Replace registers by their representatives in a terminator (`visit_operands_mut`), cse.rs:1087-1093. -/
def renameTerm (merged : List (Nat × Nat)) : Term → Term
  | .condBr c t e => .condBr (canon merged c) t e
  | .invoke op n e => .invoke (renameOp merged op) n e
  | .yield p r => .yield (canon merged p) r
  | t => t

/-- Keep the operations which were not merged, cse.rs:1079-1085; the first one has the given index. -/
def keepOps (removed : List (Nat × Nat)) (block : Nat) : Nat → List Op → List Op
  | _, [] => []
  | i, op :: ops =>
    if (block, i) ∈ removed then keepOps removed block (i + 1) ops else op :: keepOps removed block (i + 1) ops

/-- The rewritten block with the given number. -/
def rewriteBlock (s : State) (block : Nat) (b : Block) : Block :=
  { ops := (keepOps s.removed block 0 b.ops).map (renameOp s.merged), term := renameTerm s.merged b.term }

/-- The rewritten body, cse.rs:1077-1096. -/
def rewrite (s : State) (f : Body) : Body := f.zipIdx.map fun p => rewriteBlock s p.2 p.1

/-- `has_multiple_numberable_computations` cse.rs:1106-1119. -/
def worthwhile (f : Body) : Bool := 2 ≤ ((f.flatMap Block.ops).filter fun op => numberable op.kind).length

/-- The walk over the whole body, cse.rs:1053-1072. -/
def numbering (f : Body) : Option State :=
  (Dominance.compute (f.map fun b => b.term.successors) 0).bind fun dom =>
    walk f dom.children [(0, .down)] ⟨[], [], []⟩ []

/-- `eliminate_common_subexpressions` cse.rs:1048-1098: the rewritten body if anything was merged. -/
def eliminate (f : Body) : Option (Option Body) :=
  if worthwhile f then
    (numbering f).map fun s => if s.merged = [] then none else some (rewrite s f)
  else some none

end Ferlium.Cse
