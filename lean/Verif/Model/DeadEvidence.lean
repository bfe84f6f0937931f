import Verif.Model.Inline

/-!
# Dropping the dictionary parameters of specializations (`src/mir/pass/dead_evidence.rs`)

Functions, operations and the machine are those of `Verif.Model.Inline`.
-/

namespace Ferlium.DeadEvidence

open Inline

/-- A body with its signature: which parameters are `ParameterKind::Dictionary`,
src/mir/function.rs:29-39. All other kinds are `false`. -/
structure Body where
  fn : Fn
  dict : List Bool
deriving DecidableEq, Repr

/-- What the pass reads of identities and operations: the index of a function in the module that is
optimised (`none` in another module), the number of visible arguments in the type of a call, and
which constants are dictionaries. -/
structure Env where
  loc : Nat → Option Nat
  visible : Nat → Nat
  isDict : Nat → Bool

/-- The function table of a module and the specializations after it. dead_evidence.rs:47-53. -/
structure Module where
  functions : List (Option Body)
  specs : List Body
deriving DecidableEq, Repr

/-- `dictionary_parameters`, dead_evidence.rs:94-100. -/
def dictCount (b : Body) : Nat := b.dict.count true

/-- The closure `dropped_at`, dead_evidence.rs:66-75. -/
def droppedAt (env : Env) (first : Nat) (dropped : List Nat) (f : Nat) : Option Nat :=
  (env.loc f).bind fun i =>
    if i < first then none
    else dropped[i - first]?.bind fun n => if n > 0 then some n else none

/-- The new numbers of parameters, `none` for the removed ones. src/mir/edit.rs:144-154. -/
def renumber : Nat → List Bool → List (Option Nat)
  | _, [] => []
  | n, true :: t => none :: renumber n t
  | n, false :: t => some n :: renumber (n + 1) t

/-- The change of an operand. src/mir/edit.rs:157-166; `none` is a panic. -/
def renumberOperand (ren : List (Option Nat)) : Operand → Option Operand
  | .param p => match ren[p]? with
    | some (some q) => some (.param q)
    | _ => none
  | o => some o

/-- The operands of an operation. `visit_operands_mut`, src/mir/edit.rs. -/
def renumberOp (ren : List (Option Nat)) (op : Op) : Option Op :=
  (op.operands.mapM (renumberOperand ren)).map fun os => { op with operands := os }

/-- The operands of a terminator. `visit_operands_mut`, src/mir/edit.rs. -/
def renumberTerm (ren : List (Option Nat)) : Term → Option Term
  | .condBr c a b => (renumberOperand ren c).map fun c' => .condBr c' a b
  | .invoke op n e => (renumberOp ren op).map fun op' => .invoke op' n e
  | .yield p t => (renumberOperand ren p).map fun p' => .yield p' t
  | t => some t

/-- `FunctionEdit::remove_parameters` for dictionaries, src/mir/edit.rs:143-167. -/
def removeParams (b : Body) : Option Body :=
  let ren := renumber 0 b.dict
  (b.fn.blocks.mapM fun (blk : Block) => (blk.ops.mapM (renumberOp ren)).bind fun ops =>
    (renumberTerm ren blk.term).map fun t => (⟨ops, t⟩ : Block)).map fun blocks =>
    { fn := { b.fn with params := (b.dict.filter (!·)).length, blocks := blocks }
      dict := b.dict.filter (!·) }

/-- One operation of the loop at dead_evidence.rs:130-162. `none` is a panic: no operands, an
underflow or a failed assertion. -/
def narrowCall (env : Env) (drop : Nat → Option Nat) (op : Op) : Option Op :=
  if op.kind ≠ .call then some op
  else match op.operands with
    | [] => none
    | .fn f :: _ =>
      match drop f with
      | none => some op
      | some count =>
        if op.operands.length < env.visible op.data + 1 then none
        else
          let start := op.operands.length - (env.visible op.data + 1)
          if start = 0 ∨ start - 1 ≠ count then none
          else if ((op.operands.take start).drop 1).all (fun o => match o with
              | .const c => env.isDict c
              | _ => false) then
            some { op with operands := op.operands.take 1 ++ op.operands.drop start }
          else none
    | _ :: _ => some op

/-- The operation of an `Invoke`. dead_evidence.rs:126-129. -/
def narrowTerm (env : Env) (drop : Nat → Option Nat) : Term → Option Term
  | .invoke op n e => (narrowCall env drop op).map fun op' => .invoke op' n e
  | t => some t

/-- The loop at dead_evidence.rs:121-163. -/
def narrowBlocks (env : Env) (drop : Nat → Option Nat) (blocks : List Block) : Option (List Block) :=
  blocks.mapM fun (blk : Block) => (blk.ops.mapM (narrowCall env drop)).bind fun ops =>
    (narrowTerm env drop blk.term).map fun t => (⟨ops, t⟩ : Block)

/-- Whether an operation is a call of a narrowed function. dead_evidence.rs:181-183. A call without
operands counts as none here and panics there. -/
def callsNarrowed (drop : Nat → Option Nat) (op : Op) : Bool :=
  op.kind == .call && match op.operands with
    | .fn f :: _ => (drop f).isSome
    | _ => false

/-- `calls_a_narrowed_callee`, dead_evidence.rs:168-185. -/
def bodyCallsNarrowed (drop : Nat → Option Nat) (b : Body) : Bool :=
  b.fn.blocks.any fun blk => (blk.ops ++ blk.term.invoked.toList).any (callsNarrowed drop)

/-- `rewrite`, dead_evidence.rs:107-165. -/
def rewrite (env : Env) (drop : Nat → Option Nat) (own : Nat) (b : Body) : Option Body :=
  if own = 0 ∧ bodyCallsNarrowed drop b = false then some b
  else (if own > 0 then removeParams b else some b).bind fun b' =>
    (narrowBlocks env drop b'.fn.blocks).map fun blocks =>
      { b' with fn := { b'.fn with blocks := blocks } }

/-- A slot of the function table. dead_evidence.rs:79-83. -/
def rewriteSlot (env : Env) (drop : Nat → Option Nat) : Option Body → Option (Option Body)
  | none => some none
  | some b => (rewrite env drop 0 b).map some

/-- `drop_dead_specialization_evidence`, dead_evidence.rs:49-92. -/
def dropDead (env : Env) (M : Module) : Option Module :=
  let dropped := M.specs.map dictCount
  if dropped.all (· == 0) then some M
  else
    let drop := droppedAt env M.functions.length dropped
    (M.functions.mapM (rewriteSlot env drop)).bind fun fs =>
      ((M.specs.zip dropped).mapM fun p => rewrite env drop p.2 p.1).map fun ss => ⟨fs, ss⟩

/-- The bodies that the machine finds: those of the module, and those of other modules. -/
def table (env : Env) (M : Module) (ext : Nat → Option Fn) (f : Nat) : Option Fn :=
  match env.loc f with
  | none => ext f
  | some i =>
    if i < M.functions.length then M.functions[i]?.join.map (·.fn)
    else M.specs[i - M.functions.length]?.map (·.fn)

end Ferlium.DeadEvidence
