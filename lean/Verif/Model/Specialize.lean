import Verif.Model.DeadEvidence

/-!
# Specializing generic functions at call sites (`src/mir/pass/monomorphize.rs`)

Functions, operations and the machine are those of `Verif.Model.Inline`, bodies with their dictionary
parameters those of `Verif.Model.DeadEvidence`. `simplify_after_substitution` (638-642), names,
digests and the limits on the number of specializations are not modelled.
-/

namespace Ferlium.Specialize

open Inline DeadEvidence

/-- What is read of the payload of a call: the number of visible arguments in its type and whether
it records an instantiation; the payload without the metadata; and which constants are
dictionaries. -/
structure Env where
  visible : Nat → Nat
  recorded : Nat → Bool
  clear : Nat → Nat
  isDict : Nat → Bool

/-- `SpecializationKey`, monomorphize.rs:259-263. The instantiation is what it does to payloads. -/
structure Key where
  orig : Nat
  subst : Nat → Nat
  dicts : List Nat

/-- The map `bound`: dictionary parameters to the dictionaries, in order. monomorphize.rs:928-949. -/
def boundTo : List Bool → List Nat → Nat → Option Nat
  | true :: _, c :: _, 0 => some c
  | true :: t, _ :: cs, p + 1 => boundTo t cs p
  | false :: t, cs, p + 1 => boundTo t cs p
  | _, _, _ => none

/-- The change of an operand. monomorphize.rs:950-956. -/
def bindOperand (bd : Nat → Option Nat) : Operand → Operand
  | .param p => match bd p with
    | some c => .const c
    | none => .param p
  | o => o

/-- The operands and the payload of an operation. monomorphize.rs:950-956, 963-1009. -/
def bindOp (σ : Nat → Nat) (bd : Nat → Option Nat) (op : Op) : Op :=
  { op with data := σ op.data, operands := op.operands.map (bindOperand bd) }

/-- The operands of a terminator. -/
def bindTerm (σ : Nat → Nat) (bd : Nat → Option Nat) : Term → Term
  | .condBr c a b => .condBr (bindOperand bd c) a b
  | .invoke op n e => .invoke (bindOp σ bd op) n e
  | .yield p t => .yield (bindOperand bd p) t
  | t => t

/-- `map_types` and `bind_dictionaries`, monomorphize.rs:904-920, 927-957. `none` is the failed
assertion. The types of parameters and constants are not modelled. -/
def bindDictionaries (b : Body) (σ : Nat → Nat) (cs : List Nat) : Option Fn :=
  if b.dict.count true ≠ cs.length then none
  else some { b.fn with
    blocks := b.fn.blocks.map fun blk =>
      ⟨blk.ops.map (bindOp σ (boundTo b.dict cs)), bindTerm σ (boundTo b.dict cs) blk.term⟩ }

/-- One operation of the loop of `redirect_recursion`, monomorphize.rs:671-681. `none` is the index
out of bounds. -/
def redirectOp (env : Env) (original own : Nat) (op : Op) : Option Op :=
  if op.kind = .call ∧ env.recorded op.data = false then
    match op.operands with
    | [] => none
    | o :: t => if o = .fn original then some { op with operands := .fn own :: t } else some op
  else some op

/-- An operation in an `Invoke` and all others of a block. -/
def mapTerm (f : Op → Option Op) : Term → Option Term
  | .invoke op n e => (f op).map fun op' => .invoke op' n e
  | t => some t

/-- All operations of a function. -/
def mapOps (f : Op → Option Op) (F : Fn) : Option Fn :=
  (F.blocks.mapM fun (blk : Block) => (blk.ops.mapM f).bind fun ops =>
    (mapTerm f blk.term).map fun t => (⟨ops, t⟩ : Block)).map fun bs => { F with blocks := bs }

/-- `specialize`, monomorphize.rs:591-609, with `redirect_recursion` (660-683). -/
def specialize (env : Env) (key : Key) (own : Nat) (b : Body) : Option Fn :=
  (bindDictionaries b key.subst key.dicts).bind (mapOps (redirectOp env key.orig own))

/-- The constant dictionaries among the hidden operands. monomorphize.rs:1148-1154. -/
def constants (env : Env) (os : List Operand) : Option (List Nat) :=
  os.mapM fun o => match o with
    | .const c => if env.isDict c then some c else none
    | _ => none

/-- `specialization_for`, monomorphize.rs:1103-1178. The cache, the limits and the test of the worth
are the function `choose` of callee, payload and dictionaries. An outer `none` is a panic. -/
def specializationFor (env : Env) (choose : Nat → Nat → List Nat → Option Nat) (op : Op) :
    Option (Option Nat) :=
  if op.kind ≠ .call ∨ env.recorded op.data = false then some none
  else match op.operands with
    | [] => none
    | .fn f :: _ =>
      if op.operands.length < env.visible op.data + 1 then some none
      else
        let start := op.operands.length - (env.visible op.data + 1)
        if start = 0 then none
        else match constants env ((op.operands.take start).drop 1) with
          | none => some none
          | some ds => some (choose f op.data ds)
    | _ => some none

/-- A site of `specialize_call_sites`, monomorphize.rs:1069-1080. -/
def rewriteOp (env : Env) (choose : Nat → Nat → List Nat → Option Nat) (op : Op) : Option Op :=
  (specializationFor env choose op).map fun g => match g with
    | none => op
    | some g => { op with data := env.clear op.data, operands := .fn g :: op.operands.tail }

/-- `specialize_call_sites`, monomorphize.rs:1028-1082. -/
def callSites (env : Env) (choose : Nat → Nat → List Nat → Option Nat) (F : Fn) : Option Fn :=
  mapOps (rewriteOp env choose) F

end Ferlium.Specialize
