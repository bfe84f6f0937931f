import Mathlib.Data.Finset.Basic
import Mathlib.Data.Finset.Card

/-!
Syntax of the middle intermediate representation (`src/mir/value.rs`, `operation.rs`, `terminator.rs`,
`function.rs`) and a small-step semantics of one function body, following the reference interpreter
`src/mir/interpreter.rs`.

What is simplified.

* Source spans are left out.  Types, tags, metadata and other payloads which the passes only compare are numbers.
* A constant operand carries its literal rather than an index into the constant pool (`prune_constants`,
  edit.rs:420-446, has no effect on such operands).
* Everything an operation does outside the registers and the *private cells* of the running body - heap, caller's
  storage, console, fuel, callees - is an arbitrary deterministic function of the operation kind, of the argument
  values and of an arbitrary world state (`World`).  Since the world is arbitrary it may record a full log of what was
  executed, so that equality of worlds is equality of everything an outside observer can see.
* A *private cell* is the storage made by an `alloca` whose register has so far been used only directly: as the target
  of a whole-place write or as the source of a whole-place read.  Any other use *exposes* the cell: its content moves
  to the world, the register becomes an ordinary value (the pointer), and everything done with it is up to the world.
  The assumption is that an operation reaches storage only through its operands or through pointers which were
  exposed before.
* `stack_restore` does not end the life of private cells (a read after the region is closed is rejected by the
  verifier).
* Reading an unbound register or an empty cell, branching on something which is not a boolean and jumping to a block
  that does not exist are `stuck`: the interpreter panics there.
-/
namespace Ferlium.Mir

/-- The literals of the constant pool, value.rs:21-52; all literals other than booleans are numbers. -/
inductive Lit
  | bool (b : Bool)
  | other (n : Nat)
deriving DecidableEq

/-- `enum Value` value.rs:21-52. -/
inductive Value
  | constant (l : Lit)
  | dictionary (n : Nat)
  | subscript (n : Nat)
  | function (f : Nat)
  | parameter (n : Nat)
  | register (r : Nat)
  | pattern (l : Lit)
deriving DecidableEq

/-- `enum OperationKind` operation.rs:896-982. `call` keeps the number of visible arguments of its type. -/
inductive Kind
  | alloca (ty : Nat)
  | allocaPlace (ty : Nat)
  | call (ty visible : Nat)
  | project (ty : Nat)
  | endProject
  | compareEqual
  | load
  | subfield (data : Nat)
  | dictEntry (data : Nat)
  | subscriptMember (data : Nat)
  | buildSubscript (ty : Nat)
  | variant (data : Nat)
  | buildArray (ty : Nat)
  | extractTag
  | store
  | clear
  | memcpy
  | move
  | stackSave
  | stackRestore
  | checkCallDepth
  | checkFuel
  | clone (ty : Nat)
  | drop (ty : Nat)
  | buildClosure (function hiddenDicts : Nat) (envDict : Bool) (ty : Nat)
  | cloneClosureEnv (ty : Nat)
  | dropClosureEnv
deriving DecidableEq

/-- `struct Operation` operation.rs:59-73. -/
structure Op where
  result : Option Nat
  kind : Kind
  operands : List Value
deriving DecidableEq

/-- `enum TerminatorKind` terminator.rs:136-203. -/
inductive Term
  | goto (target : Nat)
  | condBr (condition : Value) (thenTarget elseTarget : Nat)
  | invoke (op : Op) (normal error : Nat)
  | yield (place : Value) (resume : Nat)
  | ret
  | propagateError
  | cleanupFailure
deriving DecidableEq

/-- `Terminator::successors`, terminator.rs:136-203. -/
def Term.successors : Term → List Nat
  | .goto t => [t]
  | .condBr _ t e => [t, e]
  | .invoke _ n e => [n, e]
  | .yield _ r => [r]
  | .ret => []
  | .propagateError => []
  | .cleanupFailure => []

/-- `Terminator::operands`, terminator.rs:136-203. -/
def Term.operands : Term → List Value
  | .condBr c _ _ => [c]
  | .invoke op _ _ => op.operands
  | .yield p _ => [p]
  | _ => []

/-- `struct BasicBlock`. -/
structure Block where
  ops : List Op
  term : Term
deriving DecidableEq

/-- The blocks of a body; block 0 is the entry. -/
abbrev Body := List Block

/-- `Operation::result_requires_consuming_use` operation.rs:120-134. -/
def Op.owned (op : Op) : Bool :=
  match op.kind with
  | .variant _ => true
  | .cloneClosureEnv _ => true
  | .buildClosure _ hidden envDict _ =>
    op.operands.length - hidden - (if envDict then 1 else 0) != 0
  | _ => false

/-- `call_result_operand_index` dataflow.rs:954-962. -/
def callResultIndex (operands : List Value) (visible : Nat) : Option Nat :=
  if visible + 2 ≤ operands.length then some (1 + (operands.length - (visible + 2)) + visible) else none

/-- The operand position which the operation overwrites as a whole: the destination of `store` and `memcpy`
(interpreter.rs:943-959) and the result place of a call, its last operand. -/
def Op.writeIndex (op : Op) : Option Nat :=
  match op.kind with
  | .store => some 1
  | .memcpy => some 1
  | .call _ visible => callResultIndex op.operands visible
  | _ => none

/-- The operand positions which the operation reads as a whole, interpreter.rs:925-935 and 1054-1078. -/
def Op.readsWhole (op : Op) (i : Nat) : Bool :=
  match op.kind with
  | .load => i == 0
  | .memcpy => i == 0
  | .move => i == 0
  | .compareEqual => i == 0
  | _ => false

/-- Positions at which a private cell stays private. -/
def Op.direct (op : Op) (i : Nat) : Bool :=
  op.writeIndex == some i || op.readsWhole i

/-- What an operation sees of one operand. -/
inductive Arg (V : Type)
  /-- an ordinary value -/
  | value (v : V)
  /-- the content of a private cell which is read as a whole -/
  | content (c : Option V)
  /-- a private cell which is about to be overwritten -/
  | target

/-- The outcome of an operation performed by the world: success with an optional result register value and the new
content of the overwritten private cell, a source-level error, or the end of the execution (sandbox limit). -/
inductive Out (V σ : Type)
  | ok (w : σ) (result : Option V) (written : Option V)
  | error (w : σ)
  | halt (w : σ)

/-- Everything outside the registers and the private cells. -/
structure World (V σ : Type) where
  bool : Bool → V
  /-- The boolean carried by a materialized value. -/
  asBool : V → Option Bool
  asBool_bool : ∀ b, asBool (bool b) = some b
  bool_of_asBool : ∀ v b, asBool v = some b → v = bool b
  /-- Other literals. -/
  lit : Nat → V
  /-- The values of parameters, functions, dictionaries and subscripts. -/
  fixed : Value → V
  /-- `comp_eq`; a value which is a pointer is read through the world. -/
  compare : V → V → σ → Option V
  compare_bool : ∀ a b w, compare (bool a) (bool b) w = some (bool (a == b))
  /-- Make a cell with the given content accessible to the world; the value is the pointer to it. -/
  expose : Option V → σ → V × σ
  /-- An owned value leaves its register. -/
  consume : V → σ → σ
  exec : Kind → List (Arg V) → σ → Out V σ
  /-- What happens between a yield and its resumption; `none` if the execution ends there. -/
  yield : V → σ → Option σ

variable {V σ : Type}

/-- The value of a literal. -/
def World.ofLit (W : World V σ) : Lit → V
  | .bool b => W.bool b
  | .other n => W.lit n

/-- What a register is bound to. -/
inductive Bind (V : Type)
  | value (v : V) (owned : Bool)
  | cell (content : Option V)

/-- The state of a running body. -/
structure St (V σ : Type) where
  env : Nat → Option (Bind V)
  world : σ

/-- Bind a register. -/
def St.set (s : St V σ) (r : Nat) (b : Option (Bind V)) : St V σ :=
  { s with env := Function.update s.env r b }

/-- Expose the private cell of one operand. -/
def exposeOne (W : World V σ) (s : St V σ) (v : Value) : St V σ :=
  match v with
  | .register r =>
    match s.env r with
    | some (.cell c) =>
      { env := Function.update s.env r (some (.value (W.expose c s.world).1 false))
        world := (W.expose c s.world).2 }
    | _ => s
  | _ => s

/-- Expose the private cells used at positions which are not direct; `i` is the position of the first operand. -/
def exposeFrom (W : World V σ) (direct : Nat → Bool) : Nat → List Value → St V σ → St V σ
  | _, [], s => s
  | i, v :: vs, s => exposeFrom W direct (i + 1) vs (if direct i then s else exposeOne W s v)

/-- The argument an operand stands for. -/
def argOf (W : World V σ) (reads : Bool) (s : St V σ) (v : Value) : Option (Arg V) :=
  match v with
  | .register r =>
    match s.env r with
    | none => none
    | some (.value v _) => some (.value v)
    | some (.cell c) => some (if reads then .content c else .target)
  | .constant l => some (.value (W.ofLit l))
  | .pattern l => some (.value (W.ofLit l))
  | v => some (.value (W.fixed v))

/-- The arguments of an operation. -/
def argsFrom (W : World V σ) (reads : Nat → Bool) (s : St V σ) : Nat → List Value → Option (List (Arg V))
  | _, [] => some []
  | i, v :: vs =>
    match argOf W (reads i) s v, argsFrom W reads s (i + 1) vs with
    | some a, some as => some (a :: as)
    | _, _ => none

/-- The outcome of one operation. -/
inductive Step (V σ : Type)
  | ok (s : St V σ)
  | error (s : St V σ)
  | halt (w : σ)
  | stuck

/-- Overwrite the private cell an operand stands for, if it stands for one. -/
def writeCell (s : St V σ) (v : Option Value) (content : Option V) : St V σ :=
  match v with
  | some (.register r) =>
    match s.env r with
    | some (.cell _) => s.set r (some (.cell content))
    | _ => s
  | _ => s

/-- Bind the result register. -/
def bindResult (op : Op) (v : Option V) (s : St V σ) : St V σ :=
  match op.result, v with
  | some r, some v => s.set r (some (.value v op.owned))
  | some r, none => s.set r none
  | none, _ => s

/-- An owned value which is stored leaves its register. -/
def consumeSource (W : World V σ) (s : St V σ) (v : Option Value) : St V σ :=
  match v with
  | some (.register r) =>
    match s.env r with
    | some (.value v true) => { env := Function.update s.env r none, world := W.consume v s.world }
    | _ => s
  | _ => s

/-- A `move` empties its source. -/
def applyMove (op : Op) (s : St V σ) : St V σ :=
  if op.kind = .move then writeCell s op.operands[0]? none else s

/-- The operand at the written position receives the content the world gives. -/
def applyWrite (op : Op) (written : Option V) (s : St V σ) : St V σ :=
  match op.writeIndex with
  | some i => writeCell s op.operands[i]? written
  | none => s

/-- Bind the result register after an operation performed by the world: an `alloca` makes an empty private cell
(interpreter.rs, `exec_alloca`). -/
def bindOut (op : Op) (v : Option V) (s : St V σ) : St V σ :=
  match op.kind with
  | .alloca _ =>
    match op.result with
    | some r => s.set r (some (.cell none))
    | none => s
  | _ => bindResult op v s

/-- An operation performed by the world. -/
def worldOp (W : World V σ) (op : Op) (args : List (Arg V)) (s : St V σ) : Step V σ :=
  match W.exec op.kind args s.world with
  | .ok w result written => .ok (bindOut op result (applyWrite op written (applyMove op { s with world := w })))
  | .error w => .error { s with world := w }
  | .halt w => .halt w

/-- One operation once its arguments are known: whole-place accesses to private cells and comparisons of values
have a fixed meaning (`exec_load` interpreter.rs:925-935, `exec_store` 943-959, `exec_compare_equal` 1054-1078),
everything else is up to the world. -/
def execArgs (W : World V σ) (op : Op) (args : List (Arg V)) (s : St V σ) : Step V σ :=
  match op.kind, args with
  | .load, [.content (some v)] => .ok (bindResult op (some v) s)
  | .load, [.content none] => .stuck
  | .compareEqual, [.content (some v), .value l] =>
    match W.compare v l s.world with
    | some b => .ok (bindResult op (some b) s)
    | none => .stuck
  | .compareEqual, [.value v, .value l] =>
    match W.compare v l s.world with
    | some b => .ok (bindResult op (some b) s)
    | none => .stuck
  | .compareEqual, _ => .stuck
  | .store, [.value v, .target] =>
    .ok (writeCell (consumeSource W s op.operands[0]?) op.operands[1]? (some v))
  | _, _ => worldOp W op args s

/-- One operation.  `direct` are the positions at which private cells stay private. -/
def execOp (W : World V σ) (direct : Nat → Bool) (op : Op) (s : St V σ) : Step V σ :=
  let s := exposeFrom W direct 0 op.operands s
  match argsFrom W op.readsWhole s 0 op.operands with
  | none => .stuck
  | some args => execArgs W op args s

/-- How an execution of a body ends. -/
inductive Exit (σ : Type)
  | returned (w : σ)
  | propagated (w : σ)
  | cleanupFailed (w : σ)
  | halted (w : σ)
  | stuck

/-- A point of an execution: the remaining operations and the terminator of the current block. -/
inductive Config (V σ : Type)
  | at (ops : List Op) (t : Term) (s : St V σ)
  | done (x : Exit σ)

/-- Enter a block. -/
def enter (f : Body) (b : Nat) (s : St V σ) : Config V σ :=
  match f[b]? with
  | some block => .at block.ops block.term s
  | none => .done .stuck

/-- The value of an operand, if it is one. -/
def valueOf (W : World V σ) (s : St V σ) (v : Value) : Option V :=
  match argOf W false s v with
  | some (.value v) => some v
  | _ => none

/-- The terminators, interpreter.rs:540-640. -/
def stepTerm (W : World V σ) (f : Body) (t : Term) (s : St V σ) : Config V σ :=
  match t with
  | .goto b => enter f b s
  | .condBr c t e =>
    match (valueOf W s c).bind W.asBool with
    | some true => enter f t s
    | some false => enter f e s
    | none => .done .stuck
  | .invoke op n e =>
    match execOp W (fun _ => false) op s with
    | .ok s => enter f n s
    | .error s => enter f e s
    | .halt w => .done (.halted w)
    | .stuck => .done .stuck
  | .yield v r =>
    let s := exposeOne W s v
    match valueOf W s v with
    | some v =>
      match W.yield v s.world with
      | some w => enter f r { s with world := w }
      | none => .done (.halted s.world)
    | none => .done .stuck
  | .ret => .done (.returned s.world)
  | .propagateError => .done (.propagated s.world)
  | .cleanupFailure => .done (.cleanupFailed s.world)

/-- One step: an operation or a terminator. -/
def step (W : World V σ) (f : Body) : Config V σ → Config V σ
  | .at (op :: ops) t s =>
    match execOp W op.direct op s with
    | .ok s => .at ops t s
    | .error s => .done (.halted s.world)
    | .halt w => .done (.halted w)
    | .stuck => .done .stuck
  | .at [] t s => stepTerm W f t s
  | .done x => .done x

/-- The configuration after some steps. -/
def run (W : World V σ) (f : Body) : Nat → Config V σ → Config V σ
  | 0, c => c
  | n + 1, c => run W f n (step W f c)

/-- The start of a call: no register is bound. -/
def start (f : Body) (w : σ) : Config V σ := enter f 0 { env := fun _ => none, world := w }

/-- What an observer sees of a configuration. -/
def Config.world? : Config V σ → Option σ
  | .at _ _ s => some s.world
  | .done (.returned w) => some w
  | .done (.propagated w) => some w
  | .done (.cleanupFailed w) => some w
  | .done (.halted w) => some w
  | .done .stuck => none

/-- The world passes through the state `w'` when the body is called in the world `w`. -/
def Reaches (W : World V σ) (f : Body) (w w' : σ) : Prop :=
  ∃ n, (run W f n (start f w)).world? = some w'

/-- The call ends in the given way. -/
def Ends (W : World V σ) (f : Body) (w : σ) (x : Exit σ) : Prop :=
  ∃ n, run W f n (start f w) = .done x

/-- Two bodies cannot be told apart: called in the same world, they drive the world through the same states and end
in the same way, or both run for ever.  As the world may keep a log of everything done to it, this is equality of
all observable effects in order. -/
def SameBehaviour (W : World V σ) (f g : Body) (w : σ) : Prop :=
  (∀ w', Reaches W f w w' ↔ Reaches W g w w') ∧ (∀ x, Ends W f w x ↔ Ends W g w x)

/-- The call never gets stuck (never panics). -/
def Safe (W : World V σ) (f : Body) (w : σ) : Prop := ¬ Ends W f w .stuck

/-- All successors are blocks of the body. -/
def InRange (f : Body) : Prop := ∀ b ∈ f, ∀ t ∈ b.term.successors, t < f.length

/-- The results of the operations of a block, in order. -/
def Block.results (b : Block) : List Nat := b.ops.filterMap Op.result

/-- The results of the operations of a body, in order. -/
def results (f : Body) : List Nat := f.flatMap Block.results

/-- No register is defined twice (calls, hence invocations, define none): the single-assignment rule of the
verifier. -/
def SingleAssignment (f : Body) : Prop :=
  (results f).Nodup ∧ ∀ b ∈ f, ∀ op n e, b.term = .invoke op n e → op.result = none

/-- The register is made by an `alloca`. -/
def IsAlloca (f : Body) (r : Nat) : Prop :=
  ∃ b ∈ f, ∃ op ∈ b.ops, op.result = some r ∧ ∃ ty, op.kind = .alloca ty

/-- Stores take a value and a place, and what is stored into a local made by `alloca` is a value, not the address of
such a local (its type would be that of a pointer). -/
def StoresValues (f : Body) : Prop :=
  ∀ b ∈ f, ∀ op ∈ b.ops, op.kind = .store →
    ∃ v p, op.operands = [v, p] ∧ ∀ q r, p = .register q → IsAlloca f q → v = .register r → ¬ IsAlloca f r

/-- The rules of the MIR verifier which the passes rely on (`src/mir/verify.rs`). -/
structure Valid (f : Body) : Prop where
  inRange : InRange f
  single : SingleAssignment f
  stores : StoresValues f

/-- A small concrete world, used in examples: values are booleans and numbers, the world is the list of the numbers and
booleans (as 0 and 1) passed to operations other than local memory accesses, most recent first. -/
def demoNum : Bool ⊕ Nat → Nat
  | .inl b => if b then 1 else 0
  | .inr n => n

/-- The log entries of some arguments. -/
def demoLog : List (Arg (Bool ⊕ Nat)) → List Nat
  | [] => []
  | .value v :: as => demoNum v :: demoLog as
  | .content (some v) :: as => demoNum v :: demoLog as
  | _ :: as => demoLog as

/-- The example world. -/
def demo : World (Bool ⊕ Nat) (List Nat) where
  bool := .inl
  asBool
    | .inl b => some b
    | .inr _ => none
  asBool_bool _ := rfl
  bool_of_asBool v b h := by cases v <;> simp_all
  lit := .inr
  fixed _ := .inr 7
  compare v v' _ := some (.inl (decide (v = v')))
  compare_bool a b w := by cases a <;> cases b <;> rfl
  expose c w := (.inr (w.length + 100), (c.map demoNum).toList ++ w)
  consume v w := demoNum v :: w
  exec kind args w :=
    match kind, args with
    | .alloca _, _ => .ok w none none
    | .memcpy, [.content c, .target] => .ok w none c
    | .checkFuel, _ => if w.length < 10 then .ok w none none else .halt w
    | .call _ _, _ => if args.length = 3 then .ok (demoLog args ++ w) none (some (.inr w.length)) else .error w
    | _, _ => .ok (demoLog args ++ w) (some (.inr w.length)) (some (.inr w.length))
  yield v w := some (demoNum v :: w)

end Ferlium.Mir
