import Mathlib.Tactic

/-!
# Inlining (`src/mir/pass/inline.rs`) and the frames of the MIR interpreter

A call of a script function is replaced by a copy of the body of that function. This file holds the
rewriting (`inline_at` and `Copier`), the two tests that admit a site (`cleanup_blocks` and
`check_inlinable`), and the part of the interpreter (`src/mir/interpreter.rs`) in which a call and a
copied body differ: frames, bindings, the storage stack, errors in flight and the call depth.
-/

namespace Ferlium.Inline

/-- A register. `mir::ValueId`, src/mir/value.rs. -/
abbrev Reg := Nat

/-- An operand. `mir::Value`, src/mir/value.rs. Functions are numbers. Constants are held by content
rather than by an index in a pool, so interning (inline.rs:673-686) is the identity here;
dictionaries count as constants. -/
inductive Operand where
  | reg (r : Reg)
  | param (p : Nat)
  | fn (f : Nat)
  | const (c : Nat)
deriving DecidableEq, Repr

/-- What an operation does, as far as inlining or the frame can tell. `OperationKind`,
src/mir/operation.rs. All the kinds without an own constructor are `other`. -/
inductive Kind where
  | call
  | stackSave
  | stackRestore
  | checkDepth
  | project
  | endProject
  | other (k : Nat)
deriving DecidableEq, Repr

/-- An operation. `Operation`, src/mir/operation.rs. The types, spans and payloads of the kind are
one number `data`. -/
structure Op where
  kind : Kind
  data : Nat
  operands : List Operand
  result : Option Reg
deriving DecidableEq, Repr

/-- The end of a block. `TerminatorKind`, src/mir/terminator.rs. -/
inductive Term where
  | goto (t : Nat)
  | condBr (c : Operand) (a b : Nat)
  | invoke (op : Op) (normal error : Nat)
  | ret
  | propagate
  | failure
  | yield (p : Operand) (t : Nat)
deriving DecidableEq, Repr

/-- A block. `Block`, src/mir/block.rs. -/
structure Block where
  ops : List Op
  term : Term
deriving DecidableEq, Repr

/-- A function open for editing. `FunctionEdit`, src/mir/edit.rs:60-72: `next` is
`next_value_index`, one past the highest result in use. -/
structure Fn where
  params : Nat
  blocks : List Block
  next : Nat
deriving DecidableEq, Repr

/-- Where a call stands. `Site`, inline.rs:65-75. -/
inductive Site where
  | op (b i : Nat)
  | term (b : Nat)
deriving DecidableEq, Repr

/-- `Site::block`, inline.rs:78-82. -/
def Site.block : Site → Nat
  | .op b _ => b
  | .term b => b

/-- Successors of a block. `TerminatorKind::successors`, src/mir/terminator.rs. -/
def Term.succs : Term → List Nat
  | .goto t => [t]
  | .condBr _ a b => [a, b]
  | .invoke _ n e => [n, e]
  | .yield _ t => [t]
  | .ret | .propagate | .failure => []

/-! ## Which sites are admitted -/

/-- The targets of the error edges. inline.rs:462-468. -/
def errorTargets (F : Fn) : List Nat :=
  F.blocks.filterMap fun blk => match blk.term with
    | .invoke _ _ e => some e
    | _ => none

/-- Successors of a block by number; `none` for a number of no block, where `func.block` panics. -/
def succsOf (F : Fn) (b : Nat) : Option (List Nat) := F.blocks[b]?.map (·.term.succs)

/-- The loop of `cleanup_blocks`, inline.rs:469-474. `work` has its top first; `fuel` bounds the
number of steps, and `none` is a panic or fuel running out. -/
def cleanupLoop (F : Fn) : Nat → List Nat → List Nat → Option (List Nat)
  | _, [], seen => some seen
  | 0, _ :: _, _ => none
  | n + 1, b :: work, seen =>
    if b ∈ seen then cleanupLoop F n work seen
    else (succsOf F b).bind fun ss => cleanupLoop F n (ss.reverse ++ work) (b :: seen)

/-- How many entries the worklist can ever hold. -/
def cleanupFuel (F : Fn) : Nat :=
  (errorTargets F).length + (F.blocks.map fun blk => blk.term.succs.length).sum

/-- The blocks in which an error is in flight. `cleanup_blocks`, inline.rs:460-476. -/
def cleanupBlocks (F : Fn) : Option (List Nat) :=
  cleanupLoop F (cleanupFuel F) (errorTargets F).reverse []

/-- Why a body is not copied. `NotInlinable`, inline.rs:106-133: the three reasons that the shape of
a body can give. -/
inductive Refusal where
  | shape
  | recursive
  | cleanup
deriving DecidableEq, Repr

/-- The terminators that count as error flow. inline.rs:519-526. -/
def Term.errorFlow : Term → Bool
  | .invoke .. | .propagate | .failure => true
  | _ => false

/-- inline.rs:519-526. -/
def errorFlow (body : Fn) : Bool := body.blocks.any (·.term.errorFlow)

/-- inline.rs:533-538. -/
def propagates (body : Fn) : Bool := body.blocks.any (·.term == .propagate)

/-- One turn of the loop at inline.rs:498-517. -/
def checkBlock (blk : Block) : Option Refusal :=
  if (match blk.term with | .yield .. => true | _ => false)
      || blk.ops.any (fun o => o.kind == .project || o.kind == .endProject) then some .shape
  else if blk.ops.any (fun o => o.kind == .checkDepth) then some .recursive
  else none

/-- `check_inlinable`, inline.rs:490-543; `none` is `Ok(())`. -/
def checkInlinable (body : Fn) (hasError inCleanup : Bool) : Option Refusal :=
  if body.blocks.isEmpty then some .shape
  else match body.blocks.findSome? checkBlock with
    | some r => some r
    | none =>
      if errorFlow body && inCleanup then some .cleanup
      else if propagates body && !hasError then some .shape
      else none

/-! ## The rewriting -/

/-- The operation at the end of a block, if any. inline.rs:631-634. -/
def Term.invoked : Term → Option Op
  | .invoke op _ _ => some op
  | _ => none

/-- The results of a body, in the order in which fresh ones are taken. inline.rs:626-641. -/
def results (body : Fn) : List Reg :=
  body.blocks.flatMap fun blk => (blk.ops ++ blk.term.invoked.toList).filterMap (·.result)

/-- The map `registers` of the copier, inline.rs:635-640: the fresh registers are numbered from
`base`, and a later insertion replaces an earlier one. -/
def rename (body : Fn) (base : Nat) (r : Reg) : Option Reg :=
  (((results body).zipIdx base).reverse.find? fun p => p.1 == r).map (·.2)

/-- `Copier::operand`, inline.rs:665-689. `none` is an index panic. -/
def copyOperand (args : List Operand) (ren : Reg → Option Reg) : Operand → Option Operand
  | .param p => args[p]?
  | .reg r => (ren r).map .reg
  | .fn f => some (.fn f)
  | .const c => some (.const c)

/-- The result of a copy. inline.rs:704-706. -/
def copyResult (ren : Reg → Option Reg) : Option Reg → Option (Option Reg)
  | none => some none
  | some r => (ren r).map some

/-- `Copier::operation`, inline.rs:691-708. -/
def copyOp (args : List Operand) (ren : Reg → Option Reg) (op : Op) : Option Op :=
  (op.operands.mapM (copyOperand args ren)).bind fun os =>
    (copyResult ren op.result).map fun r => { op with operands := os, result := r }

/-- A new `stack_restore`. src/mir/operation.rs. -/
def restoreOp (marker : Reg) : Op := ⟨.stackRestore, 0, [.reg marker], none⟩

/-- A new `stack_save` with its result. inline.rs:573-578. -/
def saveOp (marker : Reg) : Op := ⟨.stackSave, 0, [], some marker⟩

/-- What a splice is given: the arguments, the fresh registers, the marker, where exits lead, and
the number of the first copied block. `Copier`, inline.rs:605-619. -/
structure Splice where
  args : List Operand
  ren : Reg → Option Reg
  marker : Reg
  normal : Nat
  error : Option Nat
  base : Nat

/-- `Copier::terminator`, inline.rs:711-761: the operations to add first, and the terminator. -/
def copyTerm (s : Splice) : Term → Option (List Op × Term)
  | .goto t => some ([], .goto (s.base + t))
  | .condBr c a b => (copyOperand s.args s.ren c).map fun c' =>
      ([], .condBr c' (s.base + a) (s.base + b))
  | .invoke op n e => (copyOp s.args s.ren op).map fun op' =>
      ([], .invoke op' (s.base + n) (s.base + e))
  | .ret => some ([restoreOp s.marker], .goto s.normal)
  | .propagate => s.error.map fun e => ([restoreOp s.marker], .goto e)
  | .failure => some ([], .failure)
  | .yield .. => none

/-- One turn of the loop at inline.rs:646-655. -/
def copyBlock (s : Splice) (blk : Block) : Option Block :=
  (blk.ops.mapM (copyOp s.args s.ren)).bind fun ops =>
    (copyTerm s blk.term).map fun t => ⟨ops ++ t.1, t.2⟩

/-- The call taken apart: the call, the caller's blocks after the split, and where exits lead.
inline.rs:548-570. -/
def takeApart (F : Fn) : Site → Option (Op × List Block × Nat × Option Nat)
  | .op b i => F.blocks[b]?.bind fun blk => blk.ops[i]?.map fun call =>
      (call,
        F.blocks.set b ⟨blk.ops.take i, blk.term⟩ ++ [⟨blk.ops.drop (i + 1), blk.term⟩],
        F.blocks.length, none)
  | .term b => F.blocks[b]?.bind fun blk => match blk.term with
      | .invoke op n e => some (op, F.blocks, n, some e)
      | _ => none

/-- The splice at a site. inline.rs:572-600. -/
def spliceAt (F body : Fn) (call : Op) (blocks : List Block) (normal : Nat)
    (error : Option Nat) : Splice where
  args := call.operands.drop 1
  ren := rename body (F.next + 1)
  marker := F.next
  normal := normal
  error := error
  base := blocks.length

/-- `inline_at`, inline.rs:546-602. `none` is a panic: a site that is not there, a wrong number of
arguments, an empty body, or a panic of the copier. -/
def inlineAt (F body : Fn) (site : Site) : Option Fn :=
  (takeApart F site).bind fun (call, blocks, normal, error) =>
    if (call.operands.drop 1).length ≠ body.params ∨ body.blocks = [] then none
    else (body.blocks.mapM (copyBlock (spliceAt F body call blocks normal error))).map fun copies =>
      { params := F.params
        blocks := blocks.modify site.block
            (fun blk => ⟨blk.ops ++ [saveOp F.next], .goto blocks.length⟩) ++ copies
        next := F.next + 1 + (results body).length }

/-! ## Choosing the sites -/

/-- `Function::operation_count`, src/mir/function.rs:151-156. -/
def opCount (F : Fn) : Nat := (F.blocks.map (·.ops.length)).sum

/-- `INLINE_CALLEE_OPERATIONS`, src/mir/pass/budget.rs:45. -/
def calleeLimit : Nat := 32

/-- `INLINE_FUNCTION_GROWTH`, src/mir/pass/budget.rs:55. -/
def growthLimit : Nat := 128

/-- `Site::has_error_successor`, inline.rs:84-87. -/
def Site.hasError : Site → Bool
  | .op .. => false
  | .term _ => true

/-- What the planner asks of the session, all arbitrary: `callee_is_inline_never` (inline.rs:342-355),
whether the result convention needs a yield driver (269-272), `callee_body` (435-448), and
`concrete_body` (392-422), which may refuse. -/
structure Callees where
  never : Nat → Bool
  driver : Op → Bool
  raw : Nat → Option Fn
  concrete : Op → Fn → Option Fn

/-- The calls of a function in the order of the plan: operations first, then the terminator.
inline.rs:226-237. -/
def candidates (F : Fn) : List (Site × Op) :=
  F.blocks.zipIdx.flatMap fun p =>
    p.1.ops.zipIdx.map (fun q => (Site.op p.2 q.2, q.1)) ++
      p.1.term.invoked.toList.map fun op => (Site.term p.2, op)

/-- The body to copy at a candidate and its cost, when nothing but the growth budget stands against
it. inline.rs:240-325. An operation without operands is skipped here and panics there. -/
def consider (q : Callees) (cl : List Nat) (site : Site) (op : Op) : Option (Nat × Fn) :=
  if op.kind ≠ .call ∨ q.driver op then none
  else match op.operands with
    | .fn f :: _ =>
      if q.never f then none
      else match q.raw f with
        | none => none
        | some raw =>
          if opCount raw > calleeLimit then none
          else match checkInlinable raw site.hasError (cl.contains site.block) with
            | some _ => none
            | none => match q.concrete op raw with
              | none => none
              | some body =>
                if opCount body > calleeLimit then none
                else some (opCount body + body.blocks.length + 1, body)
    | _ => none

/-- The loop of `plan_inlinings`, inline.rs:221-334: `size` grows with every chosen site. -/
def planLoop (q : Callees) (cl : List Nat) (bound : Nat) : Nat → List (Site × Op) → List (Site × Fn)
  | _, [] => []
  | size, (site, op) :: rest =>
    match consider q cl site op with
    | none => planLoop q cl bound size rest
    | some (cost, body) =>
      if size + cost > bound then planLoop q cl bound size rest
      else (site, body) :: planLoop q cl bound (size + cost) rest

/-- `plan_inlinings`, inline.rs:212-335. -/
def plan (q : Callees) (F : Fn) (original : Nat) : Option (List (Site × Fn)) :=
  (cleanupBlocks F).map fun cl =>
    planLoop q cl (original + growthLimit) (opCount F) (candidates F)

/-- The loop of `inline_function`, inline.rs:185-191: the last site first. -/
def inlineAll (F : Fn) : List (Site × Fn) → Option Fn
  | [] => some F
  | (site, body) :: rest => (inlineAll F rest).bind fun F1 => inlineAt F1 body site

/-- `inline_function`, inline.rs:163-202, up to the merging and reordering of blocks (C54). An
empty plan leaves the function as it is. -/
def inlineFunction (q : Callees) (F : Fn) (original : Nat) : Option Fn :=
  (plan q F original).bind (inlineAll F)

/-! ## The machine -/

/-- What a register or a parameter is bound to. `Binding`, src/mir/interpreter.rs. Dictionaries and
variant tags count as constants. -/
inductive View (P V : Type) where
  | place (p : P)
  | value (v : V)
  | mark (n : Nat)
  | fn (f : Nat)
  | const (c : Nat)

/-- The storage stack of the interpreter, and everything else that operations read or write. -/
structure Mem (C W : Type) where
  env : List C
  world : W

/-- `environment.truncate`, interpreter.rs:2262-2270 and `reclaim_frame_storage`. -/
def Mem.cut {C W : Type} (m : Mem C W) (n : Nat) : Mem C W := { m with env := m.env.take n }

/-- How an operation ends: with new contents for the values among its operands, with an error that
the program can see, or by poisoning the interpreter. -/
inductive Res (P V C W E : Type) where
  | ok (backs : List V) (result : Option (View P V)) (m : Mem C W)
  | fail (backs : List V) (e : E) (m : Mem C W)
  | poison (e : E) (w : W)

/-- What an operation does: it ends, or calls a script function and goes on with the outcome. This
covers closures, clones and drops through dictionaries, and native functions that call back. -/
inductive Prog (P V C W E : Type) where
  | done (r : Res P V C W E)
  | call (f : Nat) (args : List (View P V)) (m : Mem C W) (k : Option E → Mem C W → Prog P V C W E)

/-- The operations of the interpreter other than direct calls of script functions, stack markers
and the test of the depth (interpreter.rs, `exec_operation`): arbitrary functions. -/
structure Sem (P V C W E : Type) where
  op : Kind → Nat → List (View P V) → Mem C W → Prog P V C W E
  test : View P V → Mem C W → Option Bool
  combine : E → E → E
  limit : Nat

/-- A frame. interpreter.rs:516-560: the bindings, the error in flight and the second error. -/
structure Frame (P V E : Type) where
  slots : Reg → Option (View P V)
  params : List (View P V)
  pending : Option E
  second : Option E

variable {P V C W E : Type}

/-- The binding an operand denotes; `none` is a panic. -/
def Frame.view (st : Frame P V E) : Operand → Option (View P V)
  | .reg r => st.slots r
  | .param p => st.params[p]?
  | .fn f => some (.fn f)
  | .const c => some (.const c)

/-- New contents for the registers among the operands that hold values (`value_operand`,
interpreter.rs:2419: values move out of their registers; places stay bound). -/
def writeBack (slots : Reg → Option (View P V)) : List Operand → List V → Reg → Option (View P V)
  | .reg r :: os, v :: vs =>
    writeBack (match slots r with
      | some (.value _) => Function.update slots r (some (.value v))
      | _ => slots) os vs
  | _ :: os, _ :: vs => writeBack slots os vs
  | _, _ => slots

/-- A new binding. -/
def Frame.set (st : Frame P V E) (r : Reg) (v : View P V) : Frame P V E :=
  { st with slots := Function.update st.slots r (some v) }

/-- The bindings after an operation. -/
def Frame.after (st : Frame P V E) (op : Op) (backs : List V) (res : Option (View P V)) :
    Frame P V E :=
  let slots := writeBack st.slots op.operands backs
  { st with slots := match op.result, res with
      | some r, some v => Function.update slots r (some v)
      | _, _ => slots }

/-- The error of a poisoned frame: with an error in flight the two are combined.
interpreter.rs:534-645. -/
def Frame.poison (sem : Sem P V C W E) (st : Frame P V E) (e : E) : E :=
  match st.pending with
  | none => e
  | some i => sem.combine i e

/-- An invoked operation failed. interpreter.rs:534-645; `none` is the failed assertion of a third
error. -/
def Frame.fail (st : Frame P V E) (e : E) : Option (Frame P V E) :=
  match st.pending, st.second with
  | none, _ => some { st with pending := some e }
  | some _, none => some { st with second := some e }
  | some _, some _ => none

/-- Whether a binding is passed as it is. `place_operand` and `evidence_binding`,
interpreter.rs:2326-2415: values and markers are not passed. A register bound to a value that holds
a place counts as bound to that place. -/
def View.passable : View P V → Bool
  | .value _ | .mark _ => false
  | _ => true

/-- A piece of execution. -/
inductive Job (P V C W E : Type) where
  | func (d f : Nat) (args : List (View P V)) (m : Mem C W)
  | prog (d : Nat) (p : Prog P V C W E)
  | exec (d : Nat) (k : Kind) (data : Nat) (vs : List (View P V)) (m : Mem C W)
  | code (d : Nat) (F : Fn) (st : Frame P V E) (b j : Nat) (m : Mem C W)

/-- How a piece of execution ends. A poisoned interpreter runs no more script code, so of its memory
only the world counts. `deep` is the stop at the limit of the call depth. -/
inductive Out (P V C W E : Type) where
  | done (m : Mem C W)
  | err (e : E) (m : Mem C W)
  | poison (e : E) (w : W)
  | deep
  | ok (backs : List V) (result : Option (View P V)) (m : Mem C W)
  | fail (backs : List V) (e : E) (m : Mem C W)

/-- The end of a frame: its storage is reclaimed. interpreter.rs:500-511. -/
def Out.close (n : Nat) : Out P V C W E → Out P V C W E
  | .done m => .done (m.cut n)
  | .err e m => .err e (m.cut n)
  | o => o

/-- The end of a called function as the end of the operation that called it. -/
def Out.asOp : Out P V C W E → Out P V C W E
  | .done m => .ok [] none m
  | .err e m => .fail [] e m
  | o => o

/-- The function called directly by an operation that sees these bindings: a function constant that
names a script function. interpreter.rs:1246-1257, 1626-1630. -/
def directCallee (tab : Nat → Option Fn) (k : Kind) (vs : List (View P V)) : Option Nat :=
  match k, vs with
  | .call, .fn f :: _ => if (tab f).isSome then some f else none
  | _, _ => none

/-- Kinds left to the `Sem`: ordinary operations, and calls that are not direct calls of script
functions. The depth test, the markers and projections are not among them; no rule runs a
projection. -/
def Kind.plain : Kind → Bool
  | .call | .other _ => true
  | _ => false

/-- The machine: `run_function` (interpreter.rs:500-511), `run_frame` (516-531), `run_loop`
(534-645), `exec_operation` and `exec_call` (1239-1282), `exec_resolved_call` (1612-1672). Panics
have no rule. A second error is only recorded beside a first, so that `ret` may ask for neither. -/
inductive Run (sem : Sem P V C W E) (tab : Nat → Option Fn) : Job P V C W E → Out P V C W E → Prop
  | func {d f args m F r} : tab f = some F → args.length = F.params →
      Run sem tab (.code (d + 1) F ⟨fun _ => none, args, none, none⟩ 0 0 m) r →
      Run sem tab (.func d f args m) (r.close m.env.length)
  | progOk {d backs res m} : Run sem tab (.prog d (.done (.ok backs res m))) (.ok backs res m)
  | progFail {d backs e m} : Run sem tab (.prog d (.done (.fail backs e m))) (.fail backs e m)
  | progPoison {d e w} : Run sem tab (.prog d (.done (.poison e w))) (.poison e w)
  | callOk {d f args m k m' r} : Run sem tab (.func d f args m) (.done m') →
      Run sem tab (.prog d (k none m')) r → Run sem tab (.prog d (.call f args m k)) r
  | callErr {d f args m k e m' r} : Run sem tab (.func d f args m) (.err e m') →
      Run sem tab (.prog d (k (some e) m')) r → Run sem tab (.prog d (.call f args m k)) r
  | callPoison {d f args m k e w} : Run sem tab (.func d f args m) (.poison e w) →
      Run sem tab (.prog d (.call f args m k)) (.poison e w)
  | callDeep {d f args m k} : Run sem tab (.func d f args m) .deep →
      Run sem tab (.prog d (.call f args m k)) .deep
  | direct {d data f args m r} : (tab f).isSome → args.all View.passable →
      Run sem tab (.func d f args m) r →
      Run sem tab (.exec d .call data (.fn f :: args) m) r.asOp
  | plain {d k data vs m r} : k.plain → directCallee tab k vs = none →
      Run sem tab (.prog d (sem.op k data vs m)) r → Run sem tab (.exec d k data vs m) r
  | save {d F st b j m blk op reg r} : F.blocks[b]? = some blk → blk.ops[j]? = some op →
      op.kind = .stackSave → op.result = some reg →
      Run sem tab (.code d F (st.set reg (.mark m.env.length)) b (j + 1) m) r →
      Run sem tab (.code d F st b j m) r
  | restore {d F st b j m blk op o n r} : F.blocks[b]? = some blk → blk.ops[j]? = some op →
      op.kind = .stackRestore → op.operands = [o] → st.view o = some (.mark n) →
      Run sem tab (.code d F st b (j + 1) (m.cut n)) r → Run sem tab (.code d F st b j m) r
  | depthOk {d F st b j m blk op r} : F.blocks[b]? = some blk → blk.ops[j]? = some op →
      op.kind = .checkDepth → d < sem.limit →
      Run sem tab (.code d F st b (j + 1) m) r → Run sem tab (.code d F st b j m) r
  | depthStop {d F st b j m blk op} : F.blocks[b]? = some blk → blk.ops[j]? = some op →
      op.kind = .checkDepth → sem.limit ≤ d → Run sem tab (.code d F st b j m) .deep
  | opOk {d F st b j m blk op vs backs res m' r} :
      F.blocks[b]? = some blk → blk.ops[j]? = some op → op.operands.mapM st.view = some vs →
      Run sem tab (.exec d op.kind op.data vs m) (.ok backs res m') →
      Run sem tab (.code d F (st.after op backs res) b (j + 1) m') r →
      Run sem tab (.code d F st b j m) r
  | opPoison {d F st b j m blk op vs e w} :
      F.blocks[b]? = some blk → blk.ops[j]? = some op → op.operands.mapM st.view = some vs →
      Run sem tab (.exec d op.kind op.data vs m) (.poison e w) →
      Run sem tab (.code d F st b j m) (.poison (st.poison sem e) w)
  | opDeep {d F st b j m blk op vs} :
      F.blocks[b]? = some blk → blk.ops[j]? = some op → op.operands.mapM st.view = some vs →
      Run sem tab (.exec d op.kind op.data vs m) .deep → Run sem tab (.code d F st b j m) .deep
  | goto {d F st b m blk t r} : F.blocks[b]? = some blk → blk.term = .goto t →
      Run sem tab (.code d F st t 0 m) r → Run sem tab (.code d F st b blk.ops.length m) r
  | condBr {d F st b m blk c x y v t r} : F.blocks[b]? = some blk → blk.term = .condBr c x y →
      st.view c = some v → sem.test v m = some t →
      Run sem tab (.code d F st (if t then x else y) 0 m) r →
      Run sem tab (.code d F st b blk.ops.length m) r
  | invokeOk {d F st b m blk op n e vs backs res m' r} : F.blocks[b]? = some blk →
      blk.term = .invoke op n e → op.operands.mapM st.view = some vs →
      Run sem tab (.exec d op.kind op.data vs m) (.ok backs res m') →
      Run sem tab (.code d F (st.after op backs res) n 0 m') r →
      Run sem tab (.code d F st b blk.ops.length m) r
  | invokeFail {d F st b m blk op n e vs backs err m' st' r} : F.blocks[b]? = some blk →
      blk.term = .invoke op n e → op.operands.mapM st.view = some vs →
      Run sem tab (.exec d op.kind op.data vs m) (.fail backs err m') →
      (st.after op backs none).fail err = some st' →
      Run sem tab (.code d F st' e 0 m') r →
      Run sem tab (.code d F st b blk.ops.length m) r
  | invokePoison {d F st b m blk op n e vs err w} : F.blocks[b]? = some blk →
      blk.term = .invoke op n e → op.operands.mapM st.view = some vs →
      Run sem tab (.exec d op.kind op.data vs m) (.poison err w) →
      Run sem tab (.code d F st b blk.ops.length m) (.poison (st.poison sem err) w)
  | invokeDeep {d F st b m blk op n e vs} : F.blocks[b]? = some blk →
      blk.term = .invoke op n e → op.operands.mapM st.view = some vs →
      Run sem tab (.exec d op.kind op.data vs m) .deep →
      Run sem tab (.code d F st b blk.ops.length m) .deep
  | ret {d F st b m blk} : F.blocks[b]? = some blk → blk.term = .ret →
      st.pending = none → st.second = none →
      Run sem tab (.code d F st b blk.ops.length m) (.done m)
  | propagate {d F st b m blk e} : F.blocks[b]? = some blk → blk.term = .propagate →
      st.pending = some e → st.second = none →
      Run sem tab (.code d F st b blk.ops.length m) (.err e m)
  | failure {d F st b m blk e e'} : F.blocks[b]? = some blk → blk.term = .failure →
      st.pending = some e → st.second = some e' →
      Run sem tab (.code d F st b blk.ops.length m) (.poison (sem.combine e e') m.world)

end Ferlium.Inline
