/-
Model of the execution domain of the interpreter: resource checks (fuel, call depth, environment
cells), the running/poisoned state, semantic cleanup after an error, scoped accesses with an
epilogue, and entry from the host.

Sources in /repo: src/eval.rs (`EvalCtx::check_fuel` 246-256, `check_call_depth` 258-269,
`check_environment_cell_limit` 276-285, `sandbox_violation` 296-309, `ensure_runnable` 412-422,
`cleanup_after_error` 429-453, `poison` 455-476, `poison_source_failures` 478-490,
`record_poisoning_error` 492-505, `call_accessor_until_yield` 706-796, `abandon_suspended_accessor`
812-816, `resume_suspended_accessor_epilogue_inner` 818-878, `call_function` 880-930,
`RuntimeError::with_frame` 1424-1440, `eval_with_yielded` 3036-3090, `drop_accessor_cleanup_scopes`
3096-3107, `combine_with_yielded_body_and_epilogue` 3256-3280, `eval_block_with_cleanup` 3542-3620,
`eval_loop` 3774-3815) and src/hir/function.rs (`ScriptFunction::call` 553-606).

Simplifications (they apply to every definition of this file):
* Guest computation is abstracted to what the executor can see of it: an observable action, a raised
  source failure, a resource check, a transfer of control, and data-dependent choices.  The choices
  are read from an arbitrary stream carried by the state, so a statement about all states is a
  statement about all data-dependent behaviours.
* A program run takes a number of steps; when they are used up the observation stops with outcome
  `cut`.  Statements about the trace therefore hold for every prefix of every execution, finished or
  not, and "the execution ends" is "some number of steps gives an outcome other than `cut`".
* Values, places and storage are not modelled; `environment` is only its length.  Source locations
  are dropped.  A backtrace is the list of called functions.
* Rust panics of the interpreter (broken internal invariants) are not modelled; the one in
  `record_poisoning_error` is shown unreachable, because `recordPoisoning` is only called on
  poisoning errors.
-/

namespace Ferlium.Exec

/-- A source failure: its kind and its backtrace.  src/eval.rs 1330-1400 (`SourceFailure`,
`FailureContext`); the location is dropped. -/
structure SrcFail where
  kind : Nat
  frames : List Nat
  deriving DecidableEq, Repr

/-- `SandboxViolationKind`, src/eval.rs; the limits stored in the variants are dropped. -/
inductive VKind where
  | fuelExhausted
  | callDepth
  | environmentCells
  deriving DecidableEq, Repr

/-- `SandboxViolation` with `interrupted_source_failure`, src/eval.rs. -/
structure Violation where
  kind : VKind
  frames : List Nat
  interrupted : Option SrcFail
  deriving DecidableEq, Repr

/-- `RuntimeError`, src/eval.rs. -/
inductive RErr where
  | source (f : SrcFail)
  | sandbox (v : Violation)
  | during (initial duringCleanup : SrcFail)
  deriving DecidableEq, Repr

/-- `RuntimeError::is_poisoning`, src/eval.rs 1489-1491. -/
def RErr.isPoisoning : RErr → Bool
  | .source _ => false
  | _ => true

/-- `SourceFailure::with_frame`. -/
def SrcFail.withFrame (f : SrcFail) (fn : Nat) : SrcFail := { f with frames := f.frames ++ [fn] }

/-- `RuntimeError::with_frame`, src/eval.rs 1424-1440.  The violation's own frames are extended, its
interrupted failure is left alone. -/
def RErr.withFrame (e : RErr) (fn : Nat) : RErr :=
  match e with
  | .source f => .source (f.withFrame fn)
  | .sandbox v => .sandbox { v with frames := v.frames ++ [fn] }
  | .during a b => .during (a.withFrame fn) (b.withFrame fn)

/-- What an observer of the execution sees. -/
inductive Ev where
  /-- an observable guest action -/
  | act (k : Nat)
  /-- a fuel check that let the execution go on -/
  | fuelPassed
  /-- a guest operation raised a source failure -/
  | raise (k : Nat)
  /-- a resource check stopped the execution -/
  | violate (k : VKind)
  deriving DecidableEq, Repr

/-- An event together with whether the executor was already poisoned when it happened. -/
structure Event where
  what : Ev
  poisoned : Bool
  deriving DecidableEq, Repr

/-- The part of `EvalCtx` (src/eval.rs 189-216) that governs execution, plus the observer's trace
and the stream of data-dependent choices.  `poison` is `execution_state`: `none` for `Running`,
`some e` for `Poisoned` with the reason read back as an error by `ensure_runnable`. -/
structure St where
  fuel : Option Nat
  depth : Nat
  depthLimit : Nat
  env : Nat
  envLimit : Nat
  poison : Option RErr
  choices : Nat → Bool
  trace : List Event

/-- Record an event. -/
def St.emit (s : St) (e : Ev) : St :=
  { s with trace := s.trace ++ [⟨e, s.poison.isSome⟩] }

/-- `ControlTransfer`, src/eval.rs; values dropped, loops labelled as in the source.  `Yield` is not
a transfer here: an accessor is given by its two halves, see `Fn`. -/
inductive Transfer where
  | brk (label : Nat)
  | cnt (label : Nat)
  | ret
  deriving DecidableEq, Repr

/-- `ControlFlow`, values dropped. -/
inductive Flow where
  | cont
  | transfer (t : Transfer)
  deriving DecidableEq, Repr

/-- Outcome of a run: `EvalControlFlowResult`, or the end of the observation. -/
inductive Out where
  | ok (f : Flow)
  | err (e : RErr)
  | cut
  deriving DecidableEq, Repr

/-- Guest programs as the executor sees them.

`block p drops` is `eval_block_with_cleanup`, `call` a call of a script function with a number of
arguments, `withYielded` a scoped access: call the accessor until it yields, run the body, resume the
accessor, drop the accessor's argument temporaries. -/
inductive Prog where
  | act (k : Nat)
  | fail (k : Nat)
  | checkFuel
  | checkDepth
  | alloc
  | done
  | exit (t : Transfer)
  | seq (p q : Prog)
  | choose (p q : Prog)
  | loop (label : Nat) (p : Prog)
  | block (p drops : Prog)
  | call (f args : Nat)
  | withYielded (f args : Nat) (body scopes : Prog)
  deriving Repr

/-- A script function: body, the drops of its owned locals run when it fails
(`drop_frame_owned_locals_on_error`), and for accessors the part after the yield, the `body` being the
part before it. -/
structure Fn where
  body : Prog
  frameDrops : Prog
  epilogue : Prog

/-- `sandbox_violation`, src/eval.rs 296-309. -/
def sandboxViolation (k : VKind) (s : St) : RErr × St :=
  let e := RErr.sandbox ⟨k, [], none⟩
  (e, { s.emit (.violate k) with poison := some e })

/-- `check_fuel`, src/eval.rs 246-256. -/
def checkFuel (s : St) : Out × St :=
  match s.fuel with
  | none => (.ok .cont, s)
  | some 0 =>
    let (e, s) := sandboxViolation .fuelExhausted s
    (.err e, s)
  | some (n + 1) => (.ok .cont, { s with fuel := some n }.emit .fuelPassed)

/-- `check_call_depth`, src/eval.rs 258-269. -/
def checkCallDepth (s : St) : Out × St :=
  if s.depth ≥ s.depthLimit then
    let (e, s) := sandboxViolation .callDepth s
    (.err e, s)
  else (.ok .cont, s)

/-- `check_environment_cell_limit` followed by pushing one cell, src/eval.rs 276-285 and its use at
2204-2208. -/
def allocCell (s : St) : Out × St :=
  if s.env ≥ s.envLimit then
    let (e, s) := sandboxViolation .environmentCells s
    (.err e, s)
  else (.ok .cont, { s with env := s.env + 1 })

/-- `ensure_runnable`, src/eval.rs 412-422: the error of a poisoned executor, if any. -/
def ensureRunnable (s : St) : Option RErr := s.poison

/-- `record_poisoning_error`, src/eval.rs 492-505. -/
def recordPoisoning (e : RErr) (s : St) : RErr × St := (e, { s with poison := some e })

/-- `poison_source_failures`, src/eval.rs 478-490. -/
def poisonSourceFailures (initial during : SrcFail) (s : St) : RErr × St :=
  let e := RErr.during initial during
  (e, { s with poison := some e })

/-- Attach the interrupted failure unless one is already there, src/eval.rs 443-445, 466-468. -/
def Violation.interrupt (v : Violation) (initial : SrcFail) : Violation :=
  match v.interrupted with
  | none => { v with interrupted := some initial }
  | some _ => v

/-- `poison`, src/eval.rs 455-476. -/
def poison (initial during : RErr) (s : St) : RErr × St :=
  match initial, during with
  | .source a, .source b => poisonSourceFailures a b s
  | .source a, .sandbox v => recordPoisoning (.sandbox (v.interrupt a)) s
  | .source _, .during a b => recordPoisoning (.during a b) s
  | .sandbox v, _ => recordPoisoning (.sandbox v) s
  | .during a b, _ => recordPoisoning (.during a b) s

/-- `cleanup_after_error`, src/eval.rs 429-453, given what running the cleanup code does. -/
def cleanupAfterError (initial : RErr) (cleanup : St → Out × St) (s : St) : Out × St :=
  match initial with
  | .source a =>
    match cleanup s with
    | (.cut, s) => (.cut, s)
    | (.ok _, s) => (.err (.source a), s)
    | (.err (.source b), s) =>
      let (e, s) := poisonSourceFailures a b s
      (.err e, s)
    | (.err (.sandbox v), s) =>
      let (e, s) := recordPoisoning (.sandbox (v.interrupt a)) s
      (.err e, s)
    | (.err (.during b c), s) =>
      let (e, s) := recordPoisoning (.during b c) s
      (.err e, s)
  | e =>
    let (e, s) := recordPoisoning e s
    (.err e, s)

/-- `combine_with_yielded_body_and_epilogue`, src/eval.rs 3256-3280. -/
def combineYielded (body epilogue : Out) (s : St) : Out × St :=
  match body, epilogue with
  | .cut, _ => (.cut, s)
  | _, .cut => (.cut, s)
  | .ok f, .ok _ => (.ok f, s)
  | .ok _, .err e => (.err e, s)
  | .err e, .ok _ => (.err e, s)
  | .err a, .err b =>
    let (e, s) := poison a b s
    (.err e, s)

/-- Attach a call frame to an error, `map_err(|err| err.with_frame(..))`, src/eval.rs 616, 703, 804. -/
def Out.withFrame (o : Out) (fn : Nat) : Out :=
  match o with
  | .err e => .err (e.withFrame fn)
  | o => o

/-- Result of a call: a function boundary turns every transfer into a plain result,
src/hir/function.rs 602-605. -/
def Out.toValue : Out → Out
  | .ok _ => .ok .cont
  | o => o

/-- The end of a successful block, transfer or not: run the drops, then truncate the environment and
hand the flow on; a failing drop is an ordinary error.  src/eval.rs 3576-3620. -/
def finishBlock (env : Nat) (f : Flow) (r : Out × St) : Out × St :=
  match r with
  | (.ok _, s) => (.ok f, { s with env := env })
  | (.err e, s) => (.err e, { s with env := env })
  | (.cut, s) => (.cut, s)

/-- Leave a call frame: one level less of call depth and the arguments' cells removed,
src/hir/function.rs 590-601, src/eval.rs 783-794, 859-871. -/
def leaveFrame (env : Nat) (r : Out × St) : Out × St :=
  match r with
  | (.cut, s) => (.cut, s)
  | (o, s) => (o, { s with depth := s.depth - 1, env := env })

/-- `eval_loop`, src/eval.rs 3774-3815: what to do with the flow of one iteration; `none` means run
another iteration. -/
def loopStep (label : Nat) : Flow → Option Flow
  | .cont => none
  | .transfer .ret => some (.transfer .ret)
  | .transfer (.brk l) => if l = label then some .cont else some (.transfer (.brk l))
  | .transfer (.cnt l) => if l = label then none else some (.transfer (.cnt l))

/-- Run guest code under the cleanup of its call frame: `ScriptFunction::call` 584-589 and the same
shape in src/eval.rs 786-790, 852-862. -/
def underFrame (r : Out × St) (drops : St → Out × St) : Out × St :=
  match r with
  | (.err e, s) => cleanupAfterError e drops s
  | r => r

/-- Enter a call frame with `args` arguments: `ensure_runnable`, then the cell check, then one more
level of call depth.  src/eval.rs 887, src/hir/function.rs 575-582; src/eval.rs 712-718, 740-745. -/
def enterFrame (args : Nat) (s : St) : Except (RErr × St) St :=
  match ensureRunnable s with
  | some e => .error (e, s)
  | none =>
    if s.env + args > s.envLimit then .error (sandboxViolation .environmentCells s)
    else .ok { s with env := s.env + args, depth := s.depth + 1 }

/-- Did the body of a scoped access poison the executor?  src/eval.rs 3056. -/
def Out.isPoisoning : Out → Bool
  | .err e => e.isPoisoning
  | _ => false

/-- Resume or abandon the suspended accessor, src/eval.rs 3057-3069 with
`abandon_suspended_accessor` 812-816 and `resume_suspended_accessor_epilogue_inner` 818-878. -/
def resumeOrAbandon (f : Nat) (epilogue drops : St → Out × St) (poisoned : Bool) (s : St) :
    Out × St :=
  if poisoned then (.ok .cont, { s with depth := s.depth - 1 })
  else
    let (r, s) := leaveFrame s.env (underFrame (epilogue s) drops)
    (r.withFrame f, s)

/-- Drop the accessor's argument temporaries, src/eval.rs 3070-3084. -/
def dropScopes (scopes : St → Out × St) (body : Out) (r : Out × St) : Out × St :=
  match r with
  | (.cut, s) => (.cut, s)
  | (.ok fl, s) =>
    if body.isPoisoning then (.ok fl, s)
    else
      match scopes s with
      | (.ok _, s) => (.ok fl, s)
      | r => r
  | (.err e, s) =>
    match body with
    | .ok _ => if e.isPoisoning then (.err e, s) else cleanupAfterError e scopes s
    | _ => (.err e, s)

/-- The part of `eval_with_yielded` after the body, src/eval.rs 3056-3088: resume or abandon the
accessor, drop its argument temporaries, combine.  `env` is the length of the environment to go back
to; `epilogue`, `drops` and `scopes` say what running these pieces of code does. -/
def afterBody (env : Nat) (f : Nat) (epilogue drops scopes : St → Out × St) (body : Out) (s : St) :
    Out × St :=
  match body with
  | .cut => (.cut, s)
  | body =>
    match dropScopes scopes body (resumeOrAbandon f epilogue drops body.isPoisoning s) with
    | (.cut, s) => (.cut, s)
    | (er, s) => combineYielded body er { s with env := env }

/-- Run a guest program for at most a number of steps.  src/eval.rs 1680-1760 (`eval_node_with_ctx`)
restricted to the node kinds above. -/
def run (fns : Nat → Fn) : Nat → Prog → St → Out × St
  | 0, _, s => (.cut, s)
  | _ + 1, .act k, s => (.ok .cont, s.emit (.act k))
  | _ + 1, .fail k, s => (.err (.source ⟨k, []⟩), s.emit (.raise k))
  | _ + 1, .checkFuel, s => checkFuel s
  | _ + 1, .checkDepth, s => checkCallDepth s
  | _ + 1, .alloc, s => allocCell s
  | _ + 1, .done, s => (.ok .cont, s)
  | _ + 1, .exit t, s => (.ok (.transfer t), s)
  | n + 1, .seq p q, s =>
    match run fns n p s with
    | (.ok .cont, s) => run fns n q s
    | r => r
  | n + 1, .choose p q, s =>
    let s' := { s with choices := fun i => s.choices (i + 1) }
    if s.choices 0 then run fns n p s' else run fns n q s'
  | n + 1, .loop l p, s =>
    match run fns n p s with
    | (.ok f, s) =>
      match loopStep l f with
      | some f => (.ok f, s)
      | none => run fns n (.loop l p) s
    | r => r
  | n + 1, .block p drops, s =>
    match run fns n p s with
    | (.ok f, s') => finishBlock s.env f (run fns n drops s')
    | (.err e, s') =>
      match cleanupAfterError e (run fns n drops) s' with
      | (.cut, s') => (.cut, s')
      | (o, s') => (o, { s' with env := s.env })
    | r => r
  | n + 1, .call f args, s =>
    match enterFrame args s with
    | .error (e, s) => ((Out.err e).withFrame f, s)
    | .ok s' =>
      let (o, s') :=
        leaveFrame s.env (underFrame (run fns n (fns f).body s') (run fns n (fns f).frameDrops))
      (o.toValue.withFrame f, s')
  | n + 1, .withYielded f args body scopes, s =>
    match enterFrame args s with
    | .error (e, s) => ((Out.err e).withFrame f, s)
    | .ok s' =>
      match run fns n (fns f).body s' with
      | (.ok _, s') =>
        let (b, s') := run fns n body s'
        afterBody s.env f (run fns n (fns f).epilogue) (run fns n (fns f).frameDrops)
          (run fns n scopes) b s'
      | (.err e, s') =>
        let (o, s') := leaveFrame s.env (cleanupAfterError e (run fns n (fns f).frameDrops) s')
        (o.withFrame f, s')
      | (.cut, s') => (.cut, s')

/-- The host enters the executor by calling a function without arguments, as `run_entry`
(src/mir/interpreter.rs 269-300) and `call_function_id` (src/eval.rs 656-664) do. -/
def enter (fns : Nat → Fn) (steps : Nat) (f : Nat) (s : St) : Out × St :=
  run fns steps (.call f 0) s

/-- A host session: several entries, whatever each of them returned, as long as the observation
goes on. -/
def entries (fns : Nat → Fn) (steps : Nat) : List Nat → St → List Out × St
  | [], s => ([], s)
  | f :: fs, s =>
    match enter fns steps f s with
    | (.cut, s) => ([.cut], s)
    | (o, s) =>
      let (os, s) := entries fns steps fs s
      (o :: os, s)

end Ferlium.Exec
