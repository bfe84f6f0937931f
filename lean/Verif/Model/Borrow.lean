import Mathlib.Logic.Relation
import Mathlib.Data.List.Infix

/-!
# The overlap check of call arguments

A call may receive several places of the caller.  `src/hir/borrow_checker.rs` decides from the
syntax of the arguments which of these places may overlap, which calls are rejected, and which
arguments have to be copied before the call.

The first part of this file models the check.  The second part is an independent description of
what the expressions do: which place they denote and which places they write.
-/

namespace Ferlium.Borrow

/-- Local declaration ids (`LocalDeclId`). -/
abbrev Var := Nat

/-- `PathPart`, src/hir/borrow_checker.rs:33-38.  Field names are numbers. -/
inductive Part where
  | proj (i : Nat)
  | field (name : Nat)
  | index (i : Nat)
  | dyn
deriving DecidableEq, Repr

/-- `Path`, src/hir/borrow_checker.rs:41-44. -/
structure Path where
  base : Var
  parts : List Part
deriving DecidableEq, Repr

/-- `ArgConvention`, src/hir/function.rs:472. -/
inductive Passing where
  | mutableRef
  | byLet
deriving DecidableEq, Repr

mutual
/-- The nodes of the expression tree as far as the check looks at them (`NodeKind`, src/hir/mod.rs).
* `apply f place pre args`: the five application kinds; `place` is `ty.returns_place()`, `pre` are
  the children evaluated before the arguments (callee, dictionary, extra arguments).
* `int n`: an immediate of type `int`; `immediate`: any other immediate.
* `evidence`: the four kinds of `is_evidence_node`, 264-272.
* `drop`: `DropClosureEnv` and `DropSubscriptValue`.
* `method g`: `GetTraitMethod`, `g` tells whether an input type is not constant.
* `other`: all other kinds, with their children.  A yielded binding (`WithYielded`) is such a node:
  its binding is storage of the suspended accessor, hence a variable of its own. -/
inductive Expr where
  | load (x : Var)
  | project (e : Expr) (i : Nat)
  | field (e : Expr) (name : Nat)
  | apply (f : Nat) (place : Bool) (pre : Args) (args : Args)
  | int (n : Int)
  | immediate
  | evidence
  | block (body : Args)
  | withPlace (place : Expr) (binding : Var) (body : Expr)
  | assign (place : Expr) (value : Expr)
  | store (x : Var) (value : Expr)
  | take (x : Var)
  | drop (target : Expr)
  | method (g : Bool)
  | other (children : Args)
/-- `CallArgument`s; also used for plain lists of children, where the passing has no meaning. -/
inductive Args where
  | nil
  | cons (p : Passing) (e : Expr) (rest : Args)
end

deriving instance DecidableEq for Expr, Args
deriving instance Repr for Expr, Args

/-- `is_evidence_node` and `is_enode_evidence`, src/hir/borrow_checker.rs:264-272, 442-450. -/
def Expr.isEvidence : Expr → Bool
  | .evidence => true
  | _ => false

/-- `index_part`, src/hir/borrow_checker.rs:121-129, and (`late`) `enode_index_part`, 432-440, which
unwraps the conversion of the immediate to an integer: `none` is a panic. -/
def indexPart (late : Bool) : Expr → Option Part
  | .int n => some (if 0 ≤ n then .index n.toNat else .dyn)
  | .immediate => if late then none else some .dyn
  | _ => some .dyn

/-- The end of `from_addressor_place_arguments`, src/hir/borrow_checker.rs:110-115. -/
def indexOf (late : Bool) : Args → Option Part
  | .nil => some .dyn
  | .cons _ e _ => indexPart late e

/-- Appends a part to a path. -/
def Path.push (p : Path) (part : Part) : Path := { p with parts := p.parts ++ [part] }

mutual
/-- `Path::try_from_node`, src/hir/borrow_checker.rs:59-99, and (`late`) `Path::try_from_enode`,
378-411.  The outer `none` is a panic, the inner one is the answer `None`.  After elaboration there
are no field accesses any more (397-401). -/
def path (late : Bool) : Expr → Option (Option Path)
  | .load x => some (some ⟨x, []⟩)
  | .project e i => (path late e).map (·.map (·.push (.proj i)))
  | .field e n => if late then none else (path late e).map (·.map (·.push (.field n)))
  | .apply _ true _ args => addressorPath late args
  | .block body => blockPath late body
  | .withPlace p _ _ => path late p
  | _ => some none
/-- `from_addressor_place_arguments`, src/hir/borrow_checker.rs:101-116 and 413-430: the first
argument which is not evidence is the base; it is an error that there is none. -/
def addressorPath (late : Bool) : Args → Option (Option Path)
  | .nil => none
  | .cons _ e rest =>
    if e.isEvidence then addressorPath late rest
    else
      match path late e with
      | none => none
      | some none => some none
      | some (some p) => (indexOf late rest).map (fun part => some (p.push part))
/-- The case of a block, src/hir/borrow_checker.rs:90-95 and 395: its last expression. -/
def blockPath (late : Bool) : Args → Option (Option Path)
  | .nil => if late then some none else none
  | .cons _ e .nil => path late e
  | .cons _ _ rest => blockPath late rest
end

/-- The loop of `do_paths_overlap`, src/hir/borrow_checker.rs:280-301. -/
def partsOverlap : List Part → List Part → Bool
  | .proj i :: p, .proj j :: q => if i ≠ j then false else partsOverlap p q
  | .field i :: p, .field j :: q => if i ≠ j then false else partsOverlap p q
  | .index i :: p, .index j :: q => if i ≠ j then false else partsOverlap p q
  | _, _ => true

/-- `do_paths_overlap`, src/hir/borrow_checker.rs:276-302. -/
def overlap (a b : Path) : Bool :=
  if a.base ≠ b.base then false else partsOverlap a.parts b.parts

mutual
/-- `node_is_place_reference`, src/hir/mod.rs:154-175. -/
def placeRef : Expr → Bool
  | .load _ => true
  | .method g => g
  | .project _ _ => true
  | .field _ _ => true
  | .apply _ place _ _ => place
  | .withPlace _ _ body => placeRef body
  | .block body => tailRef body
  | _ => false
/-- The case of a block. -/
def tailRef : Args → Bool
  | .nil => false
  | .cons _ e .nil => placeRef e
  | .cons _ _ rest => tailRef rest
end

/-- Short-circuit disjunction of computations which may panic. -/
def orElse (a b : Option Bool) : Option Bool :=
  match a with
  | none => none
  | some true => some true
  | some false => b

/-- `Path::try_from_node(..)` followed by the test for an overlap with `observed`. -/
def hits (e : Expr) (observed : Path) : Option Bool :=
  match path false e with
  | none => none
  | some none => some false
  | some (some p) => some (overlap p observed)

/-- The `MutableRef` arguments, src/hir/borrow_checker.rs:188-195. -/
def argsHit (observed : Path) : Args → Option Bool
  | .nil => some false
  | .cons .mutableRef e rest => orElse (hits e observed) (argsHit observed rest)
  | .cons .byLet _ rest => argsHit observed rest

mutual
/-- `evaluation_may_write_path`, src/hir/borrow_checker.rs:150-203; the children are those of
`child_node_ids`, src/hir/mod.rs:895-977. -/
def mayWrite (observed : Path) : Expr → Option Bool
  | .load _ => some false
  | .project e _ => mayWrite observed e
  | .field e _ => mayWrite observed e
  | .apply _ _ pre args =>
    orElse (argsHit observed args) (orElse (anyMayWrite observed pre) (anyMayWrite observed args))
  | .int _ => some false
  | .immediate => some false
  | .evidence => some false
  | .block body => anyMayWrite observed body
  | .withPlace p _ body => orElse (mayWrite observed p) (mayWrite observed body)
  | .assign p v =>
    orElse (if placeRef p then hits p observed else some false)
      (orElse (mayWrite observed p) (mayWrite observed v))
  | .store x v => orElse (some (overlap ⟨x, []⟩ observed)) (mayWrite observed v)
  | .take x => some (overlap ⟨x, []⟩ observed)
  | .drop t => orElse (if placeRef t then hits t observed else some false) (mayWrite observed t)
  | .method _ => some false
  | .other children => anyMayWrite observed children
/-- The recursion over the children, src/hir/borrow_checker.rs:199-202. -/
def anyMayWrite (observed : Path) : Args → Option Bool
  | .nil => some false
  | .cons _ e rest => orElse (mayWrite observed e) (anyMayWrite observed rest)
end

/-- The arguments as a list. -/
def Args.toList : Args → List (Passing × Expr)
  | .nil => []
  | .cons p e rest => (p, e) :: rest.toList

/-- `GetTraitMethod(_)`. -/
def Expr.isMethod : Expr → Bool
  | .method _ => true
  | _ => false

/-- The filter of the arguments which observe a place: src/hir/borrow_checker.rs:219-226 and
325-334.  `none` for a panic. -/
def observes (a : Passing × Expr) : Option (Option Path) :=
  if a.1 = .byLet ∧ placeRef a.2 ∧ ¬ a.2.isMethod then path false a.2 else some none

/-- One `Let` argument against the later arguments (`k` is the index of the first of them),
src/hir/borrow_checker.rs:227-234. -/
def laterWrites (observed : Path) (i k : Nat) : List (Passing × Expr) →
    Option (List (Nat × Nat))
  | [] => some []
  | a :: rest =>
    match mayWrite observed a.2, laterWrites observed i (k + 1) rest with
    | some b, some l => some (if b then (i, k) :: l else l)
    | _, _ => none

/-- `let_arguments_overlapping_later_argument_writes`, src/hir/borrow_checker.rs:212-236, with `i`
the index of the first argument. -/
def letLater (i : Nat) : List (Passing × Expr) → Option (List (Nat × Nat))
  | [] => some []
  | a :: rest =>
    match observes a, letLater (i + 1) rest with
    | some none, some l => some l
    | some (some p), some l => (laterWrites p i (i + 1) rest).map (· ++ l)
    | _, _ => none

/-- The paths of the `MutableRef` arguments with their indices, src/hir/borrow_checker.rs:314-321.
The arguments without a path are skipped. -/
def mutablePaths (i : Nat) : List (Passing × Expr) → Option (List (Nat × Path))
  | [] => some []
  | a :: rest =>
    match a.1 with
    | .byLet => mutablePaths (i + 1) rest
    | .mutableRef =>
      match path false a.2, mutablePaths (i + 1) rest with
      | some none, some l => some l
      | some (some p), some l => some ((i, p) :: l)
      | _, _ => none

/-- The pairs of `let_arguments_overlapping_mutable` for the arguments starting at index `i`. -/
def letPairs (muts : List (Nat × Path)) (i : Nat) : List (Passing × Expr) →
    Option (List (Nat × Nat))
  | [] => some []
  | a :: rest =>
    match observes a, letPairs muts (i + 1) rest with
    | some none, some l => some l
    | some (some p), some l =>
      some ((muts.filter (fun m => overlap p m.2)).map (fun m => (i, m.1)) ++ l)
    | _, _ => none

/-- `let_arguments_overlapping_mutable`, src/hir/borrow_checker.rs:310-343. -/
def letMutable (args : List (Passing × Expr)) : Option (List (Nat × Nat)) :=
  match mutablePaths 0 args with
  | none => none
  | some muts => letPairs muts 0 args

/-- `callee_overlaps_argument_writes`, src/hir/borrow_checker.rs:244-262. -/
def calleeOverlaps (callee : Expr) (args : List (Passing × Expr)) : Option Bool :=
  if placeRef callee then
    match path false callee with
    | none => none
    | some none => some false
    | some (some observed) =>
      args.foldr (fun a rest =>
        orElse (orElse (mayWrite observed a.2)
          (if a.1 = .mutableRef then hits a.2 observed else some false)) rest) (some false)
  else some false

/-- The paths of the `MutableRef` arguments after elaboration: one without a path is a panic
(`Path::from_enode`), src/hir/borrow_checker.rs:374-376, 457-462. -/
def elabPaths : List (Passing × Expr) → Option (List Path)
  | [] => some []
  | a :: rest =>
    match a.1 with
    | .byLet => elabPaths rest
    | .mutableRef =>
      match path true a.2, elabPaths rest with
      | some (some p), some l => some (p :: l)
      | _, _ => none

/-- The two nested loops of `check_elaborated_arguments`: no two paths overlap. -/
def noOverlap : List Path → Bool
  | [] => true
  | p :: rest => rest.all (fun q => !overlap p q) && noOverlap rest

/-- `check_elaborated_arguments`, src/hir/borrow_checker.rs:452-475: `some false` is the error
`MutablePathsOverlap`, `none` a panic. -/
def checkArguments (args : List (Passing × Expr)) : Option Bool :=
  (elabPaths args).map noOverlap

/-- Both computations succeed with `true`; the first error wins. -/
def andThen (a b : Option Bool) : Option Bool :=
  match a with
  | none => none
  | some false => some false
  | some true => b

mutual
/-- `check_elaborated_borrows`, src/hir/borrow_checker.rs:477-501. -/
def check : Expr → Option Bool
  | .apply _ _ pre args =>
    andThen (checkArguments args.toList) (andThen (checkAll pre) (checkAll args))
  | .project e _ => check e
  | .field e _ => check e
  | .block body => checkAll body
  | .withPlace p _ body => andThen (check p) (check body)
  | .assign p v => andThen (check p) (check v)
  | .store _ v => check v
  | .drop t => check t
  | .other children => checkAll children
  | _ => some true
/-- The children. -/
def checkAll : Args → Option Bool
  | .nil => some true
  | .cons _ e rest => andThen (check e) (checkAll rest)
end

/-! ### Lowering of calls whose arguments go through named subscripts -/

/-- The steps of an access chain, `AccessChainStep` in src/types/type_inference/expr.rs: a
projection, an index, or a named subscript whose member returns a place. -/
inductive Step where
  | project (i : Nat)
  | index (e : Expr)
  | named (f : Nat) (args : Args)

/-- `infer_access_chain_steps_with_body`, src/types/type_inference/expr.rs:3458-3697, with
`infer_prepared_accessor_with_body`, 3176-3207, for subscripts which return a place: the steps are
applied in order, each named subscript opens a `WithPlace` with a new binding (`next` is the next
local) around all that follows, and `body` builds the innermost expression from the final place. -/
def chain (place : Expr) (next : Var) (body : Expr → Var → Expr) : List Step → Expr
  | [] => body place next
  | .project i :: rest => chain (.project place i) next body rest
  | .index e :: rest =>
    chain (.apply 0 true .nil (.cons .byLet place (.cons .byLet e .nil))) next body rest
  | .named f args :: rest =>
    .withPlace (.apply f true .nil (.cons .mutableRef place args)) next
      (chain (.load next) (next + 1) body rest)

/-- `infer_static_apply_with_driven_access_chain_args_at`,
src/types/type_inference/expr.rs:4162-4210: all arguments which are access chains rooted in a
variable are prepared first, one inside the other; the call itself is the innermost expression.
Arguments of other kinds are left out. -/
def drivenCall (f : Nat) (next : Var) (done : Args → Args) :
    List (Passing × Var × List Step) → Expr
  | [] => .apply f false .nil (done .nil)
  | (p, x, steps) :: rest =>
    chain (.load x) next
      (fun place next' => drivenCall f next' (fun tail => done (.cons p place tail)) rest) steps

/-! ### What the expressions do -/

/-- Values are trees: tuples, records and arrays have children. -/
inductive Val where
  | leaf (n : Int)
  | node (kids : List Val)

/-- The part of a value at a position. -/
def Val.get : Val → List Nat → Option Val
  | v, [] => some v
  | .leaf _, _ :: _ => none
  | .node kids, i :: is => match kids[i]? with
    | none => none
    | some k => k.get is

/-- Replaces the part of a value at a position (if there is one). -/
def Val.set : Val → List Nat → Val → Val
  | _, [], w => w
  | .leaf n, _ :: _, _ => .leaf n
  | .node kids, i :: is, w => match kids[i]? with
    | none => .node kids
    | some k => .node (kids.set i (k.set is w))

/-- A place: a variable which owns storage and a position inside its value. -/
structure Loc where
  root : Var
  steps : List Nat
deriving DecidableEq, Repr

/-- The place at a position inside a place. -/
def Loc.at (l : Loc) (steps : List Nat) : Loc := ⟨l.root, l.steps ++ steps⟩

/-- The values of the variables of the frame. -/
abbrev Store := Var → Val

/-- What is read at a place. -/
def read (s : Store) (l : Loc) : Option Val := (s l.root).get l.steps

/-- The store after a write. -/
def write (s : Store) (l : Loc) (w : Val) : Store :=
  fun x => if x = l.root then (s x).set l.steps w else s x

/-- The storage of each variable.  A variable which owns its storage has the place `own x`; the
binding of a `WithPlace` stands for another place. -/
abbrev Env := Var → Loc

/-- Every variable owns its storage. -/
def own : Env := fun x => ⟨x, []⟩

/-- `env` with `x` standing for `l`. -/
def Env.bind (env : Env) (x : Var) (l : Loc) : Env := fun y => if y = x then l else env y

/-- The result of an expression: a value or a place. -/
inductive Res where
  | val (v : Val)
  | place (l : Loc)

/-- What the check does not see: where the fields of a record are stored, and which place inside its
base a function returning a place picks (from the other arguments and the store). -/
structure World where
  fieldAt : Loc → Nat → Nat
  address : Nat → Loc → List Res → Store → List Nat

/-- The results of the arguments: passing, whether it is evidence, result. -/
abbrev Results := List (Passing × Bool × Res)

/-- The place of a function returning a place: inside the first argument which is not evidence. -/
def World.resolve (W : World) (f : Nat) (s : Store) : Results → Option Loc
  | [] => none
  | (_, true, _) :: rest => W.resolve f s rest
  | (_, false, .place b) :: rest => some (b.at (W.address f b (rest.map (·.2.2)) s))
  | (_, false, .val _) :: _ => none

/-- A function writes the caller's storage only through its `MutableRef` arguments: one such write. -/
def CalleeWrite (rs : Results) (s s' : Store) : Prop :=
  ∃ ev l steps w, (.mutableRef, ev, .place l) ∈ rs ∧ s' = write s (l.at steps) w

/-- The result of a block: that of its last expression. -/
def lastResult : Results → Res
  | [] => .val (.leaf 0)
  | [(_, _, r)] => r
  | _ :: rest => lastResult rest

mutual
/-- `eval W e env s r s'`: evaluating `e` in store `s` can end in `s'` with result `r`; the result
`none` means that the evaluation was left (an error, `return`, `break`, or no end of it yet).
Children of `other` nodes are evaluated in any order and any number of times, which covers all
control structures. -/
def eval (W : World) : Expr → Env → Store → Option Res → Store → Prop
  | .load x => fun env s r s' => s' = s ∧ r = some (.place (env x))
  | .project e i => fun env s r s' => ∃ r0, eval W e env s r0 s' ∧
    match r0 with
    | none => r = none
    | some (.place l) => r = some (.place (l.at [i]))
    | some (.val _) => ∃ v, r = some (.val v)
  | .field e n => fun env s r s' => ∃ r0, eval W e env s r0 s' ∧
    match r0 with
    | none => r = none
    | some (.place l) => r = some (.place (l.at [W.fieldAt l n]))
    | some (.val _) => ∃ v, r = some (.val v)
  | .apply f place pre args => fun env s r s' => ∃ rs0 s1, evalSeq W pre env s rs0 s1 ∧
    match rs0 with
    | none => r = none ∧ s' = s1
    | some _ => ∃ rs s2, evalSeq W args env s1 rs s2 ∧
      match rs with
      | none => r = none ∧ s' = s2
      | some rs => Relation.ReflTransGen (CalleeWrite rs) s2 s' ∧
        (r = none ∨ if place then
            (match W.resolve f s2 rs with
              | some l => r = some (.place l)
              | none => ∃ v, r = some (.val v))
          else ∃ v, r = some (.val v))
  | .int n => fun _ s r s' => s' = s ∧ r = some (.val (.leaf n))
  | .immediate => fun _ s r s' => s' = s ∧ ∃ v, r = some (.val v)
  | .evidence => fun _ s r s' => s' = s ∧ ∃ v, r = some (.val v)
  | .block body => fun env s r s' => ∃ rs, evalSeq W body env s rs s' ∧
    r = rs.map lastResult
  | .withPlace p x body => fun env s r s' => ∃ r0 s1, eval W p env s r0 s1 ∧
    match r0 with
    | none => r = none ∧ s' = s1
    | some (.place l) => eval W body (env.bind x l) s1 r s'
    | some (.val _) => False
  | .assign p v => fun env s r s' =>
    ∃ s1 s2, Relation.ReflTransGen
        (fun a b => (∃ r, eval W p env a r b) ∨ (∃ r, eval W v env a r b)) s s1 ∧
      (r = none ∧ s' = s1 ∨
        ∃ r0 s3 w, eval W p env s1 (some r0) s2 ∧
          Relation.ReflTransGen (fun a b => ∃ r, eval W v env a r b) s2 s3 ∧
          (match r0 with
            | .place l => s' = write s3 l w
            | .val _ => s' = s3) ∧ (r = none ∨ ∃ v, r = some (.val v)))
  | .store x v => fun env s r s' => ∃ r0 s1, eval W v env s r0 s1 ∧
    match r0 with
    | none => r = none ∧ s' = s1
    | some _ => ∃ w v, s' = write s1 (env x) w ∧ r = some (.val v)
  | .take x => fun env s r s' => ∃ w v, s' = write s (env x) w ∧ r = some (.val v)
  | .drop t => fun env s r s' => ∃ r0 s1, eval W t env s r0 s1 ∧
    match r0 with
    | none => r = none ∧ s' = s1
    | some (.place l) => ∃ w v, s' = write s1 l w ∧ (r = none ∨ r = some (.val v))
    | some (.val _) => s' = s1 ∧ (r = none ∨ ∃ v, r = some (.val v))
  | .method _ => fun _ s r s' => s' = s ∧ ∃ v, r = some (.val v)
  | .other children => fun env s r s' =>
    Relation.ReflTransGen (fun a b => evalAny W children env a b) s s' ∧
      (r = none ∨ ∃ v, r = some (.val v))
/-- Evaluates a list in order; `none` when the evaluation was left. -/
def evalSeq (W : World) : Args → Env → Store → Option Results → Store → Prop
  | .nil => fun _ s rs s' => s' = s ∧ rs = some []
  | .cons p e rest => fun env s rs s' => ∃ r0 s1, eval W e env s r0 s1 ∧
    match r0 with
    | none => rs = none ∧ s' = s1
    | some r => ∃ rs', evalSeq W rest env s1 rs' s' ∧
      rs = rs'.map ((p, e.isEvidence, r) :: ·)
/-- Evaluates one member of a list. -/
def evalAny (W : World) : Args → Env → Store → Store → Prop
  | .nil => fun _ _ _ => False
  | .cons _ e rest => fun env s s' => (∃ r, eval W e env s r s') ∨ evalAny W rest env s s'
end

/-- Neither place contains the other. -/
def Disjoint (l m : Loc) : Prop :=
  l.root ≠ m.root ∨ (¬ l.steps <+: m.steps ∧ ¬ m.steps <+: l.steps)

/-- What is assumed of the world: different fields of a record are stored at different positions,
and a non-negative index given as a literal picks a place inside the base which depends on the base
and the index only; different indices pick disjoint places.  This holds when all functions returning
places are the indexing of arrays. -/
structure World.Lawful (W : World) : Prop where
  fields : ∀ l m n, W.fieldAt l m = W.fieldAt l n → m = n
  same : ∀ f g l (i : Nat) rest rest' s s',
    W.address f l (.val (.leaf i) :: rest) s = W.address g l (.val (.leaf i) :: rest') s'
  different : ∀ f g l (i j : Nat) rest rest' s s', i ≠ j →
    ¬ W.address f l (.val (.leaf i) :: rest) s <+: W.address g l (.val (.leaf j) :: rest') s'

/-! ### Shape of the expressions the compiler builds -/

mutual
/-- No `WithPlace` on the way from the expression to the variable in which its place is rooted. -/
def spine : Expr → Bool
  | .project e _ => spine e
  | .field e _ => spine e
  | .apply _ true _ args => spineBase args
  | .block body => spineTail body
  | .withPlace _ _ _ => false
  | _ => true
/-- The base argument. -/
def spineBase : Args → Bool
  | .nil => true
  | .cons _ e rest => if e.isEvidence then spineBase rest else spine e
/-- The last expression of a block. -/
def spineTail : Args → Bool
  | .nil => true
  | .cons _ e .nil => spine e
  | .cons _ _ rest => spineTail rest
end

mutual
/-- A place expression as `chain` builds it when no consumer is built inside: a `WithPlace` is
outermost and its body is a place inside its binding. -/
def shaped (late : Bool) : Expr → Bool
  | .withPlace p x body =>
    spine p && shaped late body &&
      (match path late body with
        | some (some q) => q.base == x
        | _ => false)
  | .block body => shapedTail late body
  | e => spine e
/-- The last expression of a block. -/
def shapedTail (late : Bool) : Args → Bool
  | .nil => true
  | .cons _ e .nil => shaped late e
  | .cons _ _ rest => shapedTail late rest
end

mutual
/-- All written places are `shaped`, and no `WithPlace` inside the expression makes the observed
path reachable under another name. -/
def clear (observed : Path) : Expr → Bool
  | .project e _ => clear observed e
  | .field e _ => clear observed e
  | .apply _ _ pre args => shapedArgs args && clearAll observed pre && clearAll observed args
  | .block body => clearAll observed body
  | .withPlace p _ body =>
    spine p &&
      (match path false p with
        | some (some q) => !overlap q observed
        | _ => false) && clear observed p && clear observed body
  | .assign p v => shaped false p && clear observed p && clear observed v
  | .store _ v => clear observed v
  | .drop t => shaped false t && clear observed t
  | .other children => clearAll observed children
  | _ => true
/-- All children. -/
def clearAll (observed : Path) : Args → Bool
  | .nil => true
  | .cons _ e rest => clear observed e && clearAll observed rest
/-- The `MutableRef` arguments. -/
def shapedArgs : Args → Bool
  | .nil => true
  | .cons .mutableRef e rest => shaped false e && shapedArgs rest
  | .cons .byLet _ rest => shapedArgs rest
end

end Ferlium.Borrow
