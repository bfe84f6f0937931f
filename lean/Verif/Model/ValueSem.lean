import Mathlib.Data.List.Basic

/-!
# Borrowed variables and arguments

The compiler does not copy the value of a variable when the variable is passed to a function or
bound to another name: the function receives the address of the variable.  It decides from the
syntax where a copy is needed.  A user sees a language in which variables hold values.

This file contains
* the decisions of the compiler (which expressions are accepted, which copies are made),
* the execution of the compiled program, where names stand for addresses,
* the execution which a user has in mind, where every name has a value of its own
  (*specification*; it shares with the rest only the syntax and the values).

Left out: types, closures, subscripts defined by the user, record fields which are not yet resolved
to a position, pattern matching, loops (functions may be recursive), moves of values, and the reuse
of the storage of variables which are gone.
-/

namespace Ferlium.ValueSem

/-! ### Values -/

/-- Values.  An array has a tag; in the memory of the compiled program the tag is the identity of
the separately allocated buffer with the elements (`Val Nat`), elsewhere it carries nothing
(`Val Unit`). -/
inductive Val (α : Type) where
  | int (n : Int)
  | tup (fs : List (Val α))
  | arr (tag : α) (fs : List (Val α))

/-- One step from a value to a part of it.  The index of an array comes with the buffer in which the
element was found. -/
inductive Part (α : Type) where
  | proj (i : Nat)
  | idx (tag : α) (i : Nat)
deriving DecidableEq

/-- The part of a value at a path.  An element is only found in the buffer of the path. -/
def Val.get {α : Type} [DecidableEq α] : Val α → List (Part α) → Option (Val α)
  | v, [] => some v
  | .tup fs, .proj i :: p => match fs[i]? with
    | none => none
    | some f => f.get p
  | .arr t fs, .idx t' i :: p =>
    if t = t' then
      match fs[i]? with
      | none => none
      | some f => f.get p
    else none
  | _, _ :: _ => none

/-- Replaces the part of a value at a path (if there is one). -/
def Val.set {α : Type} [DecidableEq α] : Val α → List (Part α) → Val α → Val α
  | _, [], w => w
  | .tup fs, .proj i :: p, w => match fs[i]? with
    | none => .tup fs
    | some f => .tup (fs.set i (f.set p w))
  | .arr t fs, .idx t' i :: p, w =>
    if t = t' then
      match fs[i]? with
      | none => .arr t fs
      | some f => .arr t (fs.set i (f.set p w))
    else .arr t fs
  | v, _ :: _, _ => v

mutual
/-- The value with other tags. -/
def Val.retag {α β : Type} (g : α → β) : Val α → Val β
  | .int n => .int n
  | .tup fs => .tup (retags g fs)
  | .arr t fs => .arr (g t) (retags g fs)
/-- The same for a list. -/
def retags {α β : Type} (g : α → β) : List (Val α) → List (Val β)
  | [] => []
  | v :: vs => v.retag g :: retags g vs
end

/-- What a user sees of a value: the buffers have no identity. -/
def Val.erase {α : Type} (v : Val α) : Val Unit := v.retag (fun _ => ())

/-- A value stored anew: its arrays have new buffers. -/
def Val.fresh (v : Val Unit) (t : Nat) : Val Nat := v.retag (fun _ => t)

/-- What a user sees of a step. -/
def Part.erase {α : Type} : Part α → Part Unit
  | .proj i => .proj i
  | .idx _ i => .idx () i

/-! ### Programs -/

mutual
/-- Places: a local variable, a field, an element (`LoadLocal`, `Project` and the application of the
index addressor, src/hir/mod.rs). -/
inductive Place where
  | var (x : Nat)
  | proj (p : Place) (i : Nat)
  | index (p : Place) (e : Exp)
/-- Expressions.  A variable is known by its depth: `bind` introduces the variable whose number is
the number of the variables in scope.
* `load p`: the value of a place;
* `empty a`, `snoc c e`: construction of arrays (`a`) and tuples, one component after the other;
* `assign p e`: `Assign`;
* `bind mut copy e b`: `let` and the rest of its block; `copy` tells whether the type of `e` is known
  to be trivially copyable;
* `call f args`: `StaticApply`. -/
inductive Exp where
  | int (n : Int)
  | load (p : Place)
  | empty (array : Bool)
  | snoc (c e : Exp)
  | assign (p : Place) (e : Exp)
  | seq (a b : Exp)
  | ite (c a b : Exp)
  | bind (isMut copy : Bool) (e b : Exp)
  | call (f : Nat) (args : Args)
/-- The arguments of a call, each with its convention: `true` for `MutableRef`, `false` for `Let`
(`ArgConvention`, src/hir/function.rs:472). -/
inductive Args where
  | nil
  | cons (isMut : Bool) (e : Exp) (rest : Args)
end

/-- A function: which parameters are `&mut`, and the body. -/
structure Fn where
  params : List Bool
  body : Exp

/-! ### The decisions of the compiler -/

/-- `PathPart`, src/hir/borrow_checker.rs:33-38, without the unresolved field accesses. -/
inductive SPart where
  | proj (i : Nat)
  | index (i : Nat)
  | dyn
deriving DecidableEq

/-- `index_part`, src/hir/borrow_checker.rs:121-129. -/
def indexPart : Exp → SPart
  | .int n => if 0 ≤ n then .index n.toNat else .dyn
  | _ => .dyn

/-- The local in which a place is rooted: the field `variable` of `Path`,
src/hir/borrow_checker.rs:41-44. -/
def Place.root : Place → Nat
  | .var x => x
  | .proj p _ => p.root
  | .index p _ => p.root

/-- The field `parts` of `Path::try_from_node`, src/hir/borrow_checker.rs:59-116. -/
def Place.parts : Place → List SPart
  | .var _ => []
  | .proj p i => p.parts ++ [.proj i]
  | .index p e => p.parts ++ [indexPart e]

/-- The loop of `do_paths_overlap`, src/hir/borrow_checker.rs:280-301. -/
def partsOverlap : List SPart → List SPart → Bool
  | .proj i :: p, .proj j :: q => if i ≠ j then false else partsOverlap p q
  | .index i :: p, .index j :: q => if i ≠ j then false else partsOverlap p q
  | _, _ => true

/-- A path: a variable and static parts. -/
abbrev SPath := Nat × List SPart

/-- `Path` of a place. -/
def Place.path (p : Place) : SPath := (p.root, p.parts)

/-- `do_paths_overlap`, src/hir/borrow_checker.rs:276-302. -/
def overlap (a b : SPath) : Bool :=
  if a.1 ≠ b.1 then false else partsOverlap a.2 b.2

/-- The paths of the `MutableRef` arguments, src/hir/borrow_checker.rs:314-321 and 457-462. -/
def Args.muts : Args → List SPath
  | .nil => []
  | .cons true (.load p) rest => p.path :: rest.muts
  | .cons _ _ rest => rest.muts

mutual
/-- `evaluation_may_write_path`, src/hir/borrow_checker.rs:150-203, for the nodes inside a place. -/
def Place.mayWrite (o : SPath) : Place → Bool
  | .var _ => false
  | .proj p _ => p.mayWrite o
  | .index p e => p.mayWrite o || e.mayWrite o
/-- `evaluation_may_write_path`, src/hir/borrow_checker.rs:150-203.  A `let` stores into a variable
which is not yet in scope where the observed path is evaluated, so it is not a write. -/
def Exp.mayWrite (o : SPath) : Exp → Bool
  | .int _ => false
  | .load p => p.mayWrite o
  | .empty _ => false
  | .snoc c e => c.mayWrite o || e.mayWrite o
  | .assign p e => overlap p.path o || p.mayWrite o || e.mayWrite o
  | .seq a b => a.mayWrite o || b.mayWrite o
  | .ite c a b => c.mayWrite o || a.mayWrite o || b.mayWrite o
  | .bind _ _ e b => e.mayWrite o || b.mayWrite o
  | .call _ args => args.muts.any (fun w => overlap w o) || args.mayWrite o
/-- The recursion over the arguments. -/
def Args.mayWrite (o : SPath) : Args → Bool
  | .nil => false
  | .cons _ e rest => e.mayWrite o || rest.mayWrite o
end

/-- Whether a `Let` argument which is the place `p` is copied before the call:
src/hir/elaboration.rs:1388-1413 with `let_arguments_overlapping_mutable` and
`let_arguments_overlapping_later_argument_writes`, src/hir/borrow_checker.rs:212-236 and 310-343.
`muts` are the paths of all `MutableRef` arguments of the call, `rest` the later arguments. -/
def snapshot (muts : List SPath) (rest : Args) (p : Place) : Bool :=
  muts.any (fun w => overlap p.path w) || rest.mayWrite p.path

/-- Whether a `let` shares the storage of its initialiser, and of which variable:
src/types/type_inference/expr.rs:1074-1130.  An initialiser which is a projection or an element is
copied (1103-1104), so only a variable is left. -/
def borrowed (isMut copy : Bool) (muts : List Bool) : Exp → Option Nat
  | .load (.var x) => if !isMut && !copy && muts[x]? == some false then some x else none
  | _ => none

/-- The conventions of the arguments. -/
def Args.flags : Args → List Bool
  | .nil => []
  | .cons m _ rest => m :: rest.flags

/-- The two nested loops of `check_elaborated_arguments`, src/hir/borrow_checker.rs:463-473. -/
def noOverlap : List SPath → Bool
  | [] => true
  | p :: rest => rest.all (fun q => !overlap p q) && noOverlap rest

mutual
/-- The check of the expressions inside a place. -/
def Place.check (P : List Fn) (Γ : List Bool) : Place → Bool
  | .var x => decide (x < Γ.length)
  | .proj p _ => p.check P Γ
  | .index p e => p.check P Γ && e.check P Γ
/-- The accepted expressions; `Γ` tells which variables in scope are mutable.
* The destination of an assignment is mutable, src/types/type_inference/expr.rs:1515-1520.
* An argument for a `&mut` parameter is a mutable place, 5820-5830.
* The places of such arguments do not overlap, `check_elaborated_borrows`,
  src/hir/borrow_checker.rs:477-501. -/
def Exp.check (P : List Fn) (Γ : List Bool) : Exp → Bool
  | .int _ => true
  | .load p => p.check P Γ
  | .empty _ => true
  | .snoc c e => c.check P Γ && e.check P Γ
  | .assign p e => p.check P Γ && Γ[p.root]? == some true && e.check P Γ
  | .seq a b => a.check P Γ && b.check P Γ
  | .ite c a b => c.check P Γ && a.check P Γ && b.check P Γ
  | .bind m _ e b => e.check P Γ && b.check P (Γ ++ [m])
  | .call f args =>
    (match P[f]? with
      | some fn => args.flags == fn.params
      | none => false) && noOverlap args.muts && args.check P Γ
/-- The check of the arguments. -/
def Args.check (P : List Fn) (Γ : List Bool) : Args → Bool
  | .nil => true
  | .cons true (.load p) rest => p.check P Γ && Γ[p.root]? == some true && rest.check P Γ
  | .cons true _ _ => false
  | .cons false e rest => e.check P Γ && rest.check P Γ
end

/-- All functions of the program are accepted. -/
def accepted (P : List Fn) : Bool := P.all (fun fn => fn.body.check P fn.params)

/-! ### Execution of the compiled program -/

/-- Why an execution ends without a result.
* `index`: an index is out of range, reported to the user;
* `noPlace`: a place is used which does not exist (any more), or the program is not well typed;
* `fuel`: the bound on the number of steps is reached. -/
inductive Err where
  | index
  | noPlace
  | fuel
deriving DecidableEq

/-- The memory: storage cells, one for each variable and temporary which owns its storage.  All
cells below `next` are in use.  `next` is also the next identity of a buffer. -/
structure Mem where
  cells : Nat → Val Nat
  next : Nat

/-- An address: a cell and a path inside it. -/
abbrev Addr := Nat × List (Part Nat)

/-- The address of a part. -/
def Addr.sub (a : Addr) (q : List (Part Nat)) : Addr := (a.1, a.2 ++ q)

/-- What is stored at an address; nothing if the address points into a buffer which is gone. -/
def Mem.read (m : Mem) (a : Addr) : Option (Val Nat) := (m.cells a.1).get a.2

/-- The cells after a write. -/
def writeCells (f : Nat → Val Nat) (a : Addr) (w : Val Nat) : Nat → Val Nat :=
  fun c => if c = a.1 then (f c).set a.2 w else f c

/-- A write of a value.  The value replaced at the address is dropped and its buffers are freed. -/
def Mem.write (m : Mem) (a : Addr) (v : Val Unit) : Mem :=
  ⟨writeCells m.cells a (v.fresh m.next), m.next + 1⟩

/-- A new cell with a value. -/
def Mem.alloc (m : Mem) (v : Val Unit) : Mem :=
  ⟨fun c => if c = m.next then v.fresh m.next else m.cells c, m.next + 1⟩

/-- The names in scope: whether they are mutable, and the address for which they stand. -/
abbrev Env := List (Bool × Addr)

/-- One more component. -/
def snoc : Val Unit → Val Unit → Option (Val Unit)
  | .tup fs, v => some (.tup (fs ++ [v]))
  | .arr t fs, v => some (.arr t (fs ++ [v]))
  | .int _, _ => none

/-- The value `()`. -/
def unit : Val Unit := .tup []

/-- The element meant by an index: a negative one counts from the end (`array_resolve_index`,
src/std/prelude/array_type.fer:23-37). -/
def element (len : Nat) (k : Int) : Option Nat :=
  let r := if k < 0 then len + k else k
  if 0 ≤ r ∧ r < len then some r.toNat else none

/-- All addresses can be read where the argument is `MutableRef`. -/
def present (m : Mem) : List Bool → List Addr → Bool
  | true :: fs, a :: as => (m.read a).isSome && present m fs as
  | false :: fs, _ :: as => present m fs as
  | _, _ => true

mutual
/-- The address of a place: `lower_as_place`, src/emit_mir.rs:1441-1468, and `eval_node_as_place`,
src/eval.rs.  A projection only adds an offset; the addressor of an array checks the index, looks up
the buffer and returns the address of the element.  Its base is evaluated before the index and never
copied (src/hir/elaboration.rs:1389-1413). -/
def runPlace (P : List Fn) : Nat → Env → Mem → Place → Except Err (Addr × Mem)
  | 0, _, _, _ => .error .fuel
  | _ + 1, E, m, .var x => match E[x]? with
    | some b => .ok (b.2, m)
    | none => .error .noPlace
  | n + 1, E, m, .proj p i => do
    let (a, m) ← runPlace P n E m p
    .ok (a.sub [.proj i], m)
  | n + 1, E, m, .index p e => do
    let (a, m) ← runPlace P n E m p
    let (k, m) ← run P n E m e
    match k, m.read a with
    | .int k, some (.arr t fs) => match element fs.length k with
      | some i => .ok (a.sub [.idx t i], m)
      | none => .error .index
    | _, _ => .error .noPlace
/-- The value of an expression.
* `Assign`: the address of the destination, then the value, then the write (`eval_assign`,
  src/eval.rs:3611-3632; src/emit_mir.rs:2070-2097).
* `let`: a borrowed variable stands for the address of the other one (`StoreLocal`,
  src/emit_mir.rs:2109-2120), any other has a cell of its own.
* A call evaluates the arguments in order (src/emit_mir.rs:2282-2294) and then runs the body with
  the addresses of the arguments.  That the arguments exist is checked here once instead of at
  each access by the body. -/
def run (P : List Fn) : Nat → Env → Mem → Exp → Except Err (Val Unit × Mem)
  | 0, _, _, _ => .error .fuel
  | _ + 1, _, m, .int k => .ok (.int k, m)
  | n + 1, E, m, .load p => do
    let (a, m) ← runPlace P n E m p
    match m.read a with
    | some v => .ok (v.erase, m)
    | none => .error .noPlace
  | _ + 1, _, m, .empty true => .ok (.arr () [], m)
  | _ + 1, _, m, .empty false => .ok (.tup [], m)
  | n + 1, E, m, .snoc c e => do
    let (v, m) ← run P n E m c
    let (w, m) ← run P n E m e
    match snoc v w with
    | some u => .ok (u, m)
    | none => .error .noPlace
  | n + 1, E, m, .assign p e => do
    let (a, m) ← runPlace P n E m p
    let (v, m) ← run P n E m e
    match m.read a with
    | some _ => .ok (unit, m.write a v)
    | none => .error .noPlace
  | n + 1, E, m, .seq a b => do
    let (_, m) ← run P n E m a
    run P n E m b
  | n + 1, E, m, .ite c a b => do
    let (v, m) ← run P n E m c
    match v with
    | .int k => if k = 0 then run P n E m b else run P n E m a
    | _ => .error .noPlace
  | n + 1, E, m, .bind isMut copy e b => do
    let (v, m) ← run P n E m e
    match (borrowed isMut copy (E.map (·.1)) e).bind (fun x => E[x]?) with
    | some l => run P n (E ++ [(isMut, l.2)]) m b
    | none => run P n (E ++ [(isMut, (m.next, []))]) (m.alloc v) b
  | n + 1, E, m, .call f args => do
    let (as, m) ← runArgs P n E m args.muts args
    match P[f]? with
    | some fn =>
      if present m fn.params as then run P n (fn.params.zip as) m fn.body else .error .noPlace
    | none => .error .noPlace
/-- The addresses of the arguments: `elaborate_call_arguments`, src/hir/elaboration.rs:1384-1500.
`muts` are the paths of the `MutableRef` arguments of the call.  A place is passed directly unless
it has to be copied (`CloneValue` into `$snapshot`, 1461-1474); any other value is stored in a
temporary (`$arg`). -/
def runArgs (P : List Fn) : Nat → Env → Mem → List SPath → Args → Except Err (List Addr × Mem)
  | 0, _, _, _, _ => .error .fuel
  | _ + 1, _, m, _, .nil => .ok ([], m)
  | n + 1, E, m, muts, .cons true (.load p) rest => do
    let (a, m) ← runPlace P n E m p
    let (as, m) ← runArgs P n E m muts rest
    .ok (a :: as, m)
  | n + 1, E, m, muts, .cons false (.load p) rest => do
    let (a, m) ← runPlace P n E m p
    match m.read a with
    | some v =>
      if snapshot muts rest p then do
        let (as, m') ← runArgs P n E (m.alloc v.erase) muts rest
        .ok ((m.next, []) :: as, m')
      else do
        let (as, m) ← runArgs P n E m muts rest
        .ok (a :: as, m)
    | none => .error .noPlace
  | n + 1, E, m, muts, .cons _ e rest => do
    let (v, m) ← run P n E m e
    let (as, m') ← runArgs P n E (m.alloc v) muts rest
    .ok ((m.next, []) :: as, m')
end

/-! ### Specification: every name has a value of its own -/

/-- An argument: a value, or (for a `&mut` parameter) a part of a variable of the caller. -/
inductive VArg where
  | val (v : Val Unit)
  | ref (x : Nat) (q : List (Part Unit))

/-- A part of a variable. -/
def part (s : List (Val Unit)) (x : Nat) (q : List (Part Unit)) : Option (Val Unit) :=
  match s[x]? with
  | some v => v.get q
  | none => none

/-- The values of the parameters when the function starts.  A `&mut` parameter starts with the value
of the place. -/
def enter (s : List (Val Unit)) : List VArg → Option (List (Val Unit))
  | [] => some []
  | .val v :: as => match enter s as with
    | some vs => some (v :: vs)
    | none => none
  | .ref x q :: as => match part s x q, enter s as with
    | some v, some vs => some (v :: vs)
    | _, _ => none

/-- The final values of the `&mut` parameters are the new values of the places. -/
def leave : List VArg → List (Val Unit) → List (Val Unit) → List (Val Unit)
  | .ref x q :: as, t :: ts, s => leave as ts (s.modify x (fun v => v.set q t))
  | .val _ :: as, _ :: ts, s => leave as ts s
  | _, _, s => s

mutual
/-- The part of a variable meant by a place, and the values of the variables afterwards. -/
def evalPlace (P : List Fn) : Nat → List (Val Unit) → Place →
    Except Err ((Nat × List (Part Unit)) × List (Val Unit))
  | 0, _, _ => .error .fuel
  | _ + 1, s, .var x => .ok ((x, []), s)
  | n + 1, s, .proj p i => do
    let ((x, q), s) ← evalPlace P n s p
    .ok ((x, q ++ [.proj i]), s)
  | n + 1, s, .index p e => do
    let ((x, q), s) ← evalPlace P n s p
    let (k, s) ← eval P n s e
    match k, part s x q with
    | .int k, some (.arr _ fs) => match element fs.length k with
      | some i => .ok ((x, q ++ [.idx () i]), s)
      | none => .error .index
    | _, _ => .error .noPlace
/-- The value of an expression, and the values of the variables afterwards. -/
def eval (P : List Fn) : Nat → List (Val Unit) → Exp → Except Err (Val Unit × List (Val Unit))
  | 0, _, _ => .error .fuel
  | _ + 1, s, .int k => .ok (.int k, s)
  | n + 1, s, .load p => do
    let ((x, q), s) ← evalPlace P n s p
    match part s x q with
    | some v => .ok (v, s)
    | none => .error .noPlace
  | _ + 1, s, .empty true => .ok (.arr () [], s)
  | _ + 1, s, .empty false => .ok (.tup [], s)
  | n + 1, s, .snoc c e => do
    let (v, s) ← eval P n s c
    let (w, s) ← eval P n s e
    match snoc v w with
    | some u => .ok (u, s)
    | none => .error .noPlace
  | n + 1, s, .assign p e => do
    let ((x, q), s) ← evalPlace P n s p
    let (v, s) ← eval P n s e
    match part s x q with
    | some _ => .ok (unit, s.modify x (fun u => u.set q v))
    | none => .error .noPlace
  | n + 1, s, .seq a b => do
    let (_, s) ← eval P n s a
    eval P n s b
  | n + 1, s, .ite c a b => do
    let (v, s) ← eval P n s c
    match v with
    | .int k => if k = 0 then eval P n s b else eval P n s a
    | _ => .error .noPlace
  | n + 1, s, .bind _ _ e b => do
    let (v, s) ← eval P n s e
    let (w, s) ← eval P n (s ++ [v]) b
    .ok (w, s.dropLast)
  | n + 1, s, .call f args => do
    let (as, s) ← evalArgs P n s args
    match P[f]? with
    | some fn => match enter s as with
      | some vs => do
        let (v, ts) ← eval P n vs fn.body
        .ok (v, leave as ts s)
      | none => .error .noPlace
    | none => .error .noPlace
/-- The arguments, in order. -/
def evalArgs (P : List Fn) : Nat → List (Val Unit) → Args →
    Except Err (List VArg × List (Val Unit))
  | 0, _, _ => .error .fuel
  | _ + 1, s, .nil => .ok ([], s)
  | n + 1, s, .cons true (.load p) rest => do
    let ((x, q), s) ← evalPlace P n s p
    let (as, s) ← evalArgs P n s rest
    .ok (.ref x q :: as, s)
  | n + 1, s, .cons false (.load p) rest => do
    let ((x, q), s) ← evalPlace P n s p
    match part s x q with
    | some v => do
      let (as, s) ← evalArgs P n s rest
      .ok (.val v :: as, s)
    | none => .error .noPlace
  | n + 1, s, .cons _ e rest => do
    let (v, s) ← eval P n s e
    let (as, s) ← evalArgs P n s rest
    .ok (.val v :: as, s)
end

/-! ### What the compiler does not check -/

/-- The place goes through an element of an array. -/
def Place.indexed : Place → Bool
  | .var _ => false
  | .proj p _ => p.indexed
  | .index _ _ => true

mutual
/-- While the address of an element is held, nothing writes a place which overlaps it.  The
compiler does not require this. -/
def Place.stable : Place → Bool
  | .var _ => true
  | .proj p _ => p.stable
  | .index p e => p.stable && e.stable && (!p.indexed || !e.mayWrite p.path)
/-- The same for expressions: the value assigned to an element does not write it. -/
def Exp.stable : Exp → Bool
  | .int _ => true
  | .load p => p.stable
  | .empty _ => true
  | .snoc c e => c.stable && e.stable
  | .assign p e => p.stable && e.stable && (!p.indexed || !e.mayWrite p.path)
  | .seq a b => a.stable && b.stable
  | .ite c a b => c.stable && a.stable && b.stable
  | .bind _ _ e b => e.stable && b.stable
  | .call _ args => args.stable
/-- The same for arguments: no later argument writes an element which is passed as `&mut`. -/
def Args.stable : Args → Bool
  | .nil => true
  | .cons true (.load p) rest =>
    p.stable && rest.stable && (!p.indexed || !rest.mayWrite p.path)
  | .cons _ e rest => e.stable && rest.stable
end

/-- All functions of the program are stable. -/
def stableProgram (P : List Fn) : Bool := P.all (fun fn => fn.body.stable)

end Ferlium.ValueSem
