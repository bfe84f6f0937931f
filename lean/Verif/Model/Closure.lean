import Mathlib.Data.List.Basic

/-!
Names, closures and the resolution of names to slots of frames: the part of type inference which turns names into locals and
lambdas into functions with captures, and the evaluation of the result.

Sources: `src/types/type_inference/expr.rs` (`infer_abstract` 565-760, identifiers 860-866, calls 1304-1332, blocks 1439-1475,
`collect_free_variables` 6140-6262), `src/types/typing_env.rs:168-194`, `src/hir/match.rs:126-571`, `src/desugar/expr.rs:121-129`,
`src/eval.rs:569-640, 1744-1775`.

Simplifications.  Types are left out; a call with a wrong number of arguments and a name which stands for nothing fail when
they are reached instead of being rejected.  Values are copied wherever the code copies or borrows them (a borrow of an
immutable place cannot be told from a copy); mutable references as arguments, `return`, `break` and loops are left out.  The
native functions of the library take and return integers.
-/
namespace Ferlium.Closure

mutual

/-- Expressions (`ExprKind`, src/ast/mod.rs), after the desugaring of patterns and loops. -/
inductive Expr where
  /-- An integer literal as written. -/
  | num (k : Int)
  /-- A literal which stands for itself. -/
  | raw (k : Int)
  | ident (n : String)
  | lam (params : List String) (body : Expr)
  | app (f : Expr) (args : Exprs)
  | block (ss : Stmts)
  | assign (n : String) (e : Expr)
  | variant (tag : String) (args : Exprs)
  | cases (c : Expr) (arms : Arms)

/-- Lists of expressions. -/
inductive Exprs where
  | nil
  | cons (e : Expr) (rest : Exprs)

/-- The statements of a block (`Stmts`, src/parser/parser.lalrpop:1253-1283): `let` occurs there only. -/
inductive Stmts where
  | last (e : Expr)
  | letS (n : String) (e : Expr) (rest : Stmts)
  | run (e : Expr) (rest : Stmts)

/-- The alternatives of a match, and its default if there is one (src/parser/parser.lalrpop:1075-1083). -/
inductive Arms where
  | none
  | default (e : Expr)
  | arm (tag : String) (vars : List String) (body : Expr) (rest : Arms)

end

/-- The names an integer literal is written with: it becomes a call `from_int(literal)` (src/desugar/expr.rs:121-129), where
`from_int` is an identifier like any other. -/
def fromInt : String := "from_int"

/-! ### Free names -/

mutual

/-- `collect_free_variables` (src/types/type_inference/expr.rs:6140-6262).  The stack of sets of bound names is one list
here: a name is bound if it is in any of them. -/
def Expr.free : Expr → List String → List String
  | .num _, bound => if fromInt ∈ bound then [] else [fromInt]
  | .raw _, _ => []
  | .ident n, bound => if n ∈ bound then [] else [n]
  | .lam params body, bound => body.free (params ++ bound)
  | .app f args, bound => f.free bound ++ args.free bound
  | .block ss, bound => ss.free bound
  | .assign n e, bound => (if n ∈ bound then [] else [n]) ++ e.free bound
  | .variant _ args, bound => args.free bound
  | .cases c arms, bound => c.free bound ++ arms.free bound

def Exprs.free : Exprs → List String → List String
  | .nil, _ => []
  | .cons e rest, bound => e.free bound ++ rest.free bound

def Stmts.free : Stmts → List String → List String
  | .last e, bound => e.free bound
  | .letS n e rest, bound => e.free bound ++ rest.free (n :: bound)
  | .run e rest, bound => e.free bound ++ rest.free bound

def Arms.free : Arms → List String → List String
  | .none, _ => []
  | .default e, bound => e.free bound
  | .arm _ vars body rest, bound => body.free (vars ++ bound) ++ rest.free bound

end

/-- Insertion into a sorted list. -/
def insertName (n : String) : List String → List String
  | [] => [n]
  | m :: ms => if n < m then n :: m :: ms else if n = m then m :: ms else m :: insertName n ms

/-- The set of free names in order (src/types/type_inference/expr.rs:587-588). -/
def sortNames (ns : List String) : List String := ns.foldr insertName []

/-! ### Resolved code -/

mutual

/-- Code whose names are resolved (`hir::NodeKind`, src/hir/mod.rs). -/
inductive Code where
  | const (k : Int)
  | load (i : Nat)
  | fn (n : String)
  | closure (caps : List Nat) (params : Nat) (body : Code)
  | call (f : Code) (args : Codes)
  | block (ss : CStmts)
  | store (i : Nat) (e : Code)
  | fail
  | variant (tag : String) (args : Codes)
  | cases (c : Code) (arms : CArms)

inductive Codes where
  | nil
  | cons (e : Code) (rest : Codes)

inductive CStmts where
  | last (e : Code)
  | letS (i : Nat) (e : Code) (rest : CStmts)
  | run (e : Code) (rest : CStmts)

inductive CArms where
  | none
  | default (e : Code)
  | arm (tag : String) (base vars : Nat) (body : Code) (rest : CArms)

end

/-- The locals in scope, the most recent one first, and their slots (`cur_locals`, src/types/typing_env.rs:115, 187-194). -/
abbrev CEnv := List (String × Nat)

/-- `get_variable_id` (src/types/typing_env.rs:187-194). -/
def CEnv.get (env : CEnv) (n : String) : Option Nat := env.lookup n

/-- New locals for the names, with slots from `k` on, on top of the others
(src/types/type_inference/expr.rs:612-650, src/hir/match.rs:387-404, `push_local` src/types/typing_env.rs:168-172). -/
def CEnv.declare : CEnv → List String → Nat → CEnv
  | env, [], _ => env
  | env, n :: ns, k => CEnv.declare ((n, k) :: env) ns (k + 1)

/-- The names a lambda captures: the free names which are locals here (src/types/type_inference/expr.rs:575-609). -/
def captured (params : List String) (body : Expr) (env : CEnv) : List String :=
  (sortNames (body.free params)).filter fun n => (env.get n).isSome

mutual

/-- Names resolved to slots; the number is the next unused slot of the frame (`all_locals`). -/
def Expr.compile : Expr → CEnv → Nat → Code × Nat
  | .num k, env, next =>
    -- `from_int(k)`, src/desugar/expr.rs:121-129
    (.call (match env.get fromInt with
      | some i => .load i
      | none => .fn fromInt) (.cons (.const k) .nil), next)
  | .raw k, _, next => (.const k, next)
  | .ident n, env, next =>
    -- src/types/type_inference/expr.rs:860-893
    (match env.get n with
      | some i => .load i
      | none => .fn n, next)
  | .lam params body, env, next =>
    -- `infer_abstract`, src/types/type_inference/expr.rs:565-760
    let names := captured params body env
    let inner := CEnv.declare (CEnv.declare [] names 0) params names.length
    (.closure (names.map fun n => (env.get n).getD 0) params.length
      (body.compile inner (names.length + params.length)).1, next)
  | .app f args, env, next =>
    -- src/types/type_inference/expr.rs:1304-1360
    let f' := f.compile env next
    let args' := args.compile env f'.2
    (.call f'.1 args'.1, args'.2)
  | .block ss, env, next =>
    -- src/types/type_inference/expr.rs:1439-1475: the locals of the block go out of scope, their slots are not used again
    let r := ss.compile env next
    (.block r.1, r.2)
  | .assign n e, env, next =>
    let r := e.compile env next
    (match env.get n with
      | some i => .store i r.1
      | none => .fail, r.2)
  | .variant tag args, env, next =>
    let r := args.compile env next
    (.variant tag r.1, r.2)
  | .cases _ (.default e), env, next =>
    -- src/hir/match.rs:140-147: without alternatives only the default is looked at
    e.compile env next
  | .cases c arms, env, next =>
    let c' := c.compile env next
    let r := arms.compile env c'.2
    (.cases c'.1 r.1, r.2)

def Exprs.compile : Exprs → CEnv → Nat → Codes × Nat
  | .nil, _, next => (.nil, next)
  | .cons e rest, env, next =>
    let r := e.compile env next
    let r' := rest.compile env r.2
    (.cons r.1 r'.1, r'.2)

/-- src/types/type_inference/expr.rs:1040-1165: the local is declared after its initial value was looked at. -/
def Stmts.compile : Stmts → CEnv → Nat → CStmts × Nat
  | .last e, env, next =>
    let r := e.compile env next
    (.last r.1, r.2)
  | .letS n e rest, env, next =>
    let r := e.compile env next
    let r' := rest.compile ((n, r.2) :: env) (r.2 + 1)
    (.letS r.2 r.1 r'.1, r'.2)
  | .run e rest, env, next =>
    let r := e.compile env next
    let r' := rest.compile env r.2
    (.run r.1 r'.1, r'.2)

/-- src/hir/match.rs:379-508. -/
def Arms.compile : Arms → CEnv → Nat → CArms × Nat
  | .none, _, next => (.none, next)
  | .default e, env, next =>
    let r := e.compile env next
    (.default r.1, r.2)
  | .arm tag vars body rest, env, next =>
    let r := body.compile (env.declare vars next) (next + vars.length)
    let r' := rest.compile env r.2
    (.arm tag next vars.length r.1 r'.1, r'.2)

end

/-! ### Running resolved code -/

/-- Values; a closure holds its code and the captured values (`FunctionValue`, src/hir/value.rs). -/
inductive Val where
  | int (k : Int)
  | fn (n : String)
  | variant (tag : String) (args : List Val)
  | clo (params : Nat) (body : Code) (caps : List Val)

/-- The program and the native functions. -/
structure Program (σ : Type) where
  /-- The functions of the user. -/
  defs : String → Option (List String × Expr)
  /-- The functions of the library, on integers, with effects on the state. -/
  native : String → List Int → σ → Option (Int × σ)

/-- The slots of a frame. -/
abbrev Frame := Nat → Option Val

def Frame.set (f : Frame) (i : Nat) (v : Val) : Frame := fun j => if j = i then some v else f j

/-- Values in consecutive slots. -/
def Frame.fill : Frame → Nat → List Val → Frame
  | f, _, [] => f
  | f, k, v :: vs => Frame.fill (f.set k v) (k + 1) vs

/-- The frame of a call: captured values, then arguments (src/eval.rs:598-614). -/
def Frame.enter (args : List Val) : Frame := Frame.fill (fun _ => none) 0 args

/-- Integers only. -/
def ints : List Val → Option (List Int)
  | [] => some []
  | .int k :: vs => (ints vs).map (k :: ·)
  | _ => none

/-- The values of captured slots (src/eval.rs:1756). -/
def Frame.read (f : Frame) : List Nat → Option (List Val)
  | [] => some []
  | i :: is => (f i).bind fun v => (f.read is).map (v :: ·)

/-- Calls of function values. -/
abbrev Call (V σ : Type) := V → List V → σ → Option (V × σ)

section
variable {σ : Type} (call : Call Val σ)

mutual

/-- `eval_node_with_ctx` (src/eval.rs:1620-1700); calls of functions are a parameter. -/
def run : Code → Frame → σ → Option (Val × Frame × σ)
  | .const k, f, s => some (.int k, f, s)
  | .load i, f, s => (f i).map fun v => (v, f, s)
  | .fn n, f, s => some (.fn n, f, s)
  | .closure caps params body, f, s => (f.read caps).map fun vs => (.clo params body vs, f, s)
  | .call g args, f, s =>
    (run g f s).bind fun r => (runs args r.2.1 r.2.2).bind fun a =>
      (call r.1 a.1 a.2.2).map fun q => (q.1, a.2.1, q.2)
  | .block ss, f, s => runStmts ss f s
  | .store i e, f, s => (run e f s).map fun r => (.int 0, r.2.1.set i r.1, r.2.2)
  | .fail, _, _ => none
  | .variant tag args, f, s => (runs args f s).map fun r => (.variant tag r.1, r.2.1, r.2.2)
  | .cases c arms, f, s => (run c f s).bind fun r => runArms arms r.1 r.2.1 r.2.2

def runs : Codes → Frame → σ → Option (List Val × Frame × σ)
  | .nil, f, s => some ([], f, s)
  | .cons e rest, f, s =>
    (run e f s).bind fun r => (runs rest r.2.1 r.2.2).map fun q => (r.1 :: q.1, q.2.1, q.2.2)

def runStmts : CStmts → Frame → σ → Option (Val × Frame × σ)
  | .last e, f, s => run e f s
  | .letS i e rest, f, s => (run e f s).bind fun r => runStmts rest (r.2.1.set i r.1) r.2.2
  | .run e rest, f, s => (run e f s).bind fun r => runStmts rest r.2.1 r.2.2

/-- The first alternative with the tag of the value; its variables are in the slots from `base` on. -/
def runArms : CArms → Val → Frame → σ → Option (Val × Frame × σ)
  | .none, _, _, _ => none
  | .default e, _, f, s => run e f s
  | .arm tag base vars body rest, v, f, s =>
    match v with
    | .variant tag' args =>
      if tag' = tag ∧ args.length = vars then run body (f.fill base args) s else runArms rest v f s
    | _ => runArms rest v f s

end

end

/-- `call_function_value` (src/eval.rs:569-640) with a bound on the depth of calls: the captured values of a closure are
copied for every call.  A global name is a function of the user, otherwise a function of the library
(`functions_shadow_unqualified_trait_methods`, tests/language/trait.rs:86). -/
def enter {σ : Type} (P : Program σ) : Nat → Call Val σ
  | 0, _, _, _ => none
  | n + 1, .fn g, args, s =>
    match P.defs g with
    | some (params, body) =>
      if args.length = params.length then
        (run (enter P n) (body.compile (CEnv.declare [] params 0) params.length).1 (Frame.enter args) s).map
          fun r => (r.1, r.2.2)
      else none
    | none => (ints args).bind fun ks => (P.native g ks s).map fun r => (.int r.1, r.2)
  | n + 1, .clo params body caps, args, s =>
    if args.length = params then
      (run (enter P n) body (Frame.enter (caps ++ args)) s).map fun r => (r.1, r.2.2)
    else none
  | _ + 1, _, _, _ => none

end Ferlium.Closure
