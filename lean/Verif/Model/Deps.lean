import Verif.Model.Closure
import Verif.Model.Graph

/-!
The order in which the functions of a module are compiled: the names each of them depends on and the groups made from them.

Sources: `src/desugar/expr.rs:115-495`, `src/desugar/module.rs:919-970, 1051-1071, 1384-1400, 1495`,
`src/hir/emit_hir.rs:955-992`.

Simplifications.  Subscripts and their members, the methods of trait implementations (which are compiled after all functions)
and names with more than one segment (which do not refer to functions of the module) are left out.
-/
namespace Ferlium.Closure

mutual

/-- The names which are looked up among the functions of the module (`desugar`, src/desugar/expr.rs:115-495): those which are
no locals.  In a lambda only its own parameters and what is declared inside are locals (180-188).  The call of `from_int` made
for a literal (121-129) is not looked up. -/
def Expr.deps : Expr → List String → List String
  | .num _, _ => []
  | .raw _, _ => []
  | .ident n, locals => if n ∈ locals then [] else [n]
  | .lam params body, _ => body.deps params
  | .app f args, locals => f.deps locals ++ args.deps locals
  | .block ss, locals => ss.deps locals
  | .assign n e, locals => (if n ∈ locals then [] else [n]) ++ e.deps locals
  | .variant _ args, locals => args.deps locals
  | .cases c arms, locals => c.deps locals ++ arms.deps locals

def Exprs.deps : Exprs → List String → List String
  | .nil, _ => []
  | .cons e rest, locals => e.deps locals ++ rest.deps locals

/-- `bind_local_stmt` (src/desugar/patterns.rs:36-52): the name is a local after the statement. -/
def Stmts.deps : Stmts → List String → List String
  | .last e, locals => e.deps locals
  | .letS n e rest, locals => e.deps locals ++ rest.deps (n :: locals)
  | .run e rest, locals => e.deps locals ++ rest.deps locals

/-- src/desugar/expr.rs:415-444. -/
def Arms.deps : Arms → List String → List String
  | .none, _ => []
  | .default e, locals => e.deps locals
  | .arm _ vars body rest, locals => body.deps (vars ++ locals) ++ rest.deps locals

end

/-- A function of a module. -/
structure Function where
  name : String
  params : List String
  body : Expr

/-- `fn_map` (src/desugar/module.rs:921-925); names are distinct (src/hir/emit_hir.rs:116). -/
def fnIndex (fs : List Function) (n : String) : Option Nat := fs.findIdx? fun f => f.name = n

/-- The graph of dependencies (src/desugar/module.rs:932-962, 1495). -/
def depGraph (fs : List Function) : Graph.Gr :=
  fs.map fun f => (f.body.deps f.params).filterMap (fnIndex fs)

/-- The groups in the order in which they are compiled (src/desugar/module.rs:963-968, src/hir/emit_hir.rs:955). -/
def compileOrder (order : List Nat → List Nat) (fs : List Function) : Option (List (List Nat)) :=
  Graph.componentsCalleesFirst order (depGraph fs)

/-- The compiled body of a function (src/types/type_inference/expr.rs, as in `enter`). -/
def Function.code (f : Function) : Code := (f.body.compile (CEnv.declare [] f.params 0) f.params.length).1

end Ferlium.Closure
