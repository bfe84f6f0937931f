import Verif.Proofs.Unify

/-!
Model of type inference for a core of the language: `infer_expr`, `check_expr` and `infer_abstract` of
`src/types/type_inference/expr.rs`, `infer_match` of `src/hir/match.rs` for `if`, and the inference of a group of functions
in `src/hir/emit_functions.rs`.

The core has literals, local variables, functions as values, closures, calls of values, calls of functions, blocks with
`let` and `let mut`, assignments to local variables, tuples, `if` with `else`, and `return`.

Not modelled: type annotations (they only add equations), records, variants, projections and traits (with the constraints
which are not equations), mutable references as parameters (an assignment to a parameter is refused here), effects, and the
search for type variables which occur only inside a body (emit_functions.rs:1673-1693, which refuses some programs).  The
condition of an `if` has the type `bool` itself and not a type represented by it.
-/
namespace Ferlium.TypeInfer

open Unify (Ty Args Head Table)

/-- The name of a local variable. -/
abbrev Name := Nat

mutual

/-- An expression. -/
inductive Expr
  /-- A literal of a native type. -/
  | lit (type payload : Nat)
  /-- A local variable. -/
  | local (x : Name)
  /-- A function as a value. -/
  | fn (f : Nat)
  /-- A closure. -/
  | abs (params : List Name) (body : Expr)
  /-- A call of a value. -/
  | app (callee : Expr) (args : Exprs)
  /-- A call of a function. -/
  | call (f : Nat) (args : Exprs)
  /-- A block, whose value is that of its last statement. -/
  | block (body : Stmts)
  /-- An assignment to a local variable. -/
  | assign (x : Name) (value : Expr)
  | tuple (items : Exprs)
  | ite (cond yes no : Expr)
  | ret (value : Expr)

/-- Expressions one after the other. -/
inductive Exprs
  | nil
  | cons (e : Expr) (rest : Exprs)

/-- Statements. -/
inductive Stmts
  | nil
  /-- `let` and `let mut`. -/
  | bind (x : Name) (mutable : Bool) (e : Expr) (rest : Stmts)
  | expr (e : Expr) (rest : Stmts)

end

deriving instance DecidableEq for Expr, Exprs, Stmts

/-- The number of expressions. -/
def Exprs.length : Exprs → Nat
  | .nil => 0
  | .cons _ rest => rest.length + 1

/-- The parts of a type without names. -/
def parts : List Ty → Args
  | [] => .nil
  | t :: ts => .cons none t (parts ts)

/-- A native type, `Type::primitive` type.rs. -/
def native (k : Nat) : Ty := .node (.native k) .nil

/-- The booleans are the first native type here. -/
def bool : Ty := native 0

/-- A tuple type. -/
def tupleTy (ts : List Ty) : Ty := .node .tuple (parts ts)

/-- The unit type, the empty tuple type here. -/
def unit : Ty := tupleTy []

/-- A function type. -/
def fnTy (args : List Ty) (ret : Ty) : Ty := .node .function (parts (args ++ [ret]))

/-- A type scheme of a function, `TypeScheme<FnType>` type_scheme.rs. -/
structure Sig where
  vars : List Nat
  args : List Ty
  ret : Ty
deriving DecidableEq

/-- What the quantified variables become, `fresh_type_var_subst`. -/
def Sig.fresh (s : Sig) (n v : Nat) : Ty := if v ∈ s.vars then .var (n + s.vars.idxOf v) else .var v

/-- A local variable with its mutability and its type, `LocalDecl`; the last one is the first in the list. -/
abbrev Locals := List (Name × Bool × Ty)

/-- `get_variable_id`, the innermost variable of the name. -/
def find (x : Name) : List (Name × α) → Option α
  | [] => none
  | (y, a) :: rest => if x = y then some a else find x rest

/-- The parameters after the other variables. -/
def enter (params : List Name) (values : List α) (outer : List (Name × α)) : List (Name × α) :=
  (params.zip values).reverse ++ outer

/-- The variables which a closure captures, expr.rs:577-611.  All of those it may name, and not only those it does name. -/
def captured (params : List Name) (outer : List (Name × α)) : List (Name × α) := outer.filter fun b => !params.contains b.1

/-- Inference of an expression: its type, the number of type variables, and the equations `(current, expected)`. -/
structure Out where
  ty : Ty
  next : Nat
  eqs : List (Ty × Ty)

/-- Inference of expressions one after the other. -/
structure Outs where
  tys : List Ty
  diverges : Bool
  next : Nat
  eqs : List (Ty × Ty)

/-- `add_sub_type_constraint` expr.rs:5897-5913. -/
def equate (current expected : Ty) : List (Ty × Ty) := if current = expected then [] else [(current, expected)]

/-- The end of `check_expr`, expr.rs:5824-5830; without expected type that of `infer_expr`. -/
def expect (expected : Option Ty) (o : Out) : Out :=
  match expected with
  | none => o
  | some t => { o with eqs := o.eqs ++ equate o.ty t }

/-- The arguments and the result of a function type. -/
def splitFn : Args → Option (List Ty × Ty)
  | .nil => none
  | .cons _ t rest => if rest = .nil then some ([], t) else (splitFn rest).map fun p => (t :: p.1, p.2)

/-- The expected arguments and the expected result of a closure, expr.rs:5793-5796: only if the expected type is already
written as a function type. -/
def expectedFn : Option Ty → Option (List Ty × Ty)
  | some (.node .function args) => splitFn args
  | _ => none

/-- New type variables. -/
def vars (n count : Nat) : List Ty := (List.range count).map fun i => .var (n + i)

mutual

/-- The type `never` occurs in the type. -/
def mentionsNever : Ty → Bool
  | .never => true
  | .var _ => false
  | .node _ args => partsMentionNever args

/-- The same for the parts. -/
def partsMentionNever : Args → Bool
  | .nil => false
  | .cons _ t rest => mentionsNever t || partsMentionNever rest

end

/-- What inference knows: the types of the functions.  If `strict`, it also refuses what the code accepts although it should
not: functions which do not return as values, and closures with more parameters than expected. -/
structure Ctx where
  strict : Bool
  sigs : List Sig

/-- The function may be used as a value; always so in the code. -/
def Ctx.value (c : Ctx) (s : Sig) : Bool := !c.strict || !(mentionsNever s.ret || s.args.any mentionsNever)

/-- The function may be called; always so in the code. -/
def Ctx.callable (c : Ctx) (s : Sig) : Bool :=
  !c.strict || !((s.ret != .never && mentionsNever s.ret) || s.args.any mentionsNever)

/-- The closure may be given where the parameters are expected; always so in the code. -/
def Ctx.surplus (c : Ctx) (params : List Name) (args : List Ty) : Bool := !c.strict || params.length ≤ args.length

/-- The types of the parameters and the result of a closure and the new number of variables, expr.rs:614-641; with an expected
type the parameters are paired with the expected ones and those without partner are left out. -/
def closureTys (expected : Option (List Ty × Ty)) (params : List Name) (n : Nat) : List Ty × Ty × Nat :=
  match expected with
  | some (args, ret) => (args.take params.length, ret, n)
  | none => (vars n params.length, .var (n + params.length), n + params.length + 1)

/-- A local variable which cannot be changed. -/
def fixed (ts : List Ty) : List (Bool × Ty) := ts.map fun t => (false, t)

/-- The closure is refused. -/
def refused (c : Ctx) (expected : Option (List Ty × Ty)) (params : List Name) : Bool :=
  match expected with
  | some (args, _) => !c.surplus params args
  | none => false

mutual

/-- `infer_expr` expr.rs:837-1700 without expected type, `check_expr` 5766-5831 with one; `ret` is the type of the result of
the function around.  The result is `none` if the program is refused. -/
def infer (c : Ctx) (ret : Ty) (Γ : Locals) (expected : Option Ty) (n : Nat) : Expr → Option Out
  -- expr.rs:850-852 and 5780-5785
  | .lit k _ => some (expect expected ⟨native k, n, []⟩)
  -- expr.rs:862-868
  | .local x => (find x Γ).map fun l => expect expected ⟨l.2, n, []⟩
  -- expr.rs:870-892
  | .fn f => c.sigs[f]? >>= fun s =>
      if c.value s then
        some (expect expected ⟨fnTy (s.args.map (·.subst (s.fresh n))) (s.ret.subst (s.fresh n)), n + s.vars.length, []⟩)
      else none
  -- expr.rs:565-767, 5787-5806
  | .abs params body =>
      if refused c (expectedFn expected) params then none
      else
        infer c (closureTys (expectedFn expected) params n).2.1
            (enter params (fixed (closureTys (expectedFn expected) params n).1) (captured params Γ))
            (some (closureTys (expectedFn expected) params n).2.1) (closureTys (expectedFn expected) params n).2.2 body >>= fun o =>
          some (expect expected ⟨fnTy (closureTys (expectedFn expected) params n).1 (closureTys (expectedFn expected) params n).2.1,
            o.next, o.eqs⟩)
  -- expr.rs:1340-1438
  | .app callee args => infer c ret Γ none n callee >>= fun f =>
      if f.ty = .never then some (expect expected f)
      else
        inferAll c ret Γ none f.next args >>= fun a =>
          if a.diverges then some (expect expected ⟨.never, a.next, f.eqs ++ a.eqs⟩)
          else some (expect expected ⟨.var a.next, a.next + 1, f.eqs ++ a.eqs ++ equate f.ty (fnTy a.tys (.var a.next))⟩)
  -- expr.rs:5422-5475 and 3866-3893
  | .call f args => c.sigs[f]? >>= fun s =>
      if s.args.length ≠ args.length then none
      else if !c.callable s then none
      else
        inferAll c ret Γ (some (s.args.map (·.subst (s.fresh n)))) (n + s.vars.length) args >>= fun a =>
          if a.diverges then some (expect expected ⟨.never, a.next, a.eqs⟩)
          else some (expect expected ⟨s.ret.subst (s.fresh n), a.next, a.eqs⟩)
  -- expr.rs:1441-1482
  | .block body => (inferStmts c ret Γ unit n body).map (expect expected)
  -- expr.rs:1510-1570
  | .assign x value => find x Γ >>= fun l =>
      if !l.1 then none
      else
        infer c ret Γ none n value >>= fun v =>
          some (expect expected ⟨if v.ty = .never then .never else unit, v.next, v.eqs ++ equate v.ty l.2⟩)
  -- expr.rs:1661-1672
  | .tuple items => inferAll c ret Γ none n items >>= fun a =>
      some (expect expected ⟨if a.diverges then .never else tupleTy a.tys, a.next, a.eqs⟩)
  -- match.rs:163-170 and 588-668
  | .ite cond yes no => infer c ret Γ none n cond >>= fun b =>
      if b.ty = .never then some (expect expected b)
      else
        infer c ret Γ (some (.var b.next)) (b.next + 1) no >>= fun e =>
          infer c ret Γ (some (.var b.next)) e.next yes >>= fun t =>
            some (expect expected ⟨if t.ty = .never ∧ e.ty = .never then .never else .var b.next, t.next,
              b.eqs ++ e.eqs ++ equate e.ty (.var b.next) ++ equate bool b.ty ++ t.eqs ++ equate t.ty (.var b.next)⟩)
  -- expr.rs:1205-1244
  | .ret value => infer c ret Γ none n value >>= fun v =>
      some (expect expected ⟨.never, v.next, v.eqs ++ equate v.ty ret⟩)

/-- `infer_exprs_drop_mut_until_never` expr.rs:5606-5650, `infer_exprs_ret_arg_ty_until_never` 5693-5716, and with expected types
`check_exprs_until_never` 5741-5764: an expression without value ends the walk. -/
def inferAll (c : Ctx) (ret : Ty) (Γ : Locals) (expected : Option (List Ty)) (n : Nat) : Exprs → Option Outs
  | .nil => some ⟨[], false, n, []⟩
  | .cons e rest => infer c ret Γ (expected >>= List.head?) n e >>= fun o =>
      if o.ty = .never then some ⟨[o.ty], true, o.next, o.eqs⟩
      else
        inferAll c ret Γ (expected.map List.tail) o.next rest >>= fun r =>
          some ⟨o.ty :: r.tys, r.diverges, r.next, o.eqs ++ r.eqs⟩

/-- The statements of a block, expr.rs:1441-1482 and `let` 1067-1165; `last` is the type of the statement before. -/
def inferStmts (c : Ctx) (ret : Ty) (Γ : Locals) (last : Ty) (n : Nat) : Stmts → Option Out
  | .nil => some ⟨last, n, []⟩
  | .bind x mutable e rest => infer c ret Γ none n e >>= fun o =>
      if o.ty = .never then some o
      else
        inferStmts c ret ((x, mutable, o.ty) :: Γ) unit o.next rest >>= fun r => some ⟨r.ty, r.next, o.eqs ++ r.eqs⟩
  | .expr e rest => infer c ret Γ none n e >>= fun o =>
      if o.ty = .never then some o
      else inferStmts c ret Γ o.ty o.next rest >>= fun r => some ⟨r.ty, r.next, o.eqs ++ r.eqs⟩

end

/-- A function. -/
structure Fn where
  params : List Name
  body : Expr
deriving DecidableEq

mutual

/-- A function with an index from `base` on occurs, `node_references_any_function` emit_functions.rs:298-316.  Closures are
functions of their own and are not searched; in an unreachable place they are not searched either there, they are here. -/
def refersTo (base : Nat) : Expr → Bool
  | .lit _ _ => false
  | .local _ => false
  | .fn f => base ≤ f
  | .abs _ _ => false
  | .app callee args => refersTo base callee || anyRefersTo base args
  | .call f args => base ≤ f || anyRefersTo base args
  | .block body => stmtsReferTo base body
  | .assign _ value => refersTo base value
  | .tuple items => anyRefersTo base items
  | .ite cond yes no => refersTo base cond || refersTo base yes || refersTo base no
  | .ret value => refersTo base value

/-- The same for expressions one after the other. -/
def anyRefersTo (base : Nat) : Exprs → Bool
  | .nil => false
  | .cons e rest => refersTo base e || anyRefersTo base rest

/-- The same for statements. -/
def stmtsReferTo (base : Nat) : Stmts → Bool
  | .nil => false
  | .bind _ _ e rest => refersTo base e || stmtsReferTo base rest
  | .expr e rest => refersTo base e || stmtsReferTo base rest

end

/-- The types of the functions of a group before inference, all of them new variables, emit_functions.rs:754-905. -/
def headers (n : Nat) : List Fn → List Sig × Nat
  | [] => ([], n)
  | f :: rest =>
    (⟨[], vars n f.params.length, .var (n + f.params.length)⟩ :: (headers (n + f.params.length + 1) rest).1,
      (headers (n + f.params.length + 1) rest).2)

/-- The bodies of a group, emit_functions.rs:1003-1130: whether each has the type `never`, the number of variables and the
equations. -/
def bodies (c : Ctx) (n : Nat) : List (Sig × Fn) → Option (List Bool × Nat × List (Ty × Ty))
  | [] => some ([], n, [])
  | (s, f) :: rest =>
    infer c s.ret (enter f.params (fixed s.args) []) (some s.ret) n f.body >>= fun o =>
      bodies c o.next rest >>= fun r => some (decide (o.ty = .never) :: r.1, r.2.1, o.eqs ++ r.2.2)

mutual

/-- The variables of a type, `inner_ty_vars`. -/
def varsOf : Ty → List Nat
  | .never => []
  | .var v => [v]
  | .node _ args => varsOfParts args

/-- The same for the parts. -/
def varsOfParts : Args → List Nat
  | .nil => []
  | .cons _ t rest => varsOf t ++ varsOfParts rest

end

/-- A function which does not return gets the result type `never`, `default_unconstrained_diverging_returns_to_never`
emit_functions.rs:482-552. -/
def defaulted (diverges : Bool) (args : List Ty) (ret : Ty) : Ty :=
  match ret with
  | .var v => if diverges && !args.any (·.contains v) then .never else ret
  | _ => ret

/-- All variables of a type are quantified, emit_functions.rs:1662-1669 and 1731. -/
def generalise (args : List Ty) (ret : Ty) : Sig := ⟨((args.map varsOf).flatten ++ varsOf ret).dedup, args, ret⟩

/-- The type of a function after solving the equations. -/
def finish (tab : Table) (base : Nat) : List (Bool × Sig × Fn) → Option (List Sig)
  | [] => some []
  | (never, s, f) :: rest =>
    s.args.mapM (Unify.normalize tab) >>= fun args => Unify.normalize tab s.ret >>= fun ret =>
      finish tab base rest >>= fun rest =>
        some (generalise args (defaulted (never || refersTo base f.body) args ret) :: rest)

/-- The table of the solved equations. -/
def solved (pick : Nat → Nat → Bool) (n : Nat) (eqs : List (Ty × Ty)) : Option Table :=
  match Unify.solve pick (Unify.fresh n) eqs with
  | some (.ok tab) => some tab
  | _ => none

/-- Inference of a group of functions which call each other; `sigs` are the types of the functions before. -/
def inferGroup (pick : Nat → Nat → Bool) (strict : Bool) (sigs : List Sig) (group : List Fn) : Option (List Sig) :=
  bodies ⟨strict, sigs ++ (headers 0 group).1⟩ (headers 0 group).2 ((headers 0 group).1.zip group) >>= fun b =>
    solved pick b.2.1 b.2.2 >>= fun tab =>
      finish tab sigs.length (b.1.zip ((headers 0 group).1.zip group)) >>= fun new => some (sigs ++ new)

/-- Inference of the groups of a module one after the other, callees first. -/
def inferGroups (pick : Nat → Nat → Bool) (strict : Bool) (sigs : List Sig) : List (List Fn) → Option (List Sig)
  | [] => some sigs
  | group :: rest => inferGroup pick strict sigs group >>= fun sigs => inferGroups pick strict sigs rest

end Ferlium.TypeInfer
