import Verif.Model.Effects

/-!
# Effect inference: the solver of effect inclusions and a core of programs with callbacks

Models `src/types/type_inference/effect_solver.rs` (the effect table, dependent effects, inclusions,
pending and deferred ones), the flattening of effects in
`src/types/type_inference/substitution.rs:417-500`, and what `src/hir/emit_functions.rs`,
`src/hir/emit_hir.rs` and `src/types/type_inference/expr.rs` do with effects for a core of the
language: functions whose parameters are callbacks of type `() -> ()`, closures without parameters,
calls of natives, of callbacks and of functions.  Types, traits, mutability and spans are left out.
An effect set is its primitive effects and its sorted variables (C21 proves that the representation
of `src/types/effects.rs` is such a set).
-/

namespace Ferlium.EffInfer

export Ferlium.Effects (Prim)

/-- Sets of primitive effects, `PrimitiveEffects` (`src/types/effects.rs:70-130`). -/
structure Prims where
  read : Bool
  write : Bool
  fallible : Bool
  deriving DecidableEq, Repr

namespace Prims

/-- The empty set. -/
def none : Prims := ⟨false, false, false⟩

/-- Membership, `PrimitiveEffects::contains` (`src/types/effects.rs:106`). -/
def has (s : Prims) : Prim → Bool
  | .read => s.read
  | .write => s.write
  | .fallible => s.fallible

/-- `PrimitiveEffects::union_with` (`src/types/effects.rs:102`). -/
def union (s t : Prims) : Prims := ⟨s.read || t.read, s.write || t.write, s.fallible || t.fallible⟩

/-- All of `s` is in `t`. -/
def sub (s t : Prims) : Bool := (!s.read || t.read) && (!s.write || t.write) && (!s.fallible || t.fallible)

/-- One primitive effect. -/
def one : Prim → Prims
  | .read => ⟨true, false, false⟩
  | .write => ⟨false, true, false⟩
  | .fallible => ⟨false, false, true⟩

end Prims

/-- Insertion into a sorted list without repetitions. -/
def insVar (x : Nat) : List Nat → List Nat
  | [] => [x]
  | y :: ys => if x < y then x :: y :: ys else if x = y then y :: ys else y :: insVar x ys

/-- `EffType` (`src/types/effects.rs:176`): primitive effects and effect variables. -/
structure Eff where
  prims : Prims
  vars : List Nat
  deriving DecidableEq, Repr

namespace Eff

/-- `EffType::empty` (`src/types/effects.rs:178`). -/
def empty : Eff := ⟨Prims.none, []⟩

/-- `EffType::multiple_primitive` (`src/types/effects.rs:213`). -/
def ground (s : Prims) : Eff := ⟨s, []⟩

/-- `EffType::single_variable` (`src/types/effects.rs:194`). -/
def var (v : Nat) : Eff := ⟨Prims.none, [v]⟩

/-- `EffType::union` and `extend` (`src/types/effects.rs:239-281`). -/
def union (a b : Eff) : Eff := ⟨a.prims.union b.prims, a.vars.foldr insVar b.vars⟩

/-- `EffType::to_single_variable` (`src/types/effects.rs:287-295`). -/
def single (e : Eff) : Option Nat :=
  if e.prims = Prims.none then
    match e.vars with
    | [v] => some v
    | _ => none
  else none

/-- `EffType::is_only_vars` (`src/types/effects.rs:297`): true of the empty set too. -/
def onlyVars (e : Eff) : Bool := e.prims = Prims.none

/-- `EffType::is_subset_of` (`src/types/effects.rs:345-355`): false if `a` has variables. -/
def subsetOf (a b : Eff) : Bool := a.vars = [] && a.prims.sub b.prims

end Eff

/-! ## The table of effect variables -/

/-- The union-find table of effect variables (`InPlaceUnificationTable<EffectVarKey>`,
`src/types/type_inference/tables.rs:53-80`): the representative of every variable and the value of
every representative.  Path compression and ranks are left out, so the representative of a merged
class may have another name. -/
structure Table where
  next : Nat
  rep : Nat → Nat
  val : Nat → Option Eff

namespace Table

/-- The empty table. -/
def empty : Table := ⟨0, id, fun _ => none⟩

/-- `new_key` of the table. -/
def newKey (t : Table) (v : Option Eff) : Table :=
  { t with next := t.next + 1, val := fun k => if k = t.next then v else t.val k }

/-- `unify_values` on optional effects: the union (`tables.rs:73-80`). -/
def merge : Option Eff → Option Eff → Option Eff
  | none, b => b
  | a, none => a
  | some a, some b => some (a.union b)

/-- `union_value`: merge a value into the value of the class of `v`. -/
def unionValue (t : Table) (v : Nat) (e : Eff) : Table :=
  { t with val := fun k => if k = t.rep v then merge (t.val k) (some e) else t.val k }

/-- `union`: merge two classes and their values. -/
def union (t : Table) (a b : Nat) : Table :=
  if t.rep a = t.rep b then t
  else
    { t with
      rep := fun k => if t.rep k = t.rep a then t.rep b else t.rep k
      val := fun k => if k = t.rep b then merge (t.val (t.rep a)) (t.val (t.rep b)) else t.val k }

end Table

/-- The cache of the flattening functions: a representative and its flattened effect. -/
abbrev Cache := List (Nat × Eff)

/-- What flattening does with one variable: `normalize_effect_inner`
(`src/types/type_inference/effect_solver.rs:596-627`) with `keep = false` and
`substitute_effect_var` (`src/types/type_inference/substitution.rs:441-480`) with `keep = true`,
which adds the representative to an effect with primitives. `rec` flattens the value of a
representative. -/
def flatVar (keep : Bool) (t : Table) (vis : List Nat)
    (rec : List Nat → Cache → Eff → Eff × Cache) (s : Eff × Cache) (v : Nat) : Eff × Cache :=
  let r := t.rep v
  match s.2.lookup r with
  | some e => (s.1.union e, s.2)
  | none =>
    if r ∈ vis then (s.1.union (Eff.var r), s.2)
    else
      match t.val r with
      | none => (s.1.union (Eff.var r), (r, Eff.var r) :: s.2)
      | some e =>
        let x := rec (r :: vis) s.2 e
        let y := if keep && !x.1.onlyVars then x.1.union (Eff.var r) else x.1
        (s.1.union y, (r, y) :: x.2)

/-- Flattening of an effect: its primitives and the flattened effects of its variables
(`effect_solver.rs:596-627`, `substitution.rs:419-439`).  The fuel bounds the depth, which is at most
the number of variables because visited representatives are not entered again. -/
def flat (keep : Bool) (t : Table) : Nat → List Nat → Cache → Eff → Eff × Cache
  | 0, _, c, e => (Eff.ground e.prims, c)
  | n + 1, vis, c, e => e.vars.foldl (flatVar keep t vis (flat keep t n)) (Eff.ground e.prims, c)

/-- `normalize_effect` (`effect_solver.rs:590-594`). -/
def normalize (t : Table) (e : Eff) : Eff := (flat false t (t.next + 1) [] [] e).1

/-- `substitute_effect_type` with a given cache (`substitution.rs:497-499`). -/
def substIn (t : Table) (c : Cache) (e : Eff) : Eff × Cache := flat true t (t.next + 1) [] c e

/-! ## Inclusions -/

/-- The state of the solver: the table, the dependencies waiting to be expanded (a source and a
target variable), and the deferred inclusions (`effect_solver.rs:84-90`). -/
structure Solver where
  table : Table
  pending : List (Eff × Nat)
  deferred : List (Eff × Eff)

/-- Merge `e` into the values of all the variables. -/
def unionAll (t : Table) (vs : List Nat) (e : Eff) : Table := vs.foldl (fun t v => t.unionValue v e) t

/-- The part of `try_add_effect_inclusion` which normalizes both sides
(`effect_solver.rs:473-545`): `none` is the error, the flag tells whether the inclusion was dealt
with. -/
def addNormalized (s : Solver) (lower upper : Eff) (defer : Bool) : Option (Bool × Solver) :=
  if lower = Eff.empty ∨ lower = upper ∨ lower.subsetOf upper then some (true, s)
  else
    match lower.vars, upper.vars with
    | [], [] => none
    | _ :: _, [] => some (true, { s with table := unionAll s.table lower.vars upper })
    | [], _ :: _ =>
      match upper.single with
      | some v => some (true, { s with pending := s.pending ++ [(lower, v)] })
      | none =>
        if defer then some (true, { s with deferred := s.deferred ++ [(lower, upper)] })
        else some (false, s)
    | _ :: _, _ :: _ =>
      match lower.single with
      | some v => some (true, { s with table := s.table.unionValue v upper })
      | none =>
        match upper.single with
        | some v => some (true, { s with pending := s.pending ++ [(lower, v)] })
        | none =>
          if defer then some (true, { s with deferred := s.deferred ++ [(lower, upper)] })
          else some (false, s)

/-- Whether the value of a variable is absent or made of variables only
(`effect_solver.rs:461-463`). -/
def accumulates : Option Eff → Bool
  | none => true
  | some e => e.onlyVars

/-- `try_add_effect_inclusion` (`effect_solver.rs:448-546`). -/
def tryAdd (s : Solver) (lower upper : Eff) (defer : Bool) : Option (Bool × Solver) :=
  match lower.single with
  | some v =>
    if accumulates (s.table.val (s.table.rep v)) then
      if normalize s.table upper = Eff.empty ∨ normalize s.table upper = Eff.var (s.table.rep v) then
        some (true, s)
      else some (true, { s with table := s.table.unionValue (s.table.rep v) (normalize s.table upper) })
    else addNormalized s (normalize s.table lower) (normalize s.table upper) defer
  | none => addNormalized s (normalize s.table lower) (normalize s.table upper) defer

/-- `materialize_residual_inclusion` (`effect_solver.rs:548-588`). -/
def materialize (s : Solver) (lower upper : Eff) : Option Solver :=
  let lower := normalize s.table lower
  let upper := normalize s.table upper
  if lower = Eff.empty ∨ lower = upper ∨ lower.subsetOf upper then some s
  else
    match lower.vars, upper.vars with
    | [], [] => none
    | _ :: _, _ => some { s with table := unionAll s.table lower.vars upper }
    | [], _ :: _ => some { s with pending := s.pending ++ upper.vars.map (fun v => (lower, v)) }

/-- `expand_pending_dependency_inner` (`effect_solver.rs:637-693`): `none` is the error.  The fuel
bounds the depth, see `flat`. -/
def expand : Nat → Table → Eff → Nat → List Nat → Option Table
  | 0, _, _, _, _ => none
  | n + 1, t, source, target, vis =>
    let r := t.rep target
    if r ∈ vis then some (t.unionValue r (source.union (Eff.var r)))
    else
      match t.val r with
      | none => some (t.unionValue r (source.union (Eff.var r)))
      | some e =>
        if source.subsetOf (Eff.ground e.prims) then some t
        else if e.vars = [] then none
        else e.vars.foldlM (fun t v => expand n t source v (r :: vis)) (t.unionValue r (e.union source))

/-- `expand_all_pending_dependencies` (`effect_solver.rs:420-426`). -/
def expandAll (t : Table) (ps : List (Eff × Nat)) : Option Table :=
  ps.foldlM (fun t p => expand (t.next + 1) t p.1 p.2 []) t

/-- Retry the deferred inclusions, keeping the unresolved ones (`effect_solver.rs:406-412`). -/
def retry : Solver → List (Eff × Eff) → Option (Solver × List (Eff × Eff))
  | s, [] => some (s, [])
  | s, (l, u) :: ds =>
    match tryAdd s l u false with
    | none => none
    | some (true, s) => retry s ds
    | some (false, s) =>
      match retry s ds with
      | none => none
      | some (s, rs) => some (s, (l, u) :: rs)

/-- `expand_pending_dependencies` (`effect_solver.rs:403-418`). -/
def finish (s : Solver) : Option Table :=
  match expandAll s.table s.pending with
  | none => none
  | some t =>
    match retry { s with table := t, pending := [], deferred := [] } s.deferred with
    | none => none
    | some (s, rs) =>
      match rs.foldlM (fun s d => materialize s d.1 d.2) s with
      | none => none
      | some s => expandAll s.table s.pending

/-- All inclusions in order, then the pending and deferred ones (`unify.rs:254-417`). -/
def solve (t : Table) (cs : List (Eff × Eff)) : Option Table :=
  match cs.foldlM (fun s c => (tryAdd s c.1 c.2 true).map (·.2)) (⟨t, [], []⟩ : Solver) with
  | none => none
  | some s => finish s

/-! ## A core of programs -/

mutual

/-- A statement: the call of a native function with the given effects, of the callback bound to a
parameter, or of a function (numbered in the order of definition) with callbacks. -/
inductive Stmt where
  | native (e : Prims)
  | callParam (i : Nat)
  | callFn (f : Nat) (args : List Arg)

/-- A callback given to a function: a parameter of the function around it, a closure without
parameters, or a function without parameters. -/
inductive Arg where
  | param (j : Nat)
  | lam (body : List Stmt)
  | fn (g : Nat)

end

/-- A function: its parameters, all callbacks `() -> ()`, with the effects of their annotation if
it gives some (`() -> () ! read`, `() -> () ! ()`), and its body. -/
structure Decl where
  params : List (Option Prims)
  body : List Stmt

/-- The inferred type of a function: the effects of its parameters and its own effects.  The
quantified variables are those of the parameters (`input_effect_vars`,
`src/hir/emit_functions.rs:1715`). -/
structure Scheme where
  params : List Eff
  eff : Eff
  deriving DecidableEq, Repr

/-- The variables of the parameters of a type. -/
def inputVars (ps : List Eff) : List Nat := ps.foldr (fun e vs => e.vars.foldr insVar vs) []

/-- `Type::map` on the effects of a type with a substitution of effect variables
(`EffType::instantiate`, `src/types/effects.rs`): variables without image are kept. -/
def Eff.inst (σ : List (Nat × Eff)) (e : Eff) : Eff :=
  e.vars.foldl (fun a v => a.union ((σ.lookup v).getD (Eff.var v))) (Eff.ground e.prims)

/-! ### Generation of the inclusions -/

/-- The state of inference of the bodies: the table and the inclusions in order. -/
structure Gen where
  table : Table
  cons : List (Eff × Eff)

/-- `make_dependent_effect` (`effect_solver.rs:149-172`). -/
def makeDep (t : Table) : List Eff → Eff × Table
  | [] => (Eff.empty, t)
  | [e] => (e, t)
  | e :: es =>
    let u := es.foldl Eff.union e
    if u.vars = [] ∨ u.single.isSome then (u, t)
    else (Eff.var t.next, t.newKey (some u))

/-- `unify_effects` (`effect_solver.rs:175-195`). -/
def unifyEffects (t : Table) (a b : Eff) : Eff × Table :=
  match a.single, b.single with
  | none, none => (a.union b, t)
  | none, some v => (a, t.unionValue v a)
  | some v, none => (b, t.unionValue v b)
  | some v, some w => (a, t.union v w)

/-- Fresh variables for quantified ones (`fresh_effect_var_subst`,
`src/types/type_scheme.rs:943`). -/
def freshSubst : Table → List Nat → List (Nat × Eff) × Table
  | t, [] => ([], t)
  | t, v :: vs =>
    let r := freshSubst (t.newKey none) vs
    ((v, Eff.var t.next) :: r.1, r.2)

/-- The functions in scope: the types of the earlier ones, the types of those of the group being
inferred, and the effects of the parameters of the current function. -/
structure Scope where
  done : List Scheme
  group : List Scheme
  params : List Eff

/-- The type of a function at a use: instantiated with fresh variables if it is an earlier one
(`instantiate_with_fresh_vars`, `src/types/type_scheme.rs:935-967`), as it is inside its group. -/
def useFn (Γ : Scope) (f : Nat) (t : Table) : Option (Scheme × Table) :=
  match Γ.done[f]? with
  | some s =>
    let r := freshSubst t (inputVars s.params)
    some (⟨s.params.map (Eff.inst r.1), s.eff.inst r.1⟩, r.2)
  | none => (Γ.group[f - Γ.done.length]?).map (fun s => (s, t))

/-- `add_sub_type_constraint` between the types of an argument and of a parameter
(`src/types/type_inference/expr.rs:5866-5882`, effects by `unify.rs:808`): nothing if they are
equal. -/
def Gen.include (g : Gen) (lower upper : Eff) : Gen :=
  if lower = upper then g else { g with cons := g.cons ++ [(lower, upper)] }

mutual

/-- Inference of a statement (`expr.rs:1303-1425` for a callback, `expr.rs:5422-5475` and
`expr.rs:4007-4040` for a function): its effects. `none` means that a name or a number of
arguments is wrong. -/
def inferStmt (Γ : Scope) : Stmt → Gen → Option (Eff × Gen)
  | .native e, g => some (Eff.ground e, g)
  | .callParam i, g =>
    match Γ.params[i]? with
    | none => none
    | some p =>
      some (Eff.var g.table.next,
        Gen.include ⟨g.table.newKey none, g.cons⟩ p (Eff.var g.table.next))
  | .callFn f args, g =>
    match useFn Γ f g.table with
    | none => none
    | some (s, t) =>
      match inferArgs Γ args s.params ⟨t, g.cons⟩ with
      | none => none
      | some g =>
        let r := makeDep g.table [Eff.empty, s.eff]
        some (r.1, ⟨r.2, g.cons⟩)

/-- Inference of the arguments against the effects of the parameters
(`check_exprs_until_never`, `expr.rs:5741-5763`; `check_expr`, `expr.rs:5766-5830`). -/
def inferArgs (Γ : Scope) : List Arg → List Eff → Gen → Option Gen
  | [], [], g => some g
  | a :: as, p :: ps, g =>
    match inferArg Γ a g with
    | none => none
    | some (e, g) => inferArgs Γ as ps (g.include e p)
  | _, _, _ => none

/-- The effects of the type of an argument: those of the body of a closure
(`infer_abstract`, `expr.rs:565-690`). -/
def inferArg (Γ : Scope) : Arg → Gen → Option (Eff × Gen)
  | .param j, g => (Γ.params[j]?).map (fun p => (p, g))
  | .lam body, g =>
    match inferStmts Γ body g with
    | none => none
    | some (es, g) =>
      let r := makeDep g.table es
      some (r.1, ⟨r.2, g.cons⟩)
  | .fn f, g =>
    match useFn Γ f g.table with
    | none => none
    | some (s, t) => if s.params = [] then some (s.eff, ⟨t, g.cons⟩) else none

/-- The effects of the statements of a block (`expr.rs:1439-1475`). -/
def inferStmts (Γ : Scope) : List Stmt → Gen → Option (List Eff × Gen)
  | [], g => some ([], g)
  | s :: ss, g =>
    match inferStmt Γ s g with
    | none => none
    | some (e, g) =>
      match inferStmts Γ ss g with
      | none => none
      | some (es, g) => some (e :: es, g)

end

mutual

/-- Whether a statement refers to a function of the group (`node_references_any_function`,
`src/hir/emit_functions.rs:344`): functions numbered from `n` on. -/
def refersStmt (n : Nat) : Stmt → Bool
  | .native _ => false
  | .callParam _ => false
  | .callFn f args => decide (n ≤ f) || refersArgs n args

/-- The same for the arguments of a call. -/
def refersArgs (n : Nat) : List Arg → Bool
  | [] => false
  | a :: as => refersArg n a || refersArgs n as

/-- The same for an argument. -/
def refersArg (n : Nat) : Arg → Bool
  | .param _ => false
  | .lam body => refersStmts n body
  | .fn f => decide (n ≤ f)

/-- The same for statements. -/
def refersStmts (n : Nat) : List Stmt → Bool
  | [] => false
  | s :: ss => refersStmt n s || refersStmts n ss

end

/-- The effects of the parameters of a function: those of the annotation, or a fresh variable
(`map_effect_type`, `expr.rs:6103-6121`). -/
def declParams : Table → List (Option Prims) → List Eff × Table
  | t, [] => ([], t)
  | t, some e :: ps => let r := declParams t ps; (Eff.ground e :: r.1, r.2)
  | t, none :: ps => let r := declParams (t.newKey none) ps; (Eff.var t.next :: r.1, r.2)

/-- First pass over the functions of a group: types with a fresh variable for the effects
(`src/hir/emit_functions.rs:895-897`). -/
def declGroup : Table → List Decl → List Scheme × Table
  | t, [] => ([], t)
  | t, d :: ds =>
    let p := declParams t d.params
    let r := declGroup (p.2.newKey none) ds
    (⟨p.1, Eff.var p.2.next⟩ :: r.1, r.2)

/-- The body of one function: its effects, wrapped with those of the check of the call depth if it
refers to its group (`emit_functions.rs:335-365`), and unified with the effects of its type
(`emit_functions.rs:1122-1125`). -/
def inferDecl (done group : List Scheme) (s : Scheme) (d : Decl) (g : Gen) : Option (Scheme × Gen) :=
  match inferStmts ⟨done, group, s.params⟩ d.body g with
  | none => none
  | some (es, g) =>
    let b := makeDep g.table es
    let w := if refersStmts done.length d.body then makeDep b.2 [Eff.empty, b.1] else b
    let u := unifyEffects w.2 w.1 s.eff
    some (⟨s.params, u.1⟩, ⟨u.2, g.cons⟩)

/-- Second pass: all the bodies of a group in order (`emit_functions.rs:1002-1145`). -/
def inferDecls (done group : List Scheme) : List Scheme → List Decl → Gen → Option (List Scheme × Gen)
  | s :: ss, d :: ds, g =>
    match inferDecl done group s d g with
    | none => none
    | some (s, g) =>
      match inferDecls done group ss ds g with
      | none => none
      | some (rs, g) => some (s :: rs, g)
  | _, _, g => some ([], g)

/-! ### Generalisation -/

/-- Substitution in the effects of the parameters, sharing the cache
(`substitute_fn_type_in_place`, `src/types/type_substitution.rs:134-151`). -/
def substParams (t : Table) : Cache → List Eff → List Eff × Cache
  | c, [] => ([], c)
  | c, e :: es =>
    let x := substIn t c e
    let r := substParams t x.2 es
    (x.1 :: r.1, r.2)

/-- Substitution in the type of a function: the parameters first, then the effects. -/
def substScheme (t : Table) (s : Scheme) : Scheme :=
  let r := substParams t [] s.params
  ⟨r.1, (substIn t r.2 s.eff).1⟩

/-- Merge the first variable of a list with the others. -/
def unionVars (t : Table) : List Nat → Table
  | [] => t
  | v :: vs => vs.foldl (fun t w => t.union v w) t

/-- `unify_fn_arg_effects` (`effect_solver.rs:197-213`): the variables of each parameter are
merged. -/
def unifyArgs (t : Table) (ps : List Eff) : Table := ps.foldl (fun t e => unionVars t e.vars) t

/-- Variables replaced by their representatives (`effect_unioned`, `src/hir/emit_hir.rs:442-452`). -/
def Eff.canon (t : Table) (e : Eff) : Eff :=
  e.vars.foldl (fun a v => a.union (Eff.var (t.rep v))) (Eff.ground e.prims)

/-- `default_output_effects_in_functions` (`src/hir/emit_hir.rs:368-420`): variables of the effects
which are not in the parameters become empty. -/
def defaultEff (ps : List Eff) (e : Eff) : Eff :=
  ⟨e.prims, e.vars.filter (fun v => v ∈ inputVars ps)⟩

/-- The final type of one function (`substitute_and_canonicalize_functions`,
`src/hir/emit_hir.rs:422-475`, and the defaulting of its effects). -/
def closeScheme (t : Table) (s : Scheme) : Scheme × Table :=
  let s := substScheme t s
  let t := unifyArgs t s.params
  let ps := s.params.map (Eff.canon t)
  (⟨ps, defaultEff ps (s.eff.canon t)⟩, t)

/-- The final types of the functions of a group in order. -/
def closeAll : Table → List Scheme → List Scheme
  | _, [] => []
  | t, s :: ss => let r := closeScheme t s; r.1 :: closeAll r.2 ss

/-- Inference of a group of functions (`emit_functions`, `src/hir/emit_functions.rs:560-1800`), given
the types of the earlier ones; `none` is a rejection. -/
def inferGroup (done : List Scheme) (ds : List Decl) : Option (List Scheme) :=
  let g := declGroup Table.empty ds
  match inferDecls done g.1 g.1 ds ⟨g.2, []⟩ with
  | none => none
  | some (ss, g) =>
    match solve g.table g.cons with
    | none => none
    | some t => some (closeAll t ss)

/-- Inference of a program: groups of functions, each with the types of the earlier ones
(`src/hir/emit_hir.rs:954-993`). -/
def inferFrom : List Scheme → List (List Decl) → Option (List Scheme)
  | done, [] => some done
  | done, ds :: rest =>
    match inferGroup done ds with
    | none => none
    | some ss => inferFrom (done ++ ss) rest

/-- The types inferred for the functions of a program, in order. -/
def infer (groups : List (List Decl)) : Option (List Scheme) := inferFrom [] groups

end Ferlium.EffInfer
