/-!
Model of destructuring bindings: `expand_let_pattern` and its helpers of `src/desugar/patterns.rs`, which turn
`let pattern = source;` and the pattern of a `for` loop into bindings of single names.

Type checks on patterns (`tuple_pattern_type_constraint`, `record_pattern_type_constraint`) do not change the code which is
produced apart from the wrapper `constraint`, and are left out; locations, type ascriptions of the binding and mutability as
well.  What the statements do is the reference semantics at the end of the file: names are looked up from the most recent
binding on (`get_variable_id`, src/types/typing_env.rs:187-194).
-/
namespace Ferlium.Destructure

/-- Names of locals: those of the user, and `@destructure0`, `@destructure1`, … (`fresh_generated_local`,
src/desugar/mod.rs:176-180), which no identifier of a source text can be (parser.lalrpop:1463-1464). -/
inductive Name where
  | user (s : String)
  | made (k : Nat)
  deriving DecidableEq, Repr

/-- A component of a product: an element of a tuple by position, a field of a record by name. -/
inductive Key where
  | index (i : Nat)
  | field (name : String)
  deriving DecidableEq, Repr

/-- Desugared expressions, as far as `is_replayable_destructuring_source` tells them apart (patterns.rs:72-82). -/
inductive Expr (V : Type) where
  | ident (n : Name)
  | lit (v : V)
  | get (k : Key) (e : Expr V)
  | constraint (e : Expr V)
  | ascription (e : Expr V)
  /-- Anything else: calls, blocks, conditionals, … -/
  | other (id : Nat)
  deriving Repr

/-- Desugared statements. -/
inductive Stmt (V : Type) where
  | bind (n : Name) (e : Expr V)
  | expr (e : Expr V)
  deriving Repr

mutual

/-- `LetPatternKind`, src/ast/patterns.rs.  A tuple pattern lists all its elements with their positions, a record pattern the
fields it names; `constrained` tells whether the type of the source is constrained by the pattern (always for tuples,
for records when a struct is named; patterns.rs:224-227, 322-333). -/
inductive Pat where
  | bind (name : String)
  | ignore
  | product (constrained : Bool) (parts : Parts)

/-- The elements or fields of a pattern. -/
inductive Parts where
  | nil
  | cons (key : Key) (p : Pat) (rest : Parts)

end

/-- `pattern_consumes_source` (patterns.rs:54-56). -/
def Pat.consumes : Pat → Bool
  | .ignore => false
  | _ => true

/-- `tuple_pattern_source_uses`, `record_pattern_source_uses` (patterns.rs:58-70). -/
def Parts.uses : Parts → Nat
  | .nil => 0
  | .cons _ p rest => (if p.consumes then 1 else 0) + rest.uses

mutual

/-- The names a pattern binds, in order (`collect_let_pattern_bindings`, patterns.rs:110-141). -/
def Pat.binds : Pat → List String
  | .bind n => [n]
  | .ignore => []
  | .product _ parts => parts.binds

/-- The names of the parts. -/
def Parts.binds : Parts → List String
  | .nil => []
  | .cons _ p rest => p.binds ++ rest.binds

end

section
variable {V : Type}

/-- `is_replayable_destructuring_source` (patterns.rs:72-82). -/
def Expr.replayable : Expr V → Bool
  | .ident _ => true
  | .lit _ => true
  | .get _ e => e.replayable
  | .constraint e => e.replayable
  | .ascription e => e.replayable
  | .other _ => false

mutual

/-- `expand_let_pattern` (patterns.rs:339-478) with `maybe_materialize_destructuring_source` (84-108); `k` is the counter of
generated names, the second component of the result its new value. -/
def expand : Pat → Expr V → Nat → List (Stmt V) × Nat
  | .bind n, e, k => ([.bind (.user n) e], k)
  | .ignore, _, k => ([], k)
  | .product c parts, e, k =>
    let e := if c then .constraint e else e
    if parts.uses = 0 then ([.expr e], k)
    else if parts.uses ≤ 1 || e.replayable then expandParts parts e k
    else
      let r := expandParts parts (.ident (.made k)) (k + 1)
      (.bind (.made k) e :: r.1, r.2)

/-- The loop over the elements or fields (patterns.rs:399-418, 458-477). -/
def expandParts : Parts → Expr V → Nat → List (Stmt V) × Nat
  | .nil, _, k => ([], k)
  | .cons key p rest, e, k =>
    if p.consumes then
      let a := expand p (.get key e) k
      let b := expandParts rest e a.2
      (a.1 ++ b.1, b.2)
    else expandParts rest e k

end

/-- `desugar_pattern_bindings` (patterns.rs:480-500): `none` when a name is bound twice. -/
def desugar (p : Pat) (e : Expr V) (k : Nat) : Option (List (Stmt V) × Nat) :=
  if p.binds.Nodup then some (expand p e k) else none

/-- Locals, the most recent binding first. -/
abbrev Env (V : Type) := List (Name × V)

/-- `get_variable_id` (typing_env.rs:187-194). -/
def Env.get (env : Env V) (n : Name) : Option V :=
  match env with
  | [] => none
  | (m, v) :: rest => if m = n then some v else Env.get rest n

/-- What values are and what expressions of other kinds do.  `none` is a failure at run time.  An access to a field may run
code of the user (custom projections, src/hir/emit_subscripts.rs), an access to an element of a tuple does not. -/
structure World (V σ : Type) where
  index : Nat → V → Option V
  field : String → V → σ → Option (V × σ)
  other : Nat → Env V → σ → Option (V × Env V × σ)

variable {σ : Type} (W : World V σ)

/-- Access to a component. -/
def World.get : Key → V → σ → Option (V × σ)
  | .index i, v, s => (W.index i v).map (·, s)
  | .field n, v, s => W.field n v s

/-- Evaluation of an expression: its value, and the locals and the rest of the state after it. -/
def eval : Expr V → Env V → σ → Option (V × Env V × σ)
  | .ident n, env, s => (env.get n).map (·, env, s)
  | .lit v, env, s => some (v, env, s)
  | .get k e, env, s =>
    (eval e env s).bind fun r => (W.get k r.1 r.2.2).map fun q => (q.1, r.2.1, q.2)
  | .constraint e, env, s => eval e env s
  | .ascription e, env, s => eval e env s
  | .other id, env, s => W.other id env s

/-- Execution of statements. -/
def exec : List (Stmt V) → Env V → σ → Option (Env V × σ)
  | [], env, s => some (env, s)
  | .bind n e :: rest, env, s =>
    (eval W e env s).bind fun r => exec rest ((n, r.1) :: r.2.1) r.2.2
  | .expr e :: rest, env, s => (eval W e env s).bind fun r => exec rest r.2.1 r.2.2

end

end Ferlium.Destructure
