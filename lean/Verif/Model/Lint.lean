import Mathlib.Data.List.Nodup

/-!
# Warnings about needless returns (`src/compiler/lints.rs`)

Source expressions as far as the lint tells them apart. Types and names are not modelled.
-/

namespace Ferlium.Lint

/-- A location in a source. src/parser/location.rs:63-66. -/
structure Loc where
  source : Nat
  start : Nat
  stop : Nat
deriving DecidableEq, Repr

/-- `Location::is_synthesized`, src/parser/location.rs:114-117. -/
def Loc.synthesized (l : Loc) : Bool := l.source == 0 && l.start == l.stop

/-- `ExprKind`, src/ast/expr.rs:289-323. `wrap` stands for `EffectsUnsafe`, `TypeAscription` and
`PatternConstraint`; `cases` is `Match` with the branch for the default last, if there is one; `lit`
is a literal and whether it is the unit; `other` is any other kind with its parts. -/
inductive Expr where
  | ret (span : Loc) (value : Expr)
  | block (span : Loc) (stmts : List Expr)
  | cases (span : Loc) (scrutinee : Expr) (patterns : List Nat) (branches : List Expr)
  | wrap (span : Loc) (kind : Nat) (inner : Expr)
  | lit (span : Loc) (isUnit : Bool) (value : Nat)
  | other (span : Loc) (kind : Nat) (parts : List Expr)

/-- The span of an expression. -/
def Expr.span : Expr → Loc
  | .ret l _ | .block l _ | .cases l .. | .wrap l .. | .lit l .. | .other l .. => l

/-- `CompilationWarning`, src/compiler/diagnostics.rs:34-37. -/
inductive Warning where
  | unreachable (location : Loc)
  | needless (location : Loc)
deriving DecidableEq, Repr

/-- `is_synthesized_unit_expr`, lints.rs:15-22. -/
def synthesizedUnit : Expr → Bool
  | .lit l u _ => l.synthesized && u
  | _ => false

/-- `is_unreachable`, lints.rs:24-35. -/
def isUnreachable (l : Loc) (warnings : List Warning) : Bool :=
  warnings.any fun w => match w with
    | .unreachable u => u.source == l.source && decide (u.start ≤ l.start) && decide (l.stop ≤ u.stop)
    | .needless _ => false

/-- The location of a warning about a return. lints.rs:56-62. The panic of `Location::new`
for a value that ends before the return starts is left out. -/
def place (l : Loc) (value : Expr) : Loc := ⟨l.source, l.start, value.span.stop⟩

/-- The branch for returns. lints.rs:54-64. -/
def reportReturn (l : Loc) (value : Expr) (warnings : List Warning) : List Warning :=
  if !l.synthesized && !isUnreachable l warnings then warnings ++ [.needless (place l value)]
  else warnings

/-- The first statement that is a return. lints.rs:69-71. -/
def firstReturn : List Expr → Option (Loc × Expr)
  | [] => none
  | .ret l v :: _ => some (l, v)
  | _ :: t => firstReturn t

mutual
/-- `report_needless_returns_in_tail`, lints.rs:47-97. -/
def report : Expr → List Warning → List Warning
  | .ret l v, w => reportReturn l v w
  | .block _ es, w => match firstReturn es with
    | some (l, v) => reportReturn l v w
    | none => reportLast es w
  | .cases _ _ _ bs, w => reportAll bs w
  | .wrap _ _ e, w => report e w
  | .lit .., w => w
  | .other .., w => w
/-- The last statement of a block. lints.rs:66-68, 74-76. -/
def reportLast : List Expr → List Warning → List Warning
  | [], w => w
  | [e], w => if synthesizedUnit e then w else report e w
  | _ :: e :: t, w => reportLast (e :: t) w
/-- The branches of a match. lints.rs:78-85. -/
def reportAll : List Expr → List Warning → List Warning
  | [], w => w
  | e :: t, w => reportAll t (report e w)
end

end Ferlium.Lint
