import Verif.Model.StringApi

/-!
Formatted strings: `src/desugar/format_string.rs:45-158`, with the names known at that place (`src/desugar/expr.rs:133, 180-188`).

Simplifications.  Source locations are left out.  The two character classes `\p{L}` and `\p{N}` of the `regex` crate are
parameters.  Rendering a value (`std::Value::to_string`) is a parameter which may have effects and may fail.
-/
namespace Ferlium.Format
open Ferlium.Text

/-- The classes `\p{L}` and `\p{N}`. -/
structure Classes where
  letter : Char → Bool
  number : Char → Bool

/-- `[\p{L}_]`. -/
def Classes.start (C : Classes) (c : Char) : Bool := C.letter c || c == '_'

/-- `[\p{L}\p{N}_]`. -/
def Classes.cont (C : Classes) (c : Char) : Bool := C.letter c || C.number c || c == '_'

/-- The expression `\{([\p{L}_][\p{L}\p{N}_]*)\}` (format_string.rs:79-80) at the beginning of the text: the name and the text
after the match.  `}` is in no class, so the repetition can stop in one place only. -/
def matchAt (C : Classes) : Text → Option (Text × Text)
  | '{' :: c :: rest =>
    if C.start c then
      match rest.dropWhile C.cont with
      | '}' :: after => some (c :: rest.takeWhile C.cont, after)
      | _ => none
    else none
  | _ => none

/-- The pieces of a formatted string. -/
inductive Piece where
  | text (t : Text)
  | var (name : Text)
deriving DecidableEq, Repr

/-- The literal text between matches, if there is any (format_string.rs:113-123, 139-149). -/
def flush (lit : Text) (rest : List Piece) : List Piece := if lit = [] then rest else .text lit :: rest

/-- The loop over the matches (format_string.rs:107-149); `lit` is the text from `last_end` to the position looked at. -/
def splitFrom (C : Classes) : Nat → Text → Text → List Piece
  | 0, lit, rest => flush (lit ++ rest) []
  | fuel + 1, lit, rest =>
    match matchAt C rest with
    | some (name, after) => flush lit (.var name :: splitFrom C fuel [] after)
    | none =>
      match rest with
      | [] => flush lit []
      | c :: rest => splitFrom C fuel (lit ++ [c]) rest

/-- The pieces; every step consumes a character. -/
def pieces (C : Classes) (s : Text) : List Piece := splitFrom C s.length [] s

/-- The first name which is not known (format_string.rs:52-59). -/
def unknown (locals : List Text) : List Piece → Option Text
  | [] => none
  | .text _ :: ps => unknown locals ps
  | .var n :: ps => if n ∈ locals then unknown locals ps else some n

/-- `emit_format_string_ast` (format_string.rs:73-158): the pieces to push, or the name which is reported. -/
def emit (C : Classes) (locals : List Text) (s : Text) : Except Text (List Piece) :=
  match unknown locals (pieces C s) with
  | some n => .error n
  | none => .ok (pieces C s)

/-- The statements made from the pieces, run in order on the string `@s` (format_string.rs:82-104, 151-157): a literal is kept
as a `StaticStr` and pushed, the value of a name is rendered and pushed. -/
def build {σ : Type} (N : Normaliser) (render : Text → σ → Option (Text × σ)) : List Piece → Text → σ → Option (Text × σ)
  | [], acc, s => some (acc, s)
  | .text t :: ps, acc, s => build N render ps (push N acc (fresh N t)) s
  | .var n :: ps, acc, s => (render n s).bind fun r => build N render ps (push N acc r.1) r.2

/-- The value of a formatted string: `@s` starts empty. -/
def value {σ : Type} (N : Normaliser) (render : Text → σ → Option (Text × σ)) (ps : List Piece) (s : σ) : Option (Text × σ) :=
  build N render ps (fresh N []) s

/-- What surrounds an expression, from the inside to the outside. -/
inductive Around where
  /-- A local declared before in an enclosing block, a variable of the pattern of an alternative, or of a loop. -/
  | declared (n : Text) (outer : Around)
  | lambda (params : List Text) (outer : Around)
  /-- The body of a function. -/
  | function (params : List Text)
  /-- An expression compiled with locals of the host. -/
  | host (locals : List Text)

/-- `ctx.locals` at that place (src/desugar/patterns.rs:50, src/desugar/expr.rs:180-188, 426-433,
src/desugar/module.rs:1384-1393); an expression starts with an empty context (src/desugar/expr.rs:79-98,
src/hir/emit_expr.rs:184-186). -/
def Around.locals : Around → List Text
  | .declared n outer => n :: outer.locals
  | .lambda params _ => params
  | .function params => params
  | .host _ => []

end Ferlium.Format
