import Verif.Model.Unify

/-!
Model of matches on literals: `record_literal_pattern` of `src/parser/helpers.rs`, `infer_match` and
`check_literal_patterns` of `src/hir/match.rs`, `all_values` of `src/types/type.rs`, the coverage constraints of
`src/types/type_inference/unify.rs`, `select_case_alternative` of `src/eval.rs` and the lowering of `Case` in
`src/emit_mir.rs`.

Types and unification are those of `Verif.Model.Unify`; the native types 0, 1, 2 and 3 are `int`, `bool`, `()` and
`string`.  Names are numbers in the order of the names.  The type of the value which is matched, after `Repr`, is given and has
no variables.  The results of the arms are left out.  An outer `none` is a panic.
-/
namespace Ferlium.Match
open Ferlium.Unify

mutual

/-- A value of a program.  Literals, `LiteralValue` value.rs:619-625, are those without `other`, which stands for everything
no literal pattern matches. -/
inductive Val
  | unit
  | bool (b : Bool)
  | int (n : Int)
  | str (s : String)
  | tuple (vs : Vals)
  | other (n : Nat)

/-- The components of a tuple or a record. -/
inductive Vals
  | nil
  | cons (v : Val) (vs : Vals)

end

deriving instance DecidableEq for Val, Vals

mutual

/-- A literal pattern of a program, parser.lalrpop:1106-1139. -/
inductive Pat
  | unit
  | bool (b : Bool)
  | int (n : Int)
  | str (s : String)
  | tuple (ps : Pats)
  | record (fs : Fields)

/-- The parts of a tuple pattern. -/
inductive Pats
  | nil
  | cons (p : Pat) (ps : Pats)

/-- The fields of a record pattern, as written. -/
inductive Fields
  | nil
  | cons (name : Nat) (p : Pat) (fs : Fields)

end

/-- The native type of booleans. -/
def boolTy : Ty := .node (.native 1) .nil

/-- The native type of integers. -/
def intTy : Ty := .node (.native 0) .nil

/-- The unit type. -/
def unitTy : Ty := .node (.native 2) .nil

/-- The native type of strings. -/
def strTy : Ty := .node (.native 3) .nil

/-- Insertion for a stable sort by name. -/
def insertField (x : Nat × Val × Ty) : List (Nat × Val × Ty) → List (Nat × Val × Ty)
  | [] => [x]
  | y :: l => if x.1 ≤ y.1 then x :: y :: l else y :: insertField x l

/-- `sort_by_key` on names. -/
def sortFields (l : List (Nat × Val × Ty)) : List (Nat × Val × Ty) := l.foldr insertField []

/-- The components of a tuple. -/
def toVals : List (Nat × Val × Ty) → Vals
  | [] => .nil
  | x :: l => .cons x.2.1 (toVals l)

/-- The parts of a tuple type. -/
def toParts : List (Nat × Val × Ty) → Args
  | [] => .nil
  | x :: l => .cons none x.2.2 (toParts l)

/-- The parts of a record type. -/
def toFields : List (Nat × Val × Ty) → Args
  | [] => .nil
  | x :: l => .cons (some x.1) x.2.2 (toFields l)

/-- `record_literal_pattern` helpers.rs:530-543; making the type fails an assertion when a name occurs twice,
type.rs:2554-2572 and assert.rs:11-16. -/
def recordPattern (l : List (Nat × Val × Ty)) : Option (Val × Ty) :=
  let l := sortFields l
  if (l.map (·.1)).Nodup then some (.tuple (toVals l), .node .record (toFields l)) else none

mutual

/-- The literal and the type which the parser makes of a pattern, parser.lalrpop:1110-1139. -/
def Pat.lit : Pat → Option (Val × Ty)
  | .unit => some (.unit, unitTy)
  | .bool b => some (.bool b, boolTy)
  | .int n => some (.int n, intTy)
  | .str s => some (.str s, strTy)
  | .tuple ps => ps.lit.map fun l => (.tuple (toVals l), .node .tuple (toParts l))
  | .record fs => fs.lit >>= recordPattern

/-- The same for the parts of a tuple, with names which are not used. -/
def Pats.lit : Pats → Option (List (Nat × Val × Ty))
  | .nil => some []
  | .cons p ps => p.lit >>= fun x => ps.lit >>= fun l => some ((0, x) :: l)

/-- The same for fields. -/
def Fields.lit : Fields → Option (List (Nat × Val × Ty))
  | .nil => some []
  | .cons name p fs => p.lit >>= fun x => fs.lit >>= fun l => some ((name, x) :: l)

end

/-- The list of components. -/
def ofList : List Val → Vals
  | [] => .nil
  | v :: l => .cons v (ofList l)

/-- The nested loops of type.rs:2213-2223. -/
def product (result : List (List Val)) : List (List Val) → List (List Val)
  | [] => result
  | pool :: pools => product (result.flatMap fun pre => pool.map fun item => pre ++ [item]) pools

/-- `cartesian_product_values` type.rs:2198-2225, given the values of the parts. -/
def cartesian (max : Nat) (pools : List (List Val)) : Option (List Val) :=
  if (pools.map (·.length)).prod > max then none else some ((product [[]] pools).map fun l => .tuple (ofList l))

mutual

/-- `all_values` type.rs:2576-2606. -/
def _root_.Ferlium.Unify.Ty.allValues : Ty → Option (List Val)
  | .never => some []
  | .var _ => none
  | .node (.native k) args => if args = .nil then (if k = 2 then some [.unit] else if k = 1 then some [.bool false, .bool true] else none) else none
  | .node .tuple args => args.allValues >>= cartesian 1000
  | .node .record args => args.allValues >>= cartesian 1000
  | .node _ _ => none

/-- The values of all parts. -/
def _root_.Ferlium.Unify.Args.allValues : Args → Option (List (List Val))
  | .nil => some []
  | .cons _ t rest => t.allValues >>= fun vs => rest.allValues >>= fun l => some (vs :: l)

end

/-- Why a match is refused: `DuplicatedLiteralPattern`, `TypeMismatch`, `TypeValuesCannotBeEnumerated`,
`NonExhaustivePattern`. -/
inductive Refusal
  | duplicate
  | mismatch
  | notEnumerable
  | notExhaustive
deriving DecidableEq

/-- The checks on a match with at least one literal pattern, match.rs:172-180, 600-642 and 684-741: patterns occur once, their
types are unified with that of the pattern, `0` in the table, in order (unify.rs:270-316), then coverage is checked
(unify.rs:336-357), then the constraint `Repr` gives the type of the value (unify.rs:1136-1157). -/
def check (pick : Nat → Nat → Bool) (t : Ty) (lits : List (Val × Ty)) (hasDefault : Bool) : Option (Except Refusal Unit) :=
  if ¬ (lits.map (·.1)).Nodup then some (.error .duplicate)
  else
    match solve pick (fresh 1) (lits.map fun l => (l.2, .var 0)) with
    | none => none
    | some (.error _) => some (.error .mismatch)
    | some (.ok tab) =>
      let value : Option (Except Refusal Unit) :=
        match solve pick tab [(t, .var 0)] with
        | none => none
        | some (.error _) => some (.error .mismatch)
        | some (.ok _) => some (.ok ())
      if hasDefault then value
      else
        match normalize tab (.var 0) with
        | none => none
        | some ty =>
          match ty.allValues with
          | none => some (.error .notEnumerable)
          | some vs => if vs.all (fun v => (lits.map (·.1)).contains v) then value else some (.error .notExhaustive)

/-- The alternatives and the default of the resulting `Case`: without a default the last arm becomes the default,
match.rs:602-642. -/
def lower {α} (arms : List (Val × α)) : Option α → Option (List (Val × α) × α)
  | some default => some (arms, default)
  | none =>
    match arms.getLast? with
    | none => none
    | some last => some (arms.dropLast, last.2)

/-- A match on literals with at least one of them: the resulting `Case`, a refusal or a panic. -/
def compile {α} (pick : Nat → Nat → Bool) (t : Ty) (arms : List (Pat × α)) (default : Option α) :
    Option (Except Refusal (List (Val × α) × α)) :=
  match arms.mapM (fun a => a.1.lit) with
  | none => none
  | some lits =>
    match check pick t lits default.isSome with
    | none => none
    | some (.error e) => some (.error e)
    | some (.ok ()) => (lower ((lits.map (·.1)).zip (arms.map (·.2))) default).map .ok

mutual

/-- `try_matches_runtime_value` value.rs:656-688; `none` is `IncompatibleLiteralShape`. -/
def Val.matches : Val → Val → Option Bool
  | .unit, .unit => some true
  | .bool a, .bool b => some (a == b)
  | .int a, .int b => some (a == b)
  | .str a, .str b => some (a == b)
  | .tuple ls, .tuple vs => ls.matches vs
  | _, _ => none

/-- The same for components, whose numbers must be equal. -/
def Vals.matches : Vals → Vals → Option Bool
  | .nil, .nil => some true
  | .cons l ls, .cons v vs => l.matches v >>= fun a => ls.matches vs >>= fun b => some (a && b)
  | _, _ => none

end

/-- `select_case_alternative` eval.rs:3753-3772. -/
def select {α} (default : α) : List (Val × α) → Val → Option α
  | [], _ => some default
  | (l, a) :: rest, v =>
    match l.matches v with
    | none => none
    | some true => some a
    | some false => select default rest v

/-- The test of one head in the compiled code, emit_mir.rs:2003-2032: a boolean pattern branches on the value itself. -/
def test : Val → Val → Option Bool
  | .bool expected, .bool b => some (if expected then b else !b)
  | .bool _, _ => none
  | l, v => l.matches v

/-- The blocks of a `Case`, emit_mir.rs:1964-2051. -/
def branch {α} (default : α) : List (Val × α) → Val → Option α
  | [], _ => some default
  | (l, a) :: rest, v =>
    match test l v with
    | none => none
    | some true => some a
    | some false => branch default rest v

end Ferlium.Match
