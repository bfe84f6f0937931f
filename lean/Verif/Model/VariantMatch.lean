import Verif.Model.Match

/-!
Model of matches on variants: the first part of `infer_match` in `src/hir/match.rs`, with the choice of an arm by
`select_case_alternative` of `src/eval.rs`.

Types and unification are those of `Verif.Model.Unify`, values those of `Verif.Model.Match`.  The type of the value which is
matched, after `Repr`, is given and has no variables.  What the arms demand of the types of their variables are equations
given with the match.  Left out: qualified names of constructors, the omission of arms whose payload has no values (C39), and
the empty match.  The variable `0` of the table is the type of the pattern; the types of the variables of the arms follow.
-/
namespace Ferlium.Match
open Ferlium.Unify

/-- `PatternVar` of `src/ast`: a variable or `..`. -/
inductive PVar
  | named (n : Nat)
  | rest
deriving DecidableEq

/-- A variant pattern: `Tag(x, y)` or `Tag {x, y}`. -/
structure VPat where
  tag : Nat
  tuple : Bool
  vars : List PVar

/-- Why a match is refused. -/
inductive VRefusal
  | duplicateTag
  | restInTuple
  | restNotLast
  | boundTwice
  | mismatch
  | noTag
  | notVariant
  | noField
deriving DecidableEq

/-- The variables of a pattern, and whether it ends with `..`, match.rs:240-283. -/
def scan (tuple : Bool) : List PVar → List Nat → Except VRefusal (List Nat × Bool)
  | [], _ => .ok ([], false)
  | .named n :: l, seen =>
    if n ∈ seen then .error .boundTwice
    else
      match scan tuple l (n :: seen) with
      | .error e => .error e
      | .ok r => .ok (n :: r.1, r.2)
  | .rest :: l, _ => if tuple then .error .restInTuple else if l ≠ [] then .error .restNotLast else .ok ([], true)

/-- Insertion for a stable sort by name. -/
def insertType (x : Nat × Ty) : List (Nat × Ty) → List (Nat × Ty)
  | [] => [x]
  | y :: l => if x.1 ≤ y.1 then x :: y :: l else y :: insertType x l

/-- The sort by name of `Type::record` and `Type::variant`, type.rs:1230-1248 and 2564-2572. -/
def sortTypes (l : List (Nat × Ty)) : List (Nat × Ty) := l.foldr insertType []

/-- Parts with names. -/
def named : List (Nat × Ty) → Args
  | [] => .nil
  | x :: l => .cons (some x.1) x.2 (named l)

/-- Parts without names. -/
def unnamed : List Ty → Args
  | [] => .nil
  | t :: l => .cons none t (unnamed l)

/-- The types of the variables: new type variables from `k` on. -/
def inner (k : Nat) (names : List Nat) : List (Nat × Ty) := names.zipIdx.map fun x => (x.1, .var (k + x.2))

/-- The type of the payload, match.rs:284-329. -/
def payload (k : Nat) (tuple : Bool) (names : List Nat) (rest : Bool) : Ty :=
  if names = [] then unitTy
  else if tuple then .node .tuple (unnamed ((inner k names).map (·.2)))
  else if rest then .var (k + names.length)
  else .node .record (named (sortTypes (inner k names)))

/-- An arm after these checks. -/
structure Scanned (α : Type) where
  tag : Nat
  tuple : Bool
  names : List Nat
  rest : Bool
  first : Nat
  body : α

/-- The arms in order, with new type variables for each. -/
def scanArms {α} : Nat → List (VPat × α) → List Nat → Except VRefusal (List (Scanned α) × Nat)
  | k, [], _ => .ok ([], k)
  | k, (p, a) :: arms, seen =>
    if p.tag ∈ seen then .error .duplicateTag
    else
      match scan p.tuple p.vars [] with
      | .error e => .error e
      | .ok (names, rest) =>
        match scanArms (k + names.length + 1) arms (p.tag :: seen) with
        | .error e => .error e
        | .ok r => .ok (⟨p.tag, p.tuple, names, rest, k, a⟩ :: r.1, r.2)

/-- The type of the payload of an arm. -/
def Scanned.payload {α} (s : Scanned α) : Ty := Match.payload s.first s.tuple s.names s.rest

/-- The first part with a name. -/
def lookup (n : Nat) : Args → Option Ty
  | .nil => none
  | .cons m t rest => if m = some n then some t else lookup n rest

/-- The payload of a tag in the type of the value, unify.rs:1084-1113. -/
def payloadOf (t : Ty) (tag : Nat) : Except VRefusal Ty :=
  match t with
  | .node .variant args =>
    match lookup tag args with
    | some ty => .ok ty
    | none => .error .noTag
  | _ => .error .notVariant

/-- The equations of a `TypeHasVariant` constraint for each arm, match.rs:521-531 and unify.rs:1065-1113. -/
def hasVariants {α} (t : Ty) : List (Scanned α) → Except VRefusal (List (Ty × Ty))
  | [] => .ok []
  | s :: arms =>
    match payloadOf t s.tag with
    | .error e => .error e
    | .ok ty =>
      match hasVariants t arms with
      | .error e => .error e
      | .ok l => .ok ((ty, s.payload) :: l)

/-- The equations of the projections of a payload with `..`, match.rs:299-315: every field exists and has the type of its variable. -/
def projections (args : Args) : List (Nat × Ty) → Except VRefusal (List (Ty × Ty))
  | [] => .ok []
  | (n, v) :: l =>
    match lookup n args with
    | none => .error .noField
    | some ty =>
      match projections args l with
      | .error e => .error e
      | .ok l => .ok ((ty, v) :: l)

/-- The same for all arms with `..`.  The type of the payload, a variable in the equations, is here taken from the type of the value. -/
def restEquations {α} (t : Ty) : List (Scanned α) → Except VRefusal (List (Ty × Ty))
  | [] => .ok []
  | s :: arms =>
    match restEquations t arms with
    | .error e => .error e
    | .ok l =>
      if s.rest ∧ s.names ≠ [] then
        match payloadOf t s.tag with
        | .error e => .error e
        | .ok (.node .record args) =>
          match projections args (inner s.first s.names) with
          | .error e => .error e
          | .ok l' => .ok (l' ++ l)
        | .ok _ => .error .noField
      else .ok l

/-- All equations: those of the arms `extra`, then without a default the variant type of all arms, match.rs:545-570, with one the
constraints on each tag. -/
def equations {α} (t : Ty) (extra : List (Ty × Ty)) (arms : List (Scanned α)) (hasDefault : Bool) : Except VRefusal (List (Ty × Ty)) :=
  match restEquations t arms with
  | .error e => .error e
  | .ok fields =>
    if hasDefault then
      match hasVariants t arms with
      | .error e => .error e
      | .ok l => .ok (extra ++ (t, .var 0) :: (l ++ fields))
    else .ok (extra ++ (.var 0, .node .variant (named (sortTypes (arms.map fun s => (s.tag, s.payload))))) :: (t, .var 0) :: fields)

/-- The position of the first part with a name. -/
def position (n : Nat) : Args → Option Nat
  | .nil => none
  | .cons m _ rest => if m = some n then some 0 else (position n rest).map (· + 1)

/-- The component each variable is read from, match.rs:449-490: by number in a tuple, by the position of the name in the record type of
the pattern, and with `..` by the name in the type of the value. -/
def bindings {α} (t : Ty) (s : Scanned α) : Option (List (Nat × Nat)) :=
  if s.tuple then some s.names.zipIdx
  else if s.rest then
    match payloadOf t s.tag with
    | .ok (.node _ args) => s.names.mapM fun n => (position n args).map (n, ·)
    | _ => if s.names = [] then some [] else none
  else s.names.mapM fun n => (position n (named (sortTypes (inner s.first s.names)))).map (n, ·)

/-- An arm of the resulting `Case`. -/
structure Alt (α : Type) where
  tag : Nat
  bindings : List (Nat × Nat)
  body : α

/-- A match on variants: the arms and the default, with its bindings, or a refusal.  Without a default the last arm becomes the default,
match.rs:566-571. -/
def compileVariant {α} (pick : Nat → Nat → Bool) (t : Ty) (extra : List (Ty × Ty)) (arms : List (VPat × α)) (default : Option α) :
    Option (Except VRefusal (List (Alt α) × List (Nat × Nat) × α)) :=
  match scanArms 1 arms [] with
  | .error e => some (.error e)
  | .ok (scanned, n) =>
    match equations t extra scanned default.isSome with
    | .error e => some (.error e)
    | .ok eqs =>
      match solve pick (fresh n) eqs with
      | none => none
      | some (.error _) => some (.error .mismatch)
      | some (.ok _) =>
        match scanned.mapM fun s => (bindings t s).map fun b => Alt.mk s.tag b s.body with
        | none => none
        | some alts =>
          match default with
          | some d => some (.ok (alts, [], d))
          | none =>
            match alts.getLast? with
            | none => none
            | some last => some (.ok (alts.dropLast, last.bindings, last.body))

/-- The component at a position. -/
def component : Vals → Nat → Option Val
  | .cons v _, 0 => some v
  | .cons _ vs, n + 1 => component vs n
  | .nil, _ => none

/-- The variables of an arm; `none` is a projection out of range. -/
def bindAll (vs : Vals) (bs : List (Nat × Nat)) : Option (List (Nat × Val)) := bs.mapM fun b => (component vs b.2).map (b.1, ·)

/-- `select_case_alternative` eval.rs:3753-3761 followed by the stores of the chosen arm. -/
def runVariant {α} (alts : List (Alt α)) (dbindings : List (Nat × Nat)) (default : α) (tag : Nat) (vs : Vals) :
    Option (List (Nat × Val) × α) :=
  match alts.find? (·.tag == tag) with
  | some a => (bindAll vs a.bindings).map (·, a.body)
  | none => (bindAll vs dbindings).map (·, default)

end Ferlium.Match
