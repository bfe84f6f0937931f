import Verif.Model.Edit

/-!
Model of `src/mir/pass/peephole.rs`: a two-way branch whose arms store opposite booleans into the same place becomes
one store.  A target outside the body (a panic in the code) is treated as "no match"; bodies with such targets are
excluded from the theorems.
-/
namespace Ferlium.Peephole

open Ferlium.Mir

/-- `bool_value` peephole.rs:136-143. -/
def boolValue : Value → Option Bool
  | .constant (.bool b) => some b
  | .pattern (.bool b) => some b
  | _ => none

/-- `struct BoolStore` peephole.rs:20-24. -/
structure BoolStore where
  value : Bool
  destination : Value
  join : Nat

/-- `single_bool_store` peephole.rs:116-134. -/
def singleBoolStore (f : Body) (block : Nat) : Option BoolStore :=
  match f[block]? with
  | none => none
  | some b =>
    match b.ops, b.term with
    | [op], .goto target =>
      if op.kind = .store then
        match op.operands with
        | [value, destination] => (boolValue value).map fun v => ⟨v, destination, target⟩
        | _ => none
      else none
    | _, _ => none

/-- `struct BooleanMaterialization` peephole.rs:26-32. -/
structure Plan where
  block : Nat
  condition : Value
  storedWhenTrue : Bool
  destination : Value
  join : Nat

/-- `plan_boolean_materialization` peephole.rs:84-114. -/
def plan (f : Body) (block : Nat) : Option Plan :=
  match f[block]? with
  | none => none
  | some b =>
    match b.term with
    | .condBr condition t e =>
      if t = e then none
      else
        match singleBoolStore f t, singleBoolStore f e with
        | some ts, some es =>
          if ts.join ≠ es.join ∨ ts.destination ≠ es.destination ∨ ts.value = es.value then none
          else some ⟨block, condition, ts.value, ts.destination, ts.join⟩
        | _, _ => none
    | _ => none

/-- The result of a terminator, edit.rs:81-84. -/
def termResult : Term → Option Nat
  | .invoke op _ _ => op.result
  | _ => none

/-- `next_value_index` of `FunctionEdit::new`, edit.rs:77-94. -/
def nextValue (f : Body) : Nat :=
  ((f.flatMap fun b => b.ops.filterMap Op.result ++ (termResult b.term).toList).map (· + 1)).foldl max 0

/-- The operations added to a block, peephole.rs:61-76; `fresh` is the next unused register. -/
def replacement (p : Plan) (fresh : Nat) : List Op :=
  if p.storedWhenTrue then [⟨none, .store, [p.condition, p.destination]⟩]
  else [⟨some fresh, .compareEqual, [p.condition, .pattern (.bool false)]⟩,
    ⟨none, .store, [.register fresh, p.destination]⟩]

/-- One rewrite, peephole.rs:58-78. The state is the body being edited and the next unused register. -/
def applyPlan (e : Body × Nat) (p : Plan) : Body × Nat :=
  match e.1[p.block]? with
  | none => e
  | some b =>
    (e.1.set p.block { ops := b.ops ++ replacement p e.2, term := .goto p.join },
      if p.storedWhenTrue then e.2 else e.2 + 1)

/-- `materialize_boolean_results` peephole.rs:47-82: `some none` if there is nothing to do; the outer `none` stands for
a panic or an endless loop. -/
def materialize (f : Body) : Option (Option Body) :=
  match (List.range f.length).filterMap (plan f) with
  | [] => some none
  | plans =>
    (Edit.removeUnreachable (plans.foldl applyPlan (f, nextValue f)).1 >>= Edit.mergeBlocks).map some

end Ferlium.Peephole
