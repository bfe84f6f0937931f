import Verif.Model.Intern
import Mathlib.Data.Finset.Lattice.Basic
import Mathlib.Data.Finset.Card
import Mathlib.Data.Finset.Union

/-!
# Summaries of free variables

With every type, the table keeps the set of its free variables, computed when the type is stored.
Substitutions return types unchanged whose summary they do not touch.

Models `/repo/src/types/type.rs` 2897-2911 (summaries), 3234-3242 and 3473-3482 (of one kind), 3439 and
3484-3513 (of a group of kinds that refer to each other), 3515-3602.  The three sets of variables are
kept as one.  A group is given without repeated kinds (repeated ones are dropped when the world is
made, which is finding F76).
-/

namespace Ferlium.Intern

/-- `TypeVar`, `MutVar` and `EffectVar`. -/
inductive FreeVar where
  | ty (x : Nat)
  | mu (x : Nat)
  | eff (x : Nat)
deriving DecidableEq, Repr

def FreeVar.isEff : FreeVar → Bool
  | .eff _ => true
  | _ => false

/-- Which of the numbers that stand for mutabilities and for effects are variables (`as_variable`). -/
structure Vars where
  mutVar : Nat → Option Nat
  effVar : Nat → Option Nat

def Vars.muts (V : Vars) (l : List Nat) : Finset FreeVar := ((l.filterMap V.mutVar).map .mu).toFinset
def Vars.effs (V : Vars) (l : List Nat) : Finset FreeVar := ((l.filterMap V.effVar).map .eff).toFinset

/-- The variables that `collect_into_summary`, type.rs 3517-3583, takes from the kind itself. -/
def direct (V : Vars) : Head → Finset FreeVar
  | .var x => {.ty x}
  | .fn muts effects => V.muts muts ∪ V.effs effects
  | .subscript muts a b => V.muts muts ∪ V.effs (a.getD []) ∪ V.effs (b.getD [])
  | .named _ effects => V.effs effects.flatten
  | _ => ∅

/-- `collect_into_summary` with `fold_child`, type.rs 3517-3602. -/
def collect (V : Vars) (lookup : Ref → Finset FreeVar) (k : Kind) : Finset FreeVar :=
  k.kids.foldl (fun s r => s ∪ lookup r) (direct V k.head)

/-- The summaries of a table, beside its kinds. -/
structure Sums where
  main : List (Finset FreeVar)
  recs : List (List (Finset FreeVar))

/-- `get_type_summary`, type.rs 3459-3461. -/
def Sums.get (S : Sums) : Ref → Finset FreeVar
  | .loc _ => ∅
  | .glob 0 i => (S.main[i]?).getD ∅
  | .glob (w + 1) i => (((S.recs[w]?).getD [])[i]?).getD ∅

/-- The lookup while a group is summarised, type.rs 3496-3502: `w` is the world of the group. -/
def groupLookup (S : Sums) (w : Nat) (ss : List (Finset FreeVar)) : Ref → Finset FreeVar
  | .glob v i => if v = w then (ss[i]?).getD ∅ else S.get (.glob v i)
  | .loc _ => ∅

/-- The inner loop, type.rs 3493-3507. -/
def sweep (V : Vars) (S : Sums) (w : Nat) (kinds : List Kind) :
    List Nat → List (Finset FreeVar) × Bool → List (Finset FreeVar) × Bool
  | [], p => p
  | i :: is, (ss, changed) =>
    match kinds[i]? with
    | none => sweep V S w kinds is (ss, changed)
    | some k =>
      let new := collect V (groupLookup S w ss) k
      if new = (ss[i]?).getD ∅ then sweep V S w kinds is (ss, changed)
      else sweep V S w kinds is (ss.set i new, true)

/-- The outer loop, type.rs 3491-3511, with a bound. -/
def sweeps (V : Vars) (S : Sums) (w : Nat) (kinds : List Kind) : Nat → List (Finset FreeVar) →
    Option (List (Finset FreeVar))
  | 0, _ => none
  | n + 1, ss =>
    match sweep V S w kinds (List.range kinds.length) (ss, false) with
    | (ss', true) => sweeps V S w kinds n ss'
    | (ss', false) => some ss'

/-- All variables that can come into a summary of a group. -/
def groupVars (V : Vars) (S : Sums) (w : Nat) (kinds : List Kind) : Finset FreeVar :=
  kinds.foldl (fun s k => s ∪ collect V (groupLookup S w []) k) ∅

/-- `compute_scc_summaries`, type.rs 3488-3513: no more sweeps than this change anything. -/
def groupSums (V : Vars) (S : Sums) (w : Nat) (kinds : List Kind) : Option (List (Finset FreeVar)) :=
  sweeps V S w kinds (kinds.length * (groupVars V S w kinds).card + 1) (List.replicate kinds.length ∅)

/-- Tables with their summaries, as `insert_non_recursive_kind`, type.rs 3234-3242, and `insert_types`,
3421-3445, make them: inner types are in the table already, or in the same group. -/
inductive Summed (V : Vars) : Universe → Sums → Prop
  | new : Summed V .new ⟨[], []⟩
  | plain {U : Universe} {S : Sums} {k : Kind} : Summed V U S → (∀ r ∈ k.kids, ∃ k', U.look r = some k') →
    Summed V { U with main := U.main ++ [k] } ⟨S.main ++ [collect V S.get k], S.recs⟩
  | group {U : Universe} {S : Sums} {kinds : List Kind} {ss : List (Finset FreeVar)} : Summed V U S →
    (∀ k ∈ kinds, ∀ r ∈ k.kids, ∃ k', Universe.look ⟨U.main, U.recs ++ [kinds], U.cache⟩ r = some k') →
    groupSums V S (U.recs.length + 1) kinds = some ss →
    Summed V ⟨U.main, U.recs ++ [kinds], U.cache⟩ ⟨S.main, S.recs ++ [ss]⟩
  | cache {U : Universe} {S : Sums} {c : List (List Kind × Nat × List Nat)} : Summed V U S →
    Summed V { U with cache := c } S

/-- `contains_any_type_var`, type.rs 1441-1443; `affects_type` of `TieEquation`,
recursive_equation.rs 148-150. -/
def Sums.affectsTie (S : Sums) (x : Nat) (r : Ref) : Bool := decide (FreeVar.ty x ∈ S.get r)

/-- `affects_type` of the instantiation mappers, type_mapper.rs 63-74, 109-113: `tys` and `effs` are the
keys of the two halves of the instantiation. -/
def Sums.affectsInst (S : Sums) (tys effs : List Nat) (r : Ref) : Bool :=
  tys.any (fun x => decide (FreeVar.ty x ∈ S.get r)) || effs.any (fun x => decide (FreeVar.eff x ∈ S.get r))

/-- `is_constant`, type.rs 1450-1455. -/
def Sums.isConstant (S : Sums) (r : Ref) : Bool := decide (S.get r = ∅)

/-- `is_trait_input_resolved`, type.rs 1351-1354: effect variables do not count. -/
def Sums.isResolved (S : Sums) (r : Ref) : Bool :=
  decide (∀ x ∈ S.get r, x.isEff = true)

/-! ## Specification -/

/-- A variable occurs in a type, at some depth. -/
def Occurs (V : Vars) (look : Ref → Option Kind) (x : FreeVar) (r : Ref) : Prop :=
  ∃ s k, (s = r ∨ Reaches look r s) ∧ look s = some k ∧
    match k.head, x with
    | .var y, .ty z => y = z
    | .fn muts _, .mu z => ∃ m ∈ muts, V.mutVar m = some z
    | .fn _ effects, .eff z => ∃ e ∈ effects, V.effVar e = some z
    | .subscript muts _ _, .mu z => ∃ m ∈ muts, V.mutVar m = some z
    | .subscript _ a b, .eff z => ∃ l, (a = some l ∨ b = some l) ∧ ∃ e ∈ l, V.effVar e = some z
    | .named _ effects, .eff z => ∃ l ∈ effects, ∃ e ∈ l, V.effVar e = some z
    | _, _ => False

end Ferlium.Intern
