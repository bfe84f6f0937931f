import Verif.Model.BitSet

/-!
Model of the effect sets of `src/types/effects.rs`.  The primitive bits are a `BitVec 16`, the inline variable bits a
`BitVec 64` (`usize`), vectors are lists; the name of a variable (`u32`) is a natural number.
-/
namespace Ferlium.Effects

open Ferlium.BitSet (W trailingZeros countOnes)

/-- `PrimitiveEffect` effects.rs:25-29. -/
inductive Prim where
  | read
  | write
  | fallible
  deriving DecidableEq, Repr

/-- `Effect` effects.rs:67-70; a variable is its name, effects.rs:45-48. -/
inductive Eff where
  | prim (p : Prim)
  | var (v : Nat)
  deriving DecidableEq, Repr

/-- `PRIMITIVE_EFFECTS` effects.rs:81-85. -/
def allPrims : List Prim := [.read, .write, .fallible]

abbrev PBits := BitVec 16

/-- `PrimitiveEffects::bit` effects.rs:94-96, 125-131. -/
def primBit : Prim → PBits
  | .read => 1#16 <<< 0
  | .write => 1#16 <<< 1
  | .fallible => 1#16 <<< 2

/-- `PrimitiveEffects::insert` effects.rs:98-100. -/
def primInsert (s : PBits) (p : Prim) : PBits := s ||| primBit p

/-- `PrimitiveEffects::contains` effects.rs:106-108. -/
def primContains (s : PBits) (p : Prim) : Bool := (s &&& primBit p) != 0#16

/-- `u16::count_ones`, used by `PrimitiveEffects::len` effects.rs:114-116. -/
def primLen (s : PBits) : Nat := (List.range 16).countP (fun i => s.getLsbD i)

/-- The `while let` loop of `PrimitiveEffectsIter::next` effects.rs:142-150; the remaining fuel is the number of
entries of the table not yet looked at. -/
def primNextLoop (bits : PBits) : Nat → Nat → Option Prim × Nat
  | 0, index => (none, index)
  | fuel + 1, index =>
    match allPrims[index]? with
    | some p => if primContains bits p then (some p, index + 1) else primNextLoop bits fuel (index + 1)
    | none => (none, index)

/-- `PrimitiveEffectsIter::next` effects.rs:142-150. -/
def primNext (bits : PBits) (index : Nat) : Option Prim × Nat := primNextLoop bits (allPrims.length + 1) index

/-- `PrimitiveEffects::iter` effects.rs:118-123 run to the end: at most three elements. -/
def primList (bits : PBits) : List Prim := go 3 0
where
  go : Nat → Nat → List Prim
  | 0, _ => []
  | n + 1, index => match primNext bits index with
    | (some p, index) => p :: go n index
    | (none, _) => []

/-- `Effects`, `HeapEffects` and `EffType` effects.rs:155-168, 180-181. -/
inductive EffType where
  | inline (primBits : PBits) (varBits : W)
  | heap (primBits : PBits) (names : List Nat)
  deriving DecidableEq, Repr

/-- `inline_var_bit` effects.rs:561-567. -/
def inlineVarBit (v : Nat) : Option W := if v < 64 then some (1#64 <<< v) else none

/-- `InlineEffectVars::next` effects.rs:522-530. -/
def inlineNext (remaining : W) : Option Nat × W :=
  let next := trailingZeros remaining
  if next = 64 then (none, remaining) else (some next, remaining &&& (~~~1#64 <<< next))

/-- `InlineEffectVars` run to the end: at most 64 elements. -/
def inlineVars (remaining : W) : List Nat := go 64 remaining
where
  go : Nat → W → List Nat
  | 0, _ => []
  | n + 1, w => match inlineNext w with
    | (some v, w) => v :: go n w
    | (none, _) => []

/-- `slice::binary_search` of the standard library on a sorted slice: the number of smaller elements, and whether the
element there is the one searched. -/
def binarySearch (l : List Nat) (v : Nat) : Bool × Nat :=
  let i := (l.takeWhile (· < v)).length
  (l[i]? == some v, i)

/-- `insert_variable` effects.rs:569-573. -/
def insertVariable (l : List Nat) (v : Nat) : List Nat :=
  match binarySearch l v with
  | (true, _) => l
  | (false, i) => l.insertIdx i v

/-- `extend_variables_from_bits` effects.rs:575-581. -/
def extendFromBits (l : List Nat) (bits : W) : List Nat := (inlineVars bits).foldl insertVariable l

/-- The merge loop of effects.rs:600-625. -/
def merge : List Nat → List Nat → List Nat
  | a :: l, b :: r =>
    if a < b then a :: merge l (b :: r)
    else if a > b then b :: merge (a :: l) r
    else a :: merge l r
  | a :: l, [] => a :: merge l []
  | [], b :: r => b :: merge [] r
  | [], [] => []
termination_by l r => l.length + r.length

/-- `extend_variables` effects.rs:583-627. -/
def extendVariables (l other : List Nat) : List Nat :=
  if other.isEmpty then l
  else if l.isEmpty then other
  else match other with
    | [v] => insertVariable l v
    | _ => merge l other

namespace EffType

/-- `primitives` effects.rs:395-400. -/
def primitives : EffType → PBits
  | .inline p _ => p
  | heap p _ => p

/-- `variables_len` effects.rs:402-407. -/
def variablesLen : EffType → Nat
  | inline _ w => countOnes w
  | heap _ l => l.length

/-- `variables` effects.rs:409-416 run to the end. -/
def vars : EffType → List Nat
  | inline _ w => inlineVars w
  | heap _ l => l

/-- `empty` effects.rs:183-185. -/
def empty : EffType := inline 0#16 0#64

/-- `insert_primitive` effects.rs:418-423. -/
def insertPrimitive : EffType → Prim → EffType
  | inline b w, p => inline (primInsert b p) w
  | heap b l, p => heap (primInsert b p) l

/-- `insert_variable` with `to_heap_effects`, effects.rs:425-438, 449-454. -/
def insertVar : EffType → Nat → EffType
  | inline b w, v => match inlineVarBit v with
    | some bit => inline b (w ||| bit)
    | none => heap b (insertVariable (inlineVars w) v)
  | heap b l, v => heap b (insertVariable l v)

/-- `insert` effects.rs:236-241. -/
def insert (s : EffType) : Eff → EffType
  | .prim p => s.insertPrimitive p
  | .var v => s.insertVar v

/-- `single` effects.rs:186-190. -/
def single (e : Eff) : EffType := empty.insert e

/-- `single_primitive` effects.rs:191-198. -/
def singlePrimitive (p : Prim) : EffType := inline (primInsert 0#16 p) 0#64

/-- `single_variable` effects.rs:199-211. -/
def singleVariable (v : Nat) : EffType :=
  match inlineVarBit v with
  | some bit => inline 0#16 bit
  | none => heap 0#16 [v]

/-- `multiple_primitive` effects.rs:218-227. -/
def multiplePrimitive (ps : List Prim) : EffType := inline (ps.foldl primInsert 0#16) 0#64

/-- One element of the loop of `from_iter` effects.rs:657-673. -/
def fromIterStep (s : PBits × W × List Nat) : Eff → PBits × W × List Nat
  | .prim p => (primInsert s.1 p, s.2.1, s.2.2)
  | .var v => match inlineVarBit v with
    | some bit =>
      if s.2.2.isEmpty then (s.1, s.2.1 ||| bit, s.2.2) else (s.1, s.2.1, s.2.2 ++ [v])
    | none =>
      let heap := if s.2.2.isEmpty then s.2.2 ++ inlineVars s.2.1 else s.2.2
      (s.1, s.2.1, heap ++ [v])

/-- `Vec::dedup` of the standard library: drop an element equal to the one before. -/
def dedup : List Nat → List Nat
  | a :: b :: l => if a = b then dedup (b :: l) else a :: dedup (b :: l)
  | l => l

/-- `from_iter` effects.rs:653-688; also `multiple`, `from_vec` and (mapped) `multiple_variable`, effects.rs:215-234. -/
def fromIter (es : List Eff) : EffType :=
  match es.foldl fromIterStep (0#16, 0#64, []) with
  | (p, w, l) => if l.isEmpty then inline p w else heap p (dedup (l.mergeSort (· ≤ ·)))

/-- `multiple_variable` effects.rs:228-230. -/
def multipleVariable (vs : List Nat) : EffType := fromIter (vs.map .var)

/-- `extend` effects.rs:243-279, and `union` effects.rs:281-285. -/
def extend : EffType → EffType → EffType
  | inline p w, inline q u => inline (p ||| q) (w ||| u)
  | inline p w, heap q r => heap (p ||| q) (extendVariables (inlineVars w) r)
  | heap p l, inline q u => heap (p ||| q) (extendFromBits l u)
  | heap p l, heap q r => heap (p ||| q) (extendVariables l r)

/-- `contains_variable` effects.rs:440-447. -/
def containsVariable : EffType → Nat → Bool
  | inline _ w, v => match inlineVarBit v with
    | some bit => (w &&& bit) != 0#64
    | none => false
  | heap _ l, v => (binarySearch l v).1

/-- `contains` effects.rs:333-338. -/
def contains (s : EffType) : Eff → Bool
  | .prim p => primContains s.primitives p
  | .var v => s.containsVariable v

/-- `is_empty` effects.rs:329-331. -/
def isEmpty (s : EffType) : Bool := s.primitives == 0#16 && s.variablesLen == 0

/-- `is_only_vars` effects.rs:297-299. -/
def isOnlyVars (s : EffType) : Bool := s.primitives == 0#16

/-- `has_variables` effects.rs:301-303. -/
def hasVariables (s : EffType) : Bool := s.variablesLen != 0

/-- `to_single_variable` effects.rs:287-295. -/
def toSingleVariable (s : EffType) : Option Nat :=
  if s.primitives != 0#16 then none else if s.variablesLen = 1 then s.vars.head? else none

/-- `is_subset_of` effects.rs:342-350. -/
def isSubsetOf (s t : EffType) : Bool :=
  if s.hasVariables then false else (primList s.primitives).all (fun p => t.contains (.prim p))

/-- `as_single` effects.rs:359-365. -/
def asSingle (s : EffType) : Option Eff :=
  match primLen s.primitives, s.variablesLen with
  | 1, 0 => (primList s.primitives).head?.map .prim
  | 0, 1 => s.vars.head?.map .var
  | _, _ => none

/-- One variable of the loop of `instantiate`, effects.rs:386-391. -/
def instStep (subst : List (Nat × EffType)) (e : EffType) (v : Nat) : EffType :=
  match subst.lookup v with
  | some t => e.extend t
  | none => e.insert (.var v)

/-- `instantiate` effects.rs:373-393 with `has_variable_in_substitution` 305-307; the hash map is an association list
without repeated keys. -/
def instantiate (s : EffType) (subst : List (Nat × EffType)) : EffType :=
  if s.isEmpty || subst.isEmpty || !(s.vars.any (fun v => (subst.lookup v).isSome)) then s
  else match s.asSingle with
    | some (.var v) => (subst.lookup v).getD s
    | _ => s.vars.foldl (instStep subst) (inline s.primitives 0#64)

/-- `EffectVarsIter` effects.rs:479-482. -/
inductive VarsIter where
  | inline (remaining : W)
  | heap (rest : List Nat)

/-- `EffTypeIter` effects.rs:469-472. -/
structure Iter where
  bits : PBits
  index : Nat
  vars : VarsIter

/-- `iter` effects.rs:352-357 (`into_iter` effects.rs:633-649 builds the same state). -/
def iter (s : EffType) : Iter :=
  ⟨s.primitives, 0, match s with | inline _ w => .inline w | heap _ l => .heap l⟩

/-- `EffectVarsIter::next` effects.rs:492-497. -/
def VarsIter.next : VarsIter → Option Nat × VarsIter
  | .inline w => match inlineNext w with | (o, w) => (o, .inline w)
  | .heap [] => (none, .heap [])
  | .heap (v :: l) => (some v, .heap l)

/-- `EffTypeIter::next` effects.rs:538-543. -/
def Iter.next (it : Iter) : Option Eff × Iter :=
  match primNext it.bits it.index with
  | (some p, index) => (some (.prim p), { it with index })
  | (none, index) => match it.vars.next with
    | (o, vars) => (o.map .var, { it with index, vars })

/-- The first `n` answers of an iterator. -/
def takeNext : Nat → Iter → List (Option Eff)
  | 0, _ => []
  | n + 1, it => it.next.1 :: takeNext n it.next.2

/-- Position of a primitive effect in the derived order, effects.rs:24-29. -/
def primRank : Prim → Nat
  | .read => 0
  | .write => 1
  | .fallible => 2

/-- The derived order of effects, effects.rs:66-70. -/
def effCmp : Eff → Eff → Ordering
  | .prim p, .prim q => compare (primRank p) (primRank q)
  | .prim _, .var _ => .lt
  | .var _, .prim _ => .gt
  | .var v, .var w => compare v w

/-- `Iterator::cmp`: lexicographic. -/
def cmpList : List Eff → List Eff → Ordering
  | [], [] => .eq
  | [], _ :: _ => .lt
  | _ :: _, [] => .gt
  | a :: l, b :: r => match effCmp a b with
    | .eq => cmpList l r
    | o => o

/-- The elements in iteration order. -/
def toList (s : EffType) : List Eff := (primList s.primitives).map .prim ++ s.vars.map .var

/-- `Ord::cmp` effects.rs:457-461. -/
def cmp (s t : EffType) : Ordering := cmpList s.toList t.toList

end EffType
end Ferlium.Effects
