import Mathlib.Data.BitVec

/-!
Model of the iterator protocol: ranges, adaptors and consumers of `src/std/prelude/core_impls.fer`.

An iterator is a state machine `step : σ → Option (Option α × σ)`: the outer `none` means the call never returns
(or aborts), the inner `none` is ferlium's `None`.  Simplifications: user closures are pure total functions; the
bookkeeping integers of `enumerate`, `take` and `skip` are unbounded `Int`s (they would need 2^63 calls to wrap).
-/
namespace Ferlium.Iter

/-- The type of `Iterator::next`, core_traits.fer `trait Iterator`: result and new iterator state. -/
abbrev Step (σ α : Type) := σ → Option (Option α × σ)

/-! ### Ranges (64-bit wrap-around integers) -/

/-- `Range`/`RangeInclusive` core_impls.fer:15-18, 61-64 with the `next` field of the iterators 22-25, 68-71. -/
structure RangeIt where
  start : BitVec 64
  stop : BitVec 64
  next : BitVec 64
  deriving DecidableEq, Repr

/-- `Seq::iter` for both range types core_impls.fer:48-52, 94-98. -/
def rangeIter (start stop : BitVec 64) : RangeIt := { start, stop, next := start }

/-- `Iterator::next` for `RangeIterator` core_impls.fer:27-46; `int` comparisons are signed, `+= 1` wraps
(math.rs:510-523). -/
def rangeNext : Step RangeIt (BitVec 64) := fun it =>
  let next := it.next
  if it.start.sle it.stop then
    if next.slt it.stop then some (some next, { it with next := it.next + 1#64 })
    else some (none, it)
  else
    if it.stop.slt next then some (some next, { it with next := it.next - 1#64 })
    else some (none, it)

/-- `abs` on `int` math.rs:519 (`isize::abs`).  For the smallest integer this is the release-build result (the value
itself); a debug build panics in the host. -/
def absInt (x : BitVec 64) : BitVec 64 := if x.slt 0#64 then -x else x

/-- `SizedSeq::len` for `Range` core_impls.fer:54-58. -/
def rangeLen (start stop : BitVec 64) : BitVec 64 := absInt (stop - start)

/-- `Iterator::next` for `RangeInclusiveIterator` core_impls.fer:73-92. -/
def rangeInclNext : Step RangeIt (BitVec 64) := fun it =>
  let next := it.next
  if it.start.sle it.stop then
    if next.sle it.stop then some (some next, { it with next := it.next + 1#64 })
    else some (none, it)
  else
    if it.stop.sle next then some (some next, { it with next := it.next - 1#64 })
    else some (none, it)

/-- `SizedSeq::len` for `RangeInclusive` core_impls.fer:100-104. -/
def rangeInclLen (start stop : BitVec 64) : BitVec 64 := absInt (stop - start) + 1#64

/-! ### Adaptors -/

variable {σ τ α β γ : Type}

/-- `MapIterator::next` core_impls.fer:268-273. -/
def mapNext (step : Step σ α) (f : α → β) : Step σ β := fun s =>
  match step s with
  | none => none
  | some (some x, s) => some (some (f x), s)
  | some (none, s) => some (none, s)

/-- `FilterIterator::next` core_impls.fer:296-307. -/
def filterNext (step : Step σ α) (p : α → Bool) : Step σ α := fun s =>
  match step s with
  | none => none
  | some (some x, s) => if p x then some (some x, s) else filterNext step p s
  | some (none, s) => some (none, s)
partial_fixpoint

/-- `FilterMapIterator::next` core_impls.fer:330-342. -/
def filterMapNext (step : Step σ α) (f : α → Option β) : Step σ β := fun s =>
  match step s with
  | none => none
  | some (some x, s) =>
    match f x with
    | some y => some (some y, s)
    | none => filterMapNext step f s
  | some (none, s) => some (none, s)
partial_fixpoint

/-- `ZipIterator::next` core_impls.fer:366-374. -/
def zipNext (l : Step σ α) (r : Step τ β) : Step (σ × τ) (α × β) := fun s =>
  match l s.1 with
  | none => none
  | some (some a, s1) =>
    match r s.2 with
    | none => none
    | some (some b, s2) => some (some (a, b), (s1, s2))
    | some (none, s2) => some (none, (s1, s2))
  | some (none, s1) => some (none, (s1, s.2))

/-- `EnumerateIterator::next` core_impls.fer:393-402; `enumerate` 406-408 starts at index 0. -/
def enumNext (step : Step σ α) : Step (σ × Int) (Int × α) := fun s =>
  match step s.1 with
  | none => none
  | some (some x, s1) => some (some (s.2, x), (s1, s.2 + 1))
  | some (none, s1) => some (none, (s1, s.2))

/-- `TakeIterator::next` core_impls.fer:421-433; `take` 437-439. -/
def takeNext (step : Step σ α) : Step (σ × Int) α := fun s =>
  if s.2 ≤ 0 then some (none, s)
  else
    match step s.1 with
    | none => none
    | some (some x, s1) => some (some x, (s1, s.2 - 1))
    | some (none, s1) => some (none, (s1, s.2))

/-- `SkipIterator::next` core_impls.fer:452-463; `skip` 467-469. -/
def skipNext (step : Step σ α) : Step (σ × Int) α := fun s =>
  match step s.1 with
  | none => none
  | some (none, s1) => some (none, (s1, s.2))
  | some (some x, s1) =>
    if s.2 > 0 then skipNext step (s1, s.2 - 1) else some (some x, (s1, s.2))
partial_fixpoint

/-- `ChainIterator::next` core_impls.fer:484-496; `chain` 501-503 starts with `first_done = false`. -/
def chainNext (l : Step σ α) (r : Step τ α) : Step (σ × τ × Bool) α := fun s =>
  if s.2.2 then
    match r s.2.1 with
    | none => none
    | some (o, s2) => some (o, (s.1, s2, s.2.2))
  else
    match l s.1 with
    | none => none
    | some (some x, s1) => some (some x, (s1, s.2.1, s.2.2))
    | some (none, s1) =>
      match r s.2.1 with
      | none => none
      | some (o, s2) => some (o, (s1, s2, true))

/-! ### Consumers -/

/-- `fold` core_impls.fer:122-134. -/
def fold (step : Step σ α) (f : β → α → β) (s : σ) (acc : β) : Option β :=
  match step s with
  | none => none
  | some (some x, s) => fold step f s (f acc x)
  | some (none, _) => some acc
partial_fixpoint

/-- `ControlFlow` values used by `try_fold`. -/
inductive Flow (β : Type) where
  | cont (b : β)
  | brk
  deriving DecidableEq, Repr

/-- `try_fold` core_impls.fer:137-158. -/
def tryFold (step : Step σ α) (f : β → α → Flow β) (s : σ) (acc : β) : Option (Flow β) :=
  match step s with
  | none => none
  | some (some x, s) =>
    match f acc x with
    | .cont v => tryFold step f s v
    | .brk => some .brk
  | some (none, _) => some (.cont acc)
partial_fixpoint

/-- `all` core_impls.fer:161-163. -/
def all (step : Step σ α) (p : α → Bool) (s : σ) : Option Bool :=
  (tryFold step (fun (_ : Unit) x => if p x then .cont () else .brk) s ()).map (fun r => decide (r = .cont ()))

/-- `any` core_impls.fer:166-168. -/
def any (step : Step σ α) (p : α → Bool) (s : σ) : Option Bool :=
  (tryFold step (fun (_ : Unit) x => if p x then .brk else .cont ()) s ()).map (fun r => decide (r = .brk))

/-- `count` core_impls.fer:171-173. -/
def count (step : Step σ α) (s : σ) : Option Int := fold step (fun sum _ => sum + 1) s (0 : Int)

/-- `sum` core_impls.fer:176-178 for the numeric operations `zero`, `add` of the element type. -/
def sum (zero : α) (add : α → α → α) (step : Step σ α) (s : σ) : Option α := fold step add s zero

/-- Result of `minimum`/`maximum`: a value or the documented panic. -/
inductive Extremum (α : Type) where
  | value (x : α)
  | emptyPanic

/-- `min` comparison.fer:39-44. -/
def min2 (cmp : α → α → Ordering) (l r : α) : α :=
  match cmp l r with
  | .lt => l
  | _ => r

/-- `max` comparison.fer:47-52. -/
def max2 (cmp : α → α → Ordering) (l r : α) : α :=
  match cmp l r with
  | .gt => l
  | _ => r

/-- `minimum` core_impls.fer:186-194. -/
def minimum (cmp : α → α → Ordering) (step : Step σ α) (s : σ) : Option (Extremum α) :=
  match step s with
  | none => none
  | some (some first, s) => (fold step (min2 cmp) s first).map .value
  | some (none, _) => some .emptyPanic

/-- `maximum` core_impls.fer:197-205. -/
def maximum (cmp : α → α → Ordering) (step : Step σ α) (s : σ) : Option (Extremum α) :=
  match step s with
  | none => none
  | some (some first, s) => (fold step (max2 cmp) s first).map .value
  | some (none, _) => some .emptyPanic

/-- `find` core_impls.fer:208-221. -/
def find (step : Step σ α) (p : α → Bool) (s : σ) : Option (Option α) :=
  match step s with
  | none => none
  | some (some x, s) => if p x then some (some x) else find step p s
  | some (none, _) => some none
partial_fixpoint

/-- The loop of `position` core_impls.fer:227-238. -/
def positionFrom (step : Step σ α) (p : α → Bool) (s : σ) (index : Int) : Option (Option Int) :=
  match step s with
  | none => none
  | some (some x, s) => if p x then some (some index) else positionFrom step p s (index + 1)
  | some (none, _) => some none
partial_fixpoint

/-- `position` core_impls.fer:224-239. -/
def position (step : Step σ α) (p : α → Bool) (s : σ) : Option (Option Int) := positionFrom step p s 0

end Ferlium.Iter
