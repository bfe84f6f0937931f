/-!
Model of ferlium's dynamic array (a circular buffer written in ferlium itself).

Sources: `src/std/prelude/array_type.fer`, `src/std/prelude/array.fer`, `src/std/buffer.rs`.

A buffer slot is `none` when uninitialised and `some x` when it owns `x`.  All sizes and indices are ferlium
`int`s, modelled as unbounded `Int` (simplification: no wrap-around at 2^63; a buffer of that size cannot exist).
Everything that would be undefined behaviour or a leak in the real code (slot outside the buffer, reading or
moving out of an uninitialised slot, initialising a slot that still owns a value) is an explicit error, so
"never happens" is a statement about the model and not an assumption.
-/
namespace Ferlium.Arr

/-- Ways an array operation can go wrong.  `indexPanic` is the source-level `panic(...)` of
array_type.fer:32-34; the other three are memory errors. -/
inductive Err where
  | indexPanic
  | badSlot
  | uninitRead
  | overwriteLive
  deriving DecidableEq, Repr

/-- `pub struct array<A>` array_type.fer:4-9. -/
structure Arr (α : Type) where
  data : List (Option α)
  capacity : Int
  len : Int
  start : Int
  deriving Repr

/-- `Buffer::with_capacity` buffer.rs:86-90 behind `buffer_with_capacity` buffer.rs:248-250
(`capacity.max(0) as usize` uninitialised slots). -/
def bufferWithCapacity {α : Type} (capacity : Int) : List (Option α) :=
  List.replicate capacity.toNat none

/-- `buffer_slot` buffer.rs:195-210 followed by a read of the place. -/
def slotRead {α : Type} (d : List (Option α)) (i : Int) : Except Err α :=
  if i < 0 then .error .badSlot
  else match d[i.toNat]? with
    | none => .error .badSlot
    | some none => .error .uninitRead
    | some (some x) => .ok x

/-- `builtin::init_place(buffer_slot(..), value)`: writes a slot that must not own a value. -/
def slotInit {α : Type} (d : List (Option α)) (i : Int) (x : α) : Except Err (List (Option α)) :=
  if i < 0 then .error .badSlot
  else match d[i.toNat]? with
    | none => .error .badSlot
    | some (some _) => .error .overwriteLive
    | some none => .ok (d.set i.toNat (some x))

/-- Assignment `array[i] = x` through the `ref mut` subscript: the old value is dropped, the new one stored. -/
def slotAssign {α : Type} (d : List (Option α)) (i : Int) (x : α) : Except Err (List (Option α)) :=
  if i < 0 then .error .badSlot
  else match d[i.toNat]? with
    | none => .error .badSlot
    | some none => .error .uninitRead
    | some (some _) => .ok (d.set i.toNat (some x))

/-- `buffer_take` buffer.rs:383-397: moves the value out and leaves the slot uninitialised. -/
def slotTake {α : Type} (d : List (Option α)) (i : Int) : Except Err (α × List (Option α)) :=
  if i < 0 then .error .badSlot
  else match d[i.toNat]? with
    | none => .error .badSlot
    | some none => .error .uninitRead
    | some (some x) => .ok (x, d.set i.toNat none)

/-- `array_wrap_index` array_type.fer:15-21. -/
def wrapIndex (capacity index : Int) : Int :=
  if index ≥ capacity then index - capacity else index

/-- `array_signed_index_to_offset` array_type.fer:23-29. -/
def signedIndexToOffset (index len : Int) : Int :=
  if index < 0 then len + index else index

/-- `array_resolve_index` array_type.fer:31-37. -/
def resolveIndex (index len : Int) : Except Err Int :=
  let resolved := signedIndexToOffset index len
  if resolved < 0 ∨ resolved ≥ len then .error .indexPanic else .ok resolved

/-- `array_physical_offset_unchecked` array_type.fer:47-49. -/
def physicalOffset {α : Type} (a : Arr α) (offset : Int) : Int :=
  wrapIndex a.capacity (a.start + offset)

/-- `array_offset_unchecked` array_type.fer:54-63 (read access). -/
def offsetRead {α : Type} (a : Arr α) (offset : Int) : Except Err α :=
  slotRead a.data (physicalOffset a offset)

/-- `array_index` array_type.fer:65-76, read access `a[i]`. -/
def index {α : Type} (a : Arr α) (i : Int) : Except Err α := do
  let resolved ← resolveIndex i a.len
  slotRead a.data (wrapIndex a.capacity (a.start + resolved))

/-- `array_index` array_type.fer:65-76, write access `a[i] = x`. -/
def indexAssign {α : Type} (a : Arr α) (i : Int) (x : α) : Except Err (Arr α) := do
  let resolved ← resolveIndex i a.len
  let data ← slotAssign a.data (wrapIndex a.capacity (a.start + resolved)) x
  .ok { a with data := data }

/-- `array_with_capacity` array_type.fer:78-86. -/
def withCapacity {α : Type} (capacity : Int) : Arr α :=
  let capacity := if capacity < 0 then 0 else capacity
  { data := bufferWithCapacity capacity, capacity := capacity, len := 0, start := 0 }

/-- The moving loop of `array_ensure_capacity` array_type.fer:106-120, `buffer_move_into` buffer.rs:293-322.
`n` counts the remaining iterations (`array.len - i`). -/
def moveLoop {α : Type} (cap start : Int) :
    Nat → Int → List (Option α) → List (Option α) → Except Err (List (Option α) × List (Option α))
  | 0, _, src, dst => .ok (src, dst)
  | n + 1, i, src, dst => do
    let (x, src) ← slotTake src (wrapIndex cap (start + i))
    let dst ← slotInit dst i x
    moveLoop cap start n (i + 1) src dst

/-- `array_ensure_capacity` array_type.fer:88-124.  The old buffer is discarded by `buffer_move`
(buffer.rs:355-366) without running drops: an error if it still owns a value. -/
def ensureCapacity {α : Type} (a : Arr α) (len : Int) : Except Err (Arr α) :=
  if a.capacity ≥ len then .ok a
  else
    let newCapacity := if a.capacity ≤ 0 then 1 else a.capacity * 2
    let newCapacity := if newCapacity < len then len else newCapacity
    do
      let (old, new) ← moveLoop a.capacity a.start a.len.toNat 0 a.data (bufferWithCapacity newCapacity)
      if old.all Option.isNone then
        .ok { data := new, capacity := newCapacity, len := a.len, start := 0 }
      else .error .overwriteLive

/-- `array_append` array.fer:139-147. -/
def append {α : Type} (a : Arr α) (x : α) : Except Err (Arr α) := do
  let a ← ensureCapacity a (a.len + 1)
  let data ← slotInit a.data (wrapIndex a.capacity (a.start + a.len)) x
  .ok { a with data := data, len := a.len + 1 }

/-- `array_prepend` array.fer:150-164. -/
def prepend {α : Type} (a : Arr α) (x : α) : Except Err (Arr α) := do
  let a ← ensureCapacity a (a.len + 1)
  let start :=
    if a.capacity > 0 then (if a.start ≤ 0 then a.capacity - 1 else a.start - 1) else a.start
  let data ← slotInit a.data start x
  .ok { a with data := data, start := start, len := a.len + 1 }

/-- `array_pop_back` array.fer:167-179. -/
def popBack {α : Type} (a : Arr α) : Except Err (Option α × Arr α) :=
  if a.len ≤ 0 then .ok (none, a)
  else do
    let idx := physicalOffset a (a.len - 1)
    let (x, data) ← slotTake a.data idx
    .ok (some x, { a with data := data, len := a.len - 1 })

/-- `array_pop_front` array.fer:182-202. -/
def popFront {α : Type} (a : Arr α) : Except Err (Option α × Arr α) :=
  if a.len ≤ 0 then .ok (none, a)
  else do
    let idx := a.start
    let len := a.len - 1
    let start :=
      if len ≤ 0 then 0
      else if a.start + 1 ≥ a.capacity then 0 else a.start + 1
    let (x, data) ← slotTake a.data idx
    .ok (some x, { a with data := data, len := len, start := start })

/-- `array_peek_back` array.fer:113-123. -/
def peekBack {α : Type} (a : Arr α) : Except Err (Option α) :=
  if a.len ≤ 0 then .ok none else (offsetRead a (a.len - 1)).map some

/-- `array_peek_front` array.fer:126-136. -/
def peekFront {α : Type} (a : Arr α) : Except Err (Option α) :=
  if a.len ≤ 0 then .ok none else (offsetRead a 0).map some

/-- The copying loops of `clone` (array.fer:59-69), `array_slice` (array.fer:226-237) and `concat`
(array.fer:249-260, 262-273): for `n` iterations starting at logical offset `i`, append a copy of
`source[i]` at `target.data[target.len]`. -/
def copyLoop {α : Type} (source : Arr α) : Nat → Int → Arr α → Except Err (Arr α)
  | 0, _, target => .ok target
  | n + 1, i, target => do
    let x ← slotRead source.data (physicalOffset source i)
    let data ← slotInit target.data target.len x
    copyLoop source n (i + 1) { target with data := data, len := target.len + 1 }

/-- `Value::clone` for arrays, array.fer:54-70. -/
def clone {α : Type} (source : Arr α) : Except Err (Arr α) :=
  copyLoop source source.len.toNat 0 (withCapacity source.len)

/-- `array_slice_bound` array.fer:204-213. -/
def sliceBound (len index : Int) : Int :=
  let resolved := signedIndexToOffset index len
  if resolved < 0 then len else if resolved > len then len else resolved

/-- `array_slice` array.fer:215-240. -/
def slice {α : Type} (a : Arr α) (start stop : Int) : Except Err (Arr α) :=
  let s := sliceBound a.len start
  let e := sliceBound a.len stop
  if e > s then copyLoop a (e - s).toNat s (withCapacity (e - s)) else .ok (withCapacity (e - s))

/-- `Concat for [A]` array.fer:242-276. -/
def concat {α : Type} (l r : Arr α) : Except Err (Arr α) := do
  let res ← copyLoop l l.len.toNat 0 (withCapacity (l.len + r.len))
  copyLoop r r.len.toNat 0 res

/-- The loop of `Value::eq` array.fer:10-19; `n` counts `l - i`. -/
def eqLoop {α : Type} (eq : α → α → Bool) (l r : Arr α) : Nat → Int → Except Err Bool
  | 0, _ => .ok true
  | n + 1, i => do
    let x ← offsetRead l i
    let y ← offsetRead r i
    if eq x y then eqLoop eq l r n (i + 1) else .ok false

/-- `Value::eq` for arrays, array.fer:5-20. -/
def arrEq {α : Type} (eq : α → α → Bool) (l r : Arr α) : Except Err Bool :=
  if l.len ≠ r.len then .ok false else eqLoop eq l r l.len.toNat 0

/-- The loop of `Value::hash` array.fer:43-50 for a hasher state `σ`. -/
def hashLoop {α σ : Type} (hash : α → σ → σ) (a : Arr α) : Nat → Int → σ → Except Err σ
  | 0, _, s => .ok s
  | n + 1, i, s => do
    let x ← offsetRead a i
    hashLoop hash a n (i + 1) (hash x s)

/-- `Value::hash` for arrays, array.fer:40-51 (`writeInt` is `hasher_write_int`). -/
def arrHash {α σ : Type} (writeInt : Int → σ → σ) (hash : α → σ → σ) (a : Arr α) (s : σ) :
    Except Err σ :=
  hashLoop hash a a.len.toNat 0 (writeInt a.len s)

/-- `Value::drop` for arrays, array.fer:73-91: takes elements from the back until none is left.
Returns the dropped elements in drop order and the final array. -/
def dropLoop {α : Type} : Nat → Arr α → Except Err (List α × Arr α)
  | 0, a => .ok ([], a)
  | n + 1, a => do
    let (x, data) ← slotTake a.data (physicalOffset a (a.len - 1))
    let (xs, a') ← dropLoop n { a with data := data, len := a.len - 1 }
    .ok (x :: xs, a')

/-- `Value::drop`, array.fer:73-91 (the loop runs while `len > 0`, i.e. `len` times). -/
def drop {α : Type} (a : Arr α) : Except Err (List α × Arr α) := dropLoop a.len.toNat a

/-- `ArrayIterator::next` array.fer:292-300 on (array, index). -/
def iterNext {α : Type} (a : Arr α) (idx : Int) : Except Err (Option α × Int) :=
  if idx < a.len then do
    let x ← offsetRead a idx
    .ok (some x, idx + 1)
  else .ok (none, idx)

/-- `FromIterator for [T]` array.fer:319-330, for an iterator that yields the given items. -/
def fromItems {α : Type} : List α → Arr α → Except Err (Arr α)
  | [], a => .ok a
  | x :: xs, a => do
    let a ← append a x
    fromItems xs a

end Ferlium.Arr
