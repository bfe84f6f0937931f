/-!
Model of the array algorithms written in ferlium: reverse, merge sort, split, join, contains
(`src/std/prelude/core_impls_dependent.fer`), and of the grapheme-aligned string splitter (`src/std/string.rs`).

Arrays are lists here: `Verif.Props.Array` (C01-C03) proves that the circular-buffer array behaves as a list for
indexing, assignment and slicing with in-range bounds.  An out-of-range access (a ferlium index panic) is `none`.
Simplifications: indices are `Nat` (all of them are non-negative in this code; no wrap-around at 2^63), and the
user's `compare`/`==` are pure total functions (a failing one aborts the whole operation).
-/
namespace Ferlium.Algo

/-- `value[i]` array_type.fer:65-76 for a non-negative index. -/
def rd {α : Type} (xs : List α) (i : Nat) : Option α := xs[i]?

/-- `value[i] = x` array_type.fer:65-76 for a non-negative index. -/
def wr {α : Type} (xs : List α) (i : Nat) (x : α) : Option (List α) :=
  if i < xs.length then some (xs.set i x) else none

/-- `array_slice(value, start, end)` array.fer:215-240 for non-negative bounds (C03). -/
def sl {α : Type} (xs : List α) (s e : Nat) : List α := (xs.take e).drop s

/-! ### Reverse -/

/-- The `loop` of `Reverse for [A]` core_impls_dependent.fer:231-243; `right` decreases by one per iteration. -/
def reverseLoop {α : Type} : (right : Nat) → (left : Nat) → List α → Option (List α)
  | 0, _, v => some v
  | right + 1, left, v =>
    if left ≥ right + 1 then some v
    else if left ≥ right then some v
    else
      match rd v left with
      | none => none
      | some temp =>
        match rd v right with
        | none => none
        | some r =>
          match wr v left r with
          | none => none
          | some v =>
            match wr v right temp with
            | none => none
            | some v => reverseLoop right (left + 1) v

/-- `reverse` core_impls_dependent.fer:228-245. -/
def reverse {α : Type} (v : List α) : Option (List α) := reverseLoop v.length 0 v

/-! ### Stable merge sort -/

/-- The `for index in start..end` loop of `array_merge_ranges_by` core_impls_dependent.fer:264-284.
`n` counts the remaining iterations (`end - index`). -/
def mergeLoop {α : Type} (cmp : α → α → Ordering) (source : List α) (middle stop : Nat) :
    (n : Nat) → (index left right : Nat) → (target : List α) → Option (List α)
  | 0, _, _, _, target => some target
  | n + 1, index, left, right, target =>
    if left < middle then
      if right ≥ stop then
        match rd source left with
        | none => none
        | some x =>
          match wr target index x with
          | none => none
          | some target => mergeLoop cmp source middle stop n (index + 1) (left + 1) right target
      else
        match rd source left, rd source right with
        | some l, some r =>
          if cmp l r != Ordering.gt then
            match wr target index l with
            | none => none
            | some target => mergeLoop cmp source middle stop n (index + 1) (left + 1) right target
          else
            match wr target index r with
            | none => none
            | some target => mergeLoop cmp source middle stop n (index + 1) left (right + 1) target
        | _, _ => none
    else
      match rd source right with
      | none => none
      | some x =>
        match wr target index x with
        | none => none
        | some target => mergeLoop cmp source middle stop n (index + 1) left (right + 1) target

/-- `array_merge_ranges_by` core_impls_dependent.fer:260-285: the new `target` (the `source` is only read). -/
def mergeRanges {α : Type} (cmp : α → α → Ordering) (source target : List α) (start middle stop : Nat) :
    Option (List α) :=
  mergeLoop cmp source middle stop (stop - start) start start middle target

/-- `array_split_merge_by` core_impls_dependent.fer:287-294; returns the new (source, target).
`shift_right(start + end, 1)` is `(start + stop) / 2` for non-negative operands. -/
def splitMerge {α : Type} (cmp : α → α → Ordering) (source target : List α) (start stop : Nat) :
    Option (List α × List α) :=
  if _h : stop - start > 1 then
    let middle := (start + stop) / 2
    match splitMerge cmp target source start middle with
    | none => none
    | some (target, source) =>
      match splitMerge cmp target source middle stop with
      | none => none
      | some (target, source) =>
        match mergeRanges cmp source target start middle stop with
        | none => none
        | some target => some (source, target)
  else some (source, target)
termination_by stop - start
decreasing_by
  all_goals omega

/-- `array_merge_sort_by` core_impls_dependent.fer:297-304 (behind `sort_by`, `sort`, `sorted_by`, `sorted`). -/
def mergeSortBy {α : Type} (cmp : α → α → Ordering) (value : List α) : Option (List α) :=
  if value.length > 1 then
    match splitMerge cmp value value 0 value.length with
    | none => none
    | some (_, value) => some value
  else some value

/-! ### Split -/

/-- State of the three split iterators: `ArraySplitElementIterator` core_impls_dependent.fer:88-96,
`ArraySplitIterator` 126-134, `StringSplitIterator` string.rs:509-517 (`array`/`separator` are passed separately). -/
structure SplitIt where
  nextStart : Nat
  finished : Bool
  deriving DecidableEq, Repr

/-- The `loop` of `ArraySplitElementIterator::next` core_impls_dependent.fer:109-120. -/
def elemLoop {α : Type} (eq : α → α → Bool) (array : List α) (sep : α) (it : SplitIt) (sepStart : Nat) :
    Option (List α × SplitIt) :=
  if h : sepStart ≥ array.length then
    some (sl array it.nextStart array.length, { it with finished := true })
  else if eq (array[sepStart]'(by omega)) sep then
    some (sl array it.nextStart sepStart, { it with nextStart := sepStart + 1 })
  else elemLoop eq array sep it (sepStart + 1)
termination_by array.length - sepStart

/-- `ArraySplitElementIterator::next` core_impls_dependent.fer:102-121 (`none` = end of iteration). -/
def elemNext {α : Type} (eq : α → α → Bool) (array : List α) (sep : α) (it : SplitIt) :
    Option (List α × SplitIt) :=
  if it.finished then none else elemLoop eq array sep it it.nextStart

/-- `Value::eq` of arrays array.fer:5-20 on lists (proved equal to `List.isEqv` in C13). -/
def arrEq {α : Type} (eq : α → α → Bool) (xs ys : List α) : Bool := List.isEqv xs ys eq

/-- The `loop` of `ArraySplitIterator::next` core_impls_dependent.fer:153-166. -/
def arrLoop {α : Type} (eq : α → α → Bool) (array sep : List α) (it : SplitIt) (last sepStart : Nat) :
    Option (List α × SplitIt) :=
  if sepStart > last then
    some (sl array it.nextStart array.length, { it with finished := true })
  else if arrEq eq (sl array sepStart (sepStart + sep.length)) sep then
    some (sl array it.nextStart sepStart, { it with nextStart := sepStart + sep.length })
  else arrLoop eq array sep it last (sepStart + 1)
termination_by last + 1 - sepStart

/-- `ArraySplitIterator::next` core_impls_dependent.fer:140-167; `array_len - next_start` is an `int`
subtraction (may be negative). -/
def arrNext {α : Type} (eq : α → α → Bool) (array sep : List α) (it : SplitIt) : Option (List α × SplitIt) :=
  if it.finished then none
  else if (sep.length : Int) > (array.length : Int) - it.nextStart then
    some (sl array it.nextStart array.length, { it with finished := true })
  else arrLoop eq array sep it (array.length - sep.length) it.nextStart

/-- `next_separator_start` string.rs:532-547 for a string given by its grapheme clusters.  `sepText` is the
separator's text and `w` its number of grapheme clusters. -/
def strSepLoop {χ : Type} [DecidableEq χ] (gs : List (List χ)) (sepText : List χ) (w last cand : Nat) : Option Nat :=
  if cand > last then none
  else if (sl gs cand (cand + w)).flatten = sepText then some cand
  else strSepLoop gs sepText w last (cand + 1)
termination_by last + 1 - cand

/-- `StringSplitIterator::next` string.rs:572-589 with `next_separator_start` 532-547.  The string is its list of
grapheme clusters (segmentation itself is the unicode-segmentation crate, not modelled); a part is the list of
clusters of the slice `boundaries[start]..boundaries[end]` (`slice_grapheme_range` string.rs:522-530). -/
def strNext {χ : Type} [DecidableEq χ] (gs : List (List χ)) (sepText : List χ) (w : Nat) (it : SplitIt) :
    Option (List (List χ) × SplitIt) :=
  if it.finished then none
  else
    let found := if w > gs.length - it.nextStart then none else strSepLoop gs sepText w (gs.length - w) it.nextStart
    match found with
    | some s => some (sl gs it.nextStart s, { it with nextStart := s + w })
    | none => some (sl gs it.nextStart gs.length, { it with finished := true })

/-- Collecting an iterator (`from_iter(split_iterator(..))` core_impls_dependent.fer:78-84); `none` = never ends. -/
def collect {β : Type} (next : SplitIt → Option (β × SplitIt)) (it : SplitIt) : Option (List β) :=
  match next it with
  | none => some []
  | some (p, it) => do
    let rest ← collect next it
    some (p :: rest)
partial_fixpoint

/-- `split_iterator` initial state core_impls_dependent.fer:187-192, 204-209 and string.rs:352-359. -/
def startIt : SplitIt := { nextStart := 0, finished := false }

/-- `split(array, element)`. core_impls_dependent.fer:78-84 with 182-194. -/
def splitElem {α : Type} (eq : α → α → Bool) (array : List α) (sep : α) : Option (List (List α)) :=
  collect (elemNext eq array sep) startIt

/-- Outcome of a split on a sequence separator. -/
inductive SplitRes (β : Type) where
  | parts (ps : List β)
  | invalidArgument
  | diverges

/-- `split(array, array)` core_impls_dependent.fer:78-84 with 196-212 (empty separator is rejected). -/
def splitArr {α : Type} (eq : α → α → Bool) (array sep : List α) : SplitRes (List α) :=
  if sep.length = 0 then .invalidArgument
  else match collect (arrNext eq array sep) startIt with
    | some ps => .parts ps
    | none => .diverges

/-- `split(string, string)`: string.rs:344-360 and core_impls_dependent.fer:176-180.  `sep` is the separator's
list of grapheme clusters. -/
def splitStr {χ : Type} [DecidableEq χ] (gs sep : List (List χ)) : SplitRes (List (List χ)) :=
  if sep.flatten.length = 0 then .invalidArgument
  else match collect (strNext gs sep.flatten sep.length) startIt with
    | some ps => .parts ps
    | none => .diverges

/-! ### Join and contains -/

/-- The inner loop of `join` core_impls_dependent.fer:62-69 over the remaining items; `cat` is `Concat::concat` of
the element type (append for arrays, `string_concat` string.rs:174-176 for strings). -/
def joinLoop {β : Type} (cat : β → β → β) (sep : β) : List β → β → β
  | [], acc => acc
  | e :: es, acc => joinLoop cat sep es (cat (cat acc sep) e)

/-- `join` core_impls_dependent.fer:56-73; `emp` is `Empty::empty` of the element type. -/
def join {β : Type} (cat : β → β → β) (emp : β) (items : List β) (sep : β) : β :=
  match items with
  | first :: rest => joinLoop cat sep rest first
  | [] => emp

/-- `contains` core_impls_dependent.fer:41-50. -/
def contains {α : Type} (eq : α → α → Bool) : List α → α → Bool
  | [], _ => false
  | x :: xs, e => if eq x e then true else contains eq xs e

end Ferlium.Algo
