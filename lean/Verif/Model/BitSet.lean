import Mathlib.Data.BitVec

/-!
Model of `DenseBitSet` (`src/containers.rs:30-267`).  Machine words are `BitVec 64`, boxed slices are lists;
`none` models a panic (indexing the first word of an empty slice).
-/
namespace Ferlium.BitSet

abbrev W := BitVec 64

/-- `DenseBitSet` containers.rs:31-36. -/
inductive BS where
  | empty
  | inline (bits : W)
  | heap (words : List W)
  deriving Repr

/-- `zeroed_words` containers.rs:263-267. -/
def zeroed (n : Nat) : List W := List.replicate n 0#64

/-- `1u64 << (index % 64)`. -/
def bitOf (index : Nat) : W := 1#64 <<< (index % 64)

/-- `with_capacity` containers.rs:43-49. -/
def withCapacity (bits : Nat) : BS := if bits ≤ 64 then .inline 0#64 else .heap (zeroed ((bits + 63) / 64))

/-- `insert` containers.rs:51-78. -/
def insert (s : BS) (index : Nat) : BS :=
  let word := index / 64
  let bit := bitOf index
  match s with
  | .empty => if word = 0 then .inline bit else .heap ((zeroed (word + 1)).set word bit)
  | .inline bits =>
    if word = 0 then .inline (bits ||| bit)
    else .heap (((zeroed (word + 1)).set 0 bits).modify word (· ||| bit))
  | .heap words =>
    if word < words.length then .heap (words.modify word (· ||| bit))
    else .heap ((words ++ zeroed (word + 1 - words.length)).modify word (· ||| bit))

/-- `remove` containers.rs:80-93. -/
def remove (s : BS) (index : Nat) : BS :=
  let word := index / 64
  let bit := bitOf index
  match s with
  | .empty => .empty
  | .inline bits => if word = 0 then .inline (bits &&& ~~~bit) else .inline bits
  | .heap words => .heap (words.modify word (· &&& ~~~bit))

/-- `contains` containers.rs:95-103. -/
def contains (s : BS) (index : Nat) : Bool :=
  let word := index / 64
  let bit := bitOf index
  match s with
  | .empty => false
  | .inline bits => word = 0 && (bits &&& bit) != 0#64
  | .heap words => match words[word]? with
    | some w => (w &&& bit) != 0#64
    | none => false

/-- `nonzero_word_len` containers.rs:168-177 (one past the last nonzero word). -/
def nonzeroLen : List W → Nat
  | [] => 0
  | w :: ws => if nonzeroLen ws = 0 then (if w = 0#64 then 0 else 1) else nonzeroLen ws + 1

/-- `nonzero_word_len` containers.rs:168-177. -/
def nonzeroWordLen : BS → Nat
  | .empty => 0
  | .inline bits => if bits = 0#64 then 0 else 1
  | .heap words => nonzeroLen words

/-- `is_empty` containers.rs:105-107. -/
def isEmpty (s : BS) : Bool := nonzeroWordLen s = 0

/-- `u64::count_ones`. -/
def countOnes (w : W) : Nat := (List.range 64).countP (fun i => w.getLsbD i)

/-- `len` containers.rs:109-115. -/
def len : BS → Nat
  | .empty => 0
  | .inline bits => countOnes bits
  | .heap words => (words.map countOnes).sum

/-- `union_with` containers.rs:117-142; `a[0]` panics on an empty slice. -/
def unionWith : BS → BS → Option BS
  | s, .empty => some s
  | .empty, o => some o
  | .inline a, .inline b => some (.inline (a ||| b))
  | .heap a, .inline b => match a with
    | [] => none
    | w :: ws => some (.heap ((w ||| b) :: ws))
  | .inline a, .heap b => match b with
    | [] => none
    | w :: ws => some (.heap ((w ||| a) :: ws))
  | .heap a, .heap b =>
    let a := if a.length < b.length then a ++ zeroed (b.length - a.length) else a
    some (.heap (List.zipWith (· ||| ·) a b ++ a.drop b.length))

/-- `intersects` containers.rs:144-154. -/
def intersects : BS → BS → Option Bool
  | .empty, _ => some false
  | _, .empty => some false
  | .inline a, .inline b => some ((a &&& b) != 0#64)
  | .inline a, .heap b => match b with
    | [] => none
    | w :: _ => some ((a &&& w) != 0#64)
  | .heap b, .inline a => match b with
    | [] => none
    | w :: _ => some ((a &&& w) != 0#64)
  | .heap a, .heap b => some ((List.zipWith (fun l r => (l &&& r) != 0#64) a b).any id)

/-- `word_at` containers.rs:179-191. -/
def wordAt (s : BS) (index : Nat) : W :=
  match s with
  | .empty => 0#64
  | .inline bits => if index = 0 then bits else 0#64
  | .heap words => (words[index]?).getD 0#64

/-- `PartialEq` containers.rs:194-202. -/
def eqB (s t : BS) : Bool :=
  if nonzeroWordLen s ≠ nonzeroWordLen t then false
  else (List.range (nonzeroWordLen s)).all (fun i => wordAt s i == wordAt t i)

/-- What `Hash` feeds to the hasher, containers.rs:206-214. -/
def hashInput (s : BS) : Nat × List W :=
  (nonzeroWordLen s, (List.range (nonzeroWordLen s)).map (wordAt s))

/-- `u64::trailing_zeros`: position of the lowest set bit, 64 for zero. -/
def trailingZeros (w : W) : Nat := ((List.range 64).find? (fun i => w.getLsbD i)).getD 64

/-- `DenseBitSetOnes` containers.rs:216-225. -/
inductive Ones where
  | inline (current : W)
  | heap (words : List W) (wordIdx : Nat) (current : W)

/-- `iter_ones` containers.rs:156-166. -/
def iterOnes : BS → Ones
  | .empty => .inline 0#64
  | .inline bits => .inline bits
  | .heap words => .heap words 0 ((words[0]?).getD 0#64)

/-- The loop of `next` on a heap set, containers.rs:245-256; recursion on the words left. -/
def heapNext (words : List W) (wordIdx : Nat) (current : W) : Option Nat × Ones :=
  if current ≠ 0#64 then
    (some (wordIdx * 64 + trailingZeros current), .heap words wordIdx (current &&& (current - 1#64)))
  else if h : wordIdx + 1 ≥ words.length then (none, .heap words (wordIdx + 1) current)
  else heapNext words (wordIdx + 1) (words[wordIdx + 1]'(by omega))
termination_by words.length - wordIdx

/-- `Iterator::next` containers.rs:230-258. -/
def next : Ones → Option Nat × Ones
  | .inline current =>
    if current = 0#64 then (none, .inline current)
    else (some (trailingZeros current), .inline (current &&& (current - 1#64)))
  | .heap words wordIdx current => heapNext words wordIdx current

/-- The results of the first `n` calls of `next`. -/
def takeNext : Nat → Ones → List (Option Nat)
  | 0, _ => []
  | n + 1, it => let (r, it') := next it; r :: takeNext n it'

/-- Ways a set is built. -/
inductive Expr where
  | empty
  | withCapacity (bits : Nat)
  | insert (e : Expr) (index : Nat)
  | remove (e : Expr) (index : Nat)
  | union (e o : Expr)

/-- Running the operations; `none` is a panic. -/
def run : Expr → Option BS
  | .empty => some .empty
  | .withCapacity bits => some (withCapacity bits)
  | .insert e i => (run e).map (insert · i)
  | .remove e i => (run e).map (remove · i)
  | .union e o => match run e, run o with
    | some s, some t => unionWith s t
    | _, _ => none

end Ferlium.BitSet
