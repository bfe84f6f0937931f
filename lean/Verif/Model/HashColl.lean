/-!
Model of ferlium's hash set and hash map (`src/std/prelude/hash_collections.fer`) and of the order-independent
hash accumulator (`src/std/hash.rs`).

Parameters: `eq` is the `Value::eq` of the key type and `h` is `value_hash` (hash_collections.fer:2-9) of the key
type; they are arbitrary user code, so theorems state what they require of them.
Simplifications: lengths, capacities and bucket indices are `Nat` (no wrap-around at 2^63, a table of that size
cannot exist); the bucket array is a `List` (arrays are modelled separately in `Verif.Model.Array`); a hash is a
64-bit word, `hash as int` followed by `bit_and` with a non-negative mask is the bitwise and of the unsigned words.
-/
namespace Ferlium.HColl

/-- `HashMapEntry` hash_collections.fer:196-204; also `HashSetSlot` hash_collections.fer:13-19, taking `V := Unit`
and calling the slot's `value` field `key` (the `key_getter` of the set functions is `|slot| slot.value`). -/
structure Entry (K V : Type) where
  hash : BitVec 64
  key : K
  value : V

/-- The `buckets` field, `[Option<...>]`. -/
abbrev Buckets (K V : Type) := List (Option (Entry K V))

/-- `HashMap` hash_collections.fer:253-260 and `HashSet` hash_collections.fer:22-28. -/
structure Coll (K V : Type) where
  buckets : Buckets K V
  len : Nat

/-- `hash_map_new` hash_collections.fer:275-281 and `hash_set_new` hash_collections.fer:42-47. -/
def Coll.new {K V : Type} : Coll K V := { buckets := [], len := 0 }

/-- `hash_collection_bucket_index` hash_collections.fer:495-497. -/
def bucketIndex (slotHash : BitVec 64) (capacity : Nat) : Nat :=
  slotHash.toNat &&& (capacity - 1)

/-- `index = bit_and(index + 1, capacity - 1)` hash_collections.fer:524 and 573. -/
def nextIndex (index capacity : Nat) : Nat :=
  (index + 1) &&& (capacity - 1)

/-- `hash_collection_empty_buckets` hash_collections.fer:499-505. -/
def emptyBuckets {K V : Type} (capacity : Nat) : Buckets K V := List.replicate capacity none

section
variable {K V : Type} (eq : K → K → Bool)

/-- The test `existing.hash == entry.hash and key_getter(existing) == key_getter(entry)` of
hash_collections.fer:513 and 566. -/
def hit (x : Entry K V) (hash : BitVec 64) (key : K) : Bool :=
  x.hash == hash && eq x.key key

/-- The unbounded `loop` of `hash_collection_insert_entry` hash_collections.fer:510-525, started at `index`.
The result is `none` when the loop runs forever; a bucket access out of range (an index panic in the code) is
modelled by the same `none`, so that `some` means "terminates normally". -/
def insertLoop (buckets : Buckets K V) (entry : Entry K V) (index : Nat) : Option (Buckets K V) :=
  match buckets[index]? with
  | none => none
  | some (some existing) =>
    if hit eq existing entry.hash entry.key then some (buckets.set index (some entry))
    else insertLoop buckets entry (nextIndex index buckets.length)
  | some none => some (buckets.set index (some entry))
partial_fixpoint

/-- `hash_collection_insert_entry` hash_collections.fer:507-526 (the returned index is unused by all callers). -/
def insertEntry (buckets : Buckets K V) (entry : Entry K V) : Option (Buckets K V) :=
  insertLoop eq buckets entry (bucketIndex entry.hash buckets.length)

/-- The `for bucket in old_buckets` loop of `hash_collection_rehash` hash_collections.fer:531-538. -/
def rehashLoop : Buckets K V → Buckets K V → Option (Buckets K V)
  | [], acc => some acc
  | none :: rest, acc => rehashLoop rest acc
  | some e :: rest, acc =>
    match insertEntry eq acc e with
    | none => none
    | some acc' => rehashLoop rest acc'

/-- `hash_collection_rehash` hash_collections.fer:528-540. -/
def rehash (c : Coll K V) (newCapacity : Nat) : Option (Coll K V) :=
  match rehashLoop eq c.buckets (emptyBuckets newCapacity) with
  | none => none
  | some b => some { c with buckets := b }

/-- `hash_collection_reserve_for_insert` hash_collections.fer:542-549. -/
def reserveForInsert (c : Coll K V) : Option (Coll K V) :=
  let capacity := c.buckets.length
  if capacity ≤ 0 then rehash eq c 8
  else if (c.len + 1) * 3 ≥ capacity * 2 then rehash eq c (capacity * 2)
  else some c

/-- Outcome of a lookup: not found, found at an index, or an index panic. -/
inductive Found where
  | no
  | at (index : Nat)
  | panic
  deriving DecidableEq, Repr

/-- The loop of `hash_collection_find_index_with_hash` hash_collections.fer:558-575. -/
def findLoop (buckets : Buckets K V) (hash : BitVec 64) (key : K) : (remaining : Nat) → (index : Nat) → Found
  | 0, _ => .no
  | remaining + 1, index =>
    match buckets[index]? with
    | none => .panic
    | some (some entry) =>
      if hit eq entry hash key then .at index
      else findLoop buckets hash key remaining (nextIndex index buckets.length)
    | some none => .no

/-- `hash_collection_find_index_with_hash` hash_collections.fer:551-576. -/
def findIndex (buckets : Buckets K V) (hash : BitVec 64) (key : K) : Found :=
  if buckets.length ≤ 0 then .no
  else findLoop eq buckets hash key buckets.length (bucketIndex hash buckets.length)

variable (h : K → BitVec 64)

/-- `map_insert` hash_collections.fer:284-313.  `none` = does not terminate normally. -/
def mapInsert (c : Coll K V) (key : K) (value : V) : Option (Coll K V × Option V) :=
  let keyHash := h key
  match findIndex eq c.buckets keyHash key with
  | .panic => none
  | .no =>
    match reserveForInsert eq c with
    | none => none
    | some c =>
      match insertEntry eq c.buckets { hash := keyHash, key := key, value := value } with
      | none => none
      | some b => some ({ buckets := b, len := c.len + 1 }, none)
  | .at index =>
    match c.buckets[index]? with
    | none => none
    | some (some entry) =>
      some ({ c with buckets := c.buckets.set index (some { hash := keyHash, key := key, value := value }) },
        some entry.value)
    | some none => some (c, none)

/-- `map_get` hash_collections.fer:316-330.  Outer `none` = index panic. -/
def mapGet (c : Coll K V) (key : K) : Option (Option V) :=
  match findIndex eq c.buckets (h key) key with
  | .panic => none
  | .no => some none
  | .at index =>
    match c.buckets[index]? with
    | none => none
    | some (some entry) => some (some entry.value)
    | some none => some none

/-- `set_insert` hash_collections.fer:50-65. -/
def setInsert (c : Coll K Unit) (value : K) : Option (Coll K Unit × Bool) :=
  let slotHash := h value
  match findIndex eq c.buckets slotHash value with
  | .panic => none
  | .at _ => some (c, false)
  | .no =>
    match reserveForInsert eq c with
    | none => none
    | some c =>
      match insertEntry eq c.buckets { hash := slotHash, key := value, value := () } with
      | none => none
      | some b => some ({ buckets := b, len := c.len + 1 }, true)

/-- `set_contains` hash_collections.fer:68-74. -/
def setContains (c : Coll K Unit) (value : K) : Option Bool :=
  match findIndex eq c.buckets (h value) value with
  | .panic => none
  | .no => some false
  | .at _ => some true

/-- Repeated `map_insert`, e.g. the loop of `from_iter` hash_collections.fer:439-450. -/
def mapInsertAll (c : Coll K V) : List (K × V) → Option (Coll K V)
  | [] => some c
  | (k, v) :: rest =>
    match mapInsert eq h c k v with
    | none => none
    | some (c', _) => mapInsertAll c' rest

/-- Repeated `set_insert`, e.g. the loop of `from_iter` hash_collections.fer:142-153. -/
def setInsertAll (c : Coll K Unit) : List K → Option (Coll K Unit)
  | [] => some c
  | k :: rest =>
    match setInsert eq h c k with
    | none => none
    | some (c', _) => setInsertAll c' rest

end

/-- The element sequence produced by repeatedly calling `HashMapIterator.next` hash_collections.fer:372-386
(or `HashSetIterator.next` 80-94): scan the buckets from the current index, skipping empty ones. -/
def iterNext {K V : Type} (buckets : Buckets K V) (index : Nat) : Option ((K × V) × Nat) :=
  if hlt : index < buckets.length then
    match buckets[index] with
    | some entry => some ((entry.key, entry.value), index + 1)
    | none => iterNext buckets (index + 1)
  else none
termination_by buckets.length - index

/-- Exhaust an iterator (`for` loop), starting from `index`, taking at most `fuel` items. -/
def iterAll {K V : Type} (buckets : Buckets K V) : (fuel : Nat) → (index : Nat) → List (K × V)
  | 0, _ => []
  | fuel + 1, index =>
    match iterNext buckets index with
    | none => []
    | some (x, index') => x :: iterAll buckets fuel index'

/-- All items a `for` loop over the collection visits: each `next` advances the index, so `capacity` calls
exhaust the iterator. -/
def toItems {K V : Type} (c : Coll K V) : List (K × V) := iterAll c.buckets c.buckets.length 0

/-- `hash_collection_eq` hash_collections.fer:578-589 with a possibly panicking `contain_fn`. -/
def collEq {K V : Type} (contains : Coll K V → K × V → Option Bool) (left right : Coll K V) : Option Bool :=
  if left.len ≠ right.len then some false
  else go (toItems left)
where
  go : List (K × V) → Option Bool
    | [] => some true
    | x :: rest =>
      match contains right x with
      | none => none
      | some false => some false
      | some true => go rest

/-- `map_contains_key_value` hash_collections.fer:348-357 (called by `hash_map_contains_entry` 359-365). -/
def mapContainsKeyValue {K V : Type} (eq : K → K → Bool) (h : K → BitVec 64) (eqV : V → V → Bool)
    (c : Coll K V) (x : K × V) : Option Bool :=
  match mapGet eq h c x.1 with
  | none => none
  | some (some existing) => some (eqV existing x.2)
  | some none => some false

/-- `HashMap` `Value::eq` hash_collections.fer:459-461. -/
def mapEq {K V : Type} (eq : K → K → Bool) (h : K → BitVec 64) (eqV : V → V → Bool)
    (left right : Coll K V) : Option Bool :=
  collEq (mapContainsKeyValue eq h eqV) left right

/-- `HashSet` `Value::eq` hash_collections.fer:161-163. -/
def setEq {K : Type} (eq : K → K → Bool) (h : K → BitVec 64) (left right : Coll K Unit) : Option Bool :=
  collEq (fun c x => setContains eq h c x.1) left right

/-- `UnorderedHasher` hash.rs:133-137. -/
structure UHasher where
  sum : BitVec 64
  xor : BitVec 64
  count : BitVec 64
  deriving DecidableEq, Repr

/-- `UnorderedHasher::new` hash.rs:142-148. -/
def UHasher.new : UHasher := { sum := 0, xor := 0, count := 0 }

/-- `UnorderedHasher::add` hash.rs:150-154. -/
def UHasher.add (u : UHasher) (x : BitVec 64) : UHasher :=
  { sum := u.sum + x, xor := u.xor ^^^ x, count := u.count + 1 }

/-- `hash_collection_hash` hash_collections.fer:621-629, as the sequence of words written after the tag: the
accumulator fields (mixed by `finish` in hash.rs:156-162, a function of the three fields only) and the length.
`he` is `value_hash` of the items. -/
def collHash {K V : Type} (he : K × V → BitVec 64) (c : Coll K V) : UHasher × Nat :=
  ((toItems c).foldl (fun u x => u.add (he x)) UHasher.new, c.len)

end Ferlium.HColl
