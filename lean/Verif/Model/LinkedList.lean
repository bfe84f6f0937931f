import Mathlib.Data.List.Basic

/-!
Model of the doubly linked list with stable addresses (`src/list.rs`).  Addresses are naturals (offsets into the
bucket storage); `none` as the result of an operation is a panic (failed `assert!`, `expect` or slice index).
The `debug_assert!` of `Bucket::assign` (list.rs:365) is not modelled.
-/
namespace Ferlium.LinkedList

variable {T : Type}

/-- `Bucket` list.rs:342-351. -/
structure Bucket (T : Type) where
  previous : Option Nat
  next : Option Nat
  element : Option T

/-- `List` list.rs:14-29. -/
structure L (T : Type) where
  size : Nat
  head : Option Nat
  tail : Option Nat
  free : Option Nat
  storage : List (Bucket T)

/-- `Address::CAPACITY` list.rs:280; `Address::new` panics from this offset on, list.rs:283-286. -/
def capacity : Nat := 2 ^ 32 - 1

/-- `new` list.rs:33-41. -/
def new : L T := ⟨0, none, none, none, []⟩

/-- `is_empty` / `len` list.rs:44-51. -/
def isEmpty (l : L T) : Bool := l.size = 0

/-- `in_bounds` list.rs:200-204. -/
def inBounds (l : L T) (a : Nat) : Bool :=
  match l.storage[a]? with
  | some b => b.element.isSome
  | none => false

/-- `address_after` list.rs:69-72. -/
def addressAfter (l : L T) (a : Nat) : Option (Option Nat) :=
  if inBounds l a then (l.storage[a]?).map Bucket.next else none

/-- `address_before` list.rs:75-78. -/
def addressBefore (l : L T) (a : Nat) : Option (Option Nat) :=
  if inBounds l a then (l.storage[a]?).map Bucket.previous else none

/-- `index` list.rs:229-232. -/
def index (l : L T) (a : Nat) : Option T :=
  if inBounds l a then (l.storage[a]?).bind Bucket.element else none

/-- `self.storage[i].field = ..`: panics out of range. -/
def upd (st : List (Bucket T)) (i : Nat) (f : Bucket T → Bucket T) : Option (List (Bucket T)) :=
  if i < st.length then some (st.modify i f) else none

/-- Assignment through `index_mut` list.rs:236-239. -/
def assign (l : L T) (a : Nat) (x : T) : Option (L T) :=
  if inBounds l a then
    (upd l.storage a (fun b => { b with element := some x })).map (fun st => { l with storage := st })
  else none

/-- The `if let Some(previous) .. else self.head = ..` of list.rs:140-144 and 180-184. -/
def setNextOrHead (l : L T) (previous value : Option Nat) : Option (L T) :=
  match previous with
  | some p => (upd l.storage p (fun b => { b with next := value })).map (fun st => { l with storage := st })
  | none => some { l with head := value }

/-- The `if let Some(next) .. else self.tail = ..` of list.rs:160-164 and 185-189. -/
def setPreviousOrTail (l : L T) (next value : Option Nat) : Option (L T) :=
  match next with
  | some n => (upd l.storage n (fun b => { b with previous := value })).map (fun st => { l with storage := st })
  | none => some { l with tail := value }

/-- `allocate_bucket` list.rs:207-223. -/
def allocateBucket (l : L T) (previous next : Option Nat) (x : T) : Option (Nat × L T) :=
  match l.free with
  | some a =>
    match l.storage[a]? with
    | none => none
    | some b => some (a, { l with free := b.next, storage := l.storage.set a ⟨previous, next, some x⟩ })
  | none =>
    if l.storage.length < capacity then
      some (l.storage.length, { l with storage := l.storage ++ [⟨previous, next, some x⟩] })
    else none

/-- `insert_before` list.rs:133-150. -/
def insertBefore (l : L T) (a : Nat) (x : T) : Option (Nat × L T) :=
  if inBounds l a then
    match l.storage[a]? with
    | none => none
    | some b =>
      match allocateBucket l b.previous (some a) x with
      | none => none
      | some (n, l) =>
        match setNextOrHead l b.previous (some n) with
        | none => none
        | some l =>
          match upd l.storage a (fun b => { b with previous := some n }) with
          | none => none
          | some st => some (n, { l with storage := st, size := l.size + 1 })
  else none

/-- `insert_after` list.rs:153-170. -/
def insertAfter (l : L T) (a : Nat) (x : T) : Option (Nat × L T) :=
  if inBounds l a then
    match l.storage[a]? with
    | none => none
    | some b =>
      match allocateBucket l (some a) b.next x with
      | none => none
      | some (n, l) =>
        match setPreviousOrTail l b.next (some n) with
        | none => none
        | some l =>
          match upd l.storage a (fun b => { b with next := some n }) with
          | none => none
          | some st => some (n, { l with storage := st, size := l.size + 1 })
  else none

/-- `append` list.rs:111-121. -/
def append (l : L T) (x : T) : Option (Nat × L T) :=
  if isEmpty l then
    match allocateBucket l none none x with
    | none => none
    | some (n, l) => some (n, { l with size := 1, head := some n, tail := some n })
  else
    match l.tail with
    | none => none
    | some t => insertAfter l t x

/-- `prepend` list.rs:124-130. -/
def prepend (l : L T) (x : T) : Option (Nat × L T) :=
  if isEmpty l then append l x
  else
    match l.head with
    | none => none
    | some h => insertBefore l h x

/-- `remove` list.rs:173-197. -/
def remove (l : L T) (a : Nat) : Option (T × L T) :=
  if inBounds l a then
    match l.storage[a]? with
    | none => none
    | some b =>
      match setNextOrHead l b.previous b.next with
      | none => none
      | some l =>
        match setPreviousOrTail l b.next b.previous with
        | none => none
        | some l =>
          match upd l.storage a (fun c => { c with previous := none, next := l.free }) with
          | none => none
          | some st =>
            let l := { l with storage := st, size := l.size - 1, free := some a }
            match (l.storage[a]?).bind Bucket.element with
            | none => none
            | some x =>
              (upd l.storage a (fun c => { c with element := none })).map (fun st => (x, { l with storage := st }))
  else none

/-- `AddressIterator::next` list.rs:331-338: first `none` is a panic, the state is the position. -/
def addressNext (l : L T) (position : Option Nat) : Option (Option Nat × Option Nat) :=
  match position with
  | some a => (addressAfter l a).map (fun p => (some a, p))
  | none => some (none, none)

/-- `ListIterator::next` list.rs:314-316. -/
def elementNext (l : L T) (position : Option Nat) : Option (Option T × Option Nat) :=
  match addressNext l position with
  | none => none
  | some (none, p) => some (none, p)
  | some (some a, p) => (index l a).map (fun x => (some x, p))

/-- The mutating operations. -/
inductive Op (T : Type) where
  | append (x : T)
  | prepend (x : T)
  | insertBefore (a : Nat) (x : T)
  | insertAfter (a : Nat) (x : T)
  | remove (a : Nat)
  | assign (a : Nat) (x : T)

/-- Results of operations. -/
inductive Out (T : Type) where
  | address (a : Nat)
  | element (x : T)
  | unit

/-- One operation; `none` is a panic. -/
def step (l : L T) : Op T → Option (Out T × L T)
  | .append x => (append l x).map (fun r => (.address r.1, r.2))
  | .prepend x => (prepend l x).map (fun r => (.address r.1, r.2))
  | .insertBefore a x => (insertBefore l a x).map (fun r => (.address r.1, r.2))
  | .insertAfter a x => (insertAfter l a x).map (fun r => (.address r.1, r.2))
  | .remove a => (remove l a).map (fun r => (.element r.1, r.2))
  | .assign a x => (assign l a x).map (fun l => (.unit, l))

/-- A sequence of operations with their results. -/
def run (l : L T) : List (Op T) → Option (List (Out T) × L T)
  | [] => some ([], l)
  | op :: ops =>
    match step l op with
    | none => none
    | some (o, l) => (run l ops).map (fun r => (o :: r.1, r.2))

end Ferlium.LinkedList
