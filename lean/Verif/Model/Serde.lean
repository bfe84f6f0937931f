import Verif.Model.DataText
import Verif.Model.HashColl

/-!
Model of serialization: the implementations of `Serialize` and `Deserialize` in `src/std/prelude/serde_impl.fer`, and those derived
for tuples, records, variants and named types by `src/std/serde.rs`.

Types are closed; functions, whose types have no implementation, and user written implementations are left out.  A value of a set or of
a map is the list of its entries in the order of iteration.  `none` is a call of `panic`, or a value which is not of the type.
-/
namespace Ferlium.Serde
open Ferlium.Text Ferlium.HColl

mutual

/-- The types with implementations.  A named type is a number: `head` below gives its shape. -/
inductive Ty
  | unit
  | bool
  | int
  | float
  | string
  | data
  | array (item : Ty)
  | tuple (items : Tys)
  | record (fields : NTys)
  | variant (alts : NTys)
  | set (item : Ty)
  | map (key value : Ty)
  | named (d : Nat)

/-- The types of the items of a tuple. -/
inductive Tys
  | nil
  | cons (t : Ty) (rest : Tys)

/-- The types of the fields of a record or of the payloads of a variant, with the names of the source program. -/
inductive NTys
  | nil
  | cons (name : Text) (t : Ty) (rest : NTys)

end

deriving instance DecidableEq for Ty, Tys, NTys

mutual

/-- Values.  A record is the tuple of its fields, as in the compiler. -/
inductive Val (F : Type)
  | unit
  | bool (b : Bool)
  | int (i : Int)
  | float (f : F)
  | string (s : Text)
  | data (d : Data F)
  | array (items : Vals F)
  | tuple (items : Vals F)
  | variant (tag : Text) (payload : Val F)
  | set (items : Vals F)
  | map (entries : Entries F)

/-- Lists of values. -/
inductive Vals (F : Type)
  | nil
  | cons (v : Val F) (rest : Vals F)

/-- The entries of a map. -/
inductive Entries (F : Type)
  | nil
  | cons (k v : Val F) (rest : Entries F)

end

deriving instance DecidableEq for Val, Vals, Entries

/-- What serialization takes from elsewhere. -/
structure Lib (F : Type) where
  N : Normaliser
  /-- `round` of a number. -/
  round : F → Int
  /-- `from_int`. -/
  fromInt : Int → F
  /-- Equality of the keys of a set or map, `Eq`. -/
  eq : Val F → Val F → Bool
  /-- The hash of a key, `Hash`. -/
  hash : Val F → BitVec 64
  /-- The shape of a named type: `instantiated_shape_with_effects`, repeated while it is a named type. -/
  head : Nat → Ty

variable {F : Type}

/-- As a list. -/
def Vals.toList : Vals F → List (Val F)
  | .nil => []
  | .cons v rest => v :: rest.toList

/-- From a list. -/
def Vals.ofList : List (Val F) → Vals F
  | [] => .nil
  | v :: l => .cons v (ofList l)

/-- As a list. -/
def Entries.toList : Entries F → List (Val F × Val F)
  | .nil => []
  | .cons k v rest => (k, v) :: rest.toList

/-- From a list. -/
def Entries.ofList : List (Val F × Val F) → Entries F
  | [] => .nil
  | (k, v) :: l => .cons k v (ofList l)

section
variable (L : Lib F)

/-- A named type has the implementation of its shape, serde.rs:147-159 and 401-413. -/
def shape : Ty → Ty
  | .named d => L.head d
  | t => t

/-- The type of the payload of a tag: `case_from_complete_alternatives`, serde.rs:282-333. -/
def payloadTy (tag : Text) : NTys → Option Ty
  | .nil => none
  | .cons name t rest => if name = tag then some t else payloadTy tag rest

mutual

/-- `serialize`: serde_impl.fer:115-252, serde.rs:160-337. -/
def serialize : Val F → Ty → Option (Data F)
  | .unit, t => match shape L t with | .unit => some .unit | _ => none
  | .bool b, t => match shape L t with | .bool => some (.bool b) | _ => none
  | .int i, t => match shape L t with | .int => some (.int i) | _ => none
  | .float f, t => match shape L t with | .float => some (.float f) | _ => none
  | .string s, t => match shape L t with | .string => some (.string s) | _ => none
  | .data d, t => match shape L t with | .data => some d | _ => none
  | .array vs, t => match shape L t with | .array e => (serializeAll vs e).map .array | _ => none
  | .tuple vs, t =>
    match shape L t with
    | .tuple ts => (serializeItems vs ts).map .tuple
    | .record fs => (serializeFields vs fs).map .record
    | _ => none
  | .variant tag p, t =>
    match shape L t with
    | .variant alts =>
      match payloadTy tag alts with
      | none => none
      | some pt =>
        if pt = .unit then some (.variant (fresh L.N tag) .unit)
        else (serialize p pt).map (.variant (fresh L.N tag))
    | _ => none
  | .set vs, t => match shape L t with | .set e => (serializeAll vs e).map .set | _ => none
  | .map es, t => match shape L t with | .map k e => (serializeEntries es k e).map .map | _ => none

/-- The loops of arrays and sets, serde_impl.fer:184-186 and 213-215. -/
def serializeAll : Vals F → Ty → Option (Items F)
  | .nil, _ => some .nil
  | .cons v rest, t => (serialize v t).bind fun d => (serializeAll rest t).map (.cons d)

/-- The items of a tuple, serde.rs:196-213. -/
def serializeItems : Vals F → Tys → Option (Items F)
  | .nil, .nil => some .nil
  | .cons v rest, .cons t ts => (serialize v t).bind fun d => (serializeItems rest ts).map (.cons d)
  | _, _ => none

/-- The fields of a record, serde.rs:248-269; `materialize_static_string` normalises the name. -/
def serializeFields : Vals F → NTys → Option (Fields F)
  | .nil, .nil => some .nil
  | .cons v rest, .cons name t ts =>
    (serialize v t).bind fun d => (serializeFields rest ts).map (.cons (fresh L.N name) d)
  | _, _ => none

/-- The loop of maps, serde_impl.fer:247-249. -/
def serializeEntries : Entries F → Ty → Ty → Option (Pairs F)
  | .nil, _, _ => some .nil
  | .cons a b rest, k, e =>
    (serialize a k).bind fun x => (serialize b e).bind fun y => (serializeEntries rest k e).map (.cons x y)

end

/-- `get_data_value_record_entry` serde_impl.fer:96-103: the first entry with the name. -/
def getEntry {α : Type} (name : Text) : List (Text × α) → Option α
  | [] => none
  | (n, x) :: rest => if n = name then some x else getEntry name rest

/-- The strings among the fields. -/
def stringFields : Fields F → List (Text × Option Text)
  | .nil => []
  | .cons name (.string s) rest => (name, some s) :: stringFields rest
  | .cons name _ rest => (name, none) :: stringFields rest

/-- A set built by inserting values, serde_impl.fer:230-234. -/
def buildSet (vs : Vals F) : Option (Val F) :=
  (setInsertAll L.eq L.hash Coll.new vs.toList).map fun c => .set (.ofList ((toItems c).map Prod.fst))

/-- A map built by inserting entries, serde_impl.fer:260-275. -/
def buildMap (es : Entries F) : Option (Val F) :=
  (mapInsertAll L.eq L.hash Coll.new es.toList).map fun c => .map (.ofList (toItems c))

/-- The items of a tuple type, with a reader for each item: an array access out of bounds panics. -/
def readItems : List (Ty → Option (Val F)) → Tys → Option (Vals F)
  | _, .nil => some .nil
  | [], .cons _ _ => none
  | r :: rs, .cons t ts => (r t).bind fun v => (readItems rs ts).map (.cons v)

/-- The fields of a record type: `expect_data_value_record_entry` serde_impl.fer:106-113 for every field, serde.rs:579-606. -/
def readFields (rs : List (Text × (Ty → Option (Val F)))) : NTys → Option (Vals F)
  | .nil => some .nil
  | .cons name t ts =>
    (getEntry (fresh L.N name) rs).bind fun r => (r t).bind fun v => (readFields rs ts).map (.cons v)

/-- The alternatives of a variant type, tried in order: serde.rs:653-687.  The payload is not read for an alternative without one. -/
def readVariant (name : Text) (read : Ty → Option (Val F)) : NTys → Option (Val F)
  | .nil => none
  | .cons tag t rest =>
    if fresh L.N tag = name then
      if t = .unit then some (.variant tag .unit) else (read t).map (.variant tag)
    else readVariant name read rest

/-- An entry of a map given as an array: the first two items of a tuple or an array. -/
def readPair (rs : List (Ty → Option (Val F))) (k e : Ty) : Option (Val F × Val F) :=
  match rs with
  | r :: s :: _ => (r k).bind fun a => (s e).map fun b => (a, b)
  | _ => none

/-- An array without items. -/
def isEmpty : Items F → Bool
  | .nil => true
  | .cons _ _ => false

/-- `deserialize` of `DataValue::Unit`, which stands for missing data of a variant, serde_impl.fer:85-88. -/
def readUnit (t : Ty) : Option (Val F) :=
  match shape L t with
  | .unit => some .unit
  | .data => some (.data .unit)
  | _ => none

mutual

/-- `deserialize`: serde_impl.fer:3-93, 120-277, serde.rs:429-706. -/
def deserialize : Data F → Ty → Option (Val F)
  | .null, t => match shape L t with | .unit => some .unit | .data => some (.data .null) | _ => none
  | .unit, t => match shape L t with | .unit => some .unit | .data => some (.data .unit) | _ => none
  | .bool b, t => match shape L t with | .bool => some (.bool b) | .data => some (.data (.bool b)) | _ => none
  | .int i, t =>
    match shape L t with
    | .int => some (.int i)
    | .float => some (.float (L.fromInt i))
    | .data => some (.data (.int i))
    | _ => none
  | .float f, t =>
    match shape L t with
    | .int => some (.int (L.round f))
    | .float => some (.float f)
    | .data => some (.data (.float f))
    | _ => none
  | .string s, t => match shape L t with | .string => some (.string s) | .data => some (.data (.string s)) | _ => none
  | .array a, t =>
    match shape L t with
    | .unit => if isEmpty a then some .unit else none
    | .data => some (.data (.array a))
    | .array e => (deserializeAll a e).map .array
    | .tuple ts => (readItems (readers a) ts).map .tuple
    | .set e => (deserializeAll a e).bind (buildSet L)
    | .map k e => (deserializePairs a k e).bind (buildMap L)
    | _ => none
  | .tuple a, t =>
    match shape L t with
    | .data => some (.data (.tuple a))
    | .tuple ts => (readItems (readers a) ts).map .tuple
    | _ => none
  | .record o, t =>
    match shape L t with
    | .data => some (.data (.record o))
    | .record fs => (readFields L (fieldReaders o) fs).map .tuple
    | .variant alts =>
      match getEntry (fresh L.N "type".toList) (stringFields o) with
      | some (some name) =>
        readVariant L name ((getEntry (fresh L.N "data".toList) (fieldReaders o)).getD (readUnit L)) alts
      | _ => none
    | _ => none
  | .set a, t =>
    match shape L t with
    | .data => some (.data (.set a))
    | .set e => (deserializeAll a e).bind (buildSet L)
    | _ => none
  | .map m, t =>
    match shape L t with
    | .data => some (.data (.map m))
    | .map k e => (deserializeEntries m k e).bind (buildMap L)
    | _ => none
  | .variant name p, t =>
    match shape L t with
    | .data => some (.data (.variant name p))
    | .variant alts => readVariant L name (deserialize p) alts
    | _ => none

/-- The loops of arrays and sets, serde_impl.fer:196-198 and 231-233. -/
def deserializeAll : Items F → Ty → Option (Vals F)
  | .nil, _ => some .nil
  | .cons d rest, t => (deserialize d t).bind fun v => (deserializeAll rest t).map (.cons v)

/-- A reader for every item. -/
def readers : Items F → List (Ty → Option (Val F))
  | .nil => []
  | .cons d rest => deserialize d :: readers rest

/-- A reader for every field. -/
def fieldReaders : Fields F → List (Text × (Ty → Option (Val F)))
  | .nil => []
  | .cons name d rest => (name, deserialize d) :: fieldReaders rest

/-- The loop of maps, serde_impl.fer:263-265. -/
def deserializeEntries : Pairs F → Ty → Ty → Option (Entries F)
  | .nil, _, _ => some .nil
  | .cons a b rest, k, e =>
    (deserialize a k).bind fun x => (deserialize b e).bind fun y => (deserializeEntries rest k e).map (.cons x y)

/-- The loop of maps given as arrays, serde_impl.fer:268-271. -/
def deserializePairs : Items F → Ty → Ty → Option (Entries F)
  | .nil, _, _ => some .nil
  | .cons d rest, k, e =>
    (deserializePair d k e).bind fun x => (deserializePairs rest k e).map (.cons x.1 x.2)

/-- `data_value_to_tuple` serde_impl.fer:62-68 and the first two items. -/
def deserializePair : Data F → Ty → Ty → Option (Val F × Val F)
  | .tuple a, k, e => readPair (readers a) k e
  | .array a, k, e => readPair (readers a) k e
  | _, _, _ => none

end

end

end Ferlium.Serde
