import Verif.Model.DataText
import Verif.Proofs.Json
import Verif.Model.Serde

/-!
Model of JSON: the printer `to_json` of `src/std/prelude/json.fer` and `parse_json` of `src/std/json.rs`.

The tokens of JSON are read by the crate `json_event_parser`, which is not part of the repository: in its place stands a reader of the
texts of RFC 8259, without a limit on the depth of nesting.  A number of JSON keeps its text, as an event of the crate does.
-/
namespace Ferlium.Text

section printer
variable {F : Type} (H : Host F)

mutual

/-- `to_json` json.fer:14-67. -/
def toJson : Data F → Text
  | .null => "null".toList
  | .unit => "null".toList
  | .bool b => if b then "true".toList else "false".toList
  | .int i => fresh H.N (showInt i)
  | .float f => fresh H.N (H.showFloat f)
  | .string s => inspectJson H.N s
  | .array a => push H.N (jsonSequence "[".toList a) "]".toList
  | .tuple a => push H.N (jsonSequence "[".toList a) "]".toList
  | .record o => push H.N (jsonEntries "{".toList o) "}".toList
  | .set a => push H.N (jsonSequence "[".toList a) "]".toList
  | .map m => push H.N (jsonMap "[".toList m) "]".toList
  | .variant name payload =>
    let result := push H.N "{\"type\":".toList (inspectJson H.N name)
    push H.N
      (match payload with
        | .unit => result
        | p => push H.N (push H.N result ",\"data\":".toList) (toJson p))
      "}".toList

/-- The loop of `sequence_to_json` json.fer:1-11. -/
def jsonSequence (result : Text) : Items F → Text
  | .nil => result
  | .cons v rest =>
    let result := push H.N result (toJson v)
    jsonSequence (match rest with | .nil => result | _ => push H.N result ",".toList) rest

/-- The loop over the fields of a record, json.fer:26-35. -/
def jsonEntries (result : Text) : Fields F → Text
  | .nil => result
  | .cons name v rest =>
    let result := push H.N (push H.N result (inspectJson H.N name)) (push H.N (push H.N [] ":".toList) (toJson v))
    jsonEntries (match rest with | .nil => result | _ => push H.N result ",".toList) rest

/-- The loop over the entries of a map, json.fer:42-52. -/
def jsonMap (result : Text) : Pairs F → Text
  | .nil => result
  | .cons k v rest =>
    let result := push H.N (push H.N (push H.N (push H.N (push H.N result "[".toList) (toJson k)) ",".toList) (toJson v)) "]".toList
    jsonMap (match rest with | .nil => result | _ => push H.N result ",".toList) rest

end

end printer

/-- White space of RFC 8259, section 2. -/
def jsonWhite (c : Char) : Bool := c == ' ' || c == '\t' || c == '\n' || c == '\r'

/-- Skip white space. -/
def jsonSkip (s : Text) : Text := s.dropWhile jsonWhite

/-- The second half of a surrogate pair. -/
def jsonLow (hi : Nat) : Text → Option (Char × Text)
  | '\\' :: 'u' :: a :: b :: c :: d :: rest =>
    (quad a b c d).bind fun lo =>
      if 0xDC00 ≤ lo ∧ lo < 0xE000 then (charOf (0x10000 + (hi - 0xD800) * 0x400 + (lo - 0xDC00))).map (·, rest) else none
  | _ => none

/-- The characters after a backslash, RFC 8259 section 7. -/
def jsonEscaped : Text → Option (Char × Text)
  | [] => none
  | 'u' :: rest =>
    match rest with
    | a :: b :: c :: d :: rest =>
      (quad a b c d).bind fun n =>
        if 0xD800 ≤ n ∧ n < 0xDC00 then jsonLow n rest else (charOf n).map (·, rest)
    | _ => none
  | c :: rest => (jsonShort c).map (·, rest)

theorem jsonLow_length {hi : Nat} {s after : Text} {c : Char} (h : jsonLow hi s = some (c, after)) : after.length < s.length := by
  unfold jsonLow at h
  split at h
  · simp only [Option.bind_eq_some_iff] at h
    obtain ⟨lo, _, h⟩ := h
    split at h
    · simp only [Option.map_eq_some_iff, Prod.mk.injEq] at h
      obtain ⟨_, _, _, rfl⟩ := h
      simp only [List.length_cons]
      omega
    · cases h
  · cases h

theorem jsonEscaped_length {s after : Text} {c : Char} (h : jsonEscaped s = some (c, after)) : after.length < s.length := by
  unfold jsonEscaped at h
  split at h
  · cases h
  · split at h
    · simp only [Option.bind_eq_some_iff] at h
      obtain ⟨n, _, h⟩ := h
      split at h
      · have := jsonLow_length h
        simp only [List.length_cons]
        omega
      · simp only [Option.map_eq_some_iff, Prod.mk.injEq] at h
        obtain ⟨_, _, _, rfl⟩ := h
        simp only [List.length_cons]
        omega
    · cases h
  · simp only [Option.map_eq_some_iff, Prod.mk.injEq] at h
    obtain ⟨_, _, _, rfl⟩ := h
    simp only [List.length_cons]
    omega

/-- A string after the opening quote, RFC 8259 section 7. -/
def jsonString (s : Text) : Option (Text × Text) :=
  match s with
  | [] => none
  | c :: rest =>
    if c = '"' then some ([], rest)
    else if c = '\\' then
      match h : jsonEscaped rest with
      | some (c, after) => (jsonString after).map fun p => (c :: p.1, p.2)
      | none => none
    else if c.toNat < 0x20 then none
    else (jsonString rest).map fun p => (c :: p.1, p.2)
termination_by s.length
decreasing_by
  · have := jsonEscaped_length h; simp only [List.length_cons]; omega
  · simp

/-- The integer part of a number: no zero before other digits. -/
def jsonInteger (digits : Text) : Bool :=
  match digits with
  | [] => false
  | [_] => true
  | c :: _ => c != '0'

/-- Without a minus sign. -/
def dropMinus : Text → Text
  | '-' :: s => s
  | s => s

/-- Without a sign. -/
def dropSign : Text → Text
  | '+' :: s => s
  | s => dropMinus s

/-- The exponent of a number. -/
def jsonExponent : Text → Option Text
  | c :: s =>
    if c = 'e' ∨ c = 'E' then
      if (dropSign s).takeWhile isDigit = [] then none else some ((dropSign s).dropWhile isDigit)
    else some (c :: s)
  | [] => some []

/-- What follows the integer part and belongs to the number. -/
def jsonFraction : Text → Option Text
  | '.' :: s => if s.takeWhile isDigit = [] then none else jsonExponent (s.dropWhile isDigit)
  | s => jsonExponent s

/-- The text after a number, RFC 8259 section 6. -/
def jsonNumber (s : Text) : Option Text :=
  if jsonInteger ((dropMinus s).takeWhile isDigit) then jsonFraction ((dropMinus s).dropWhile isDigit) else none

section reader
variable {F : Type} (H : Host F)

/-- The value of a number, json.rs:79-92. -/
def numberValue (n : Text) : Option (Data F) :=
  match readInt n with
  | some i => some (.int i)
  | none => (H.readFloat n).map .float

/-- The loop of an array, json.rs:94-106, at an item. -/
def jsonItemsIn (pv : Text → Option (Data F × Text)) : Nat → Text → Option (Items F × Text)
  | 0, _ => none
  | k + 1, s =>
    (pv s).bind fun p =>
      match jsonSkip p.2 with
      | ',' :: s => (jsonItemsIn pv k s).map fun q => (.cons p.1 q.1, q.2)
      | ']' :: s => some (.cons p.1 .nil, s)
      | _ => none

/-- The loop of an object, json.rs:108-125, at a key; keys and strings are normalised. -/
def jsonFieldsIn (pv : Text → Option (Data F × Text)) : Nat → Text → Option (Fields F × Text)
  | 0, _ => none
  | k + 1, s =>
    match jsonSkip s with
    | '"' :: s =>
      (jsonString s).bind fun name =>
        match jsonSkip name.2 with
        | ':' :: s =>
          (pv s).bind fun p =>
            match jsonSkip p.2 with
            | ',' :: s => (jsonFieldsIn pv k s).map fun q => (.cons (H.N.nfc name.1) p.1 q.1, q.2)
            | '}' :: s => some (.cons (H.N.nfc name.1) p.1 .nil, s)
            | _ => none
        | _ => none
    | _ => none

/-- `parse_json_stream` json.rs:70-131 for a value.  The number bounds the depth of the value. -/
def jsonValue : Nat → Text → Option (Data F × Text)
  | 0, _ => none
  | k + 1, s =>
    match jsonSkip s with
    | 'n' :: 'u' :: 'l' :: 'l' :: s => some (.null, s)
    | 't' :: 'r' :: 'u' :: 'e' :: s => some (.bool true, s)
    | 'f' :: 'a' :: 'l' :: 's' :: 'e' :: s => some (.bool false, s)
    | '"' :: s => (jsonString s).map fun p => (.string (H.N.nfc p.1), p.2)
    | '[' :: s =>
      if (jsonSkip s).head? = some ']' then some (.array .nil, (jsonSkip s).drop 1)
      else (jsonItemsIn (jsonValue k) s.length s).map fun p => (.array p.1, p.2)
    | '{' :: s =>
      if (jsonSkip s).head? = some '}' then some (.record .nil, (jsonSkip s).drop 1)
      else (jsonFieldsIn H (jsonValue k) s.length s).map fun p => (.record p.1, p.2)
    | s =>
      (jsonNumber s).bind fun rest =>
        (numberValue H (s.take (s.length - rest.length))).map fun d => (d, rest)

/-- `parse_json` json.rs:133-146. -/
def parseJson (s : Text) : Option (Data F) :=
  (jsonValue H s.length s).bind fun p => if jsonSkip p.2 = [] then some p.1 else none

end reader

end Ferlium.Text

namespace Ferlium.Serde
open Ferlium.Text

variable {F : Type} (L : Lib F) (H : Host F)

/-- `json_encode` json.fer:70-72. -/
def jsonEncode (v : Val F) (t : Ty) : Option Text := (serialize L v t).map (toJson H)

/-- `json_decode` json.fer:76-78. -/
def jsonDecode (s : Text) (t : Ty) : Option (Val F) := (parseJson H s).bind fun d => deserialize L d t

/-- `data_text_encode` data_text.fer:154-156. -/
def textEncode (v : Val F) (t : Ty) : Option Text := (serialize L v t).bind (print H)

/-- `data_text_decode` data_text.fer:159-161. -/
def textDecode (s : Text) (t : Ty) : Option (Val F) := (parse H s).bind fun d => deserialize L d t

end Ferlium.Serde
