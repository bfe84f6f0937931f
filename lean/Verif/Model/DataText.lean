import Verif.Model.Escape
import Verif.Model.StringApi

/-!
Model of data text: the printer of `src/std/prelude/data_text.fer` and the reader of `src/std/data_text.rs`.

Texts are lists of characters and the position of the reader is the remaining text.  Error messages are left out: `none` is a
failure.  The nesting of the reader is bounded by the length of the text in the model, which is no restriction: every level
consumes a character.

Floating point numbers are a parameter with their printing and reading; integers are those of 64 bits.
-/
namespace Ferlium.Text

mutual

/-- `DataValue`, src/std/prelude/data_value.fer:2-15. -/
inductive Data (F : Type)
  | null
  | unit
  | bool (b : Bool)
  | int (i : Int)
  | float (f : F)
  | string (s : Text)
  | array (items : Items F)
  | tuple (items : Items F)
  | record (fields : Fields F)
  | set (items : Items F)
  | map (pairs : Pairs F)
  | variant (name : Text) (payload : Data F)

/-- `[DataValue]`. -/
inductive Items (F : Type)
  | nil
  | cons (v : Data F) (rest : Items F)

/-- `[(string, DataValue)]`. -/
inductive Fields (F : Type)
  | nil
  | cons (name : Text) (v : Data F) (rest : Fields F)

/-- `[(DataValue, DataValue)]`. -/
inductive Pairs (F : Type)
  | nil
  | cons (k v : Data F) (rest : Pairs F)

end

deriving instance DecidableEq for Data, Items, Fields, Pairs

/-- What the library takes from Rust and Unicode. -/
structure Host (F : Type) where
  N : Normaliser
  /-- `char::is_whitespace`. -/
  white : Char → Bool
  /-- `f64::to_string` of a finite number. -/
  showFloat : F → Text
  /-- `str::parse::<f64>`, with `none` also for numbers which are not finite. -/
  readFloat : Text → Option F

/-- Decimal digits of a natural number. -/
def toDec (n : Nat) : Text :=
  if n < 10 then [Char.ofNat (48 + n)] else toDec (n / 10) ++ [Char.ofNat (48 + n % 10)]

/-- `isize::to_string`. -/
def showInt : Int → Text
  | .ofNat n => toDec n
  | .negSucc n => '-' :: toDec (n + 1)

/-- The ASCII digits. -/
def isDigit (c : Char) : Bool := 48 ≤ c.toNat && c.toNat ≤ 57

/-- The value of decimal digits; `none` if a character is no digit. -/
def decDigits : Nat → Text → Option Nat
  | acc, [] => some acc
  | acc, c :: rest => if isDigit c then decDigits (acc * 10 + (c.toNat - 48)) rest else none

/-- `str::parse::<isize>` for a text which does not start with a plus sign. -/
def readInt : Text → Option Int
  | [] => none
  | ['-'] => none
  | '-' :: rest => (decDigits 0 rest).bind fun n => if n ≤ 2 ^ 63 then some (-(n : Int)) else none
  | s => (decDigits 0 s).bind fun n => if n < 2 ^ 63 then some (n : Int) else none

/-- Comparison of strings: `Ord` of `str` compares the UTF-8 bytes, which is the order of the scalar values. -/
def lexLe : Text → Text → Bool
  | [], _ => true
  | _ :: _, [] => false
  | a :: s, b :: t => if a.toNat < b.toNat then true else if b.toNat < a.toNat then false else lexLe s t

/-- `is_data_text_identifier_start` data_text.fer:1-3; `ch` is a grapheme cluster. -/
def clusterStarts (ch : Text) : Bool :=
  ch == ['_'] || (lexLe ['a'] ch && lexLe ch ['z']) || (lexLe ['A'] ch && lexLe ch ['Z'])

/-- `is_data_text_identifier_continue` data_text.fer:5-7. -/
def clusterContinues (ch : Text) : Bool :=
  clusterStarts ch || (lexLe ['0'] ch && lexLe ch ['9'])

/-- `is_data_text_identifier` data_text.fer:9-29.  The items of the iterator are normalised again, string.rs:484. -/
def isIdentifier (N : Normaliser) (value : Text) : Bool :=
  match (N.graphemes value).map N.nfc with
  | first :: rest => clusterStarts first && rest.all clusterContinues
  | [] => false

section printer
variable {F : Type} (H : Host F)

mutual

/-- `to_data_text` data_text.fer:76-151; `none` is the call of `panic`. -/
def print : Data F → Option Text
  | .null => some "null".toList
  | .unit => some "()".toList
  | .bool b => some (if b then "true".toList else "false".toList)
  | .int i => some (fresh H.N (showInt i))
  | .float f => some (fresh H.N (H.showFloat f))
  | .string s => some (inspect H.N s)
  | .array a => (printItems "[".toList true a).map fun t => push H.N t "]".toList
  | .tuple a =>
    (printItems "(".toList true a).map fun t =>
      push H.N (match a with | .cons _ .nil => push H.N t ",".toList | _ => t) ")".toList
  | .record .nil => some (push H.N "{".toList "}".toList)
  | .record o =>
    (printFields (push H.N "{".toList " ".toList) true o).map fun t => push H.N (push H.N t " ".toList) "}".toList
  | .set .nil => some (push H.N (push H.N "set".toList " {".toList) "}".toList)
  | .set a =>
    (printItems (push H.N (push H.N "set".toList " {".toList) " ".toList) true a).map fun t =>
      push H.N (push H.N t " ".toList) "}".toList
  | .map .nil => some (push H.N "map {".toList "}".toList)
  | .map m =>
    (printPairs (push H.N "map {".toList " ".toList) true m).map fun t => push H.N (push H.N t " ".toList) "}".toList
  | .variant name payload =>
    if isIdentifier H.N name then
      match payload with
      | .unit => some name
      | .tuple a => (printItems (push H.N name "(".toList) true a).map fun t => push H.N t ")".toList
      | p => (print p).map fun t => push H.N (push H.N (push H.N name "(".toList) t) ")".toList
    else none

/-- The loops over the items, data_text.fer:33-38, 48-53, 62-67, 137-142. -/
def printItems (result : Text) (first : Bool) : Items F → Option Text
  | .nil => some result
  | .cons v rest =>
    (print v).bind fun t => printItems (push H.N (if first then result else push H.N result ", ".toList) t) false rest

/-- The loop over the fields, data_text.fer:90-103. -/
def printFields (result : Text) (first : Bool) : Fields F → Option Text
  | .nil => some result
  | .cons name v rest =>
    (print v).bind fun t =>
      printFields (push H.N (push H.N (push H.N (if first then result else push H.N result ", ".toList)
        (if isIdentifier H.N name then name else inspect H.N name)) ": ".toList) t) false rest

/-- The loop over the entries of a map, data_text.fer:114-122. -/
def printPairs (result : Text) (first : Bool) : Pairs F → Option Text
  | .nil => some result
  | .cons k v rest =>
    (print k).bind fun tk => (print v).bind fun tv =>
      printPairs (push H.N (push H.N (push H.N (if first then result else push H.N result ", ".toList) tk) " => ".toList)
        tv) false rest

end

end printer

section reader
variable {F : Type} (H : Host F)

/-- Where `skip_ws_and_comments` is. -/
inductive Skip
  | code
  | line
  | block

/-- `skip_ws_and_comments` data_text.rs:150-171; the line feed at the end of a comment is skipped with it, which the next round
of the loop does as well.  `none`: a block comment is not closed. -/
def skipIn (white : Char → Bool) : Skip → Text → Option Text
  | .code, [] => some []
  | .code, '/' :: '/' :: rest => skipIn white .line rest
  | .code, '/' :: '*' :: rest => skipIn white .block rest
  | .code, c :: rest => if white c then skipIn white .code rest else some (c :: rest)
  | .line, [] => some []
  | .line, c :: rest => if c = '\n' then skipIn white .code rest else skipIn white .line rest
  | .block, [] => none
  | .block, '*' :: '/' :: rest => skipIn white .code rest
  | .block, _ :: rest => skipIn white .block rest

/-- Skip white space and comments. -/
def skip (s : Text) : Option Text := skipIn H.white .code s

/-- `is_identifier_start` data_text.rs:453-455. -/
def identStart (c : Char) : Bool :=
  c == '_' || (65 ≤ c.toNat && c.toNat ≤ 90) || (97 ≤ c.toNat && c.toNat ≤ 122)

/-- `is_identifier_continue` data_text.rs:457-459. -/
def identContinue (c : Char) : Bool := identStart c || isDigit c

/-- `parse_identifier` data_text.rs:355-369. -/
def readIdentifier (s : Text) : Option (Text × Text) :=
  (skip H s).bind fun s =>
    match s with
    | c :: rest => if identStart c then some (c :: rest.takeWhile identContinue, rest.dropWhile identContinue) else none
    | [] => none

/-- The optional parts of `parse_number` data_text.rs:412-436: the digits, and what follows them. -/
def scanSign : Text → Text × Text
  | '-' :: rest => (['-'], rest)
  | s => ([], s)

/-- The fraction: `none` if there is no point. -/
def scanFraction : Text → Option Text × Text
  | '.' :: rest => (some ('.' :: rest.takeWhile isDigit), rest.dropWhile isDigit)
  | s => (none, s)

/-- The sign of an exponent. -/
def scanExponentSign : Text → Text × Text
  | '+' :: rest => (['+'], rest)
  | '-' :: rest => (['-'], rest)
  | s => ([], s)

/-- The exponent: `none` if there is no letter. -/
def scanExponent : Text → Option Text × Text
  | c :: rest =>
    if c = 'e' ∨ c = 'E' then
      let (sign, rest) := scanExponentSign rest
      (some (c :: sign ++ rest.takeWhile isDigit), rest.dropWhile isDigit)
    else (none, c :: rest)
  | [] => (none, [])

/-- `parse_number` data_text.rs:412-450. -/
def readNumber (s : Text) : Option (Data F × Text) :=
  let (sign, s) := scanSign s
  let digits := s.takeWhile isDigit
  let (fraction, s) := scanFraction (s.dropWhile isDigit)
  let (exponent, s) := scanExponent s
  let text := sign ++ digits ++ fraction.getD [] ++ exponent.getD []
  if fraction.isSome || exponent.isSome then (H.readFloat text).map fun f => (.float f, s)
  else (readInt text).map fun i => (.int i, s)

/-- The loop of `parse_sequence` data_text.rs:248-265 and of `parse_paren_value` 205-217, `pv` reads a value.  The loops end
because each round consumes a character; their number of rounds is bounded by the length of the text. -/
def readItems (pv : Text → Option (Data F × Text)) (close : Char) : Nat → Text → Option (Items F × Text)
  | 0, _ => none
  | k + 1, s =>
    (skip H s).bind fun s =>
      if s.head? = some close then some (.nil, s.drop 1)
      else
        (pv s).bind fun p => (skip H p.2).bind fun s =>
          if s.head? = some ',' then (readItems pv close k (s.drop 1)).map fun q => (.cons p.1 q.1, q.2)
          else if s.head? = some close then some (.cons p.1 .nil, s.drop 1)
          else none

/-- The name of a field, data_text.rs:229-233. -/
def readName (s : Text) : Option (Text × Text) :=
  if s.head? = some '"' then dataString (s.drop 1) else readIdentifier H s

/-- The loop of `parse_object` data_text.rs:224-244. -/
def readFields (pv : Text → Option (Data F × Text)) : Nat → Text → Option (Fields F × Text)
  | 0, _ => none
  | k + 1, s =>
    (skip H s).bind fun s =>
      if s.head? = some '}' then some (.nil, s.drop 1)
      else
        (readName H s).bind fun name => (skip H name.2).bind fun s =>
          if s.head? = some ':' then
            (pv (s.drop 1)).bind fun p => (skip H p.2).bind fun s =>
              if s.head? = some ',' then
                (readFields pv k (s.drop 1)).map fun q => (.cons (H.N.nfc name.1) p.1 q.1, q.2)
              else if s.head? = some '}' then some (.cons (H.N.nfc name.1) p.1 .nil, s.drop 1)
              else none
          else none

/-- The loop of `parse_map_entries` data_text.rs:332-351. -/
def readPairs (pv : Text → Option (Data F × Text)) : Nat → Text → Option (Pairs F × Text)
  | 0, _ => none
  | k + 1, s =>
    (skip H s).bind fun s =>
      if s.head? = some '}' then some (.nil, s.drop 1)
      else
        (pv s).bind fun key => (skip H key.2).bind fun s =>
          if s.take 2 = ['=', '>'] then
            (pv (s.drop 2)).bind fun p => (skip H p.2).bind fun s =>
              if s.head? = some ',' then (readPairs pv k (s.drop 1)).map fun q => (.cons key.1 p.1 q.1, q.2)
              else if s.head? = some '}' then some (.cons key.1 p.1 .nil, s.drop 1)
              else none
          else none

/-- The loop over the arguments of a variant, data_text.rs:295-307. -/
def readArguments (pv : Text → Option (Data F × Text)) : Nat → Text → Option (Items F × Text)
  | 0, _ => none
  | k + 1, s =>
    (pv s).bind fun p => (skip H p.2).bind fun s =>
      if s.head? = some ',' then
        (skip H (s.drop 1)).bind fun s =>
          if s.head? = some ')' then some (.cons p.1 .nil, s.drop 1)
          else (readArguments pv k s).map fun q => (.cons p.1 q.1, q.2)
      else if s.head? = some ')' then some (.cons p.1 .nil, s.drop 1)
      else none

/-- `parse_paren_value` data_text.rs:191-219 after the parenthesis. -/
def readParen (pv : Text → Option (Data F × Text)) (s : Text) : Option (Data F × Text) :=
  (skip H s).bind fun s =>
    if s.head? = some ')' then some (.unit, s.drop 1)
    else
      (pv s).bind fun p => (skip H p.2).bind fun s =>
        if s.head? = some ',' then
          (readItems H pv ')' s.length (s.drop 1)).map fun q => (.tuple (.cons p.1 q.1), q.2)
        else
          (skip H s).bind fun s => if s.head? = some ')' then some (p.1, s.drop 1) else none

/-- The payload of a variant with arguments, data_text.rs:308-312. -/
def payloadOf : Items F → Data F
  | .cons (.record fields) .nil => .record fields
  | items => .tuple items

/-- `parse_identifier_value` data_text.rs:267-327. -/
def readWord (pv : Text → Option (Data F × Text)) (s : Text) : Option (Data F × Text) :=
  (readIdentifier H s).bind fun word =>
    if word.1 = "null".toList then some (.null, word.2)
    else if word.1 = "true".toList then some (.bool true, word.2)
    else if word.1 = "false".toList then some (.bool false, word.2)
    else if word.1 = "set".toList then
      (skip H word.2).bind fun s =>
        if s.head? = some '{' then (readItems H pv '}' s.length (s.drop 1)).map fun q => (.set q.1, q.2) else none
    else if word.1 = "map".toList then
      (skip H word.2).bind fun s =>
        if s.head? = some '{' then (readPairs H pv s.length (s.drop 1)).map fun q => (.map q.1, q.2) else none
    else
      (skip H word.2).bind fun s =>
        if s.head? = some '(' then
          (skip H (s.drop 1)).bind fun s =>
            if s.head? = some ')' then some (.variant (H.N.nfc word.1) .unit, s.drop 1)
            else (readArguments H pv (s.length + 1) s).map fun q => (.variant (H.N.nfc word.1) (payloadOf q.1), q.2)
        else some (.variant (H.N.nfc word.1) .unit, s)

/-- `parse_value` data_text.rs:173-189. -/
def readValue : Nat → Text → Option (Data F × Text)
  | 0, _ => none
  | n + 1, s =>
    (skip H s).bind fun s =>
      match s with
      | [] => none
      | c :: rest =>
        if c = '"' then (dataString rest).map fun p => (.string (H.N.nfc p.1), p.2)
        else if c = '[' then (readItems H (readValue n) ']' (rest.length + 1) rest).map fun q => (.array q.1, q.2)
        else if c = '(' then readParen H (readValue n) rest
        else if c = '{' then (readFields H (readValue n) (rest.length + 1) rest).map fun q => (.record q.1, q.2)
        else if c = '-' ∨ isDigit c then readNumber H (c :: rest)
        else if identStart c then readWord H (readValue n) (c :: rest)
        else none

/-- `parse` data_text.rs:105-113. -/
def parse (s : Text) : Option (Data F) :=
  (readValue H (s.length + 1) s).bind fun p => (skip H p.2).bind fun rest => if rest = [] then some p.1 else none

end reader

end Ferlium.Text
