import Verif.Model.Normal

/-!
Model of the escaping of strings: `inspect_string` of `src/std/string.rs`, `escape_string` and the reading of strings of
`src/std/data_text.rs`, `escape_json_string` of `src/std/json.rs`, and the reading of string literals by
`src/parser/escapes.rs` and the token pattern of `src/parser/parser.lalrpop`.

A `Char` of the model is a Unicode scalar value, as in Rust.  `chars()` of a `&str` is the list itself.
-/
namespace Ferlium.Text

/-- `char::is_control`: general category `Cc`. -/
def isControl (c : Char) : Bool :=
  c.toNat < 0x20 || (0x7F ≤ c.toNat && c.toNat < 0xA0)

/-- A hexadecimal digit in lower case. -/
def hexDigit (d : Nat) : Char :=
  if d < 10 then Char.ofNat (48 + d) else Char.ofNat (87 + d)

/-- `format!("{:x}", n)`. -/
def toHex (n : Nat) : Text :=
  if n < 16 then [hexDigit n] else toHex (n / 16) ++ [hexDigit (n % 16)]

/-- `format!("{:04x}", n)`. -/
def toHex4 (n : Nat) : Text :=
  List.replicate (4 - (toHex n).length) '0' ++ toHex n

/-- `char::to_digit(16)`. -/
def digitValue (c : Char) : Option Nat :=
  let n := c.toNat
  if 48 ≤ n ∧ n ≤ 57 then some (n - 48)
  else if 97 ≤ n ∧ n ≤ 102 then some (n - 87)
  else if 65 ≤ n ∧ n ≤ 70 then some (n - 55)
  else none

/-- The digits of `from_str_radix`, which fails on a character which is no digit and when the value exceeds the type. -/
def radixDigits (limit : Nat) : Nat → Text → Option Nat
  | acc, [] => some acc
  | acc, c :: rest =>
    match digitValue c with
    | some d => if acc * 16 + d < limit then radixDigits limit (acc * 16 + d) rest else none
    | none => none

/-- `u8::from_str_radix(s, 16)` with the limit 2^8 and `u32::from_str_radix(s, 16)` with 2^32: not empty, an optional plus
sign before at least one digit. -/
def fromRadix (limit : Nat) : Text → Option Nat
  | [] => none
  | ['+'] => none
  | '+' :: rest => radixDigits limit 0 rest
  | s => radixDigits limit 0 s

/-- `char::from_u32`. -/
def charOf (n : Nat) : Option Char :=
  if h : n.isValidChar then some (Char.ofNatAux n h) else none

/-- The escape of one character, string.rs:647-655 and data_text.rs:66-74, which are the same. -/
def escape (c : Char) : Text :=
  if c = '"' then ['\\', '"']
  else if c = '\\' then ['\\', '\\']
  else if c = '\n' then ['\\', 'n']
  else if c = '\r' then ['\\', 'r']
  else if c = '\t' then ['\\', 't']
  else if isControl c then ['\\', 'u', '{'] ++ toHex c.toNat ++ ['}']
  else [c]

/-- The escape of one character in JSON, json.rs:38-48. -/
def escapeJson (c : Char) : Text :=
  if c = '"' then ['\\', '"']
  else if c = '\\' then ['\\', '\\']
  else if c = '\n' then ['\\', 'n']
  else if c = '\r' then ['\\', 'r']
  else if c = '\t' then ['\\', 't']
  else if c = '\x08' then ['\\', 'b']
  else if c = '\x0c' then ['\\', 'f']
  else if isControl c then ['\\', 'u'] ++ toHex4 c.toNat
  else [c]

/-- A quoted text: `output` of the three functions before it is normalised. -/
def quoted (e : Char → Text) (s : Text) : Text :=
  '"' :: (s.flatMap e ++ ['"'])

/-- `inspect_string` string.rs:643-659, and `escape_data_text_string` data_text.rs:62-88. -/
def inspect (N : Normaliser) (s : Text) : Text := N.nfc (quoted escape s)

/-- `escape_json_string` json.rs:34-52. -/
def inspectJson (N : Normaliser) (s : Text) : Text := N.nfc (quoted escapeJson s)

/-- The text after the closing brace of `\u{…}`, escapes.rs:45-51: the brace may be missing at the end. -/
def afterBrace (s : Text) : Text := (s.dropWhile (· != '}')).drop 1

theorem afterBrace_length (s : Text) : (afterBrace s).length ≤ s.length := by
  simp only [afterBrace, List.length_drop]
  have := (List.dropWhile_sublist (l := s) (· != '}')).length_le
  omega

/-- `apply_string_escapes` escapes.rs:10-88. -/
def unescape : Text → Text
  | [] => []
  | '\\' :: 'n' :: rest => '\n' :: unescape rest
  | '\\' :: 't' :: rest => '\t' :: unescape rest
  | '\\' :: 'r' :: rest => '\r' :: unescape rest
  | '\\' :: '\\' :: rest => '\\' :: unescape rest
  | '\\' :: '"' :: rest => '"' :: unescape rest
  | '\\' :: '0' :: rest => '\x00' :: unescape rest
  | '\\' :: 'x' :: rest =>
    match fromRadix (2 ^ 8) (rest.take 2) with
    | some b => Char.ofNat b :: unescape (rest.drop 2)
    | none => ['\\', 'x'] ++ rest.take 2 ++ unescape (rest.drop 2)
  | '\\' :: 'u' :: '{' :: rest =>
    let hex := rest.takeWhile (· != '}')
    match (fromRadix (2 ^ 32) hex).bind charOf with
    | some c => c :: unescape (afterBrace rest)
    | none => ['\\', 'u', '{'] ++ hex ++ ['}'] ++ unescape (afterBrace rest)
  | '\\' :: 'u' :: rest => ['\\', 'u'] ++ unescape (rest.drop 1)
  | '\\' :: other :: rest => '\\' :: other :: unescape rest
  | ['\\'] => ['\\']
  | c :: rest => c :: unescape rest
termination_by s => s.length
decreasing_by
  all_goals simp only [List.length_cons, List.length_drop]
  all_goals first | omega | (have := afterBrace_length rest; omega)

/-- The rest of a string token after the opening quote, parser.lalrpop:1507 (`([^\\"]|\\.)*"`, where the dot is any
character but a line feed): the text between the quotes and what follows the token. -/
def token : Text → Option (Text × Text)
  | [] => none
  | '"' :: rest => some ([], rest)
  | '\\' :: c :: rest => if c = '\n' then none else (token rest).map fun p => ('\\' :: c :: p.1, p.2)
  | ['\\'] => none
  | c :: rest => (token rest).map fun p => (c :: p.1, p.2)

/-- The value of a source text which is one string literal: `string_literal` helpers.rs:285-288 with `StaticStr::new`
string.rs:66-70.  `none`: the text is not a single string literal. -/
def readLiteral (N : Normaliser) : Text → Option Text
  | '"' :: rest =>
    match token rest with
    | some (body, []) => some (N.nfc (unescape body))
    | _ => none
  | _ => none

/-- `parse_escape` data_text.rs:386-410 after the backslash. -/
def dataEscape : Text → Option (Char × Text)
  | '"' :: rest => some ('"', rest)
  | '\\' :: rest => some ('\\', rest)
  | 'n' :: rest => some ('\n', rest)
  | 'r' :: rest => some ('\r', rest)
  | 't' :: rest => some ('\t', rest)
  | 'u' :: '{' :: rest =>
    match rest.dropWhile (· != '}') with
    | '}' :: after =>
      ((fromRadix (2 ^ 32) (rest.takeWhile (· != '}'))).bind charOf).map fun c => (c, after)
    | _ => none
  | _ => none

theorem dataEscape_length {s rest : Text} {c : Char} (h : dataEscape s = some (c, rest)) : rest.length < s.length := by
  unfold dataEscape at h
  split at h
  · simp only [Option.some.injEq, Prod.mk.injEq] at h; simp [← h.2]
  · simp only [Option.some.injEq, Prod.mk.injEq] at h; simp [← h.2]
  · simp only [Option.some.injEq, Prod.mk.injEq] at h; simp [← h.2]
  · simp only [Option.some.injEq, Prod.mk.injEq] at h; simp [← h.2]
  · simp only [Option.some.injEq, Prod.mk.injEq] at h; simp [← h.2]
  · rename_i r
    split at h
    · rename_i after hd
      simp only [Option.map_eq_some_iff, Prod.mk.injEq] at h
      obtain ⟨_, _, _, rfl⟩ := h
      have := (List.dropWhile_sublist (l := r) (· != '}')).length_le
      rw [hd] at this
      simp only [List.length_cons] at this ⊢
      omega
    · simp at h
  · simp at h

/-- The loop of `parse_string` data_text.rs:371-384 after the opening quote. -/
def dataString (s : Text) : Option (Text × Text) :=
  match s with
  | [] => none
  | '"' :: rest => some ([], rest)
  | '\\' :: rest =>
    match h : dataEscape rest with
    | some (c, after) => (dataString after).map fun p => (c :: p.1, p.2)
    | none => none
  | c :: rest => (dataString rest).map fun p => (c :: p.1, p.2)
termination_by s.length
decreasing_by
  · have := dataEscape_length h; simp only [List.length_cons]; omega
  · simp

end Ferlium.Text
