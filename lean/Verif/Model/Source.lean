/-
Model of source positions.

Sources in /repo: src/parser/location.rs (`Span` 18-58, `Location::fuse` 91-112, `SourceEntry` 243-318)
and src/ide/position_index_lookup.rs (26-58).

Simplifications: a Rust `String`/`&str` is the list of its characters (Unicode scalar values, Lean's
`Char`), byte offsets are sums of `len_utf8` sizes; slicing at an offset that is not a character
boundary, or out of range, is a Rust panic and gives `none` here.  `usize` and `u32` arithmetic is on
natural numbers (texts are shorter than 4 GiB).  `slice::binary_search` is modelled by its documented
result on a strictly increasing vector.
-/

namespace Ferlium.Source

/-- `str::len`: number of UTF-8 bytes. -/
def bytes (t : List Char) : Nat := (t.map Char.utf8Size).sum

/-- `char::len_utf16`. -/
def utf16Size (c : Char) : Nat := if c.val.toNat ≤ 0xFFFF then 1 else 2

/-- `PositionEncoding`, src/ide/position_index_lookup.rs 18-22. -/
inductive Encoding where
  | unicodeScalar
  | utf16CodeUnit

/-- Units of one character, src/ide/position_index_lookup.rs 39-42. -/
def Encoding.size : Encoding → Char → Nat
  | .unicodeScalar, _ => 1
  | .utf16CodeUnit, c => utf16Size c

/-- The loop of `PositionIndexLookup::new`, src/ide/position_index_lookup.rs 37-43: the vector of
positions by byte and the position past the end. -/
def lookupLoop (enc : Encoding) : List Char → Nat → List Nat × Nat
  | [], index => ([], index)
  | c :: t, index =>
    let (v, e) := lookupLoop enc t (index + enc.size c)
    (List.replicate c.utf8Size index ++ v, e)

/-- `PositionIndexLookup`, src/ide/position_index_lookup.rs 26-31. -/
structure Lookup where
  indices : List Nat
  endIndex : Nat

/-- `PositionIndexLookup::new`, src/ide/position_index_lookup.rs 34-48. -/
def Lookup.new (t : List Char) (enc : Encoding) : Lookup :=
  let (v, e) := lookupLoop enc t 0
  ⟨v, e⟩

/-- `byte_to_position`, src/ide/position_index_lookup.rs 51-57. -/
def Lookup.byteToPosition (l : Lookup) (b : Nat) : Nat :=
  if h : b < l.indices.length then l.indices[b] else l.endIndex

/-- The loop over `char_indices` in `SourceEntry::new`, src/parser/location.rs 253-257, from byte
offset `i`. -/
def lineStartsFrom : Nat → List Char → List Nat
  | _, [] => []
  | i, c :: t =>
    if c = '\n' then (i + 1) :: lineStartsFrom (i + c.utf8Size) t
    else lineStartsFrom (i + c.utf8Size) t

/-- `SourceEntry` without its name, src/parser/location.rs 243-247. -/
structure Entry where
  source : List Char
  lineStarts : List Nat

/-- `SourceEntry::new`, src/parser/location.rs 251-263. -/
def Entry.new (t : List Char) : Entry := ⟨t, 0 :: lineStartsFrom 0 t⟩

/-- `str::is_char_boundary`. -/
def isCharBoundary : List Char → Nat → Bool
  | _, 0 => true
  | [], _ + 1 => false
  | c :: t, b + 1 => if b + 1 < c.utf8Size then false else isCharBoundary t (b + 1 - c.utf8Size)

/-- The loop of `floor_char_boundary`, src/parser/location.rs 275-277. -/
def floorLoop (t : List Char) : Nat → Nat
  | 0 => 0
  | b + 1 => if isCharBoundary t (b + 1) then b + 1 else floorLoop t b

/-- `floor_char_boundary`, src/parser/location.rs 273-279. -/
def floorCharBoundary (t : List Char) (b : Nat) : Nat := floorLoop t (min b (bytes t))

/-- The loop of `ceil_char_boundary`, src/parser/location.rs 283-285, for at most the given number of
rounds. -/
def ceilLoop (t : List Char) : Nat → Nat → Nat
  | 0, b => b
  | n + 1, b => if isCharBoundary t b then b else ceilLoop t n (b + 1)

/-- `ceil_char_boundary`, src/parser/location.rs 281-287; the text's end is a boundary, so the loop
takes at most `len - b` rounds. -/
def ceilCharBoundary (t : List Char) (b : Nat) : Nat :=
  ceilLoop t (bytes t - min b (bytes t)) (min b (bytes t))

/-- `&s[b..]`. -/
def dropBytes : List Char → Nat → Option (List Char)
  | t, 0 => some t
  | [], _ + 1 => none
  | c :: t, b + 1 => if b + 1 < c.utf8Size then none else dropBytes t (b + 1 - c.utf8Size)

/-- `&s[..b]`. -/
def takeBytes : List Char → Nat → Option (List Char)
  | _, 0 => some []
  | [], _ + 1 => none
  | c :: t, b + 1 =>
    if b + 1 < c.utf8Size then none else (takeBytes t (b + 1 - c.utf8Size)).map (c :: ·)

/-- `&s[a..b]`. -/
def slice (t : List Char) (a b : Nat) : Option (List Char) :=
  if a ≤ b then (dropBytes t a).bind (takeBytes · (b - a)) else none

/-- `get_snippet`, src/parser/location.rs 291-295. -/
def Entry.getSnippet (e : Entry) (start stop : Nat) : Option (List Char) :=
  let start := floorCharBoundary e.source start
  let stop := ceilCharBoundary e.source (max stop start)
  slice e.source start stop

/-- `slice::binary_search` on a strictly increasing vector. -/
def binarySearch (l : List Nat) (x : Nat) : Except Nat Nat :=
  let i := (l.takeWhile (· < x)).length
  if l[i]? = some x then .ok i else .error i

/-- The line for a search result, src/parser/location.rs 305-308. -/
def lineOfSearch : Except Nat Nat → Nat
  | .ok i => i + 1
  | .error i => i

/-- `get_line_column`, src/parser/location.rs 298-317. -/
def Entry.getLineColumn (e : Entry) (b : Nat) : Option (Nat × Nat) :=
  if b ≤ bytes e.source then
    let b := floorCharBoundary e.source b
    let line := lineOfSearch (binarySearch e.lineStarts b)
    if line = 0 then none
    else
      match e.lineStarts[line - 1]? with
      | none => none
      | some lineStart =>
        match slice e.source lineStart b with
        | none => none
        | some s => some (line, s.length + 1)
  else none

/-- A location: source and byte range, src/parser/location.rs 63-66. -/
structure Loc where
  source : Nat
  start : Nat
  stop : Nat
  deriving DecidableEq, Repr

/-- Loop state of `Location::fuse`, src/parser/location.rs 92-94. -/
structure FuseState where
  source : Option Nat
  start : Nat
  stop : Nat

/-- One round of `Location::fuse`, src/parser/location.rs 95-110; `none` is the panic on different
sources. -/
def fuseStep (st : FuseState) (l : Loc) : Option FuseState :=
  match st.source with
  | some id =>
    if l.source ≠ id then none
    else some ⟨some id, min st.start l.start, max st.stop l.stop⟩
  | none => some ⟨some l.source, min st.start l.start, max st.stop l.stop⟩

/-- `Location::new` with the check of `Span::new`, src/parser/location.rs 24-29, 71-76. -/
def Loc.new (source start stop : Nat) : Option Loc :=
  if stop < start then none else some ⟨source, start, stop⟩

/-- `Location::fuse`, src/parser/location.rs 91-112: outer `none` is a panic. -/
def fuse (ls : List Loc) : Option (Option Loc) :=
  (ls.foldlM fuseStep ⟨none, 2 ^ 32 - 1, 0⟩).bind fun st =>
    match st.source with
    | none => some none
    | some id => (Loc.new id st.start st.stop).map some

end Ferlium.Source
