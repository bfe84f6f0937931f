/-!
Unicode text as lists of scalar values, and normalisation to form C as the standard library sees it.

The crates `unicode-normalization` and `unicode-segmentation` are not modelled: a `Normaliser` stands for them, with the laws
of form C which the Unicode standard states (UAX #15) as assumptions.  `hangul` is a concrete normaliser, which composes the
modern Hangul syllables by the arithmetic of the standard and one letter with a tilde; the laws are proved for it.
-/
namespace Ferlium.Text

/-- Text: `&str`, `std::string::String`. -/
abbrev Text := List Char

/-- The functions of `unicode-normalization` and `unicode-segmentation` which string.rs uses. -/
structure Normaliser where
  /-- `.nfc().collect()`. -/
  nfc : Text → Text
  /-- `unicode_normalization::char::is_combining_mark`. -/
  mark : Char → Bool
  /-- `.graphemes(true)`. -/
  graphemes : Text → List Text

/-- `is_nfc`. -/
def Normaliser.Normal (N : Normaliser) (s : Text) : Prop := N.nfc s = s

/-- A character which never composes with, and is never reordered before, what precedes it. -/
def Normaliser.Opens (N : Normaliser) (c : Char) : Prop :=
  ∀ a b : Text, N.Normal a → N.Normal (c :: b) → N.Normal (a ++ c :: b)

/-- A character which starts no composition: nothing that follows it composes with it or with what precedes it. -/
def Normaliser.Closes (N : Normaliser) (c : Char) : Prop :=
  ∀ a b : Text, N.Normal (a ++ [c]) → N.Normal b → N.Normal (a ++ c :: b)

/-- The ASCII characters which are the first part of no composition. -/
def solitary (c : Char) : Bool :=
  c.toNat < 128 && !c.isAlpha && c != '<' && c != '=' && c != '>'

/-- What the Unicode standard says about form C, as far as it is needed here. -/
structure Normaliser.Lawful (N : Normaliser) : Prop where
  /-- Normalising twice changes nothing more. -/
  idem : ∀ s, N.Normal (N.nfc s)
  /-- Normalising the parts first does not change the normal form of the whole. -/
  join : ∀ a b, N.nfc (N.nfc a ++ N.nfc b) = N.nfc (a ++ b)
  /-- A part of a normalised text is normalised. -/
  part : ∀ a b c, N.Normal (a ++ b ++ c) → N.Normal b
  /-- No character below U+0300 changes when it stands alone. -/
  low : ∀ c : Char, c.toNat < 0x300 → N.Normal [c]
  /-- No character below U+0300 composes with what precedes it. -/
  opens : ∀ c : Char, c.toNat < 0x300 → N.Opens c
  /-- Among the ASCII characters only letters and three signs are the first part of compositions. -/
  closes : ∀ c : Char, solitary c = true → N.Closes c
  /-- No character below U+0300 is a combining mark. -/
  marks : ∀ c : Char, c.toNat < 0x300 → N.mark c = false
  /-- Grapheme clusters partition the text. -/
  clusters : ∀ s, (N.graphemes s).flatten = s
  /-- Text of printable ASCII characters has one cluster per character. -/
  plain : ∀ s : Text, (∀ c ∈ s, 32 ≤ c.toNat ∧ c.toNat < 127) → N.graphemes s = s.map fun c => [c]

/-- The composition of two characters in `hangul`: an initial and a vowel, a syllable without a final and a final
(section 3.12 of the Unicode standard), and `n` with a combining tilde. -/
def hangulPair (a b : Char) : Option Char :=
  let l := a.toNat - 0x1100
  let v := b.toNat - 0x1161
  let s := a.toNat - 0xAC00
  let t := b.toNat - 0x11A7
  if 0x1100 ≤ a.toNat ∧ l < 19 ∧ 0x1161 ≤ b.toNat ∧ v < 21 then
    some (Char.ofNat (0xAC00 + (l * 21 + v) * 28))
  else if 0xAC00 ≤ a.toNat ∧ s < 11172 ∧ s % 28 = 0 ∧ 0x11A7 < b.toNat ∧ t < 28 then
    some (Char.ofNat (a.toNat + t))
  else if a.toNat = 0x6E ∧ b.toNat = 0x303 then
    some (Char.ofNat 0xF1)
  else
    none

/-- Composition of neighbours from left to right. -/
def compose (pair : Char → Char → Option Char) : Text → Text
  | [] => []
  | [a] => [a]
  | a :: b :: rest =>
    match pair a b with
    | some d => compose pair (d :: rest)
    | none => a :: compose pair (b :: rest)
termination_by s => s.length

/-- A normaliser which knows the compositions above. -/
def hangul : Normaliser where
  nfc := compose hangulPair
  mark c := 0x300 ≤ c.toNat && c.toNat < 0x370
  graphemes s := s.map fun c => [c]

end Ferlium.Text
