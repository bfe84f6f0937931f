import Verif.Proofs.DataTextRead
import Verif.Props.Text

/-! C19: data text reads back. -/
namespace Ferlium.Text

variable {F : Type} {H : Host F}

/-- Printing a value and reading the text gives the value back.  Missing: the values which are not `Printable`, for each kind
of which a theorem below shows that they do not read back. -/
theorem C19_round_trip_partial (L : H.Lawful) {v : Data F} (h : Printable H v) : ∃ t, print H v = some t ∧ parse H t = some v :=
  ⟨text H v, print_text L v h, parse_text L h⟩

/-- Different printable values have different texts. -/
theorem C19_distinct_texts_partial (L : H.Lawful) {v w : Data F} (hv : Printable H v) (hw : Printable H w)
    (h : print H v = print H w) : v = w := by
  rw [print_text L v hv, print_text L w hw] at h
  have h1 := parse_text L hv
  rw [Option.some.inj h, parse_text L hw] at h1
  exact (Option.some.inj h1).symm

/-! ### What does not read back -/

/-- A number whose text has no point is read as an integer, or not at all if it is too large. -/
theorem C19_floats_violated (L : H.Lawful) (f : F) (h : '.' ∉ H.showFloat f) :
    ∃ t, print H (.float f) = some t ∧ parse H t = (readInt t).map .int ∧ parse H t ≠ some (.float f) := by
  refine ⟨H.showFloat f, by rw [print, fresh, showFloat_normal L], ?_⟩
  have key : parse H (H.showFloat f) = (readInt (H.showFloat f)).map Data.int := by
    obtain ⟨sign, digits, fraction, e, hs, hne, hd, hfr⟩ := L.shape f
    rw [e] at h ⊢
    rcases hfr with rfl | ⟨ds, rfl, _⟩
    · rw [List.append_nil]
      have hn := readNumber_int (H := H) hs hne hd (rest := []) (after := []) ⟨rfl, .inl rfl, .inl rfl⟩
      rw [List.append_nil] at hn
      rw [parse]
      have hv : readValue H ((sign ++ digits).length + 1) (sign ++ digits) = readNumber H (sign ++ digits) := by
        rcases hs with rfl | rfl
        · obtain ⟨c, r, rfl⟩ := List.exists_cons_of_ne_nil hne
          exact readValue_number L _ (c := c) (r := r) rfl (.inr (hd c (by simp)))
        · exact readValue_number L _ (c := '-') (r := digits) rfl (.inl rfl)
      rw [hv, hn]
      cases readInt (sign ++ digits) with
      | none => rfl
      | some i => simp [skip_nil]
    · exact absurd (by simp) h
  refine ⟨key, ?_⟩
  rw [key]
  cases readInt (H.showFloat f) <;> simp

/-- Thus a number reads back exactly if its text has a point. -/
theorem C19_floats (L : H.Lawful) (f : F) :
    (∃ t, print H (.float f) = some t ∧ parse H t = some (.float f)) ↔ '.' ∈ H.showFloat f := by
  constructor
  · rintro ⟨t, h1, h2⟩
    by_contra h
    obtain ⟨t', h3, _, h4⟩ := C19_floats_violated L f h
    rw [h1] at h3
    exact h4 (Option.some.inj h3 ▸ h2)
  · intro h
    exact C19_round_trip_partial L (v := .float f) (by rw [Printable]; exact h)

/-- The empty tuple is read as the unit value. -/
theorem C19_empty_tuple_violated (L : H.Lawful) :
    ∃ t, print H (.tuple .nil : Data F) = some t ∧ parse H t = some .unit := by
  refine ⟨text H .unit, ?_, parse_text L (by rw [Printable]; trivial)⟩
  rw [print, printItems, text]
  simp [push_cons L (by decide : (')' : Char).toNat < 0x300)]

/-- A payload which is neither the unit value, nor a tuple, nor a record, is read as a tuple of one element. -/
theorem C19_payloads_violated (L : H.Lawful) {name : Text} {p : Data F} (hn : Word name) (hk : name ∉ keywords)
    (hp : Printable H p) (hu : p ≠ .unit) (ht : ∀ items, p ≠ .tuple items) (hr : ∀ fields, p ≠ .record fields) :
    ∃ t, print H (.variant name p) = some t ∧ parse H t = some (.variant name (.tuple (.cons p .nil))) := by
  have hq : Printable H (.variant name (.tuple (.cons p .nil))) := by
    rw [Printable, Printable, ItemsPrintable, ItemsPrintable]
    refine ⟨hn, hk, ?_, trivial, hp, trivial⟩
    unfold PayloadOk
    split <;> simp_all
  refine ⟨text H (.variant name (.tuple (.cons p .nil))), ?_, parse_text L hq⟩
  have h1 := print_text L p hp
  rw [print, if_pos (isIdentifier_word L hn), text, itemsText, moreItems]
  · simp only [h1, Option.map_some]
    rw [push_starts L (text_head L p hp), show ")".toList = [')'] from rfl, push_cons L (by decide),
      show "(".toList = ['('] from rfl, push_cons L (by decide)]
    simp
  · exact hu
  · exact ht

/-- A payload which is a tuple of one record is read as the record. -/
theorem C19_record_payload_violated (L : H.Lawful) {name : Text} {fields : Fields F} (hn : Word name) (hk : name ∉ keywords)
    (hp : Printable H (.record fields)) :
    ∃ t, print H (.variant name (.tuple (.cons (.record fields) .nil))) = some t ∧
      parse H t = some (.variant name (.record fields)) := by
  have hq : Printable H (.variant name (.record fields)) := by
    rw [Printable]
    exact ⟨hn, hk, trivial, hp⟩
  refine ⟨text H (.variant name (.record fields)), ?_, parse_text L hq⟩
  have h1 := (printItems_text L (.cons (.record fields) .nil) (push H.N name "(".toList)
    (by rw [ItemsPrintable, ItemsPrintable]; exact ⟨hp, trivial⟩)).1
  rw [print, if_pos (isIdentifier_word L hn)]
  simp only [h1]
  rw [text_variant_record, itemsText, moreItems]
  simp [push_cons L (by decide : ('(' : Char).toNat < 0x300), push_cons L (by decide : (')' : Char).toNat < 0x300)]

/-- A variant with the name of a keyword is not read back. -/
theorem C19_keywords_violated (L : H.Lawful) {name : Text} (hk : name ∈ keywords) :
    ∃ t, print H (.variant name .unit : Data F) = some t ∧ parse H t ≠ some (.variant name .unit) := by
  have hw := keyword_word hk
  refine ⟨name, by rw [print, if_pos (isIdentifier_word L hw)], ?_⟩
  have h1 : readValue H (name.length + 1) name = readWord H (readValue H name.length) name := by
    have := readValue_word L name.length hw (rest := [])
    rwa [List.append_nil] at this
  have h2 : readIdentifier H name = some (name, []) := by
    have := readIdentifier_word L hw (rest := []) (.inl rfl)
    rwa [List.append_nil] at this
  rw [parse, h1, readWord, h2]
  simp only [keywords, List.mem_cons, List.not_mem_nil, or_false] at hk
  rcases hk with rfl | rfl | rfl | rfl | rfl <;> simp [skip_nil]

/-- A variant whose name is no identifier cannot be printed: the printer panics. -/
theorem C19_variant_names_violated {name : Text} {p : Data F} (h : isIdentifier H.N name = false) :
    print H (.variant name p) = none := by
  cases p <;> simp [print, h]

/-- A string with an escape which composes with the next character is not read back. -/
theorem C19_strings_violated (L : H.Lawful) (ht : H.N.Normal ['̃']) (h : H.N.nfc ['n', '̃'] = ['ñ']) :
    ∃ s t, H.N.Normal s ∧ print H (.string s : Data F) = some t ∧ parse H t = none := by
  obtain ⟨s, body, h1, h2, h3⟩ := C18_data_text_rejected L.unicode ht h
  refine ⟨s, '"' :: body, h1, by rw [print, h2], ?_⟩
  rw [parse, readValue, skip_starts L (by decide)]
  simp [h3]

/-- A field whose name contains a letter with a mark which forms no letter of its own: the printer takes the name for an
identifier, the reader does not. -/
theorem C19_field_names_violated (L : H.Lawful) (mark : Char) (hm : 128 ≤ mark.toNat) (hw : H.white mark = false)
    (hc : H.N.graphemes ['b', mark] = [['b', mark]]) (hb : H.N.Normal ['b', mark]) :
    ∃ t, print H (.record (.cons ['b', mark] .null .nil) : Data F) = some t ∧ parse H t = none := by
  have hid : isIdentifier H.N ['b', mark] = true := by
    rw [isIdentifier, hc]
    simp only [List.map_cons, List.map_nil]
    rw [show H.N.nfc ['b', mark] = ['b', mark] from hb]
    simp [clusterStarts, lexLe]
  have hsl : mark ≠ '/' := by rintro rfl; revert hm; decide
  have hmc : identContinue mark = false := by
    rw [Bool.eq_false_iff, Ne, identContinue_iff]; omega
  have hcolon : mark ≠ ':' := by rintro rfl; revert hm; decide
  refine ⟨"{ b".toList ++ mark :: ": null }".toList, ?_, ?_⟩
  · rw [print, printFields, print, Option.bind_some, printFields, if_pos hid]
    · simp [push_cons L (by decide : (' ' : Char).toNat < 0x300), push_cons L (by decide : (':' : Char).toNat < 0x300),
        push_cons L (by decide : ('b' : Char).toNat < 0x300), push_cons L (by decide : ('n' : Char).toNat < 0x300),
        push_cons L (by decide : ('}' : Char).toNat < 0x300)]
    · simp
  · have hname : readName H ('b' :: mark :: ": null }".toList) = some (['b'], mark :: ": null }".toList) := by
      rw [readName, if_neg (by simp)]
      exact readIdentifier_word L (name := ['b']) ⟨'b', [], rfl, by decide, by simp⟩ (.inr ⟨mark, _, rfl, hmc⟩)
    rw [parse, show "{ b".toList ++ mark :: ": null }".toList = '{' :: ' ' :: 'b' :: mark :: ": null }".toList from rfl,
      readValue_record L, readFields_space L, readFields, skip_starts L (by decide), Option.bind_some, if_neg (by simp), hname,
      Option.bind_some, skip_stop hw hsl]
    simp only [Option.bind_some, List.head?_cons, Option.some.injEq, hcolon, if_false, Option.map_none, Option.bind_none]

/-! ### A host -/

/-- The numbers which are multiples of one half, printed as Rust prints them. -/
def showHalf (n : Nat) : Text := toDec (n / 2) ++ if n % 2 = 1 then ['.', '5'] else []

/-- Reading them. -/
def readHalf (s : Text) : Option Nat :=
  (decDigits 0 (s.takeWhile isDigit)).bind fun n =>
    if s.dropWhile isDigit = ['.', '5'] then some (2 * n + 1)
    else if s.dropWhile isDigit = [] ∨ s.dropWhile isDigit = ['.', '0'] then some (2 * n)
    else none

/-- A host with these numbers and the normaliser for Hangul. -/
def halves : Host Nat where
  N := hangul
  white c := (9 ≤ c.toNat && c.toNat ≤ 13) || c.toNat == 32
  showFloat := showHalf
  readFloat := readHalf

theorem halves_lawful : halves.Lawful where
  unicode := hangul_lawful
  white c _ := by simp [halves]
  shape n := by
    refine ⟨[], toDec (n / 2), if n % 2 = 1 then ['.', '5'] else [], rfl, .inl rfl, toDec_ne_nil _, toDec_digits _, ?_⟩
    split
    · exact .inr ⟨['5'], rfl, by decide⟩
    · exact .inl rfl
  exact n := by
    change readHalf (showHalf n) = some n
    have hr : (if n % 2 = 1 then ['.', '5'] else [] : Text) = [] ∨
        ∃ c r, (if n % 2 = 1 then ['.', '5'] else [] : Text) = c :: r ∧ isDigit c = false := by
      split
      · exact .inr ⟨'.', ['5'], rfl, by decide⟩
      · exact .inl rfl
    obtain ⟨h1, h2⟩ := takeWhile_all (toDec_digits (n / 2)) hr
    rw [readHalf, showHalf, h1, h2, decDigits_toDec, Option.bind_some]
    by_cases h : n % 2 = 1
    · simp [h]; omega
    · simp [h]; omega

/-- A nested value with every constructor reads back. -/
def sample : Data Nat :=
  .record (.cons "a".toList (.array (.cons (.int (-3)) (.cons (.float 5) .nil)))
    (.cons "b c".toList (.set (.cons (.string ['"', '\n', 'x']) .nil))
    (.cons "m".toList (.map (.cons (.bool true) (.tuple (.cons .null .nil)) .nil))
    (.cons "v".toList (.variant "Some".toList (.tuple (.cons .unit (.cons (.int 2) .nil)))) .nil))))

theorem ascii_stringOk (L : H.Lawful) {s : Text} (h : ∀ c ∈ s, c.toNat < 0x300) : StringOk H.N s := by
  refine ⟨?_, ?_⟩
  · exact L.unicode.ascii s h
  · intro a b c d e hc
    exact L.unicode.opens d (h d (by simp [e]))

example : ∃ t, print halves sample = some t ∧ parse halves t = some sample := by
  refine C19_round_trip_partial halves_lawful ?_
  have hs : ∀ {s : Text}, (∀ c ∈ s, c.toNat < 0x300) → StringOk halves.N s := fun h => ascii_stringOk halves_lawful h
  have hw : ∀ {c : Char} {r : Text}, identStart c = true → (∀ x ∈ r, identContinue x = true) → Word (c :: r) :=
    fun h1 h2 => ⟨_, _, rfl, h1, h2⟩
  simp only [sample, Printable, ItemsPrintable, FieldsPrintable, PairsPrintable]
  refine ⟨.inl (hw (by decide) (by decide)), ⟨by simp [IntRange], ?_, trivial⟩, .inr ⟨?_, hs (by decide)⟩, ⟨hs (by decide), trivial⟩,
    .inl (hw (by decide) (by decide)), ⟨trivial, ⟨trivial, trivial, trivial⟩, trivial⟩, .inl (hw (by decide) (by decide)),
    ⟨hw (by decide) (by decide), by decide, trivial, trivial, trivial, by simp [IntRange], trivial⟩, trivial⟩
  · simp [halves, showHalf]
  · simp [isIdentifier, halves, hangul, compose, clusterStarts, clusterContinues, lexLe]

end Ferlium.Text
