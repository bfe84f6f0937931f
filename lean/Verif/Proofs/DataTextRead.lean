import Verif.Proofs.DataText

/-! The text of a printable value, and reading it. -/
namespace Ferlium.Text

variable {F : Type} {H : Host F}

/-! ### Printing -/

theorem text_variant_record (name : Text) (fields : Fields F) :
    text H (.variant name (.record fields)) = name ++ '(' :: (text H (.record fields) ++ [')']) := by
  rw [text.eq_18] <;> simp

theorem push_low (L : H.Lawful) {a b : Text} (h : ∀ c r, b = c :: r → c.toNat < 0x300) : push H.N a b = a ++ b := by
  cases b with
  | nil => rfl
  | cons c r => rw [push, L.unicode.marks c (h c r rfl)]; rfl

theorem push_cons (L : H.Lawful) {a r : Text} {c : Char} (h : c.toNat < 0x300) : push H.N a (c :: r) = a ++ c :: r :=
  push_low L fun _ _ e => by simp only [List.cons.injEq] at e; exact e.1 ▸ h

theorem push_starts (L : H.Lawful) {a b : Text} (h : ∃ c r, b = c :: r ∧ starts c = true) : push H.N a b = a ++ b := by
  obtain ⟨c, r, rfl, hc⟩ := h
  exact push_cons L (by have := starts_range hc; omega)

theorem inspect_ok (L : H.Lawful) {s : Text} (h : StringOk H.N s) : inspect H.N s = quoted escape s :=
  quoted_normal L.unicode escape_laws h.1 h.2

theorem digits_normal (L : H.Lawful) {s : Text} (h : ∀ c ∈ s, isDigit c = true ∨ c = '-' ∨ c = '.') : H.N.nfc s = s :=
  L.unicode.ascii s fun c hc => by
    rcases h c hc with h | rfl | rfl
    · rw [isDigit_iff] at h; omega
    · decide
    · decide

theorem showInt_normal (L : H.Lawful) (i : Int) : H.N.nfc (showInt i) = showInt i := by
  refine digits_normal L fun c hc => ?_
  cases i with
  | ofNat n => exact .inl (toDec_digits n c hc)
  | negSucc n =>
    rcases List.mem_cons.mp hc with rfl | hc
    · exact .inr (.inl rfl)
    · exact .inl (toDec_digits _ c hc)

theorem showFloat_normal (L : H.Lawful) (f : F) : H.N.nfc (H.showFloat f) = H.showFloat f := by
  obtain ⟨sign, digits, fraction, e, hs, _, hd, hf⟩ := L.shape f
  refine digits_normal L fun c hc => ?_
  rw [e] at hc
  simp only [List.mem_append] at hc
  rcases hc with (hc | hc) | hc
  · rcases hs with rfl | rfl
    · simp at hc
    · simp only [List.mem_singleton] at hc; exact .inr (.inl hc)
  · exact .inl (hd c hc)
  · rcases hf with rfl | ⟨ds, rfl, hds⟩
    · simp at hc
    · rcases List.mem_cons.mp hc with rfl | hc
      · exact .inr (.inr rfl)
      · exact .inl (hds c hc)

theorem printedName (L : H.Lawful) {name : Text} (h : Word name ∨ (isIdentifier H.N name = false ∧ StringOk H.N name)) :
    (if isIdentifier H.N name then name else inspect H.N name) = nameText H name := by
  rw [nameText]
  rcases h with h | ⟨h, hs⟩
  · simp [isIdentifier_word L h]
  · simp [h, inspect_ok L hs]

mutual

theorem print_text (L : H.Lawful) : ∀ v : Data F, Printable H v → print H v = some (text H v)
  | .null, _ => by rw [print, text]
  | .unit, _ => by rw [print, text]
  | .bool _, _ => by rw [print, text]
  | .int i, _ => by rw [print, text, fresh, showInt_normal L]
  | .float f, _ => by rw [print, text, fresh, showFloat_normal L]
  | .string s, h => by
    rw [Printable] at h
    rw [print, text, inspect_ok L h]
  | .array items, h => by
    rw [Printable] at h
    rw [print, (printItems_text L items _ h).1, text]
    simp [push_cons L (by decide : (']' : Char).toNat < 0x300)]
  | .tuple items, h => by
    rw [Printable] at h
    match items with
    | .nil => exact absurd h.1 (by simp [Items.nonempty])
    | .cons v .nil =>
      rw [print, (printItems_text L (.cons v .nil) _ h.2).1, text]
      simp [push_cons L (by decide : (')' : Char).toNat < 0x300), push_cons L (by decide : (',' : Char).toNat < 0x300)]
    | .cons v (.cons w more) =>
      rw [print, (printItems_text L (.cons v (.cons w more)) _ h.2).1, text]
      · simp [push_cons L (by decide : (')' : Char).toNat < 0x300)]
      · simp
  | .record .nil, _ => by
    rw [print, text]
    simp [push_cons L (by decide : ('}' : Char).toNat < 0x300)]
  | .record (.cons name v rest), h => by
    rw [Printable] at h
    have h1 := (printFields_text L (.cons name v rest) (push H.N "{".toList " ".toList) h).1
    rw [print, h1, text]
    · simp [push_cons L (by decide : ('}' : Char).toNat < 0x300), push_cons L (by decide : (' ' : Char).toNat < 0x300)]
    · simp
    · simp
  | .set .nil, _ => by
    rw [print, text]
    simp [push_cons L (by decide : ('}' : Char).toNat < 0x300), push_cons L (by decide : (' ' : Char).toNat < 0x300)]
  | .set (.cons v rest), h => by
    rw [Printable] at h
    have h1 := (printItems_text L (.cons v rest) (push H.N (push H.N "set".toList " {".toList) " ".toList) h).1
    rw [print, h1, text]
    · simp [push_cons L (by decide : ('}' : Char).toNat < 0x300), push_cons L (by decide : (' ' : Char).toNat < 0x300)]
    · simp
    · simp
  | .map .nil, _ => by
    rw [print, text]
    simp [push_cons L (by decide : ('}' : Char).toNat < 0x300)]
  | .map (.cons k v rest), h => by
    rw [Printable] at h
    have h1 := (printPairs_text L (.cons k v rest) (push H.N "map {".toList " ".toList) h).1
    rw [print, h1, text]
    · simp [push_cons L (by decide : ('}' : Char).toNat < 0x300), push_cons L (by decide : (' ' : Char).toNat < 0x300)]
    · simp
    · simp
  | .variant name .unit, h => by
    rw [Printable] at h
    rw [print, if_pos (isIdentifier_word L h.1), text]
  | .variant name (.tuple items), h => by
    rw [Printable] at h
    have h2 := h.2.2.2
    rw [Printable] at h2
    rw [print, if_pos (isIdentifier_word L h.1)]
    simp only [(printItems_text L items _ h2.2).1]
    rw [text]
    simp [push_cons L (by decide : ('(' : Char).toNat < 0x300), push_cons L (by decide : (')' : Char).toNat < 0x300)]
  | .variant name (.record fields), h => by
    rw [Printable] at h
    have h2 := h.2.2.2
    rw [print, if_pos (isIdentifier_word L h.1)]
    simp only [print_text L (.record fields) h2, Option.map_some]
    rw [push_starts L (text_head L _ h2), show ")".toList = [')'] from rfl, push_cons L (by decide),
      show "(".toList = ['('] from rfl, push_cons L (by decide), text_variant_record]
    · simp
    · simp
    · simp
  | .variant _ .null, h | .variant _ (.bool _), h | .variant _ (.int _), h | .variant _ (.float _), h
  | .variant _ (.string _), h | .variant _ (.array _), h | .variant _ (.set _), h | .variant _ (.map _), h
  | .variant _ (.variant _ _), h => by
    rw [Printable] at h
    exact absurd h.2.2.1 (by simp [PayloadOk])

theorem printItems_text (L : H.Lawful) : ∀ (items : Items F) (result : Text), ItemsPrintable H items →
    printItems H result true items = some (result ++ itemsText H items) ∧
    printItems H result false items = some (result ++ moreItems H items)
  | .nil, result, _ => by simp [printItems, itemsText, moreItems]
  | .cons v rest, result, h => by
    rw [ItemsPrintable] at h
    have hp := print_text L v h.1
    have hh := text_head L v h.1
    constructor
    · rw [printItems, hp, Option.bind_some, (printItems_text L rest _ h.2).2, push_starts L hh, itemsText]
      simp
    · rw [printItems, hp, Option.bind_some, (printItems_text L rest _ h.2).2, push_starts L hh, moreItems]
      simp [push_cons L (by decide : (',' : Char).toNat < 0x300)]

theorem printFields_text (L : H.Lawful) : ∀ (fields : Fields F) (result : Text), FieldsPrintable H fields →
    printFields H result true fields = some (result ++ fieldsText H fields) ∧
    printFields H result false fields = some (result ++ moreFields H fields)
  | .nil, result, _ => by simp [printFields, fieldsText, moreFields]
  | .cons name v rest, result, h => by
    rw [FieldsPrintable] at h
    have hp := print_text L v h.2.1
    have hh := text_head L v h.2.1
    have hn := nameText_head h.1 L
    constructor
    · rw [printFields, hp, Option.bind_some, (printFields_text L rest _ h.2.2).2, printedName L h.1, push_starts L hh,
        push_starts L hn, fieldsText]
      simp [push_cons L (by decide : (':' : Char).toNat < 0x300)]
    · rw [printFields, hp, Option.bind_some, (printFields_text L rest _ h.2.2).2, printedName L h.1, push_starts L hh,
        push_starts L hn, moreFields]
      simp [push_cons L (by decide : (':' : Char).toNat < 0x300), push_cons L (by decide : (',' : Char).toNat < 0x300)]

theorem printPairs_text (L : H.Lawful) : ∀ (pairs : Pairs F) (result : Text), PairsPrintable H pairs →
    printPairs H result true pairs = some (result ++ pairsText H pairs) ∧
    printPairs H result false pairs = some (result ++ morePairs H pairs)
  | .nil, result, _ => by simp [printPairs, pairsText, morePairs]
  | .cons k v rest, result, h => by
    rw [PairsPrintable] at h
    have hk := print_text L k h.1
    have hp := print_text L v h.2.1
    have hhk := text_head L k h.1
    have hh := text_head L v h.2.1
    constructor
    · rw [printPairs, hk, Option.bind_some, hp, Option.bind_some, (printPairs_text L rest _ h.2.2).2, push_starts L hh,
        push_starts L hhk, pairsText]
      simp [push_cons L (by decide : (' ' : Char).toNat < 0x300)]
    · rw [printPairs, hk, Option.bind_some, hp, Option.bind_some, (printPairs_text L rest _ h.2.2).2, push_starts L hh,
        push_starts L hhk, morePairs]
      simp [push_cons L (by decide : (' ' : Char).toNat < 0x300), push_cons L (by decide : (',' : Char).toNat < 0x300)]

end

/-! ### Reading -/

/-- The number of items. -/
def Items.count : Items F → Nat
  | .nil => 0
  | .cons _ rest => rest.count + 1

def Fields.count : Fields F → Nat
  | .nil => 0
  | .cons _ _ rest => rest.count + 1

def Pairs.count : Pairs F → Nat
  | .nil => 0
  | .cons _ _ rest => rest.count + 1

theorem moreItems_count : ∀ items : Items F, items.count ≤ (moreItems H items).length
  | .nil => by simp [Items.count]
  | .cons v rest => by
    have := moreItems_count rest
    simp only [Items.count, moreItems, List.length_cons, List.length_append]
    omega

theorem itemsText_count (L : H.Lawful) : ∀ items : Items F, ItemsPrintable H items → items.count ≤ (itemsText H items).length
  | .nil, _ => by simp [Items.count]
  | .cons v rest, h => by
    rw [ItemsPrintable] at h
    obtain ⟨c, r, e, _⟩ := text_head L v h.1
    have := moreItems_count (H := H) rest
    simp only [Items.count, itemsText, List.length_append, e, List.length_cons]
    omega

theorem moreFields_count : ∀ fields : Fields F, fields.count ≤ (moreFields H fields).length
  | .nil => by simp [Fields.count]
  | .cons _ _ rest => by
    have := moreFields_count rest
    simp only [Fields.count, moreFields, List.length_cons, List.length_append]
    omega

theorem fieldsText_count : ∀ fields : Fields F, fields.count ≤ (fieldsText H fields).length
  | .nil => by simp [Fields.count]
  | .cons _ _ rest => by
    have := moreFields_count (H := H) rest
    simp only [Fields.count, fieldsText, List.length_cons, List.length_append]
    omega

theorem morePairs_count : ∀ pairs : Pairs F, pairs.count ≤ (morePairs H pairs).length
  | .nil => by simp [Pairs.count]
  | .cons _ _ rest => by
    have := morePairs_count rest
    simp only [Pairs.count, morePairs, List.length_cons, List.length_append]
    omega

theorem pairsText_count : ∀ pairs : Pairs F, pairs.count ≤ (pairsText H pairs).length
  | .nil => by simp [Pairs.count]
  | .cons _ _ rest => by
    have := morePairs_count (H := H) rest
    simp only [Pairs.count, pairsText, List.length_cons, List.length_append]
    omega

theorem readItems_space (L : H.Lawful) (pv : Text → Option (Data F × Text)) (close : Char) (k : Nat) (s : Text) :
    readItems H pv close k (' ' :: s) = readItems H pv close k s := by
  cases k with
  | zero => rfl
  | succ k => simp only [readItems, L.space]

theorem readFields_space (L : H.Lawful) (pv : Text → Option (Data F × Text)) (k : Nat) (s : Text) :
    readFields H pv k (' ' :: s) = readFields H pv k s := by
  cases k with
  | zero => rfl
  | succ k => simp only [readFields, L.space]

theorem readPairs_space (L : H.Lawful) (pv : Text → Option (Data F × Text)) (k : Nat) (s : Text) :
    readPairs H pv k (' ' :: s) = readPairs H pv k s := by
  cases k with
  | zero => rfl
  | succ k => simp only [readPairs, L.space]

theorem readValue_space (L : H.Lawful) (n : Nat) (s : Text) : readValue H n (' ' :: s) = readValue H n s := by
  cases n with
  | zero => rfl
  | succ n => simp only [readValue, L.space]

/-- The value is read, whatever follows. -/
def Reads (H : Host F) (v : Data F) : Prop :=
  ∀ (n : Nat) (rest after : Text), (text H v).length ≤ n → Follow H rest after →
    ∃ r', readValue H n (text H v ++ rest) = some (v, r') ∧ skip H r' = some after

theorem starts_ne {c d : Char} (h : starts c = true) (hd : delimiter d = true) : c ≠ d := by
  rintro rfl
  have := (starts_range h).2.2
  rw [hd] at this
  simp at this

theorem follow_more (L : H.Lawful) (items : Items F) {tail after : Text} (hf : Follow H tail after) :
    Follow H (moreItems H items ++ tail) (match items with | .nil => after | .cons _ _ => moreItems H items ++ tail) := by
  match items with
  | .nil => simpa [moreItems] using hf
  | .cons _ _ => rw [moreItems]; exact Follow.delim L (by decide)

theorem follow_moreFields (L : H.Lawful) (fields : Fields F) {tail after : Text} (hf : Follow H tail after) :
    Follow H (moreFields H fields ++ tail) (match fields with | .nil => after | .cons _ _ _ => moreFields H fields ++ tail) := by
  match fields with
  | .nil => simpa [moreFields] using hf
  | .cons _ _ _ => rw [moreFields]; exact Follow.delim L (by decide)

theorem follow_morePairs (L : H.Lawful) (pairs : Pairs F) {tail after : Text} (hf : Follow H tail after) :
    Follow H (morePairs H pairs ++ tail) (match pairs with | .nil => after | .cons _ _ _ => morePairs H pairs ++ tail) := by
  match pairs with
  | .nil => simpa [morePairs] using hf
  | .cons _ _ _ => rw [morePairs]; exact Follow.delim L (by decide)

theorem skip_text (L : H.Lawful) {v : Data F} {rest : Text} (h : Printable H v) : skip H (text H v ++ rest) = some (text H v ++ rest) := by
  obtain ⟨c, r, e, hs⟩ := text_head L v h
  rw [e]
  exact skip_starts L hs

theorem head_text (L : H.Lawful) {v : Data F} {rest : Text} {close : Char} (h : Printable H v) (hc : delimiter close = true) :
    (text H v ++ rest).head? ≠ some close := by
  obtain ⟨c, r, e, hs⟩ := text_head L v h
  rw [e]
  simpa using starts_ne hs hc

theorem skip_items (L : H.Lawful) {items : Items F} {rest : Text} (h : ItemsPrintable H items) (h0 : items.nonempty) :
    skip H (itemsText H items ++ rest) = some (itemsText H items ++ rest) := by
  match items, h, h0 with
  | .cons v more, h, _ =>
    rw [ItemsPrintable] at h
    rw [itemsText, List.append_assoc, skip_text L h.1]

theorem head_items (L : H.Lawful) {items : Items F} {rest : Text} {close : Char} (h : ItemsPrintable H items) (h0 : items.nonempty)
    (hc : delimiter close = true) : (itemsText H items ++ rest).head? ≠ some close := by
  match items, h, h0 with
  | .cons v more, h, _ =>
    rw [ItemsPrintable] at h
    rw [itemsText, List.append_assoc]
    exact head_text L h.1 hc

theorem skip_name (L : H.Lawful) {name rest : Text} (h : Word name ∨ (isIdentifier H.N name = false ∧ StringOk H.N name)) :
    skip H (nameText H name ++ rest) = some (nameText H name ++ rest) ∧ (nameText H name ++ rest).head? ≠ some '}' := by
  obtain ⟨c, r, e, hs⟩ := nameText_head h L
  rw [e]
  exact ⟨skip_starts L hs, by simpa using starts_ne hs (by decide)⟩

theorem dataString_quoted (s rest : Text) : dataString ((s.flatMap escape ++ ['"']) ++ rest) = some (s, rest) := by
  rw [List.append_assoc]
  exact dataString_flatMap s rest

/-- Reading the name of a field. -/
theorem readName_text (L : H.Lawful) {name rest : Text}
    (h : Word name ∨ (isIdentifier H.N name = false ∧ StringOk H.N name)) :
    readName H (nameText H name ++ ':' :: rest) = some (name, ':' :: rest) ∧ H.N.nfc name = name := by
  rcases h with h | ⟨h, hs⟩
  · have hw := readIdentifier_word L h (rest := ':' :: rest) (.inr ⟨':', rest, rfl, by decide⟩)
    refine ⟨?_, h.normal L⟩
    rw [nameText, if_pos (isIdentifier_word L h), readName, if_neg, hw]
    obtain ⟨c, r, rfl, hc, _⟩ := h
    simp only [List.cons_append, List.head?_cons, Option.some.injEq]
    rintro rfl
    exact absurd hc (by decide)
  · refine ⟨?_, hs.1⟩
    rw [nameText, h]
    simp only [Bool.false_eq_true, if_false, quoted, readName, List.cons_append, List.head?_cons, if_true, List.drop_succ_cons,
      List.drop_zero]
    exact dataString_quoted name _

theorem readValue_number (L : H.Lawful) (n : Nat) {s : Text} {c : Char} {r : Text} (e : s = c :: r)
    (hc : c = '-' ∨ isDigit c = true) : readValue H (n + 1) s = readNumber H s := by
  subst e
  have hs : starts c = true := by
    rcases hc with rfl | hc
    · decide
    · simp [starts, hc]
  rw [readValue, skip_starts L hs]
  have hn : c ≠ '"' ∧ c ≠ '[' ∧ c ≠ '(' ∧ c ≠ '{' := by
    refine ⟨?_, ?_, ?_, ?_⟩ <;> rintro rfl <;> rcases hc with hc | hc <;> revert hc <;> decide
  simp [hn.1, hn.2.1, hn.2.2.1, hn.2.2.2, hc]

theorem readValue_word (L : H.Lawful) (n : Nat) {name rest : Text} (h : Word name) :
    readValue H (n + 1) (name ++ rest) = readWord H (readValue H n) (name ++ rest) := by
  obtain ⟨c, r, rfl, hc, _⟩ := h
  rw [List.cons_append, readValue, skip_starts L (by simp [starts, hc])]
  have hn : c ≠ '"' ∧ c ≠ '[' ∧ c ≠ '(' ∧ c ≠ '{' ∧ c ≠ '-' ∧ isDigit c = false := by
    rw [identStart_iff] at hc
    refine ⟨?_, ?_, ?_, ?_, ?_, ?_⟩
    all_goals first
      | (rintro rfl; revert hc; decide)
      | (rw [Bool.eq_false_iff, Ne, isDigit_iff]; omega)
  simp [hn, hc]

theorem readValue_array (L : H.Lawful) (n : Nat) (s : Text) : readValue H (n + 1) ('[' :: s) =
    (readItems H (readValue H n) ']' (s.length + 1) s).map fun q => (.array q.1, q.2) := by
  rw [readValue, skip_starts L (by decide)]
  simp

theorem readValue_paren (L : H.Lawful) (n : Nat) (s : Text) :
    readValue H (n + 1) ('(' :: s) = readParen H (readValue H n) s := by
  rw [readValue, skip_starts L (by decide)]
  simp

theorem readValue_record (L : H.Lawful) (n : Nat) (s : Text) : readValue H (n + 1) ('{' :: s) =
    (readFields H (readValue H n) (s.length + 1) s).map fun q => (.record q.1, q.2) := by
  rw [readValue, skip_starts L (by decide)]
  simp

theorem readValue_set (L : H.Lawful) (n : Nat) (s : Text) : readValue H (n + 1) ("set {".toList ++ s) =
    (readItems H (readValue H n) '}' (s.length + 1) s).map fun q => (.set q.1, q.2) := by
  have hw : Word "set".toList := ⟨'s', "et".toList, rfl, by decide, by decide⟩
  rw [show "set {".toList ++ s = "set".toList ++ (' ' :: '{' :: s) from rfl, readValue_word L n hw, readWord,
    readIdentifier_word L hw (.inr ⟨' ', _, rfl, by decide⟩)]
  simp [L.space, skip_starts L (show starts '{' = true by decide)]

theorem readValue_map (L : H.Lawful) (n : Nat) (s : Text) : readValue H (n + 1) ("map {".toList ++ s) =
    (readPairs H (readValue H n) (s.length + 1) s).map fun q => (.map q.1, q.2) := by
  have hw : Word "map".toList := ⟨'m', "ap".toList, rfl, by decide, by decide⟩
  rw [show "map {".toList ++ s = "map".toList ++ (' ' :: '{' :: s) from rfl, readValue_word L n hw, readWord,
    readIdentifier_word L hw (.inr ⟨' ', _, rfl, by decide⟩)]
  simp [L.space, skip_starts L (show starts '{' = true by decide)]

/-- A word which is no keyword starts a variant. -/
theorem readValue_variant (L : H.Lawful) (n : Nat) {name rest : Text} (h : Word name) (hk : name ∉ keywords)
    (hr : rest = [] ∨ ∃ c r, rest = c :: r ∧ identContinue c = false) : readValue H (n + 1) (name ++ rest) =
      (skip H rest).bind fun s =>
        if s.head? = some '(' then
          (skip H (s.drop 1)).bind fun s =>
            if s.head? = some ')' then some (.variant name .unit, s.drop 1)
            else (readArguments H (readValue H n) (s.length + 1) s).map fun q => (.variant name (payloadOf q.1), q.2)
        else some (.variant name .unit, s) := by
  rw [readValue_word L n h, readWord, readIdentifier_word L h hr, Option.bind_some]
  simp only [keywords, List.mem_cons, List.not_mem_nil, or_false, not_or] at hk
  simp only [hk.1, hk.2.1, hk.2.2.1, hk.2.2.2.1, hk.2.2.2.2, if_false]
  rw [show H.N.nfc name = name from h.normal L]

theorem keyword_word {w : Text} (h : w ∈ keywords) : Word w := by
  simp only [keywords, List.mem_cons, List.not_mem_nil, or_false] at h
  rcases h with rfl | rfl | rfl | rfl | rfl <;> exact ⟨_, _, rfl, by decide, by decide⟩

theorem identContinue_follow {rest after : Text} (hf : Follow H rest after) :
    rest = [] ∨ ∃ c r, rest = c :: r ∧ identContinue c = false := by
  rcases hf.head with h | ⟨c, r, h, hc⟩
  · exact .inl h
  · refine .inr ⟨c, r, h, ?_⟩
    rcases hc with rfl | hc
    · decide
    · rw [delimiter] at hc
      simp only [Bool.or_eq_true, beq_iff_eq] at hc
      rcases hc with (((rfl | rfl) | rfl) | rfl) | rfl <;> decide

theorem payloadOf_tuple {items : Items F} (h : PayloadOk (.tuple items)) : payloadOf items = .tuple items := by
  unfold payloadOf
  split
  · exact absurd h (by simp [PayloadOk])
  · rfl

mutual

theorem value_read (L : H.Lawful) : ∀ v : Data F, Printable H v → Reads H v
  | .null, _ => fun n rest after hn hf => by
    obtain ⟨m, rfl⟩ : ∃ m, n = m + 1 := ⟨n - 1, by simp [text] at hn; omega⟩
    refine ⟨rest, ?_, hf.skips⟩
    rw [text, readValue_word L m (keyword_word (by simp [keywords])), readWord,
      readIdentifier_word L (keyword_word (by simp [keywords])) (identContinue_follow hf)]
    simp
  | .bool true, _ => fun n rest after hn hf => by
    obtain ⟨m, rfl⟩ : ∃ m, n = m + 1 := ⟨n - 1, by simp [text] at hn; omega⟩
    refine ⟨rest, ?_, hf.skips⟩
    rw [text, if_pos rfl, readValue_word L m (keyword_word (by simp [keywords])), readWord,
      readIdentifier_word L (keyword_word (by simp [keywords])) (identContinue_follow hf)]
    simp
  | .bool false, _ => fun n rest after hn hf => by
    obtain ⟨m, rfl⟩ : ∃ m, n = m + 1 := ⟨n - 1, by simp [text] at hn; omega⟩
    refine ⟨rest, ?_, hf.skips⟩
    rw [text, if_neg (by decide), readValue_word L m (keyword_word (by simp [keywords])), readWord,
      readIdentifier_word L (keyword_word (by simp [keywords])) (identContinue_follow hf)]
    simp
  | .unit, _ => fun n rest after hn hf => by
    obtain ⟨m, rfl⟩ : ∃ m, n = m + 1 := ⟨n - 1, by simp [text] at hn; omega⟩
    refine ⟨rest, ?_, hf.skips⟩
    rw [text, show "()".toList ++ rest = '(' :: ')' :: rest from rfl, readValue, skip_starts L (by decide)]
    simp [readParen, skip_delimiter L (show delimiter ')' = true by decide)]
  | .int i, h => fun n rest after hn hf => by
    rw [Printable] at h
    obtain ⟨c, r, e, _⟩ := text_head L (.int i) (by rw [Printable]; exact h)
    obtain ⟨m, rfl⟩ : ∃ m, n = m + 1 := ⟨n - 1, by rw [e] at hn; simp at hn; omega⟩
    refine ⟨rest, ?_, hf.skips⟩
    have hi := readInt_showInt h
    rw [text]
    clear h e hn
    match i with
    | .ofNat k =>
      rw [showInt] at hi ⊢
      have hd := toDec_digits k
      have hne := toDec_ne_nil k
      obtain ⟨c, r, e⟩ := List.exists_cons_of_ne_nil hne
      rw [readValue_number L m (c := c) (r := r ++ rest) (by rw [e]; rfl) (.inr (hd c (by rw [e]; simp)))]
      have := readNumber_int (H := H) (sign := []) (.inl rfl) hne hd hf
      rw [List.nil_append, hi] at this
      exact this
    | .negSucc k =>
      rw [showInt] at hi ⊢
      rw [List.cons_append, readValue_number L m (c := '-') (r := toDec (k + 1) ++ rest) rfl (.inl rfl)]
      have := readNumber_int (H := H) (sign := ['-']) (.inr rfl) (toDec_ne_nil (k + 1)) (toDec_digits (k + 1)) hf
      rw [show ['-'] ++ toDec (k + 1) = '-' :: toDec (k + 1) from rfl, hi] at this
      exact this
  | .float f, h => fun n rest after hn hf => by
    rw [Printable] at h
    obtain ⟨c, r, e, _⟩ := text_head L (.float f) (by rw [Printable]; exact h)
    obtain ⟨m, rfl⟩ : ∃ m, n = m + 1 := ⟨n - 1, by rw [e] at hn; simp at hn; omega⟩
    refine ⟨rest, ?_, hf.skips⟩
    have hx := L.exact f
    obtain ⟨sign, digits, fraction, e, hs, hne, hd, hfr⟩ := L.shape f
    rw [text, e]
    rw [e] at hx h
    rcases hfr with rfl | ⟨ds, rfl, hds⟩
    · exfalso
      simp only [List.append_nil, List.mem_append] at h
      rcases h with h | h
      · rcases hs with rfl | rfl <;> simp at h
      · exact absurd (hd _ h) (by decide)
    · have key := readNumber_float (H := H) hs hne hd hds hf
      rw [hx] at key
      refine Eq.trans ?_ key
      rcases hs with rfl | rfl
      · obtain ⟨c, r, rfl⟩ := List.exists_cons_of_ne_nil hne
        exact readValue_number L m (c := c) (r := r ++ '.' :: ds ++ rest) (by simp) (.inr (hd c (by simp)))
      · exact readValue_number L m (c := '-') (r := digits ++ '.' :: ds ++ rest) (by simp) (.inl rfl)
  | .string s, h => fun n rest after hn hf => by
    rw [Printable] at h
    obtain ⟨m, rfl⟩ : ∃ m, n = m + 1 := ⟨n - 1, by simp [text, quoted] at hn; omega⟩
    refine ⟨rest, ?_, hf.skips⟩
    rw [text, quoted, List.cons_append, readValue, skip_starts L (by decide)]
    simp only [Option.bind_some, if_true, dataString_quoted, Option.map_some]
    rw [show H.N.nfc s = s from h.1]
  | .array items, h => fun n rest after hn hf => by
    rw [Printable] at h
    rw [text] at hn ⊢
    simp only [List.length_cons, List.length_append, List.length_nil] at hn
    obtain ⟨m, rfl⟩ : ∃ m, n = m + 1 := ⟨n - 1, by omega⟩
    refine ⟨rest, ?_, hf.skips⟩
    rw [List.cons_append, readValue_array L]
    have hi := items_read L items h m ((itemsText H items ++ [']'] ++ rest).length + 1) ']' ([']'] ++ rest) rest (by omega)
      (by have := itemsText_count L items h; simp only [List.length_append]; omega) (by decide) (by decide) (Follow.delim L (by decide))
    rw [← List.append_assoc] at hi
    rw [hi]
    rfl
  | .tuple .nil, h => fun n rest after hn hf => by
    rw [Printable] at h
    exact absurd h.1 (by simp [Items.nonempty])
  | .tuple (.cons v .nil), h => fun n rest after hn hf => by
    rw [Printable, ItemsPrintable] at h
    rw [text, itemsText, moreItems, List.append_nil] at hn ⊢
    simp only [List.length_cons, List.length_append, List.length_nil] at hn
    obtain ⟨m, rfl⟩ : ∃ m, n = m + 1 := ⟨n - 1, by omega⟩
    refine ⟨rest, ?_, hf.skips⟩
    obtain ⟨r', h1, h2⟩ := value_read L v h.2.1 m (',' :: ')' :: rest) _ (by omega) (Follow.delim L (by decide))
    obtain ⟨c, r, e, hs⟩ := text_head L v h.2.1
    rw [show '(' :: (text H v ++ ([','] ++ [')'])) ++ rest = '(' :: (text H v ++ ',' :: ')' :: rest) by simp, readValue_paren L,
      readParen, skip_text L h.2.1, Option.bind_some, if_neg (head_text L h.2.1 (by decide)), h1, Option.bind_some, h2]
    simp [readItems, skip_delimiter L (show delimiter ')' = true by decide)]
  | .tuple (.cons v (.cons w more)), h => fun n rest after hn hf => by
    rw [Printable, ItemsPrintable] at h
    have hmore : moreItems H (.cons w more) = ',' :: ' ' :: itemsText H (.cons w more) := by rw [moreItems, itemsText]
    have htext : text H (.tuple (.cons v (.cons w more))) = '(' :: (text H v ++ ',' :: ' ' :: (itemsText H (.cons w more) ++ [')'])) := by
      rw [text, itemsText, hmore] <;> simp
    rw [htext] at hn ⊢
    simp only [List.length_cons, List.length_append, List.length_nil] at hn
    obtain ⟨m, rfl⟩ : ∃ m, n = m + 1 := ⟨n - 1, by omega⟩
    refine ⟨rest, ?_, hf.skips⟩
    obtain ⟨r', h1, h2⟩ := value_read L v h.2.1 m (',' :: ' ' :: (itemsText H (.cons w more) ++ ')' :: rest)) _ (by omega)
      (Follow.delim L (by decide))
    have hi := items_read L (.cons w more) h.2.2 m (',' :: ' ' :: (itemsText H (.cons w more) ++ ')' :: rest)).length ')'
      (')' :: rest) rest (by omega) (by have := itemsText_count L _ h.2.2; simp only [List.length_cons, List.length_append]; omega)
      (by decide) (by decide) (Follow.delim L (by decide))
    rw [show '(' :: (text H v ++ ',' :: ' ' :: (itemsText H (.cons w more) ++ [')'])) ++ rest =
      '(' :: (text H v ++ ',' :: ' ' :: (itemsText H (.cons w more) ++ ')' :: rest)) by simp, readValue_paren L,
      readParen, skip_text L h.2.1, Option.bind_some, if_neg (head_text L h.2.1 (by decide)), h1, Option.bind_some, h2,
      Option.bind_some, List.head?_cons, if_pos rfl, List.drop_succ_cons, List.drop_zero, readItems_space L, hi]
    rfl
  | .record .nil, h => fun n rest after hn hf => by
    obtain ⟨m, rfl⟩ : ∃ m, n = m + 1 := ⟨n - 1, by simp [text] at hn; omega⟩
    refine ⟨rest, ?_, hf.skips⟩
    rw [text, show "{}".toList ++ rest = '{' :: '}' :: rest from rfl, readValue, skip_starts L (by decide)]
    simp [readFields, skip_delimiter L (show delimiter '}' = true by decide)]
  | .record (.cons name v fields), h => fun n rest after hn hf => by
    rw [Printable] at h
    have htext : text H (.record (.cons name v fields)) = '{' :: ' ' :: (fieldsText H (.cons name v fields) ++ [' ', '}']) := by
      rw [text]; simp
    rw [htext] at hn ⊢
    simp only [List.length_cons, List.length_append, List.length_nil] at hn
    obtain ⟨m, rfl⟩ : ∃ m, n = m + 1 := ⟨n - 1, by omega⟩
    refine ⟨rest, ?_, hf.skips⟩
    have hi := fields_read L (.cons name v fields) h m ((' ' :: (fieldsText H (.cons name v fields) ++ ' ' :: '}' :: rest)).length + 1)
      (' ' :: '}' :: rest) rest (by omega)
      (by have := fieldsText_count (H := H) (.cons name v fields); simp only [List.length_cons, List.length_append]; omega)
      (Follow.space L (by decide))
    rw [show '{' :: ' ' :: (fieldsText H (.cons name v fields) ++ [' ', '}']) ++ rest =
      '{' :: ' ' :: (fieldsText H (.cons name v fields) ++ ' ' :: '}' :: rest) by simp, readValue_record L, readFields_space L, hi]
    rfl
  | .set .nil, _ => fun n rest after hn hf => by
    obtain ⟨m, rfl⟩ : ∃ m, n = m + 1 := ⟨n - 1, by simp [text] at hn; omega⟩
    refine ⟨rest, ?_, hf.skips⟩
    rw [text, show "set {}".toList ++ rest = "set {".toList ++ '}' :: rest from rfl, readValue_set L]
    simp [readItems, skip_delimiter L (show delimiter '}' = true by decide)]
  | .set (.cons v items), h => fun n rest after hn hf => by
    rw [Printable] at h
    have htext : text H (.set (.cons v items)) = "set {".toList ++ ' ' :: (itemsText H (.cons v items) ++ [' ', '}']) := by
      rw [text] <;> simp
    rw [htext] at hn ⊢
    simp only [List.length_cons, List.length_append, List.length_nil] at hn
    obtain ⟨m, rfl⟩ : ∃ m, n = m + 1 := ⟨n - 1, by omega⟩
    refine ⟨rest, ?_, hf.skips⟩
    have hi := items_read L (.cons v items) h m ((' ' :: (itemsText H (.cons v items) ++ ' ' :: '}' :: rest)).length + 1) '}'
      (' ' :: '}' :: rest) rest (by omega)
      (by have := itemsText_count L (.cons v items) h; simp only [List.length_cons, List.length_append]; omega)
      (by decide) (by decide) (Follow.space L (by decide))
    rw [show "set {".toList ++ ' ' :: (itemsText H (.cons v items) ++ [' ', '}']) ++ rest =
      "set {".toList ++ (' ' :: (itemsText H (.cons v items) ++ ' ' :: '}' :: rest)) by simp, readValue_set L, readItems_space L, hi]
    rfl
  | .map .nil, _ => fun n rest after hn hf => by
    obtain ⟨m, rfl⟩ : ∃ m, n = m + 1 := ⟨n - 1, by simp [text] at hn; omega⟩
    refine ⟨rest, ?_, hf.skips⟩
    rw [text, show "map {}".toList ++ rest = "map {".toList ++ '}' :: rest from rfl, readValue_map L]
    simp [readPairs, skip_delimiter L (show delimiter '}' = true by decide)]
  | .map (.cons k v pairs), h => fun n rest after hn hf => by
    rw [Printable] at h
    have htext : text H (.map (.cons k v pairs)) = "map {".toList ++ ' ' :: (pairsText H (.cons k v pairs) ++ [' ', '}']) := by
      rw [text] <;> simp
    rw [htext] at hn ⊢
    simp only [List.length_cons, List.length_append, List.length_nil] at hn
    obtain ⟨m, rfl⟩ : ∃ m, n = m + 1 := ⟨n - 1, by omega⟩
    refine ⟨rest, ?_, hf.skips⟩
    have hi := pairs_read L (.cons k v pairs) h m ((' ' :: (pairsText H (.cons k v pairs) ++ ' ' :: '}' :: rest)).length + 1)
      (' ' :: '}' :: rest) rest (by omega)
      (by have := pairsText_count (H := H) (.cons k v pairs); simp only [List.length_cons, List.length_append]; omega)
      (Follow.space L (by decide))
    rw [show "map {".toList ++ ' ' :: (pairsText H (.cons k v pairs) ++ [' ', '}']) ++ rest =
      "map {".toList ++ (' ' :: (pairsText H (.cons k v pairs) ++ ' ' :: '}' :: rest)) by simp, readValue_map L, readPairs_space L, hi]
    rfl
  | .variant name .unit, h => fun n rest after hn hf => by
    rw [Printable] at h
    obtain ⟨c, r, e, hs⟩ := h.1.starts_head
    obtain ⟨m, rfl⟩ : ∃ m, n = m + 1 := ⟨n - 1, by rw [text, e] at hn; simp at hn; omega⟩
    refine ⟨after, ?_, hf.again L⟩
    rw [text, readValue_variant L m h.1 h.2.1 (identContinue_follow hf), hf.skips, Option.bind_some, if_neg]
    rcases hf.after with rfl | ⟨d, r, rfl, hd⟩
    · simp
    · simp only [List.head?_cons, Option.some.injEq]
      rintro rfl
      exact absurd hd (by decide)
  | .variant name (.tuple items), h => fun n rest after hn hf => by
    rw [Printable] at h
    have h2 := h.2.2.2
    rw [Printable] at h2
    rw [text] at hn ⊢
    simp only [List.length_cons, List.length_append, List.length_nil] at hn
    obtain ⟨m, rfl⟩ : ∃ m, n = m + 1 := ⟨n - 1, by omega⟩
    refine ⟨rest, ?_, hf.skips⟩
    have hi := arguments_read L items h2.2 h2.1 m ((itemsText H items ++ ')' :: rest).length + 1) rest (by omega)
      (by have := itemsText_count L items h2.2; simp only [List.length_append]; omega)
    rw [List.append_assoc, List.cons_append, readValue_variant L m h.1 h.2.1 (.inr ⟨'(', _, rfl, by decide⟩),
      skip_starts L (by decide), Option.bind_some, List.head?_cons, if_pos rfl, List.drop_succ_cons, List.drop_zero,
      List.append_assoc, List.singleton_append, skip_items L h2.2 h2.1, Option.bind_some,
      if_neg (head_items L h2.2 h2.1 (by decide)), hi, Option.map_some]
    rw [payloadOf_tuple h.2.2.1]
  | .variant name (.record fields), h => fun n rest after hn hf => by
    rw [Printable] at h
    have h2 := h.2.2.2
    rw [text_variant_record] at hn ⊢
    simp only [List.length_cons, List.length_append, List.length_nil] at hn
    obtain ⟨m, rfl⟩ : ∃ m, n = m + 1 := ⟨n - 1, by omega⟩
    refine ⟨rest, ?_, hf.skips⟩
    obtain ⟨r', h3, h4⟩ := value_read L (.record fields) h2 m (')' :: rest) _ (by omega) (Follow.delim L (by decide))
    rw [List.append_assoc, List.cons_append, readValue_variant L m h.1 h.2.1 (.inr ⟨'(', _, rfl, by decide⟩),
      skip_starts L (by decide), Option.bind_some, List.head?_cons, if_pos rfl, List.drop_succ_cons, List.drop_zero,
      List.append_assoc, List.singleton_append, skip_text L h2, Option.bind_some, if_neg (head_text L h2 (by decide)),
      readArguments, h3, Option.bind_some, h4]
    simp [payloadOf]
  | .variant _ .null, h | .variant _ (.bool _), h | .variant _ (.int _), h | .variant _ (.float _), h
  | .variant _ (.string _), h | .variant _ (.array _), h | .variant _ (.set _), h | .variant _ (.map _), h
  | .variant _ (.variant _ _), h => by
    rw [Printable] at h
    exact absurd h.2.2.1 (by simp [PayloadOk])

theorem items_read (L : H.Lawful) : ∀ (items : Items F), ItemsPrintable H items → ∀ (n k : Nat) (close : Char) (tail rest : Text),
    (itemsText H items).length ≤ n → items.count < k → delimiter close = true → close ≠ ',' → Follow H tail (close :: rest) →
    readItems H (readValue H n) close k (itemsText H items ++ tail) = some (items, rest)
  | .nil, _, n, k, close, tail, rest, _, hk, _, _, hf => by
    obtain ⟨j, rfl⟩ : ∃ j, k = j + 1 := ⟨k - 1, by omega⟩
    rw [itemsText, List.nil_append, readItems, hf.skips]
    simp
  | .cons v .nil, h, n, k, close, tail, rest, hn, hk, hc, hcomma, hf => by
    rw [ItemsPrintable] at h
    obtain ⟨j, rfl⟩ : ∃ j, k = j + 1 := ⟨k - 1, by omega⟩
    rw [itemsText, moreItems, List.append_nil] at hn ⊢
    obtain ⟨r', h1, h2⟩ := value_read L v h.1 n tail (close :: rest) hn hf
    rw [readItems, skip_text L h.1, Option.bind_some, if_neg (head_text L h.1 hc), h1, Option.bind_some, h2, Option.bind_some]
    simp [hcomma]
  | .cons v (.cons w more), h, n, k, close, tail, rest, hn, hk, hc, hcomma, hf => by
    rw [ItemsPrintable] at h
    obtain ⟨j, rfl⟩ : ∃ j, k = j + 1 := ⟨k - 1, by omega⟩
    have hmore : moreItems H (.cons w more) = ',' :: ' ' :: itemsText H (.cons w more) := by rw [moreItems, itemsText]
    have ih := items_read L (.cons w more) h.2 n j close tail rest
      (by rw [itemsText, hmore] at hn; simp only [List.length_append, List.length_cons] at hn; omega)
      (by rw [Items.count] at hk; omega) hc hcomma hf
    rw [itemsText, hmore] at hn ⊢
    rw [List.length_append] at hn
    obtain ⟨r', h1, h2⟩ := value_read L v h.1 n _ _ (by omega)
      (Follow.delim L (c := ',') (r := ' ' :: itemsText H (.cons w more) ++ tail) (by decide))
    rw [List.append_assoc, readItems, skip_text L h.1, Option.bind_some, if_neg (head_text L h.1 hc)]
    simp only [List.cons_append] at h1 h2 ⊢
    rw [h1, Option.bind_some, h2, Option.bind_some]
    simp [readItems_space L, ih]

theorem arguments_read (L : H.Lawful) : ∀ (items : Items F), ItemsPrintable H items → items.nonempty → ∀ (n k : Nat) (rest : Text),
    (itemsText H items).length ≤ n → items.count ≤ k →
    readArguments H (readValue H n) k (itemsText H items ++ ')' :: rest) = some (items, rest)
  | .nil, _, h0, _, _, _, _, _ => absurd h0 (by simp [Items.nonempty])
  | .cons v .nil, h, _, n, k, rest, hn, hk => by
    rw [ItemsPrintable] at h
    obtain ⟨j, rfl⟩ : ∃ j, k = j + 1 := ⟨k - 1, by rw [Items.count] at hk; omega⟩
    rw [itemsText, moreItems, List.append_nil] at hn ⊢
    obtain ⟨r', h1, h2⟩ := value_read L v h.1 n (')' :: rest) _ hn (Follow.delim L (by decide))
    rw [readArguments, h1, Option.bind_some, h2]
    simp
  | .cons v (.cons w more), h, _, n, k, rest, hn, hk => by
    rw [ItemsPrintable] at h
    obtain ⟨j, rfl⟩ : ∃ j, k = j + 1 := ⟨k - 1, by rw [Items.count] at hk; omega⟩
    have hmore : moreItems H (.cons w more) = ',' :: ' ' :: itemsText H (.cons w more) := by rw [moreItems, itemsText]
    rw [itemsText, hmore] at hn ⊢
    simp only [List.length_append, List.length_cons] at hn
    have ih := arguments_read L (.cons w more) h.2 trivial n j rest (by omega) (by rw [Items.count] at hk; omega)
    obtain ⟨r', h1, h2⟩ := value_read L v h.1 n (',' :: ' ' :: (itemsText H (.cons w more) ++ ')' :: rest)) _ (by omega)
      (Follow.delim L (by decide))
    rw [List.append_assoc, List.cons_append, List.cons_append, readArguments, h1, Option.bind_some, h2, Option.bind_some,
      List.head?_cons, if_pos rfl, List.drop_succ_cons, List.drop_zero, L.space, skip_items L h.2 trivial, Option.bind_some,
      if_neg (head_items L h.2 trivial (by decide)), ih]
    rfl

theorem fields_read (L : H.Lawful) : ∀ (fields : Fields F), FieldsPrintable H fields → ∀ (n k : Nat) (tail rest : Text),
    (fieldsText H fields).length ≤ n → fields.count < k → Follow H tail ('}' :: rest) →
    readFields H (readValue H n) k (fieldsText H fields ++ tail) = some (fields, rest)
  | .nil, _, n, k, tail, rest, _, hk, hf => by
    obtain ⟨j, rfl⟩ : ∃ j, k = j + 1 := ⟨k - 1, by omega⟩
    rw [fieldsText, List.nil_append, readFields, hf.skips]
    simp
  | .cons name v .nil, h, n, k, tail, rest, hn, hk, hf => by
    rw [FieldsPrintable] at h
    obtain ⟨j, rfl⟩ : ∃ j, k = j + 1 := ⟨k - 1, by omega⟩
    rw [fieldsText, moreFields, List.append_nil] at hn ⊢
    simp only [List.length_append, List.length_cons] at hn
    obtain ⟨r', h1, h2⟩ := value_read L v h.2.1 n tail _ (by omega) hf
    have hname := readName_text L (rest := ' ' :: (text H v ++ tail)) h.1
    rw [List.append_assoc, List.cons_append, List.cons_append, readFields, (skip_name L h.1).1, Option.bind_some,
      if_neg (skip_name L h.1).2, hname.1, Option.bind_some, L.visible (by decide) (by decide), Option.bind_some, List.head?_cons,
      if_pos rfl, List.drop_succ_cons, List.drop_zero, readValue_space L, h1, Option.bind_some, h2, hname.2]
    simp
  | .cons name v (.cons name' w more), h, n, k, tail, rest, hn, hk, hf => by
    rw [FieldsPrintable] at h
    obtain ⟨j, rfl⟩ : ∃ j, k = j + 1 := ⟨k - 1, by omega⟩
    have hmore : moreFields H (.cons name' w more) = ',' :: ' ' :: fieldsText H (.cons name' w more) := by rw [moreFields, fieldsText]
    rw [fieldsText, hmore] at hn ⊢
    simp only [List.length_append, List.length_cons] at hn
    have ih := fields_read L (.cons name' w more) h.2.2 n j tail rest (by omega) (by rw [Fields.count] at hk; omega) hf
    obtain ⟨r', h1, h2⟩ := value_read L v h.2.1 n (',' :: ' ' :: (fieldsText H (.cons name' w more) ++ tail)) _ (by omega)
      (Follow.delim L (by decide))
    have hname := readName_text L (rest := ' ' :: (text H v ++ ',' :: ' ' :: (fieldsText H (.cons name' w more) ++ tail))) h.1
    simp only [List.append_assoc, List.cons_append]
    rw [readFields, (skip_name L h.1).1, Option.bind_some,
      if_neg (skip_name L h.1).2, hname.1, Option.bind_some, L.visible (by decide) (by decide), Option.bind_some, List.head?_cons,
      if_pos rfl, List.drop_succ_cons, List.drop_zero, readValue_space L, h1, Option.bind_some, h2, hname.2, Option.bind_some,
      List.head?_cons, if_pos rfl, List.drop_succ_cons, List.drop_zero, readFields_space L, ih]
    rfl

theorem pairs_read (L : H.Lawful) : ∀ (pairs : Pairs F), PairsPrintable H pairs → ∀ (n k : Nat) (tail rest : Text),
    (pairsText H pairs).length ≤ n → pairs.count < k → Follow H tail ('}' :: rest) →
    readPairs H (readValue H n) k (pairsText H pairs ++ tail) = some (pairs, rest)
  | .nil, _, n, k, tail, rest, _, hk, hf => by
    obtain ⟨j, rfl⟩ : ∃ j, k = j + 1 := ⟨k - 1, by omega⟩
    rw [pairsText, List.nil_append, readPairs, hf.skips]
    simp
  | .cons key v .nil, h, n, k, tail, rest, hn, hk, hf => by
    rw [PairsPrintable] at h
    obtain ⟨j, rfl⟩ : ∃ j, k = j + 1 := ⟨k - 1, by omega⟩
    rw [pairsText, morePairs, List.append_nil] at hn ⊢
    simp only [List.length_append, List.length_cons] at hn
    obtain ⟨r', h1, h2⟩ := value_read L v h.2.1 n tail _ (by omega) hf
    obtain ⟨r'', h3, h4⟩ := value_read L key h.1 n (' ' :: '=' :: '>' :: ' ' :: (text H v ++ tail)) _ (by omega)
      (Follow.space L (by decide))
    simp only [List.append_assoc, List.cons_append]
    rw [readPairs, skip_text L h.1, Option.bind_some, if_neg (head_text L h.1 (by decide)), h3, Option.bind_some, h4,
      Option.bind_some, if_pos (by simp), List.drop_succ_cons, List.drop_succ_cons, List.drop_zero, readValue_space L, h1,
      Option.bind_some, h2]
    simp
  | .cons key v (.cons key' w more), h, n, k, tail, rest, hn, hk, hf => by
    rw [PairsPrintable] at h
    obtain ⟨j, rfl⟩ : ∃ j, k = j + 1 := ⟨k - 1, by omega⟩
    have hmore : morePairs H (.cons key' w more) = ',' :: ' ' :: pairsText H (.cons key' w more) := by rw [morePairs, pairsText]
    rw [pairsText, hmore] at hn ⊢
    simp only [List.length_append, List.length_cons] at hn
    have ih := pairs_read L (.cons key' w more) h.2.2 n j tail rest (by omega) (by rw [Pairs.count] at hk; omega) hf
    obtain ⟨r', h1, h2⟩ := value_read L v h.2.1 n (',' :: ' ' :: (pairsText H (.cons key' w more) ++ tail)) _ (by omega)
      (Follow.delim L (by decide))
    obtain ⟨r'', h3, h4⟩ := value_read L key h.1 n
      (' ' :: '=' :: '>' :: ' ' :: (text H v ++ ',' :: ' ' :: (pairsText H (.cons key' w more) ++ tail))) _ (by omega)
      (Follow.space L (by decide))
    simp only [List.append_assoc, List.cons_append]
    rw [readPairs, skip_text L h.1, Option.bind_some, if_neg (head_text L h.1 (by decide)), h3, Option.bind_some, h4,
      Option.bind_some, if_pos (by simp), List.drop_succ_cons, List.drop_succ_cons, List.drop_zero, readValue_space L, h1,
      Option.bind_some, h2, Option.bind_some, List.head?_cons, if_pos rfl, List.drop_succ_cons, List.drop_zero,
      readPairs_space L, ih]
    rfl

end

/-- Reading the text of a printable value gives the value back. -/
theorem parse_text (L : H.Lawful) {v : Data F} (h : Printable H v) : parse H (text H v) = some v := by
  obtain ⟨r', h1, h2⟩ := value_read L v h ((text H v).length + 1) [] [] (by omega) ⟨rfl, .inl rfl, .inl rfl⟩
  rw [List.append_nil] at h1
  rw [parse, h1, Option.bind_some, h2]
  rfl

end Ferlium.Text
