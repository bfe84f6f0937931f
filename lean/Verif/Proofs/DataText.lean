import Verif.Model.DataText
import Verif.Proofs.EscapeNormal
import Verif.Proofs.StringApi

/-! The reader of data text reads back what the printer writes. -/
namespace Ferlium.Text

variable {F : Type}

/-- What is assumed of Unicode and of the printing and reading of floating point numbers in Rust. -/
structure Host.Lawful (H : Host F) : Prop where
  unicode : H.N.Lawful
  /-- The ASCII characters which are white space. -/
  white : ∀ c : Char, c.toNat < 128 → (H.white c = true ↔ (9 ≤ c.toNat ∧ c.toNat ≤ 13) ∨ c.toNat = 32)
  /-- A finite number is printed as decimal digits, with or without a fraction, and never with an exponent. -/
  shape : ∀ f, ∃ sign digits fraction : Text, H.showFloat f = sign ++ digits ++ fraction ∧ (sign = [] ∨ sign = ['-']) ∧
    digits ≠ [] ∧ (∀ c ∈ digits, isDigit c = true) ∧
    (fraction = [] ∨ ∃ ds, fraction = '.' :: ds ∧ ∀ c ∈ ds, isDigit c = true)
  /-- Reading the printed text gives the number back. -/
  exact : ∀ f, H.readFloat (H.showFloat f) = some f

variable {H : Host F}

/-! ### Characters and skipping -/

/-- The characters which can follow a printed value. -/
def delimiter (c : Char) : Bool := c == ',' || c == ')' || c == ']' || c == '}' || c == '='

/-- The first character of a printed value. -/
def starts (c : Char) : Bool := c == '"' || c == '[' || c == '(' || c == '{' || c == '-' || isDigit c || identStart c

theorem isDigit_iff {c : Char} : isDigit c = true ↔ 48 ≤ c.toNat ∧ c.toNat ≤ 57 := by
  simp [isDigit]

theorem identStart_iff {c : Char} :
    identStart c = true ↔ c.toNat = 95 ∨ (65 ≤ c.toNat ∧ c.toNat ≤ 90) ∨ (97 ≤ c.toNat ∧ c.toNat ≤ 122) := by
  simp only [identStart, Bool.or_eq_true, beq_iff_eq, Bool.and_eq_true, decide_eq_true_eq]
  constructor
  · rintro ((rfl | h) | h)
    · exact .inl rfl
    · exact .inr (.inl h)
    · exact .inr (.inr h)
  · rintro (h | h | h)
    · exact .inl (.inl (toNat_inj h))
    · exact .inl (.inr h)
    · exact .inr h

theorem identContinue_iff {c : Char} : identContinue c = true ↔ c.toNat = 95 ∨ (65 ≤ c.toNat ∧ c.toNat ≤ 90) ∨
    (97 ≤ c.toNat ∧ c.toNat ≤ 122) ∨ (48 ≤ c.toNat ∧ c.toNat ≤ 57) := by
  simp only [identContinue, Bool.or_eq_true, identStart_iff, isDigit_iff]
  tauto

theorem skip_stop {c : Char} {r : Text} (hw : H.white c = false) (hs : c ≠ '/') : skip H (c :: r) = some (c :: r) := by
  unfold skip
  rw [skipIn.eq_def]
  split <;> simp_all

theorem skip_white {c : Char} {r : Text} (hw : H.white c = true) (hs : c ≠ '/') : skip H (c :: r) = skip H r := by
  unfold skip
  rw [skipIn.eq_def]
  split <;> simp_all

theorem skip_nil : skip H [] = some [] := rfl

theorem Host.Lawful.not_white (L : H.Lawful) {c : Char} (h : 33 ≤ c.toNat ∧ c.toNat < 128) : H.white c = false := by
  rcases hw : H.white c with _ | _
  · rfl
  · have := (L.white c (by omega)).mp hw
    omega

theorem Host.Lawful.space (L : H.Lawful) (r : Text) : skip H (' ' :: r) = skip H r :=
  skip_white ((L.white ' ' (by decide)).mpr (.inr rfl)) (by decide)

theorem Host.Lawful.visible (L : H.Lawful) {c : Char} {r : Text} (h : 33 ≤ c.toNat ∧ c.toNat < 128) (hs : c ≠ '/') :
    skip H (c :: r) = some (c :: r) := skip_stop (L.not_white h) hs

theorem delimiter_range {c : Char} (h : delimiter c = true) : (33 ≤ c.toNat ∧ c.toNat < 128) ∧ c ≠ '/' := by
  simp only [delimiter, Bool.or_eq_true, beq_iff_eq] at h
  rcases h with (((rfl | rfl) | rfl) | rfl) | rfl <;> decide

theorem starts_range {c : Char} (h : starts c = true) :
    (33 ≤ c.toNat ∧ c.toNat < 127) ∧ c ≠ '/' ∧ delimiter c = false := by
  have hne {d : Char} (hd : c.toNat ≠ d.toNat) : c ≠ d := fun e => hd (e ▸ rfl)
  simp only [starts, Bool.or_eq_true, beq_iff_eq] at h
  rcases h with (((((rfl | rfl) | rfl) | rfl) | rfl) | h) | h
  · decide
  · decide
  · decide
  · decide
  · decide
  · rw [isDigit_iff] at h
    have h47 : c ≠ '/' := hne (by simp; omega)
    refine ⟨by omega, h47, ?_⟩
    simp only [delimiter, Bool.or_eq_false_iff, beq_eq_false_iff_ne]
    refine ⟨⟨⟨⟨?_, ?_⟩, ?_⟩, ?_⟩, ?_⟩ <;> exact hne (by simp; omega)
  · rw [identStart_iff] at h
    have h47 : c ≠ '/' := hne (by simp; omega)
    refine ⟨by omega, h47, ?_⟩
    simp only [delimiter, Bool.or_eq_false_iff, beq_eq_false_iff_ne]
    refine ⟨⟨⟨⟨?_, ?_⟩, ?_⟩, ?_⟩, ?_⟩ <;> exact hne (by simp; omega)

theorem skip_starts (L : H.Lawful) {c : Char} {r : Text} (h : starts c = true) : skip H (c :: r) = some (c :: r) :=
  L.visible (by have := starts_range h; omega) (starts_range h).2.1

theorem skip_delimiter (L : H.Lawful) {c : Char} {r : Text} (h : delimiter c = true) : skip H (c :: r) = some (c :: r) :=
  L.visible (delimiter_range h).1 (delimiter_range h).2

/-- What follows a printed value: a delimiter, perhaps after a space, or nothing. -/
structure Follow (H : Host F) (rest after : Text) : Prop where
  skips : skip H rest = some after
  after : after = [] ∨ ∃ c r, after = c :: r ∧ delimiter c = true
  head : rest = [] ∨ ∃ c r, rest = c :: r ∧ (c = ' ' ∨ delimiter c = true)

theorem Follow.again (L : H.Lawful) {rest after : Text} (h : Follow H rest after) : skip H after = some after := by
  rcases h.after with rfl | ⟨c, r, rfl, hc⟩
  · rfl
  · exact skip_delimiter L hc

theorem Follow.delim (L : H.Lawful) {c : Char} {r : Text} (h : delimiter c = true) : Follow H (c :: r) (c :: r) :=
  ⟨skip_delimiter L h, .inr ⟨c, r, rfl, h⟩, .inr ⟨c, r, rfl, .inr h⟩⟩

theorem Follow.space (L : H.Lawful) {c : Char} {r : Text} (h : delimiter c = true) : Follow H (' ' :: c :: r) (c :: r) :=
  ⟨by rw [L.space, skip_delimiter L h], .inr ⟨c, r, rfl, h⟩, .inr ⟨' ', _, rfl, .inl rfl⟩⟩

theorem Follow.stop {rest after : Text} (h : Follow H rest after) {p : Char → Bool} (hp : p ' ' = false)
    (hd : ∀ c, delimiter c = true → p c = false) : rest.takeWhile p = [] ∧ rest.dropWhile p = rest := by
  rcases h.head with rfl | ⟨c, r, rfl, hc⟩
  · exact ⟨rfl, rfl⟩
  · have : p c = false := by
      rcases hc with rfl | hc
      · exact hp
      · exact hd c hc
    simp [this]

/-! ### Numbers -/

theorem decDigits_append : ∀ (s t : Text) (acc : Nat), decDigits acc (s ++ t) = (decDigits acc s).bind fun a => decDigits a t
  | [], _, _ => rfl
  | c :: s, t, acc => by
    simp only [List.cons_append, decDigits]
    split
    · exact decDigits_append s t _
    · rfl

theorem digit_char {d : Nat} (h : d < 10) : isDigit (Char.ofNat (48 + d)) = true ∧ (Char.ofNat (48 + d)).toNat - 48 = d := by
  have : ∀ d : Fin 10, isDigit (Char.ofNat (48 + d.val)) = true ∧ (Char.ofNat (48 + d.val)).toNat - 48 = d.val := by decide
  exact this ⟨d, h⟩

theorem decDigits_toDec (n : Nat) : decDigits 0 (toDec n) = some n := by
  induction n using Nat.strong_induction_on with
  | _ n ih =>
    rw [toDec]
    split
    · rename_i h
      simp only [decDigits, (digit_char h).1, (digit_char h).2]
      simp
    · rename_i h
      have hm : n % 10 < 10 := Nat.mod_lt n (by omega)
      rw [decDigits_append, ih (n / 10) (by omega)]
      simp only [Option.bind_some, decDigits, (digit_char hm).1, (digit_char hm).2]
      simp
      omega

theorem toDec_digits (n : Nat) : ∀ c ∈ toDec n, isDigit c = true := by
  induction n using Nat.strong_induction_on with
  | _ n ih =>
    intro c hc
    rw [toDec] at hc
    split at hc
    · rename_i h
      simp only [List.mem_singleton] at hc
      exact hc ▸ (digit_char h).1
    · rcases List.mem_append.mp hc with hc | hc
      · exact ih (n / 10) (by omega) c hc
      · simp only [List.mem_singleton] at hc
        exact hc ▸ (digit_char (Nat.mod_lt n (by omega))).1

theorem toDec_ne_nil (n : Nat) : toDec n ≠ [] := by
  rw [toDec]
  split <;> simp

theorem isDigit_ne_minus {c : Char} (h : isDigit c = true) : c ≠ '-' := by
  rintro rfl
  simp [isDigit] at h

theorem readInt_digits {s : Text} (h0 : s ≠ []) (h : ∀ c ∈ s, isDigit c = true) :
    readInt s = (decDigits 0 s).bind fun n => if n < 2 ^ 63 then some (n : Int) else none := by
  match s, h0, h with
  | c :: r, _, h =>
    have hc := isDigit_ne_minus (h c (by simp))
    rw [readInt.eq_def]
    split
    · rename_i heq; simp at heq
    · rename_i heq; simp only [List.cons.injEq] at heq; exact absurd heq.1 hc
    · rename_i heq; simp only [List.cons.injEq] at heq; exact absurd heq.1 hc
    · rfl

theorem readInt_minus {s : Text} (h0 : s ≠ []) :
    readInt ('-' :: s) = (decDigits 0 s).bind fun n => if n ≤ 2 ^ 63 then some (-(n : Int)) else none := by
  rw [readInt.eq_def]
  split
  · rename_i heq; simp at heq
  · rename_i heq; simp only [List.cons.injEq, true_and] at heq; exact absurd heq h0
  · rename_i heq; simp only [List.cons.injEq, true_and] at heq; subst heq; rfl
  · rename_i h1 h2 h3; exact absurd rfl (h3 s)

/-- The integers of the language. -/
def IntRange (i : Int) : Prop := -(2 ^ 63) ≤ i ∧ i < 2 ^ 63

theorem readInt_showInt {i : Int} (h : IntRange i) : readInt (showInt i) = some i := by
  unfold IntRange at h
  cases i with
  | ofNat n =>
    rw [showInt, readInt_digits (toDec_ne_nil n) (toDec_digits n), decDigits_toDec]
    have : n < 2 ^ 63 := by
      have := h.2
      simp only [Int.ofNat_eq_natCast] at this
      exact_mod_cast this
    simp only [Option.bind_some, if_pos this]
    rfl
  | negSucc n =>
    rw [showInt, readInt_minus (toDec_ne_nil _), decDigits_toDec]
    have : n + 1 ≤ 2 ^ 63 := by
      have := h.1
      omega
    simp only [Option.bind_some, if_pos this, Option.some.injEq]
    omega

theorem scanSign_digits {s : Text} (hs : s = [] ∨ ∃ c r, s = c :: r ∧ c ≠ '-') : scanSign s = ([], s) := by
  rcases hs with rfl | ⟨c, r, rfl, hc⟩
  · rfl
  · rw [scanSign.eq_def]
    split
    · rename_i heq; simp only [List.cons.injEq] at heq; exact absurd heq.1 hc
    · rfl

theorem scanFraction_none {s : Text} (hs : s = [] ∨ ∃ c r, s = c :: r ∧ c ≠ '.') : scanFraction s = (none, s) := by
  rcases hs with rfl | ⟨c, r, rfl, hc⟩
  · rfl
  · rw [scanFraction.eq_def]
    split
    · rename_i heq; simp only [List.cons.injEq] at heq; exact absurd heq.1 hc
    · rfl

theorem scanExponent_none {s : Text} (hs : s = [] ∨ ∃ c r, s = c :: r ∧ c ≠ 'e' ∧ c ≠ 'E') : scanExponent s = (none, s) := by
  rcases hs with rfl | ⟨c, r, rfl, hc⟩
  · rfl
  · rw [scanExponent, if_neg (by tauto)]

theorem Follow.head_ne {rest after : Text} (h : Follow H rest after) : rest = [] ∨ ∃ c r, rest = c :: r ∧
    c ≠ '.' ∧ c ≠ 'e' ∧ c ≠ 'E' ∧ c ≠ '-' ∧ isDigit c = false ∧ identContinue c = false := by
  rcases h.head with rfl | ⟨c, r, rfl, hc⟩
  · exact .inl rfl
  · refine .inr ⟨c, r, rfl, ?_⟩
    simp only [delimiter, Bool.or_eq_true, beq_iff_eq] at hc
    rcases hc with rfl | (((rfl | rfl) | rfl) | rfl) | rfl <;> decide

theorem takeWhile_all {p : Char → Bool} : ∀ {s rest : Text}, (∀ c ∈ s, p c = true) → (rest = [] ∨ ∃ c r, rest = c :: r ∧ p c = false) →
    (s ++ rest).takeWhile p = s ∧ (s ++ rest).dropWhile p = rest
  | [], rest, _, hr => by
    rcases hr with rfl | ⟨c, r, rfl, hc⟩
    · exact ⟨rfl, rfl⟩
    · simp [hc]
  | c :: s, rest, h, hr => by
    have hc := h c (by simp)
    obtain ⟨h1, h2⟩ := takeWhile_all (s := s) (fun x hx => h x (by simp [hx])) hr
    simp [hc, h1, h2]

theorem readNumber_int {sign digits rest after : Text} (hsign : sign = [] ∨ sign = ['-']) (hne : digits ≠ [])
    (hd : ∀ c ∈ digits, isDigit c = true) (hf : Follow H rest after) :
    readNumber H (sign ++ digits ++ rest) = (readInt (sign ++ digits)).map fun i => (.int i, rest) := by
  have hs : scanSign (sign ++ digits ++ rest) = (sign, digits ++ rest) := by
    rcases hsign with rfl | rfl
    · match digits, hne, hd with
      | c :: r, _, hd =>
        exact scanSign_digits (.inr ⟨c, r ++ rest, rfl, isDigit_ne_minus (hd c (by simp))⟩)
    · rfl
  have hr := hf.head_ne
  obtain ⟨h1, h2⟩ := takeWhile_all hd (rest := rest) (by rcases hr with h | ⟨c, r, h, _⟩; exacts [.inl h, .inr ⟨c, r, h, by tauto⟩])
  have h3 : scanFraction rest = (none, rest) := scanFraction_none (by rcases hr with h | ⟨c, r, h, _⟩; exacts [.inl h, .inr ⟨c, r, h, by tauto⟩])
  have h4 : scanExponent rest = (none, rest) := scanExponent_none (by rcases hr with h | ⟨c, r, h, _⟩; exacts [.inl h, .inr ⟨c, r, h, by tauto⟩])
  simp only [readNumber, hs, h1, h2, h3, h4]
  simp

theorem readNumber_float {sign digits ds rest after : Text} (hsign : sign = [] ∨ sign = ['-']) (hne : digits ≠ [])
    (hd : ∀ c ∈ digits, isDigit c = true) (hds : ∀ c ∈ ds, isDigit c = true) (hf : Follow H rest after) :
    readNumber H (sign ++ digits ++ '.' :: ds ++ rest) =
      (H.readFloat (sign ++ digits ++ '.' :: ds)).map fun f => (.float f, rest) := by
  have hs : scanSign (sign ++ digits ++ '.' :: ds ++ rest) = (sign, digits ++ '.' :: (ds ++ rest)) := by
    rcases hsign with rfl | rfl
    · match digits, hne, hd with
      | c :: r, _, hd =>
        rw [scanSign_digits (.inr ⟨c, r ++ '.' :: (ds ++ rest), by simp, isDigit_ne_minus (hd c (by simp))⟩)]
        simp
    · simp [scanSign]
  have hr := hf.head_ne
  obtain ⟨h1, h2⟩ := takeWhile_all hd (rest := '.' :: (ds ++ rest)) (.inr ⟨'.', _, rfl, by decide⟩)
  obtain ⟨h5, h6⟩ := takeWhile_all hds (rest := rest) (by rcases hr with h | ⟨c, r, h, _⟩; exacts [.inl h, .inr ⟨c, r, h, by tauto⟩])
  have h3 : scanFraction ('.' :: (ds ++ rest)) = (some ('.' :: ds), rest) := by simp [scanFraction, h5, h6]
  have h4 : scanExponent rest = (none, rest) := scanExponent_none (by rcases hr with h | ⟨c, r, h, _⟩; exacts [.inl h, .inr ⟨c, r, h, by tauto⟩])
  simp only [readNumber, hs, h1, h2, h3, h4]
  simp

/-! ### Names -/

/-- An identifier of data text. -/
def Word (name : Text) : Prop := ∃ c r, name = c :: r ∧ identStart c = true ∧ ∀ x ∈ r, identContinue x = true

theorem Word.low {name : Text} (h : Word name) : ∀ x ∈ name, 32 ≤ x.toNat ∧ x.toNat < 127 := by
  obtain ⟨c, r, rfl, hc, hr⟩ := h
  intro x hx
  rcases List.mem_cons.mp hx with rfl | hx
  · rw [identStart_iff] at hc; omega
  · have := hr x hx; rw [identContinue_iff] at this; omega

theorem Word.normal (L : H.Lawful) {name : Text} (h : Word name) : H.N.Normal name :=
  L.unicode.ascii name fun c hc => by have := h.low c hc; omega

theorem readIdentifier_word (L : H.Lawful) {name rest : Text} (h : Word name)
    (hr : rest = [] ∨ ∃ c r, rest = c :: r ∧ identContinue c = false) : readIdentifier H (name ++ rest) = some (name, rest) := by
  obtain ⟨c, r, rfl, hc, hrr⟩ := h
  obtain ⟨h1, h2⟩ := takeWhile_all hrr hr
  rw [readIdentifier, List.cons_append, skip_starts L (by simp [starts, hc])]
  simp [hc, h1, h2]

theorem lexLe_char {a b : Char} : lexLe [a] [b] = decide (a.toNat ≤ b.toNat) := by
  simp only [lexLe]
  split
  · symm; simp; omega
  · split
    · symm; simp; omega
    · symm; simp; omega

theorem clusterStarts_char (c : Char) : clusterStarts [c] = identStart c := by
  simp only [clusterStarts, lexLe_char, identStart]
  by_cases h : c = '_'
  · subst h; decide
  · have h1 : ([c] == ['_']) = false := by simpa using h
    have h2 : (c == '_') = false := by simpa using h
    rw [h1, h2]
    simp only [Bool.false_or]
    rw [Bool.or_comm]
    rfl

theorem clusterContinues_char (c : Char) : clusterContinues [c] = identContinue c := by
  simp only [clusterContinues, clusterStarts_char, lexLe_char, identContinue, isDigit]
  rfl

theorem isIdentifier_word (L : H.Lawful) {name : Text} (h : Word name) : isIdentifier H.N name = true := by
  have hp := L.unicode.plain name h.low
  have hlow := h.low
  obtain ⟨c, r, rfl, hc, hr⟩ := h
  have hn : ∀ x ∈ c :: r, H.N.nfc [x] = [x] := fun x hx => L.unicode.low x (by have := hlow x hx; omega)
  have hm : (H.N.graphemes (c :: r)).map H.N.nfc = [c] :: r.map fun x => [x] := by
    rw [hp]
    simp only [List.map_cons, List.map_map]
    rw [hn c (by simp)]
    congr 1
    refine List.map_congr_left fun x hx => ?_
    exact hn x (by simp [hx])
  rw [isIdentifier, hm]
  simp only [Bool.and_eq_true, List.all_eq_true, List.mem_map]
  refine ⟨by rw [clusterStarts_char, hc], ?_⟩
  rintro y ⟨x, hx, rfl⟩
  rw [clusterContinues_char, hr x hx]

/-! ### What can be printed -/

/-- The keywords of data text. -/
def keywords : List Text := ["null".toList, "true".toList, "false".toList, "set".toList, "map".toList]

/-- A string which survives the normalisation of its escaped text, see C18. -/
def StringOk (N : Normaliser) (s : Text) : Prop := N.Normal s ∧ Separated N escape s

/-- The payload of a variant is one which the reader distinguishes. -/
def PayloadOk : Data F → Prop
  | .unit => True
  | .record _ => True
  | .tuple .nil => False
  | .tuple (.cons (.record _) .nil) => False
  | .tuple _ => True
  | _ => False

/-- There is at least one item. -/
def Items.nonempty : Items F → Prop
  | .nil => False
  | .cons _ _ => True

mutual

/-- The data values whose text reads back. -/
def Printable (H : Host F) : Data F → Prop
  | .null => True
  | .unit => True
  | .bool _ => True
  | .int i => IntRange i
  | .float f => '.' ∈ H.showFloat f
  | .string s => StringOk H.N s
  | .array items => ItemsPrintable H items
  | .tuple items => items.nonempty ∧ ItemsPrintable H items
  | .record fields => FieldsPrintable H fields
  | .set items => ItemsPrintable H items
  | .map pairs => PairsPrintable H pairs
  | .variant name payload => Word name ∧ name ∉ keywords ∧ PayloadOk payload ∧ Printable H payload

def ItemsPrintable (H : Host F) : Items F → Prop
  | .nil => True
  | .cons v rest => Printable H v ∧ ItemsPrintable H rest

def FieldsPrintable (H : Host F) : Fields F → Prop
  | .nil => True
  | .cons name v rest =>
    (Word name ∨ (isIdentifier H.N name = false ∧ StringOk H.N name)) ∧ Printable H v ∧ FieldsPrintable H rest

def PairsPrintable (H : Host F) : Pairs F → Prop
  | .nil => True
  | .cons k v rest => Printable H k ∧ Printable H v ∧ PairsPrintable H rest

end

/-! ### The text without normalisation -/

/-- The text of a field name. -/
def nameText (H : Host F) (name : Text) : Text := if isIdentifier H.N name then name else quoted escape name

mutual

/-- The printed text. -/
def text (H : Host F) : Data F → Text
  | .null => "null".toList
  | .unit => "()".toList
  | .bool b => if b then "true".toList else "false".toList
  | .int i => showInt i
  | .float f => H.showFloat f
  | .string s => quoted escape s
  | .array items => '[' :: (itemsText H items ++ [']'])
  | .tuple items => '(' :: (itemsText H items ++ ((match items with | .cons _ .nil => [','] | _ => []) ++ [')']))
  | .record .nil => "{}".toList
  | .record fields => '{' :: ' ' :: (fieldsText H fields ++ [' ', '}'])
  | .set .nil => "set {}".toList
  | .set items => "set { ".toList ++ (itemsText H items ++ [' ', '}'])
  | .map .nil => "map {}".toList
  | .map pairs => "map { ".toList ++ (pairsText H pairs ++ [' ', '}'])
  | .variant name .unit => name
  | .variant name (.tuple items) => name ++ '(' :: (itemsText H items ++ [')'])
  | .variant name payload => name ++ '(' :: (text H payload ++ [')'])

def itemsText (H : Host F) : Items F → Text
  | .nil => []
  | .cons v rest => text H v ++ moreItems H rest

def moreItems (H : Host F) : Items F → Text
  | .nil => []
  | .cons v rest => ',' :: ' ' :: (text H v ++ moreItems H rest)

def fieldsText (H : Host F) : Fields F → Text
  | .nil => []
  | .cons name v rest => nameText H name ++ ':' :: ' ' :: (text H v ++ moreFields H rest)

def moreFields (H : Host F) : Fields F → Text
  | .nil => []
  | .cons name v rest => ',' :: ' ' :: (nameText H name ++ ':' :: ' ' :: (text H v ++ moreFields H rest))

def pairsText (H : Host F) : Pairs F → Text
  | .nil => []
  | .cons k v rest => text H k ++ ' ' :: '=' :: '>' :: ' ' :: (text H v ++ morePairs H rest)

def morePairs (H : Host F) : Pairs F → Text
  | .nil => []
  | .cons k v rest => ',' :: ' ' :: (text H k ++ ' ' :: '=' :: '>' :: ' ' :: (text H v ++ morePairs H rest))

end

theorem Word.starts_head {name : Text} (h : Word name) : ∃ c r, name = c :: r ∧ starts c = true := by
  obtain ⟨c, r, rfl, hc, _⟩ := h
  exact ⟨c, r, rfl, by simp [starts, hc]⟩

theorem nameText_head {name : Text} (h : Word name ∨ (isIdentifier H.N name = false ∧ StringOk H.N name)) (L : H.Lawful) :
    ∃ c r, nameText H name = c :: r ∧ starts c = true := by
  rcases h with h | ⟨h, _⟩
  · rw [nameText, isIdentifier_word L h, if_pos rfl]
    exact h.starts_head
  · exact ⟨'"', _, by rw [nameText, h]; rfl, by decide⟩

/-- A printed value starts with one of a few characters. -/
theorem text_head (L : H.Lawful) : ∀ v : Data F, Printable H v → ∃ c r, text H v = c :: r ∧ starts c = true
  | .null, _ => ⟨'n', _, rfl, by decide⟩
  | .unit, _ => ⟨'(', _, rfl, by decide⟩
  | .bool true, _ => ⟨'t', _, rfl, by decide⟩
  | .bool false, _ => ⟨'f', _, rfl, by decide⟩
  | .int i, _ => by
    cases i with
    | ofNat n =>
      rcases e : toDec n with _ | ⟨c, r⟩
      · exact absurd e (toDec_ne_nil n)
      · exact ⟨c, r, by rw [text, showInt, e], by simp [starts, toDec_digits n c (by simp [e])]⟩
    | negSucc n => exact ⟨'-', _, rfl, by decide⟩
  | .float f, _ => by
    obtain ⟨sign, digits, fraction, e, hs, hd, hdd, _⟩ := L.shape f
    rcases hs with rfl | rfl
    · rcases digits with _ | ⟨c, r⟩
      · exact absurd rfl hd
      · exact ⟨c, r ++ fraction, by rw [text, e]; simp, by simp [starts, hdd c (by simp)]⟩
    · exact ⟨'-', digits ++ fraction, by rw [text, e]; simp, by decide⟩
  | .string s, _ => ⟨'"', _, rfl, by decide⟩
  | .array _, _ => ⟨'[', _, rfl, by decide⟩
  | .tuple _, _ => ⟨'(', _, rfl, by decide⟩
  | .record .nil, _ => ⟨'{', _, rfl, by decide⟩
  | .record (.cons _ _ _), _ => ⟨'{', _, rfl, by decide⟩
  | .set .nil, _ => ⟨'s', _, rfl, by decide⟩
  | .set (.cons _ _), _ => ⟨'s', _, rfl, by decide⟩
  | .map .nil, _ => ⟨'m', _, rfl, by decide⟩
  | .map (.cons _ _ _), _ => ⟨'m', _, rfl, by decide⟩
  | .variant name payload, h => by
    simp only [Printable] at h
    obtain ⟨c, r, rfl, hc⟩ := h.1.starts_head
    unfold text
    split <;> first
      | (rename_i heq; cases heq; exact ⟨c, _, rfl, hc⟩)
      | (rename_i heq; cases heq)
      | (rename_i heq _; cases heq; exact ⟨c, _, rfl, hc⟩)
      | (rename_i heq _ _; cases heq; exact ⟨c, _, rfl, hc⟩)
      | skip

end Ferlium.Text
