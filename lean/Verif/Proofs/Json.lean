import Verif.Proofs.EscapeNormal

/-! JSON strings as RFC 8259 defines them, and the escapes of the library. -/
namespace Ferlium.Text

/-- The value of a hexadecimal digit, RFC 8259 section 7 (`HEXDIG`, both cases). -/
def hexVal (c : Char) : Option Nat :=
  if '0' ≤ c ∧ c ≤ '9' then some (c.toNat - '0'.toNat)
  else if 'a' ≤ c ∧ c ≤ 'f' then some (c.toNat - 'a'.toNat + 10)
  else if 'A' ≤ c ∧ c ≤ 'F' then some (c.toNat - 'A'.toNat + 10)
  else none

/-- Four hexadecimal digits. -/
def quad (a b c d : Char) : Option Nat := do
  return (((← hexVal a) * 16 + (← hexVal b)) * 16 + (← hexVal c)) * 16 + (← hexVal d)

/-- The characters after a backslash and what they stand for, RFC 8259 section 7. -/
def jsonShort : Char → Option Char
  | '"' => some '"'
  | '\\' => some '\\'
  | '/' => some '/'
  | 'b' => some '\x08'
  | 'f' => some '\x0c'
  | 'n' => some '\n'
  | 'r' => some '\r'
  | 't' => some '\t'
  | _ => none

/-- The text between the quotes of a JSON string and its value, RFC 8259 section 7. -/
inductive JsonChars : Text → Text → Prop
  | nil : JsonChars [] []
  | unescaped {c : Char} {s v : Text} (h : 0x20 ≤ c.toNat) (hq : c ≠ '"') (hb : c ≠ '\\') (rest : JsonChars s v) :
    JsonChars (c :: s) (c :: v)
  | short {c x : Char} {s v : Text} (h : jsonShort c = some x) (rest : JsonChars s v) : JsonChars ('\\' :: c :: s) (x :: v)
  | unicode {a b c d x : Char} {s v : Text} (h : quad a b c d = some x.toNat) (rest : JsonChars s v) :
    JsonChars ('\\' :: 'u' :: a :: b :: c :: d :: s) (x :: v)
  | surrogates {a b c d a' b' c' d' x : Char} {hi lo : Nat} {s v : Text} (h : quad a b c d = some hi)
    (h' : quad a' b' c' d' = some lo) (hhi : 0xD800 ≤ hi ∧ hi < 0xDC00) (hlo : 0xDC00 ≤ lo ∧ lo < 0xE000)
    (hx : x.toNat = 0x10000 + (hi - 0xD800) * 0x400 + (lo - 0xDC00)) (rest : JsonChars s v) :
    JsonChars ('\\' :: 'u' :: a :: b :: c :: d :: '\\' :: 'u' :: a' :: b' :: c' :: d' :: s) (x :: v)

/-- A JSON string and its value. -/
def JsonString (text value : Text) : Prop := ∃ body, text = '"' :: (body ++ ['"']) ∧ JsonChars body value

theorem not_surrogate (c : Char) : ¬ (0xD800 ≤ c.toNat ∧ c.toNat < 0xE000) := by
  have := c.valid
  simp only [UInt32.isValidChar, Nat.isValidChar] at this
  have h : c.toNat = c.val.toNat := rfl
  omega

/-- The value of a JSON string is unique. -/
theorem JsonChars.unique {s v : Text} (h : JsonChars s v) : ∀ {v' : Text}, JsonChars s v' → v = v' := by
  induction h with
  | nil => intro v' h'; cases h'; rfl
  | unescaped h hq hb rest ih =>
    intro v' h'
    cases h' with
    | unescaped _ _ _ rest' => rw [ih rest']
    | short _ _ => exact absurd rfl hb
    | unicode _ _ => exact absurd rfl hb
    | surrogates _ _ _ _ _ _ => exact absurd rfl hb
  | short h rest ih =>
    intro v' h'
    cases h' with
    | unescaped _ _ hb _ => exact absurd rfl hb
    | short h1 rest' =>
      rw [h] at h1
      cases h1
      rw [ih rest']
    | unicode _ _ => simp [jsonShort] at h
    | surrogates _ _ _ _ _ _ => simp [jsonShort] at h
  | unicode h rest ih =>
    intro v' h'
    cases h' with
    | unescaped _ _ hb _ => exact absurd rfl hb
    | short h1 _ => simp [jsonShort] at h1
    | unicode h1 rest' =>
      rw [h] at h1
      simp only [Option.some.injEq] at h1
      rw [ih rest', toNat_inj h1]
    | surrogates h1 _ hhi _ _ _ =>
      rw [h] at h1
      simp only [Option.some.injEq] at h1
      have := not_surrogate (by assumption : Char)
      rename_i x _ _ _ _ _ _ _ _ _ _ _ _ _ _
      exact absurd ⟨by omega, by omega⟩ (not_surrogate x)
  | surrogates h h' hhi hlo hx rest ih =>
    intro v' hv
    cases hv with
    | unescaped _ _ hb _ => exact absurd rfl hb
    | short h1 _ => simp [jsonShort] at h1
    | unicode h1 _ =>
      rw [h] at h1
      simp only [Option.some.injEq] at h1
      rename_i x _ _
      exact absurd ⟨by omega, by omega⟩ (not_surrogate x)
    | surrogates h1 h1' hhi1 hlo1 hx1 rest' =>
      rw [h] at h1
      rw [h'] at h1'
      simp only [Option.some.injEq] at h1 h1'
      subst h1 h1'
      rw [ih rest', toNat_inj (hx.trans hx1.symm)]

theorem hexVal_hexDigit {d : Nat} (h : d < 16) : hexVal (hexDigit d) = some d := by
  have : ∀ d : Fin 16, hexVal (hexDigit d.val) = some d.val := by decide
  exact this ⟨d, h⟩

/-- A control character has a four digit escape. -/
theorem toHex4_quad {n : Nat} (h : n < 256) : ∃ a b c d, toHex4 n = [a, b, c, d] ∧ quad a b c d = some n := by
  have hz : hexVal '0' = some 0 := by decide
  by_cases h16 : n < 16
  · refine ⟨'0', '0', '0', hexDigit n, ?_, ?_⟩
    · unfold toHex4
      rw [toHex, if_pos h16]
      rfl
    · simp [quad, hz, hexVal_hexDigit h16]
  · refine ⟨'0', '0', hexDigit (n / 16), hexDigit (n % 16), ?_, ?_⟩
    · unfold toHex4
      rw [toHex, if_neg h16, toHex, if_pos (by omega)]
      rfl
    · simp only [quad, hz, hexVal_hexDigit (by omega : n / 16 < 16), hexVal_hexDigit (by omega : n % 16 < 16)]
      simp
      omega

theorem json_escape (c : Char) {s v : Text} (h : JsonChars s v) : JsonChars (escapeJson c ++ s) (c :: v) := by
  unfold escapeJson
  split
  · rename_i hc; subst hc; exact .short rfl h
  · split
    · rename_i hc; subst hc; exact .short rfl h
    · split
      · rename_i hc; subst hc; exact .short rfl h
      · split
        · rename_i hc; subst hc; exact .short rfl h
        · split
          · rename_i hc; subst hc; exact .short rfl h
          · split
            · rename_i hc; subst hc; exact .short rfl h
            · split
              · rename_i hc; subst hc; exact .short rfl h
              · split
                · rename_i hc
                  have hlt := isControl_lt hc
                  obtain ⟨x, y, z, w, hq, hv⟩ := toHex4_quad (n := c.toNat) (by omega)
                  rw [hq]
                  exact .unicode hv h
                · rename_i h0 h1 _ _ _ _ _ hc
                  refine .unescaped ?_ h0 h1 h
                  simp only [isControl, Bool.or_eq_true, decide_eq_true_eq, not_or] at hc
                  omega

theorem json_flatMap : ∀ s : Text, JsonChars (s.flatMap escapeJson) s
  | [] => .nil
  | c :: s => by
    rw [List.flatMap_cons]
    exact json_escape c (json_flatMap s)

theorem quoted_body {e : Char → Text} {s body : Text} (h : quoted e s = '"' :: (body ++ ['"'])) : s.flatMap e = body := by
  simp only [quoted, List.cons.injEq, true_and] at h
  exact List.append_cancel_right h

/-- No character of an escape is a control character. -/
theorem escapeJson_printable (c : Char) : ∀ x ∈ escapeJson c, isControl x = false := by
  have hlit : ∀ l : List Char, (∀ x ∈ l, 32 ≤ x.toNat ∧ x.toNat < 127) → ∀ x ∈ l, isControl x = false := by
    intro l hl x hx
    have := hl x hx
    simp only [isControl, Bool.or_eq_false_iff, decide_eq_false_iff_not, Bool.and_eq_false_iff]
    omega
  unfold escapeJson
  split
  · exact hlit _ (by decide)
  · split
    · exact hlit _ (by decide)
    · split
      · exact hlit _ (by decide)
      · split
        · exact hlit _ (by decide)
        · split
          · exact hlit _ (by decide)
          · split
            · exact hlit _ (by decide)
            · split
              · exact hlit _ (by decide)
              · split
                · refine hlit _ ?_
                  intro x hx
                  simp only [List.cons_append, List.nil_append, List.mem_cons] at hx
                  rcases hx with rfl | rfl | hx
                  · decide
                  · decide
                  · have := toHex4_hex _ x hx
                    unfold IsHex at this
                    omega
                · rename_i hc
                  intro x hx
                  simp only [List.mem_singleton] at hx
                  subst hx
                  simpa using hc

end Ferlium.Text
