import Verif.Model.Escape
import Verif.Proofs.Normal

/-! Escaping and reading back. -/
namespace Ferlium.Text

theorem toNat_inj {a b : Char} (h : a.toNat = b.toNat) : a = b := by
  apply Char.ext
  apply UInt32.toNat_inj.mp
  exact h

theorem charOf_toNat (c : Char) : charOf c.toNat = some c := by
  have hv : c.toNat.isValidChar := c.valid
  rw [charOf, dif_pos hv]
  congr 1

theorem digitValue_hexDigit {d : Nat} (h : d < 16) : digitValue (hexDigit d) = some d := by
  have : ∀ d : Fin 16, digitValue (hexDigit d.val) = some d.val := by decide
  exact this ⟨d, h⟩

theorem hexDigit_ascii {d : Nat} (h : d < 16) :
    (48 ≤ (hexDigit d).toNat ∧ (hexDigit d).toNat ≤ 57) ∨ (97 ≤ (hexDigit d).toNat ∧ (hexDigit d).toNat ≤ 102) := by
  have : ∀ d : Fin 16, (48 ≤ (hexDigit d.val).toNat ∧ (hexDigit d.val).toNat ≤ 57) ∨
      (97 ≤ (hexDigit d.val).toNat ∧ (hexDigit d.val).toNat ≤ 102) := by decide
  exact this ⟨d, h⟩

theorem radixDigits_append (limit : Nat) : ∀ (s t : Text) (acc : Nat),
    radixDigits limit acc (s ++ t) = (radixDigits limit acc s).bind fun a => radixDigits limit a t
  | [], _, _ => rfl
  | c :: s, t, acc => by
    simp only [List.cons_append, radixDigits]
    rcases digitValue c with _ | d
    · rfl
    · simp only
      split
      · exact radixDigits_append limit s t _
      · rfl

/-- Hexadecimal digits of the lower case. -/
def IsHex (c : Char) : Prop := (48 ≤ c.toNat ∧ c.toNat ≤ 57) ∨ (97 ≤ c.toNat ∧ c.toNat ≤ 102)

theorem toHex_hex (n : Nat) : ∀ c ∈ toHex n, IsHex c := by
  induction n using Nat.strong_induction_on with
  | _ n ih =>
    intro c hc
    rw [toHex] at hc
    split at hc
    · rename_i h
      simp only [List.mem_singleton] at hc
      subst hc
      exact hexDigit_ascii h
    · rename_i h
      rcases List.mem_append.mp hc with hc | hc
      · exact ih (n / 16) (by omega) c hc
      · simp only [List.mem_singleton] at hc
        subst hc
        exact hexDigit_ascii (by omega)

theorem toHex_ne_nil (n : Nat) : toHex n ≠ [] := by
  rw [toHex]
  split <;> simp

theorem radixDigits_toHex {limit n : Nat} (h : n < limit) : radixDigits limit 0 (toHex n) = some n := by
  induction n using Nat.strong_induction_on with
  | _ n ih =>
    rw [toHex]
    split
    · rename_i h16
      simp only [radixDigits, digitValue_hexDigit h16]
      simp [h]
    · rename_i h16
      rw [radixDigits_append, ih (n / 16) (by omega) (by omega)]
      simp only [Option.bind_some, radixDigits, digitValue_hexDigit (Nat.mod_lt n (by omega : 16 > 0))]
      have : n / 16 * 16 + n % 16 = n := by omega
      rw [this]
      simp [h]

theorem fromRadix_digits {limit : Nat} {s : Text} (h0 : s ≠ []) (h : ∀ c ∈ s, IsHex c) :
    fromRadix limit s = radixDigits limit 0 s := by
  match s, h0, h with
  | c :: r, _, h =>
    have hc : c ≠ '+' := by
      rintro rfl
      have := h '+' (by simp)
      simp [IsHex] at this
    unfold fromRadix
    split
    · rename_i heq
      simp at heq
    · rename_i heq
      simp only [List.cons.injEq] at heq
      exact absurd heq.1 hc
    · rename_i heq
      simp only [List.cons.injEq] at heq
      exact absurd heq.1 hc
    · rfl

theorem fromRadix_toHex {limit n : Nat} (h : n < limit) : fromRadix limit (toHex n) = some n := by
  rw [fromRadix_digits (toHex_ne_nil n) (toHex_hex n), radixDigits_toHex h]

theorem IsHex.ne_brace {c : Char} (h : IsHex c) : (c != '}') = true := by
  simp only [bne_iff_ne]
  rintro rfl
  simp [IsHex] at h

theorem takeWhile_hex (n : Nat) (rest : Text) : (toHex n ++ '}' :: rest).takeWhile (· != '}') = toHex n := by
  rw [List.takeWhile_append_of_pos fun c hc => (toHex_hex n c hc).ne_brace]
  simp

theorem dropWhile_hex (n : Nat) (rest : Text) : (toHex n ++ '}' :: rest).dropWhile (· != '}') = '}' :: rest := by
  rw [List.dropWhile_append_of_pos fun c hc => (toHex_hex n c hc).ne_brace]
  simp

theorem toNat_lt (c : Char) : c.toNat < 2 ^ 32 := c.val.toNat_lt

theorem hex_char (c : Char) : (fromRadix (2 ^ 32) (toHex c.toNat)).bind charOf = some c := by
  rw [fromRadix_toHex (toNat_lt c)]
  exact charOf_toNat c

theorem unescape_plain {c : Char} {rest : Text} (h : c ≠ '\\') : unescape (c :: rest) = c :: unescape rest := by
  rw [unescape.eq_def]
  split <;> simp_all

theorem unescape_unicode (c : Char) (rest : Text) :
    unescape ('\\' :: 'u' :: '{' :: (toHex c.toNat ++ '}' :: rest)) = c :: unescape rest := by
  rw [unescape]
  simp only [takeWhile_hex, hex_char, afterBrace, dropWhile_hex]
  simp

theorem unescape_escape (c : Char) (rest : Text) : unescape (escape c ++ rest) = c :: unescape rest := by
  unfold escape
  split
  · rename_i h; subst h; simp [unescape]
  · split
    · rename_i h; subst h; simp [unescape]
    · split
      · rename_i h; subst h; simp [unescape]
      · split
        · rename_i h; subst h; simp [unescape]
        · split
          · rename_i h; subst h; simp [unescape]
          · split
            · have := unescape_unicode c rest
              simpa using this
            · rename_i h _ _ _ _
              exact unescape_plain h

theorem unescape_flatMap : ∀ s : Text, unescape (s.flatMap escape) = s
  | [] => by simp [unescape]
  | c :: s => by
    rw [List.flatMap_cons, unescape_escape, unescape_flatMap s]

theorem token_plain {c : Char} {rest : Text} (h : c ≠ '\\') (h' : c ≠ '"') :
    token (c :: rest) = (token rest).map fun p => (c :: p.1, p.2) := by
  rw [token.eq_def]
  split <;> simp_all

theorem token_plains : ∀ (s rest : Text), (∀ c ∈ s, c ≠ '\\' ∧ c ≠ '"') →
    token (s ++ rest) = (token rest).map fun p => (s ++ p.1, p.2)
  | [], rest, _ => by simp
  | c :: s, rest, h => by
    rw [List.cons_append, token_plain (h c (by simp)).1 (h c (by simp)).2, token_plains s rest fun x hx => h x (by simp [hx])]
    simp [Option.map_map, Function.comp_def]

theorem IsHex.plain {c : Char} (h : IsHex c) : c ≠ '\\' ∧ c ≠ '"' := by
  constructor <;> (rintro rfl; simp [IsHex] at h)

theorem token_escape (c : Char) (rest : Text) :
    token (escape c ++ rest) = (token rest).map fun p => (escape c ++ p.1, p.2) := by
  unfold escape
  split
  · rename_i h; subst h; simp [token]
  · split
    · rename_i h; subst h; simp [token]
    · split
      · rename_i h; subst h; simp [token]
      · split
        · rename_i h; subst h; simp [token]
        · split
          · rename_i h; subst h; simp [token]
          · split
            · have h1 : token ('{' :: (toHex c.toNat ++ ['}']) ++ rest) =
                  (token rest).map fun p => ('{' :: (toHex c.toNat ++ ['}']) ++ p.1, p.2) := by
                refine token_plains _ _ ?_
                intro x hx
                simp only [List.mem_cons, List.mem_append, List.not_mem_nil, or_false] at hx
                rcases hx with rfl | hx | rfl
                · decide
                · exact (toHex_hex _ x hx).plain
                · decide
              have h2 : token ('\\' :: 'u' :: ('{' :: (toHex c.toNat ++ ['}']) ++ rest)) =
                  (token ('{' :: (toHex c.toNat ++ ['}']) ++ rest)).map fun p => ('\\' :: 'u' :: p.1, p.2) := by
                rw [token]
                simp
              rw [h1] at h2
              simpa [Option.map_map, Function.comp_def] using h2
            · rename_i h0 h1 _ _ _ _
              exact token_plain h1 h0

theorem token_flatMap : ∀ s rest : Text, token (s.flatMap escape ++ '"' :: rest) = some (s.flatMap escape, rest)
  | [], rest => by simp [token]
  | c :: s, rest => by
    rw [List.flatMap_cons, List.append_assoc, token_escape, token_flatMap s rest]
    rfl

/-! ### Data text -/

theorem dataString_plain {c : Char} {rest : Text} (h : c ≠ '\\') (h' : c ≠ '"') :
    dataString (c :: rest) = (dataString rest).map fun p => (c :: p.1, p.2) := by
  rw [dataString.eq_def]
  split <;> simp_all

theorem dataString_escape (c : Char) (rest : Text) :
    dataString (escape c ++ rest) = (dataString rest).map fun p => (c :: p.1, p.2) := by
  have step {r after : Text} {d : Char} (h : dataEscape r = some (d, after)) :
      dataString ('\\' :: r) = (dataString after).map fun p => (d :: p.1, p.2) := by
    rw [dataString]
    split
    · rename_i h'
      rw [h] at h'
      simp only [Option.some.injEq, Prod.mk.injEq] at h'
      rw [h'.1, h'.2]
    · rename_i h'
      rw [h] at h'
      simp at h'
  unfold escape
  split
  · rename_i h; subst h; exact step rfl
  · split
    · rename_i h; subst h; exact step rfl
    · split
      · rename_i h; subst h; exact step rfl
      · split
        · rename_i h; subst h; exact step rfl
        · split
          · rename_i h; subst h; exact step rfl
          · split
            · have h1 : dataEscape ('u' :: '{' :: (toHex c.toNat ++ '}' :: rest)) = some (c, rest) := by
                unfold dataEscape
                simp only [dropWhile_hex, takeWhile_hex, hex_char]
                rfl
              have := step h1
              simpa using this
            · rename_i h0 h1 _ _ _ _
              exact dataString_plain h1 h0

theorem dataString_flatMap : ∀ s rest : Text, dataString (s.flatMap escape ++ '"' :: rest) = some (s, rest)
  | [], rest => by simp [dataString]
  | c :: s, rest => by
    rw [List.flatMap_cons, List.append_assoc, dataString_escape, dataString_flatMap s rest]
    rfl

end Ferlium.Text
