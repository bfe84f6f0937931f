import Verif.Model.Json
import Verif.Proofs.DataTextRead
import Verif.Proofs.Serde

/-! The text of `to_json` is a JSON text, which the reader of JSON reads back. -/
namespace Ferlium.Text
open Ferlium.Serde (jsonForm jsonItems jsonFields jsonPairs)

variable {F : Type}

/-! ### JSON texts -/

mutual

/-- JSON values.  A number is its text. -/
inductive Json
  | null
  | bool (b : Bool)
  | number (text : Text)
  | string (s : Text)
  | array (items : Jsons)
  | object (fields : JsonFields)

/-- The items of an array. -/
inductive Jsons
  | nil
  | cons (v : Json) (rest : Jsons)

/-- The members of an object. -/
inductive JsonFields
  | nil
  | cons (name : Text) (v : Json) (rest : JsonFields)

end

mutual

/-- A text of a JSON value without white space. -/
def Json.text : Json → Text
  | .null => "null".toList
  | .bool b => if b then "true".toList else "false".toList
  | .number t => t
  | .string s => quoted escapeJson s
  | .array a => '[' :: (a.text ++ [']'])
  | .object o => '{' :: (o.text ++ ['}'])

def Jsons.text : Jsons → Text
  | .nil => []
  | .cons v rest => v.text ++ rest.more

def Jsons.more : Jsons → Text
  | .nil => []
  | .cons v rest => ',' :: (v.text ++ rest.more)

def JsonFields.text : JsonFields → Text
  | .nil => []
  | .cons n v rest => quoted escapeJson n ++ ':' :: (v.text ++ rest.more)

def JsonFields.more : JsonFields → Text
  | .nil => []
  | .cons n v rest => ',' :: (quoted escapeJson n ++ ':' :: (v.text ++ rest.more))

end

/-- A number of RFC 8259 without an exponent. -/
def Numeral (t : Text) : Prop :=
  ∃ sign digits fraction : Text, t = sign ++ digits ++ fraction ∧ (sign = [] ∨ sign = ['-']) ∧
    (∀ c ∈ digits, isDigit c = true) ∧ (digits = ['0'] ∨ ∃ c r, digits = c :: r ∧ c ≠ '0') ∧
    (fraction = [] ∨ ∃ ds, fraction = '.' :: ds ∧ ds ≠ [] ∧ ∀ c ∈ ds, isDigit c = true)

variable (H : Host F)

mutual

/-- The numbers of the value are numerals with a value. -/
def Json.Ok : Json → Prop
  | .null => True
  | .bool _ => True
  | .number t => Numeral t ∧ ∃ d : Data F, numberValue H t = some d
  | .string _ => True
  | .array a => a.Ok
  | .object o => o.Ok

def Jsons.Ok : Jsons → Prop
  | .nil => True
  | .cons v rest => v.Ok ∧ rest.Ok

def JsonFields.Ok : JsonFields → Prop
  | .nil => True
  | .cons _ v rest => v.Ok ∧ rest.Ok

end

mutual

/-- The data a JSON value stands for. -/
def Json.value : Json → Data F
  | .null => .null
  | .bool b => .bool b
  | .number t => (numberValue H t).getD .null
  | .string s => .string (H.N.nfc s)
  | .array a => .array a.value
  | .object o => .record o.value

def Jsons.value : Jsons → Items F
  | .nil => .nil
  | .cons v rest => .cons v.value rest.value

def JsonFields.value : JsonFields → Fields F
  | .nil => .nil
  | .cons n v rest => .cons (H.N.nfc n) v.value rest.value

end

/-- What can follow a value: nothing, or the end of an item. -/
def Ends (rest : Text) : Prop := rest = [] ∨ ∃ c r, rest = c :: r ∧ (c = ',' ∨ c = ']' ∨ c = '}')

theorem Ends.cons {c : Char} {r : Text} (h : c = ',' ∨ c = ']' ∨ c = '}') : Ends (c :: r) := .inr ⟨c, r, rfl, h⟩

theorem jsonSkip_cons {c : Char} {r : Text} (h : jsonWhite c = false) : jsonSkip (c :: r) = c :: r := by
  simp [jsonSkip, h]

theorem Ends.skip {rest : Text} (h : Ends rest) : jsonSkip rest = rest := by
  rcases h with rfl | ⟨c, r, rfl, h⟩
  · rfl
  · refine jsonSkip_cons ?_
    rcases h with rfl | rfl | rfl <;> decide

/-! ### Strings -/

theorem jsonString_plain {c : Char} {s : Text} (h1 : c ≠ '"') (h2 : c ≠ '\\') (h3 : 0x20 ≤ c.toNat) :
    jsonString (c :: s) = (jsonString s).map fun p => (c :: p.1, p.2) := by
  rw [jsonString, if_neg h1, if_neg h2, if_neg (by omega)]

theorem jsonString_escape {s after : Text} {c : Char} (h : jsonEscaped s = some (c, after)) :
    jsonString ('\\' :: s) = (jsonString after).map fun p => (c :: p.1, p.2) := by
  rw [jsonString, if_neg (by decide), if_pos rfl]
  split
  · rename_i c' after' h'
    rw [h] at h'
    cases h'
    rfl
  · rename_i h'
    rw [h] at h'
    cases h'

theorem jsonEscaped_short {c x : Char} {s : Text} (hu : c ≠ 'u') (h : jsonShort c = some x) : jsonEscaped (c :: s) = some (x, s) := by
  rw [jsonEscaped.eq_def]
  split
  · rename_i e; cases e
  · rename_i e; cases e; exact (hu rfl).elim
  · rename_i e; cases e; rw [h]; rfl

theorem jsonEscaped_unicode {n : Nat} {a b c d x : Char} {s : Text} (h : quad a b c d = some n) (hn : n < 0xD800) (hx : x.toNat = n) :
    jsonEscaped ('u' :: a :: b :: c :: d :: s) = some (x, s) := by
  simp only [jsonEscaped, h, Option.bind]
  rw [if_neg (by omega), ← hx, charOf_toNat]
  rfl

theorem jsonString_step (c : Char) (s : Text) :
    jsonString (escapeJson c ++ s) = (jsonString s).map fun p => (c :: p.1, p.2) := by
  have short {x y : Char} (hc : c = y) (hu : x ≠ 'u') (h : jsonShort x = some y) :
      jsonString (['\\', x] ++ s) = (jsonString s).map fun p => (c :: p.1, p.2) := by
    subst hc
    exact jsonString_escape (jsonEscaped_short hu h)
  unfold escapeJson
  split
  · rename_i hc; exact short hc (by decide) rfl
  · split
    · rename_i hc; exact short hc (by decide) rfl
    · split
      · rename_i hc; exact short hc (by decide) rfl
      · split
        · rename_i hc; exact short hc (by decide) rfl
        · split
          · rename_i hc; exact short hc (by decide) rfl
          · split
            · rename_i hc; exact short hc (by decide) rfl
            · split
              · rename_i hc; exact short hc (by decide) rfl
              · split
                · rename_i hc
                  have hlt := isControl_lt hc
                  obtain ⟨x, y, z, w, hq, hv⟩ := toHex4_quad (n := c.toNat) (by omega)
                  rw [hq]
                  exact jsonString_escape (jsonEscaped_unicode hv (by omega) rfl)
                · rename_i h0 h1 _ _ _ _ _ hc
                  refine jsonString_plain h0 h1 ?_
                  simp only [isControl, Bool.or_eq_true, decide_eq_true_eq, not_or] at hc
                  omega

theorem jsonString_flatMap : ∀ s rest : Text, jsonString (s.flatMap escapeJson ++ '"' :: rest) = some (s, rest)
  | [], rest => by rw [List.flatMap_nil, List.nil_append, jsonString, if_pos rfl]
  | c :: s, rest => by
    rw [List.flatMap_cons, List.append_assoc, jsonString_step, jsonString_flatMap s rest]
    rfl

theorem jsonString_quoted (s rest : Text) : ∃ r, quoted escapeJson s ++ rest = '"' :: r ∧ jsonString r = some (s, rest) :=
  ⟨s.flatMap escapeJson ++ '"' :: rest, by simp [quoted], jsonString_flatMap s rest⟩

/-! ### Numbers -/

theorem Ends.not {rest : Text} (h : Ends rest) {p : Char → Bool} (h1 : p ',' = false) (h2 : p ']' = false) (h3 : p '}' = false) :
    rest = [] ∨ ∃ c r, rest = c :: r ∧ p c = false := by
  rcases h with rfl | ⟨c, r, rfl, h⟩
  · exact .inl rfl
  · refine .inr ⟨c, r, rfl, ?_⟩
    rcases h with rfl | rfl | rfl <;> assumption

theorem jsonExponent_ends {rest : Text} (h : Ends rest) : jsonExponent rest = some rest := by
  rcases h with rfl | ⟨c, r, rfl, h⟩
  · rfl
  · rw [jsonExponent, if_neg (by rcases h with rfl | rfl | rfl <;> decide)]

theorem jsonNumber_numeral {t rest : Text} (h : Numeral t) (hr : Ends rest) : jsonNumber (t ++ rest) = some rest := by
  obtain ⟨sign, digits, fraction, rfl, hs, hd, hz, hf⟩ := h
  have hint : jsonInteger digits = true := by
    rcases hz with rfl | ⟨c, r, rfl, hc⟩
    · rfl
    · unfold jsonInteger
      split
      · rename_i e; cases e
      · rfl
      · rename_i e; cases e; simpa using hc
  have htail : jsonFraction (fraction ++ rest) = some rest := by
    rcases hf with rfl | ⟨ds, rfl, hne, hds⟩
    · rw [List.nil_append]
      rw [jsonFraction.eq_def]
      split
      · rcases hr with h | ⟨c, r, h, hc⟩
        · cases h
        · cases h; rcases hc with h | h | h <;> cases h
      · exact jsonExponent_ends hr
    · obtain ⟨h1, h2⟩ := takeWhile_all hds (hr.not (p := isDigit) (by decide) (by decide) (by decide))
      rw [List.cons_append, jsonFraction, h1, h2, if_neg hne]
      exact jsonExponent_ends hr
  have hstop : fraction ++ rest = [] ∨ ∃ c r, fraction ++ rest = c :: r ∧ isDigit c = false := by
    rcases hf with rfl | ⟨ds, rfl, _, _⟩
    · exact hr.not (p := isDigit) (by decide) (by decide) (by decide)
    · exact .inr ⟨'.', ds ++ rest, rfl, by decide⟩
  obtain ⟨h1, h2⟩ := takeWhile_all hd hstop
  have hsign : dropMinus (sign ++ digits ++ fraction ++ rest) = digits ++ (fraction ++ rest) := by
    rcases hs with rfl | rfl
    · have : ∃ c r, digits = c :: r := by
        rcases hz with rfl | ⟨c, r, rfl, _⟩
        · exact ⟨_, _, rfl⟩
        · exact ⟨_, _, rfl⟩
      obtain ⟨c, r, rfl⟩ := this
      have hc := isDigit_ne_minus (hd c (by simp))
      simp only [List.nil_append, List.cons_append, List.append_assoc]
      rw [dropMinus.eq_def]
      split
      · rename_i e; exact (hc (List.cons.inj e).1).elim
      · rfl
    · simp [dropMinus]
  rw [jsonNumber, hsign, h1, h2, if_pos hint]
  exact htail

theorem Numeral.head {t : Text} (h : Numeral t) : ∃ c r, t = c :: r ∧ (c = '-' ∨ isDigit c = true) := by
  obtain ⟨sign, digits, fraction, rfl, hs, hd, hz, hf⟩ := h
  rcases hs with rfl | rfl
  · rcases hz with rfl | ⟨c, r, rfl, _⟩
    · exact ⟨'0', fraction, rfl, .inr (by decide)⟩
    · exact ⟨c, r ++ fraction, by simp, .inr (hd c (by simp))⟩
  · exact ⟨'-', digits ++ fraction, by simp, .inl rfl⟩

theorem toDec_numeral (n : Nat) : toDec n = ['0'] ∨ ∃ c r, toDec n = c :: r ∧ c ≠ '0' := by
  induction n using Nat.strong_induction_on with
  | _ n ih =>
    rw [toDec]
    split
    · rename_i h
      have : ∀ d : Fin 10, [Char.ofNat (48 + d.val)] = ['0'] ∨ (Char.ofNat (48 + d.val)) ≠ '0' := by decide
      rcases this ⟨n, h⟩ with h | h
      · exact .inl h
      · exact .inr ⟨_, _, rfl, h⟩
    · rename_i h
      right
      rcases ih (n / 10) (by omega) with e | ⟨c, r, e, hc⟩
      · have := decDigits_toDec (n / 10)
        rw [e] at this
        have h0 : decDigits 0 ['0'] = some 0 := by decide
        rw [h0] at this
        simp only [Option.some.injEq] at this
        omega
      · exact ⟨c, r ++ [Char.ofNat (48 + n % 10)], by rw [e]; rfl, hc⟩

theorem showInt_numeral (i : Int) : Numeral (showInt i) := by
  cases i with
  | ofNat n => exact ⟨[], toDec n, [], by simp [showInt], .inl rfl, toDec_digits n, toDec_numeral n, .inl rfl⟩
  | negSucc n => exact ⟨['-'], toDec (n + 1), [], by simp [showInt], .inr rfl, toDec_digits _, toDec_numeral _, .inl rfl⟩

/-! ### Reading -/

mutual

/-- The depth of nesting. -/
def Json.depth : Json → Nat
  | .array a => a.depth + 1
  | .object o => o.depth + 1
  | _ => 1

def Jsons.depth : Jsons → Nat
  | .nil => 0
  | .cons v rest => max v.depth rest.depth

def JsonFields.depth : JsonFields → Nat
  | .nil => 0
  | .cons _ v rest => max v.depth rest.depth

end

variable {H}

/-- The first character of a JSON text. -/
theorem Json.head : ∀ {v : Json}, v.Ok H → ∃ c r, v.text = c :: r ∧ jsonWhite c = false ∧ c ≠ ']' ∧ c ≠ '}' ∧ c.toNat < 128
  | .null, _ => ⟨'n', _, rfl, by decide⟩
  | .bool true, _ => ⟨'t', _, rfl, by decide⟩
  | .bool false, _ => ⟨'f', _, rfl, by decide⟩
  | .number t, h => by
    rw [Json.Ok] at h
    obtain ⟨c, r, rfl, hc⟩ := h.1.head
    refine ⟨c, r, by rw [Json.text], ?_⟩
    rcases hc with rfl | hc
    · decide
    · rw [isDigit_iff] at hc
      have hne {d : Char} (hd : c.toNat ≠ d.toNat) : c ≠ d := fun e => hd (e ▸ rfl)
      refine ⟨?_, hne (by simp; omega), hne (by simp; omega), by omega⟩
      simp only [jsonWhite, Bool.or_eq_false_iff, beq_eq_false_iff_ne]
      exact ⟨⟨⟨hne (by simp; omega), hne (by simp; omega)⟩, hne (by simp; omega)⟩, hne (by simp; omega)⟩
  | .string s, _ => ⟨'"', _, rfl, by decide⟩
  | .array _, _ => ⟨'[', _, rfl, by decide⟩
  | .object _, _ => ⟨'{', _, rfl, by decide⟩

theorem jsonValue_number {k : Nat} {t rest : Text} {d : Data F} (h : Numeral t) (hd : numberValue H t = some d) (hr : Ends rest) :
    jsonValue H (k + 1) (t ++ rest) = some (d, rest) := by
  have hn := jsonNumber_numeral h hr
  have ht : (t ++ rest).take ((t ++ rest).length - rest.length) = t := by simp
  obtain ⟨c, r, rfl, hc⟩ := h.head
  have hne (x : Char) (hx : x ≠ '-') (hx' : isDigit x = false) : c ≠ x := by
    rintro rfl
    rcases hc with h | h
    · exact hx h
    · rw [hx'] at h; cases h
  have hw : jsonSkip (c :: r ++ rest) = c :: r ++ rest := by
    refine jsonSkip_cons ?_
    simp only [jsonWhite, Bool.or_eq_false_iff, beq_eq_false_iff_ne]
    exact ⟨⟨⟨hne _ (by decide) (by decide), hne _ (by decide) (by decide)⟩, hne _ (by decide) (by decide)⟩,
      hne _ (by decide) (by decide)⟩
  rw [jsonValue, hw]
  split
  · rename_i e; exact (hne 'n' (by decide) (by decide) (List.cons.inj e).1).elim
  · rename_i e; exact (hne 't' (by decide) (by decide) (List.cons.inj e).1).elim
  · rename_i e; exact (hne 'f' (by decide) (by decide) (List.cons.inj e).1).elim
  · rename_i e; exact (hne '"' (by decide) (by decide) (List.cons.inj e).1).elim
  · rename_i e; exact (hne '[' (by decide) (by decide) (List.cons.inj e).1).elim
  · rename_i e; exact (hne '{' (by decide) (by decide) (List.cons.inj e).1).elim
  · rw [hn]
    simp only [Option.bind]
    rw [ht, hd]
    rfl

mutual

theorem jsonValue_text : ∀ (v : Json) (k : Nat) (rest : Text), v.Ok H → v.depth ≤ k → Ends rest →
    jsonValue H k (v.text ++ rest) = some (v.value H, rest)
  | v, 0, rest, _, hk, _ => by
    exfalso
    cases v <;> simp [Json.depth] at hk
  | .null, k + 1, rest, _, _, _ => by
    simp only [Json.text]
    rfl
  | .bool true, k + 1, rest, _, _, _ => rfl
  | .bool false, k + 1, rest, _, _, _ => rfl
  | .number t, k + 1, rest, h, _, hr => by
    rw [Json.Ok] at h
    obtain ⟨hn, d, hd⟩ := h
    rw [Json.text, Json.value, hd]
    exact jsonValue_number hn hd hr
  | .string s, k + 1, rest, _, _, _ => by
    obtain ⟨r, h1, h2⟩ := jsonString_quoted s rest
    rw [Json.text, h1, jsonValue, jsonSkip_cons (by decide)]
    simp only [h2, Option.map, Json.value]
  | .array .nil, k + 1, rest, _, _, _ => rfl
  | .array (.cons v a), k + 1, rest, h, hk, hr => by
    rw [Json.Ok] at h
    rw [Json.depth] at hk
    obtain ⟨c, r, hc, hw, h1, h2, _⟩ := Json.head (H := H) (v := v) (by rw [Jsons.Ok] at h; exact h.1)
    have key := jsonItemsIn_text (.cons v a) k ((Jsons.cons v a).text ++ ']' :: rest).length rest h (by omega) (by
      rw [Jsons.text, Jsons.more]
      simp only [List.length_append, List.length_cons]
      omega) (by simp)
    have e : (Jsons.cons v a).text ++ ']' :: rest = c :: (r ++ a.more ++ ']' :: rest) := by
      rw [Jsons.text, hc]; simp
    rw [Json.text, List.cons_append, List.append_assoc, List.singleton_append, jsonValue, jsonSkip_cons (by decide)]
    simp only
    rw [if_neg (by rw [e, jsonSkip_cons hw]; simpa using h1), key]
    simp only [Option.map, Json.value]
  | .object .nil, k + 1, rest, _, _, _ => rfl
  | .object (.cons n v a), k + 1, rest, h, hk, hr => by
    rw [Json.Ok] at h
    rw [Json.depth] at hk
    have key := jsonFieldsIn_text (.cons n v a) k ((JsonFields.cons n v a).text ++ '}' :: rest).length rest h (by omega) (by
      rw [JsonFields.text, JsonFields.more]
      simp only [List.length_append, List.length_cons]
      omega) (by simp)
    obtain ⟨r, h1, h2⟩ := jsonString_quoted n (':' :: (v.text ++ a.more) ++ '}' :: rest)
    have e : (JsonFields.cons n v a).text ++ '}' :: rest = '"' :: r := by
      rw [JsonFields.text, ← h1]; simp
    rw [Json.text, List.cons_append, List.append_assoc, List.singleton_append, jsonValue, jsonSkip_cons (by decide)]
    simp only
    rw [if_neg (by rw [e, jsonSkip_cons (by decide)]; simp), key]
    simp only [Option.map, Json.value]

theorem jsonItemsIn_text : ∀ (l : Jsons) (k n : Nat) (rest : Text), l.Ok H → l.depth ≤ k → l.more.length ≤ n → l ≠ .nil →
    jsonItemsIn (jsonValue H k) n (l.text ++ ']' :: rest) = some (l.value H, rest)
  | .nil, _, _, _, _, _, _, h => (h rfl).elim
  | .cons _ _, k, 0, rest, _, _, hn, _ => by simp [Jsons.more] at hn
  | .cons v .nil, k, n + 1, rest, h, hk, hn, _ => by
    rw [Jsons.Ok] at h
    rw [Jsons.depth] at hk
    rw [Jsons.text, Jsons.more, List.append_nil, jsonItemsIn,
      jsonValue_text v k (']' :: rest) h.1 (by omega) (Ends.cons (.inr (.inl rfl)))]
    simp only [Option.bind]
    rw [jsonSkip_cons (by decide)]
    simp only [Jsons.value]
  | .cons v (.cons w a), k, n + 1, rest, h, hk, hn, _ => by
    rw [Jsons.Ok] at h
    rw [Jsons.depth] at hk
    have e : (Jsons.cons v (.cons w a)).text ++ ']' :: rest = v.text ++ ',' :: ((Jsons.cons w a).text ++ ']' :: rest) := by
      rw [Jsons.text, Jsons.more, Jsons.text]; simp
    rw [e, jsonItemsIn, jsonValue_text v k _ h.1 (by omega) (Ends.cons (.inl rfl))]
    simp only [Option.bind]
    rw [jsonSkip_cons (by decide)]
    simp only
    rw [jsonItemsIn_text (.cons w a) k n rest h.2 (by omega) (by
      rw [Jsons.more] at hn
      simp only [List.length_cons, List.length_append] at hn
      omega) (by simp)]
    simp only [Option.map, Jsons.value]

theorem jsonFieldsIn_text : ∀ (l : JsonFields) (k n : Nat) (rest : Text), l.Ok H → l.depth ≤ k → l.more.length ≤ n → l ≠ .nil →
    jsonFieldsIn H (jsonValue H k) n (l.text ++ '}' :: rest) = some (l.value H, rest)
  | .nil, _, _, _, _, _, _, h => (h rfl).elim
  | .cons _ _ _, k, 0, rest, _, _, hn, _ => by simp [JsonFields.more] at hn
  | .cons m v .nil, k, n + 1, rest, h, hk, hn, _ => by
    rw [JsonFields.Ok] at h
    rw [JsonFields.depth] at hk
    obtain ⟨r, h1, h2⟩ := jsonString_quoted m (':' :: (v.text ++ '}' :: rest))
    have e : (JsonFields.cons m v .nil).text ++ '}' :: rest = '"' :: r := by
      rw [JsonFields.text, JsonFields.more, ← h1]; simp
    rw [e, jsonFieldsIn, jsonSkip_cons (by decide)]
    simp only [h2, Option.bind]
    rw [jsonSkip_cons (by decide)]
    simp only
    rw [jsonValue_text v k ('}' :: rest) h.1 (by omega) (Ends.cons (.inr (.inr rfl)))]
    simp only
    rw [jsonSkip_cons (by decide)]
    simp only [JsonFields.value]
  | .cons m v (.cons m' w a), k, n + 1, rest, h, hk, hn, _ => by
    rw [JsonFields.Ok] at h
    rw [JsonFields.depth] at hk
    obtain ⟨r, h1, h2⟩ := jsonString_quoted m (':' :: (v.text ++ ',' :: ((JsonFields.cons m' w a).text ++ '}' :: rest)))
    have e : (JsonFields.cons m v (.cons m' w a)).text ++ '}' :: rest = '"' :: r := by
      rw [JsonFields.text, JsonFields.more, ← h1, JsonFields.text]; simp
    rw [e, jsonFieldsIn, jsonSkip_cons (by decide)]
    simp only [h2, Option.bind]
    rw [jsonSkip_cons (by decide)]
    simp only
    rw [jsonValue_text v k _ h.1 (by omega) (Ends.cons (.inl rfl))]
    simp only
    rw [jsonSkip_cons (by decide)]
    simp only
    rw [jsonFieldsIn_text (.cons m' w a) k n rest h.2 (by omega) (by
      rw [JsonFields.more] at hn
      simp only [List.length_cons, List.length_append] at hn
      omega) (by simp)]
    simp only [Option.map, JsonFields.value]

end

mutual

theorem Json.depth_le : ∀ v : Json, v.Ok H → v.depth ≤ v.text.length
  | .null, _ => by simp [Json.depth, Json.text]
  | .bool b, _ => by cases b <;> simp [Json.depth, Json.text]
  | .number t, h => by
    rw [Json.Ok] at h
    obtain ⟨c, r, rfl, _⟩ := h.1.head
    simp [Json.depth, Json.text]
  | .string s, _ => by simp [Json.depth, Json.text, quoted]
  | .array a, h => by
    rw [Json.Ok] at h
    have := Jsons.depth_le a h
    rw [Json.depth, Json.text]
    simp only [List.length_cons, List.length_append]
    omega
  | .object a, h => by
    rw [Json.Ok] at h
    have := JsonFields.depth_le a h
    rw [Json.depth, Json.text]
    simp only [List.length_cons, List.length_append]
    omega

theorem Jsons.depth_le : ∀ l : Jsons, l.Ok H → l.depth ≤ l.text.length ∧ l.depth ≤ l.more.length
  | .nil, _ => by simp [Jsons.depth]
  | .cons v rest, h => by
    rw [Jsons.Ok] at h
    have h1 := Json.depth_le v h.1
    have h2 := Jsons.depth_le rest h.2
    rw [Jsons.depth, Jsons.text, Jsons.more]
    simp only [List.length_cons, List.length_append]
    omega

theorem JsonFields.depth_le : ∀ l : JsonFields, l.Ok H → l.depth ≤ l.text.length ∧ l.depth ≤ l.more.length
  | .nil, _ => by simp [JsonFields.depth]
  | .cons n v rest, h => by
    rw [JsonFields.Ok] at h
    have h1 := Json.depth_le v h.1
    have h2 := JsonFields.depth_le rest h.2
    rw [JsonFields.depth, JsonFields.text, JsonFields.more]
    simp only [List.length_cons, List.length_append]
    omega

end

/-- A JSON text is read as the value it stands for. -/
theorem parseJson_text (v : Json) (h : v.Ok H) : parseJson H v.text = some (v.value H) := by
  have := jsonValue_text v v.text.length [] h (Json.depth_le v h) (.inl rfl)
  rw [List.append_nil] at this
  rw [parseJson, this]
  rfl

/-! ### Printing -/

variable (H)

mutual

/-- The JSON value which is printed. -/
def tree : Data F → Json
  | .null => .null
  | .unit => .null
  | .bool b => .bool b
  | .int i => .number (showInt i)
  | .float f => .number (H.showFloat f)
  | .string s => .string s
  | .array a => .array (trees a)
  | .tuple a => .array (trees a)
  | .record o => .object (treeFields o)
  | .set a => .array (trees a)
  | .map m => .array (treePairs m)
  | .variant name p =>
    match p with
    | .unit => .object (.cons "type".toList (.string name) .nil)
    | p => .object (.cons "type".toList (.string name) (.cons "data".toList (tree p) .nil))

def trees : Items F → Jsons
  | .nil => .nil
  | .cons v rest => .cons (tree v) (trees rest)

def treeFields : Fields F → JsonFields
  | .nil => .nil
  | .cons n v rest => .cons n (tree v) (treeFields rest)

def treePairs : Pairs F → Jsons
  | .nil => .nil
  | .cons a b rest => .cons (.array (.cons (tree a) (.cons (tree b) .nil))) (treePairs rest)

end

/-- A string which survives the normalisation of its escaped text, see C20. -/
def JsonStringOk (N : Normaliser) (s : Text) : Prop := N.Normal s ∧ Separated N escapeJson s

mutual

/-- Every string survives the normalisation of its escaped text and every integer is one of the language. -/
def JsonOk : Data F → Prop
  | .null => True
  | .unit => True
  | .bool _ => True
  | .int i => IntRange i
  | .float _ => True
  | .string s => JsonStringOk H.N s
  | .array a => ItemsJsonOk a
  | .tuple a => ItemsJsonOk a
  | .record o => FieldsJsonOk o
  | .set a => ItemsJsonOk a
  | .map m => PairsJsonOk m
  | .variant name p => JsonStringOk H.N name ∧ JsonOk p

def ItemsJsonOk : Items F → Prop
  | .nil => True
  | .cons v rest => JsonOk v ∧ ItemsJsonOk rest

def FieldsJsonOk : Fields F → Prop
  | .nil => True
  | .cons n v rest => JsonStringOk H.N n ∧ JsonOk v ∧ FieldsJsonOk rest

def PairsJsonOk : Pairs F → Prop
  | .nil => True
  | .cons a b rest => JsonOk a ∧ JsonOk b ∧ PairsJsonOk rest

end

/-- The value of the text of a floating point number: an integer if it has no point and fits. -/
def jsonNum (f : F) : Data F :=
  match readInt (H.showFloat f) with
  | some i => .int i
  | none => .float f

variable {H}

theorem numberValue_float (L : H.Lawful) (f : F) : numberValue H (H.showFloat f) = some (jsonNum H f) := by
  rw [numberValue, jsonNum]
  cases readInt (H.showFloat f) with
  | some i => rfl
  | none => simp only [L.exact, Option.map]

mutual

theorem tree_ok (L : H.Lawful) (hf : ∀ f, Numeral (H.showFloat f)) : ∀ d : Data F, JsonOk H d →
    (tree H d).Ok H ∧ (tree H d).value H = jsonForm (jsonNum H) d
  | .null, _ => by simp [tree, Json.Ok, Json.value, jsonForm]
  | .unit, _ => by simp [tree, Json.Ok, Json.value, jsonForm]
  | .bool _, _ => by simp [tree, Json.Ok, Json.value, jsonForm]
  | .int i, h => by
    rw [JsonOk] at h
    have : numberValue H (showInt i) = some (.int i) := by rw [numberValue, readInt_showInt h]
    rw [tree, Json.Ok, Json.value, jsonForm, this]
    exact ⟨⟨showInt_numeral i, _, rfl⟩, rfl⟩
  | .float f, _ => by
    rw [tree, Json.Ok, Json.value, jsonForm, numberValue_float L]
    exact ⟨⟨hf f, _, rfl⟩, rfl⟩
  | .string s, h => by
    rw [JsonOk] at h
    rw [tree, Json.Ok, Json.value, jsonForm, h.1]
    exact ⟨trivial, rfl⟩
  | .array a, h => by
    rw [JsonOk] at h
    obtain ⟨h1, h2⟩ := trees_ok L hf a h
    rw [tree, Json.Ok, Json.value, jsonForm, h2]
    exact ⟨h1, rfl⟩
  | .tuple a, h => by
    rw [JsonOk] at h
    obtain ⟨h1, h2⟩ := trees_ok L hf a h
    rw [tree, Json.Ok, Json.value, jsonForm, h2]
    exact ⟨h1, rfl⟩
  | .set a, h => by
    rw [JsonOk] at h
    obtain ⟨h1, h2⟩ := trees_ok L hf a h
    rw [tree, Json.Ok, Json.value, jsonForm, h2]
    exact ⟨h1, rfl⟩
  | .record o, h => by
    rw [JsonOk] at h
    obtain ⟨h1, h2⟩ := treeFields_ok L hf o h
    rw [tree, Json.Ok, Json.value, jsonForm, h2]
    exact ⟨h1, rfl⟩
  | .map m, h => by
    rw [JsonOk] at h
    obtain ⟨h1, h2⟩ := treePairs_ok L hf m h
    rw [tree, Json.Ok, Json.value, jsonForm, h2]
    exact ⟨h1, rfl⟩
  | .variant name p, h => by
    rw [JsonOk] at h
    obtain ⟨h1, h2⟩ := tree_ok L hf p h.2
    have ht : H.N.nfc "type".toList = "type".toList := L.unicode.ascii _ (by decide)
    have hd : H.N.nfc "data".toList = "data".toList := L.unicode.ascii _ (by decide)
    have hn : H.N.nfc name = name := h.1.1
    by_cases hp : p = .unit
    · subst hp
      simp only [tree, Json.Ok, JsonFields.Ok, Json.value, JsonFields.value, jsonForm, ht, hn, and_self]
    · have e1 : tree H (.variant name p) = .object (.cons "type".toList (.string name) (.cons "data".toList (tree H p) .nil)) := by
        cases p <;> first | rfl | exact (hp rfl).elim
      have e2 : jsonForm (jsonNum H) (.variant name p) =
          .record (.cons "type".toList (.string name) (.cons "data".toList (jsonForm (jsonNum H) p) .nil)) := by
        cases p <;> first | rfl | exact (hp rfl).elim
      rw [e1, e2]
      simp only [Json.Ok, JsonFields.Ok, Json.value, JsonFields.value, ht, hd, hn, h2, and_true, true_and]
      exact h1

theorem trees_ok (L : H.Lawful) (hf : ∀ f, Numeral (H.showFloat f)) : ∀ d : Items F, ItemsJsonOk H d →
    (trees H d).Ok H ∧ (trees H d).value H = jsonItems (jsonNum H) d
  | .nil, _ => by simp [trees, Jsons.Ok, Jsons.value, jsonItems]
  | .cons v rest, h => by
    rw [ItemsJsonOk] at h
    obtain ⟨h1, h2⟩ := tree_ok L hf v h.1
    obtain ⟨h3, h4⟩ := trees_ok L hf rest h.2
    rw [trees, Jsons.Ok, Jsons.value, jsonItems, h2, h4]
    exact ⟨⟨h1, h3⟩, rfl⟩

theorem treeFields_ok (L : H.Lawful) (hf : ∀ f, Numeral (H.showFloat f)) : ∀ d : Fields F, FieldsJsonOk H d →
    (treeFields H d).Ok H ∧ (treeFields H d).value H = jsonFields (jsonNum H) d
  | .nil, _ => by simp [treeFields, JsonFields.Ok, JsonFields.value, jsonFields]
  | .cons n v rest, h => by
    rw [FieldsJsonOk] at h
    obtain ⟨h1, h2⟩ := tree_ok L hf v h.2.1
    obtain ⟨h3, h4⟩ := treeFields_ok L hf rest h.2.2
    rw [treeFields, JsonFields.Ok, JsonFields.value, jsonFields, h2, h4, h.1.1]
    exact ⟨⟨h1, h3⟩, rfl⟩

theorem treePairs_ok (L : H.Lawful) (hf : ∀ f, Numeral (H.showFloat f)) : ∀ d : Pairs F, PairsJsonOk H d →
    (treePairs H d).Ok H ∧ (treePairs H d).value H = jsonPairs (jsonNum H) d
  | .nil, _ => by simp [treePairs, Jsons.Ok, Jsons.value, jsonPairs]
  | .cons a b rest, h => by
    rw [PairsJsonOk] at h
    obtain ⟨h1, h2⟩ := tree_ok L hf a h.1
    obtain ⟨h1', h2'⟩ := tree_ok L hf b h.2.1
    obtain ⟨h3, h4⟩ := treePairs_ok L hf rest h.2.2
    simp only [treePairs, Jsons.Ok, Json.Ok, Jsons.value, Json.value, jsonPairs, h2, h2', h4, and_true]
    exact ⟨⟨h1, h1'⟩, h3⟩

end

theorem inspectJson_ok (L : H.Lawful) {s : Text} (h : JsonStringOk H.N s) : inspectJson H.N s = quoted escapeJson s :=
  quoted_normal L.unicode escapeJson_laws h.1 h.2

theorem push_head (L : H.Lawful) {a b : Text} (h : ∃ c r, b = c :: r ∧ c.toNat < 128) : push H.N a b = a ++ b := by
  obtain ⟨c, r, rfl, hc⟩ := h
  exact push_cons L (by omega)

theorem tree_push (L : H.Lawful) (hf : ∀ f, Numeral (H.showFloat f)) {d : Data F} (h : JsonOk H d) (a : Text) :
    push H.N a (tree H d).text = a ++ (tree H d).text := by
  obtain ⟨c, r, hc, _, _, _, hlt⟩ := Json.head (tree_ok L hf d h).1
  exact push_head L ⟨c, r, hc, hlt⟩

theorem quoted_push (L : H.Lawful) (s a : Text) : push H.N a (quoted escapeJson s) = a ++ quoted escapeJson s :=
  push_head L ⟨'"', _, rfl, by decide⟩

mutual

theorem toJson_text (L : H.Lawful) (hf : ∀ f, Numeral (H.showFloat f)) : ∀ d : Data F, JsonOk H d → toJson H d = (tree H d).text
  | .null, _ => rfl
  | .unit, _ => rfl
  | .bool _, _ => rfl
  | .int i, _ => by rw [toJson, tree, Json.text, fresh, showInt_normal L]
  | .float f, _ => by rw [toJson, tree, Json.text, fresh, showFloat_normal L]
  | .string s, h => by
    rw [JsonOk] at h
    rw [toJson, tree, Json.text, inspectJson_ok L h]
  | .array a, h => by
    rw [JsonOk] at h
    rw [toJson, jsonSequence_text L hf a _ h, push_head L (b := "]".toList) ⟨']', [], rfl, by decide⟩, tree, Json.text]
    rfl
  | .tuple a, h => by
    rw [JsonOk] at h
    rw [toJson, jsonSequence_text L hf a _ h, push_head L (b := "]".toList) ⟨']', [], rfl, by decide⟩, tree, Json.text]
    rfl
  | .set a, h => by
    rw [JsonOk] at h
    rw [toJson, jsonSequence_text L hf a _ h, push_head L (b := "]".toList) ⟨']', [], rfl, by decide⟩, tree, Json.text]
    rfl
  | .record o, h => by
    rw [JsonOk] at h
    rw [toJson, jsonEntries_text L hf o _ h, push_head L (b := "}".toList) ⟨'}', [], rfl, by decide⟩, tree, Json.text]
    rfl
  | .map m, h => by
    rw [JsonOk] at h
    rw [toJson, jsonMap_text L hf m _ h, push_head L (b := "]".toList) ⟨']', [], rfl, by decide⟩, tree, Json.text]
    rfl
  | .variant name p, h => by
    rw [JsonOk] at h
    have ht : quoted escapeJson "type".toList = "\"type\"".toList := by decide
    have hd : quoted escapeJson "data".toList = "\"data\"".toList := by decide
    by_cases hp : p = .unit
    · subst hp
      rw [toJson, inspectJson_ok L h.1, quoted_push L]
      rw [push_head L (b := "}".toList) ⟨'}', [], rfl, by decide⟩, tree]
      simp only [Json.text, JsonFields.text, JsonFields.more, ht]
      simp
    · have e1 : tree H (.variant name p) = .object (.cons "type".toList (.string name) (.cons "data".toList (tree H p) .nil)) := by
        cases p <;> first | rfl | exact (hp rfl).elim
      have e2 : toJson H (.variant name p) = push H.N (push H.N (push H.N (push H.N "{\"type\":".toList (inspectJson H.N name))
          ",\"data\":".toList) (toJson H p)) "}".toList := by
        cases p <;> first | rfl | exact (hp rfl).elim
      rw [e1, e2, inspectJson_ok L h.1, quoted_push L, push_head L (b := ",\"data\":".toList) ⟨',', _, rfl, by decide⟩, toJson_text L hf p h.2, tree_push L hf h.2,
        push_head L (b := "}".toList) ⟨'}', [], rfl, by decide⟩]
      simp only [Json.text, JsonFields.text, JsonFields.more, ht, hd]
      simp

theorem jsonSequence_text (L : H.Lawful) (hf : ∀ f, Numeral (H.showFloat f)) : ∀ (a : Items F) (result : Text), ItemsJsonOk H a →
    jsonSequence H result a = result ++ (trees H a).text
  | .nil, result, _ => by rw [jsonSequence, trees, Jsons.text, List.append_nil]
  | .cons v .nil, result, h => by
    rw [ItemsJsonOk] at h
    rw [jsonSequence, toJson_text L hf v h.1, tree_push L hf h.1]
    simp only [jsonSequence, trees, Jsons.text, Jsons.more, List.append_nil]
  | .cons v (.cons w a), result, h => by
    rw [ItemsJsonOk] at h
    rw [jsonSequence, toJson_text L hf v h.1, tree_push L hf h.1]
    rw [push_head L (b := ",".toList) ⟨',', [], rfl, by decide⟩, jsonSequence_text L hf (.cons w a) _ h.2]
    · simp only [trees, Jsons.text, Jsons.more]
      simp
    · intro e; cases e

theorem jsonEntries_text (L : H.Lawful) (hf : ∀ f, Numeral (H.showFloat f)) : ∀ (a : Fields F) (result : Text), FieldsJsonOk H a →
    jsonEntries H result a = result ++ (treeFields H a).text
  | .nil, result, _ => by rw [jsonEntries, treeFields, JsonFields.text, List.append_nil]
  | .cons n v .nil, result, h => by
    rw [FieldsJsonOk] at h
    rw [jsonEntries, inspectJson_ok L h.1, quoted_push L, toJson_text L hf v h.2.1, tree_push L hf h.2.1,
      push_head L (b := ":".toList) ⟨':', [], rfl, by decide⟩, push_head L (b := [] ++ ":".toList ++ (tree H v).text) ⟨':', (tree H v).text, rfl, by decide⟩]
    simp only [jsonEntries, treeFields, JsonFields.text, JsonFields.more, List.append_nil]
    simp
  | .cons n v (.cons m w a), result, h => by
    rw [FieldsJsonOk] at h
    rw [jsonEntries, inspectJson_ok L h.1, quoted_push L, toJson_text L hf v h.2.1, tree_push L hf h.2.1,
      push_head L (b := ":".toList) ⟨':', [], rfl, by decide⟩, push_head L (b := [] ++ ":".toList ++ (tree H v).text) ⟨':', (tree H v).text, rfl, by decide⟩]
    rw [push_head L (b := ",".toList) ⟨',', [], rfl, by decide⟩, jsonEntries_text L hf (.cons m w a) _ h.2.2]
    · simp only [treeFields, JsonFields.text, JsonFields.more]
      simp
    · intro e; cases e

theorem jsonMap_text (L : H.Lawful) (hf : ∀ f, Numeral (H.showFloat f)) : ∀ (a : Pairs F) (result : Text), PairsJsonOk H a →
    jsonMap H result a = result ++ (treePairs H a).text
  | .nil, result, _ => by rw [jsonMap, treePairs, Jsons.text, List.append_nil]
  | .cons k v .nil, result, h => by
    rw [PairsJsonOk] at h
    rw [jsonMap, toJson_text L hf k h.1, tree_push L hf h.1, toJson_text L hf v h.2.1, tree_push L hf h.2.1,
      push_head L (b := "[".toList) ⟨'[', [], rfl, by decide⟩, push_head L (b := ",".toList) ⟨',', [], rfl, by decide⟩, push_head L (b := "]".toList) ⟨']', [], rfl, by decide⟩]
    simp only [jsonMap, treePairs, Jsons.text, Jsons.more, Json.text, List.append_nil]
    simp
  | .cons k v (.cons k' v' a), result, h => by
    rw [PairsJsonOk] at h
    rw [jsonMap, toJson_text L hf k h.1, tree_push L hf h.1, toJson_text L hf v h.2.1, tree_push L hf h.2.1,
      push_head L (b := "[".toList) ⟨'[', [], rfl, by decide⟩, push_head L (b := ",".toList) ⟨',', [], rfl, by decide⟩, push_head L (b := "]".toList) ⟨']', [], rfl, by decide⟩]
    rw [push_head L (b := ",".toList) ⟨',', [], rfl, by decide⟩, jsonMap_text L hf (.cons k' v' a) _ h.2.2]
    · simp only [treePairs, Jsons.text, Jsons.more, Json.text]
      simp
    · intro e; cases e

end

end Ferlium.Text
