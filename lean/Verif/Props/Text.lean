import Verif.Proofs.Json
import Verif.Proofs.StringApi

/-!
Properties of strings: the texts printed for strings read back (C18), JSON strings (C20), normalised strings (C44), and
splitting (C55).

All theorems are for every normaliser with the laws of the Unicode standard; `hangul_lawful` is the proof that the laws can be
met.
-/
namespace Ferlium.Text

variable {N : Normaliser}

/-! ### C18: string literals -/

/-- The text written between the quotes is read as one token, whatever follows, and its escapes decode to the string. -/
theorem C18_escapes_read_back (s rest : Text) :
    ∃ body, token (s.flatMap escape ++ '"' :: rest) = some (body, rest) ∧ unescape body = s :=
  ⟨s.flatMap escape, token_flatMap s rest, unescape_flatMap s⟩

/-- The same for the reader of data text, which rejects unknown escapes. -/
theorem C18_data_escapes_read_back (s rest : Text) : dataString (s.flatMap escape ++ '"' :: rest) = some (s, rest) :=
  dataString_flatMap s rest

/-- Only line feed, carriage return and tabulator have escapes which end with a letter. -/
theorem endsInLetter_escape {c : Char} (h : EndsInLetter escape c) : c = '\n' ∨ c = '\r' ∨ c = '\t' := by
  obtain ⟨r, x, h, hx⟩ := h
  have key {l : Text} {y : Char} (h : l ++ [y] = '\\' :: (r ++ [x])) (hy : y.isAlpha = false) : False := by
    have := congrArg List.getLast? h
    rw [List.getLast?_append, show '\\' :: (r ++ [x]) = ('\\' :: r) ++ [x] from rfl, List.getLast?_append] at this
    simp only [List.getLast?_singleton, Option.some_or, Option.some.injEq] at this
    subst this
    rw [hx] at hy
    simp at hy
  unfold escape at h
  split at h
  · exact (key (l := ['\\']) (y := '"') h (by decide)).elim
  · split at h
    · exact (key (l := ['\\']) (y := '\\') h (by decide)).elim
    · split at h
      · left; assumption
      · split at h
        · right; left; assumption
        · split at h
          · right; right; assumption
          · split at h
            · exact (key (l := ['\\', 'u', '{'] ++ toHex c.toNat) (y := '}') h (by decide)).elim
            · simp at h

/-- Inspecting a string gives a literal whose value is the string, unless a line feed, carriage return or tabulator is followed
by a character which may compose with a letter. -/
theorem C18_inspect_round_trip_partial (L : N.Lawful) {s : Text} (hs : N.Normal s)
    (hsep : ∀ (a b : Text) (c d : Char), s = a ++ c :: d :: b → c = '\n' ∨ c = '\r' ∨ c = '\t' → N.Opens d) :
    readLiteral N (inspect N s) = some s := by
  have h : inspect N s = quoted escape s :=
    quoted_normal L escape_laws hs fun a b c d e hc => hsep a b c d e (endsInLetter_escape hc)
  rw [h, quoted, readLiteral, token_flatMap s []]
  simp only [unescape_flatMap]
  rw [hs]

/-- A text with a letter and a combining tilde between characters below U+0300. -/
theorem nfc_tilde (L : N.Lawful) (h : N.nfc ['n', '\u0303'] = ['ñ']) (a b : Text) (ha : ∀ c ∈ a, c.toNat < 0x300)
    (hb : ∀ c ∈ b, c.toNat < 0x300) : N.nfc (a ++ ['n', '\u0303'] ++ b) = a ++ ['ñ'] ++ b := by
  have h1 : N.nfc (a ++ ['n', '\u0303']) = a ++ ['ñ'] := by
    rw [← L.join, h, L.ascii a ha]
    refine L.ascii _ fun c hc => ?_
    rcases List.mem_append.mp hc with hc | hc
    · exact ha c hc
    · simp only [List.mem_singleton] at hc
      subst hc
      decide
  rw [← L.join, h1, L.ascii b hb]
  refine L.ascii _ fun c hc => ?_
  rcases List.mem_append.mp hc with hc | hc
  · rcases List.mem_append.mp hc with hc | hc
    · exact ha c hc
    · simp only [List.mem_singleton] at hc
      subst hc
      decide
  · exact hb c hc

theorem inspect_tilde (L : N.Lawful) (h : N.nfc ['n', '\u0303'] = ['ñ']) :
    inspect N ['\n', '\u0303'] = ['"', '\\', 'ñ', '"'] :=
  nfc_tilde L h ['"', '\\'] ['"'] (by decide) (by decide)

/-- The string of a line feed and a combining tilde is normalised. -/
theorem tilde_normal (L : N.Lawful) (ht : N.Normal ['\u0303']) : N.Normal ['\n', '\u0303'] := by
  have := L.closes '\n' (by decide) [] ['\u0303'] (L.low _ (by decide)) ht
  simpa using this

/-- The property fails in Unicode: the letter of the escape composes with a combining tilde after the line feed, and the literal
which is printed has another value.  The two assumptions are what the Unicode tables say of `n` and U+0303. -/
theorem C18_inspect_violated (L : N.Lawful) (ht : N.Normal ['\u0303']) (h : N.nfc ['n', '\u0303'] = ['ñ']) :
    ∃ s, N.Normal s ∧ readLiteral N (inspect N s) = some ['\\', 'ñ'] ∧ s ≠ ['\\', 'ñ'] := by
  refine ⟨['\n', '\u0303'], tilde_normal L ht, ?_, by decide⟩
  rw [inspect_tilde L h]
  have ht : token ['\\', 'ñ', '"'] = some (['\\', 'ñ'], []) := by simp [token]
  have hu : unescape ['\\', 'ñ'] = ['\\', 'ñ'] := by simp [unescape]
  rw [readLiteral, ht]
  simp only [hu]
  rw [L.ascii ['\\', 'ñ'] (by decide)]

/-- The reader of data text does not even accept the printed text. -/
theorem C18_data_text_rejected (L : N.Lawful) (ht : N.Normal ['\u0303']) (h : N.nfc ['n', '\u0303'] = ['ñ']) :
    ∃ s body, N.Normal s ∧ inspect N s = '"' :: body ∧ dataString body = none := by
  refine ⟨['\n', '\u0303'], ['\\', 'ñ', '"'], tilde_normal L ht, inspect_tilde L h, ?_⟩
  rw [dataString]
  split
  · rename_i h'
    rw [show dataEscape ['ñ', '"'] = none from rfl] at h'
    simp at h'
  · rfl

example : hangul.Lawful ∧ hangul.Normal ['\u0303'] ∧ hangul.nfc ['n', '\u0303'] = ['ñ'] := by
  refine ⟨hangul_lawful, ?_, ?_⟩
  · rw [hangul_normal]; trivial
  · change compose hangulPair _ = _
    rw [compose_cons_some (d := 'ñ') (by decide), compose]

/-- A string with a quote, a control character and a syllable reads back. -/
example : readLiteral hangul (inspect hangul ['"', '\n', '\x01', '가']) = some ['"', '\n', '\x01', '가'] := by
  refine C18_inspect_round_trip_partial hangul_lawful ?_ ?_
  · rw [hangul_normal]
    refine ⟨by decide, by decide, by decide, trivial⟩
  · intro a b c d h hc
    refine hangul_lawful.opens d ?_
    match a, h with
    | [], h => simp at h; obtain ⟨rfl, rfl, _⟩ := h; decide
    | [_], h => simp at h; obtain ⟨_, rfl, rfl, _⟩ := h; decide
    | [_, _], h => simp at h; obtain ⟨_, _, rfl, rfl, _⟩ := h; simp at hc
    | _ :: _ :: _ :: a, h =>
      have := congrArg List.length h
      simp at this
      omega

/-! ### C20: JSON strings -/

/-- Before normalisation the text is a JSON string and the original string is its only value. -/
theorem C20_json_escapes (s v : Text) : JsonString (quoted escapeJson s) v ↔ v = s := by
  constructor
  · rintro ⟨body, hb, hv⟩
    rw [← quoted_body hb] at hv
    exact (json_flatMap s).unique hv |>.symm
  · rintro rfl
    exact ⟨_, rfl, json_flatMap v⟩

/-- The JSON text of a string is a JSON string whose only value is the string, and has no control characters, unless a control
character whose escape ends with a letter is followed by a character which may compose with that letter. -/
theorem C20_json_string_partial (L : N.Lawful) {s : Text} (hs : N.Normal s)
    (hsep : ∀ (a b : Text) (c d : Char), s = a ++ c :: d :: b → isControl c = true → N.Opens d) :
    (∀ v, JsonString (inspectJson N s) v ↔ v = s) ∧ ∀ c ∈ inspectJson N s, isControl c = false := by
  have hcontrol {c : Char} (h : EndsInLetter escapeJson c) : isControl c = true := by
    obtain ⟨r, x, h, hx⟩ := h
    unfold escapeJson at h
    split at h
    · have := congrArg List.getLast? h
      rw [show '\\' :: (r ++ [x]) = ('\\' :: r) ++ [x] from rfl, List.getLast?_append] at this
      simp only [List.getLast?_singleton, Option.some_or] at this
      have : x = '"' := by simpa using this.symm
      subst this
      simp at hx
    · split at h
      · have := congrArg List.getLast? h
        rw [show '\\' :: (r ++ [x]) = ('\\' :: r) ++ [x] from rfl, List.getLast?_append] at this
        simp only [List.getLast?_singleton, Option.some_or] at this
        have : x = '\\' := by simpa using this.symm
        subst this
        simp at hx
      · split at h
        · rename_i hc; subst hc; decide
        · split at h
          · rename_i hc; subst hc; decide
          · split at h
            · rename_i hc; subst hc; decide
            · split at h
              · rename_i hc; subst hc; decide
              · split at h
                · rename_i hc; subst hc; decide
                · split at h
                  · assumption
                  · simp at h
  have h : inspectJson N s = quoted escapeJson s :=
    quoted_normal L escapeJson_laws hs fun a b c d e hc => hsep a b c d e (hcontrol hc)
  refine ⟨fun v => by rw [h]; exact C20_json_escapes s v, ?_⟩
  rw [h]
  intro c hc
  simp only [quoted, List.mem_cons, List.mem_append, List.mem_flatMap, List.not_mem_nil, or_false] at hc
  rcases hc with rfl | ⟨x, _, hx⟩ | rfl
  · decide
  · exact escapeJson_printable x c hx
  · decide

/-- The property fails in Unicode: for a line feed followed by a combining tilde the text is no JSON string at all. -/
theorem C20_json_violated (L : N.Lawful) (ht : N.Normal ['\u0303']) (h : N.nfc ['n', '\u0303'] = ['ñ']) :
    ∃ s, N.Normal s ∧ ∀ v, ¬ JsonString (inspectJson N s) v := by
  refine ⟨['\n', '\u0303'], tilde_normal L ht, ?_⟩
  have e : inspectJson N ['\n', '\u0303'] = ['"', '\\', 'ñ', '"'] :=
    nfc_tilde L h ['"', '\\'] ['"'] (by decide) (by decide)
  rw [e]
  rintro v ⟨body, hb, hv⟩
  have : body = ['\\', 'ñ'] := by
    have hb' : ['\\', 'ñ'] ++ ['"'] = body ++ ['"'] := by simpa using hb
    exact (List.append_cancel_right hb').symm
  subst this
  cases hv with
  | unescaped _ _ hb _ => exact hb rfl
  | short hs _ => simp [jsonShort] at hs

example : ∀ v, JsonString (inspectJson hangul ['"', '\n', '\x1c', '가']) v → v = ['"', '\n', '\x1c', '가'] := by
  intro v
  refine ((C20_json_string_partial hangul_lawful ?_ ?_).1 v).mp
  · rw [hangul_normal]
    refine ⟨by decide, by decide, by decide, trivial⟩
  · intro a b c d h hc
    match a, h with
    | [], h => simp at h; obtain ⟨rfl, rfl, _⟩ := h; simp [isControl] at hc
    | [_], h => simp at h; obtain ⟨_, rfl, rfl, _⟩ := h; exact hangul_lawful.opens _ (by decide)
    | [_, _], h =>
      simp at h
      obtain ⟨_, _, rfl, rfl, _⟩ := h
      intro x y hx hy
      rw [hangul_normal] at hx hy ⊢
      rcases List.eq_nil_or_concat x with rfl | ⟨x', z, rfl⟩
      · simpa using hy
      · simp only [List.concat_eq_append, List.append_assoc, List.singleton_append] at hx ⊢
        refine stable_join hx ?_ hy
        rcases hp : hangulPair z '가' with _ | e
        · rfl
        · have := hangulPair_cases hp
          simp at this
    | _ :: _ :: _ :: a, h =>
      have := congrArg List.length h
      simp at this
      omega

/-! ### C44: normalised strings -/

/-- The strings which a program can build with the string API, when every text it appends starts with a combining mark or with
a character which does not compose with what precedes it. -/
inductive Builds (N : Normaliser) (X : Library) : List Text → Prop
  | start : Builds N X []
  | step {regs regs' : List Text} {op : Op} (h : Builds N X regs) (safe : SafeOp N regs op)
    (run : runOp N X regs op = some regs') : Builds N X regs'

/-- All strings of such a program are normalised. -/
theorem C44_strings_normalised_partial (L : N.Lawful) {X : Library} {regs : List Text} (h : Builds N X regs) :
    ∀ s ∈ regs, N.nfc s = s := by
  suffices AllNormal N regs from this
  induction h with
  | start => intro s hs; simp at hs
  | step _ safe run ih => exact runOp_normal L X ih safe run

/-- Appending pieces one after the other gives the normal form of all the pieces together. -/
theorem C44_pieces_partial (L : N.Lawful) : ∀ (pieces : List Text) (s : Text), N.Normal s → (∀ p ∈ pieces, N.Normal p) →
    (∀ p ∈ pieces, Seam N p) → pieces.foldl (push N) s = N.nfc (s ++ pieces.flatten)
  | [], s, hs, _, _ => by simpa using hs.symm
  | p :: pieces, s, hs, hp, hseam => by
    have hp0 := hp p (by simp)
    have hs0 := hseam p (by simp)
    rw [List.foldl_cons, C44_pieces_partial L pieces _ (push_normal L hs hp0 hs0) (fun q hq => hp q (by simp [hq]))
      (fun q hq => hseam q (by simp [hq])), push_eq_concat L hs hp0 hs0, ← L.join, L.idem, L.join]
    simp

/-- Concatenating at once is the same as appending, under the same condition. -/
theorem C44_push_is_concat_partial (L : N.Lawful) {a b : Text} (ha : N.Normal a) (hb : N.Normal b) (hs : Seam N b) :
    push N a b = concat N a b := push_eq_concat L ha hb hs

/-- The property fails in Unicode: a Hangul vowel composes with the initial before it, but is no combining mark.  Appending it
gives a string which is not normalised and differs from the concatenation.  The assumptions are what the Unicode tables say of
U+1100 and U+1161. -/
theorem C44_hangul_violated (hL : N.Normal ['\u1100']) (hV : N.Normal ['\u1161']) (hm : N.mark '\u1161' = false)
    (h : N.nfc ['\u1100', '\u1161'] = ['가']) :
    ∃ a b, N.Normal a ∧ N.Normal b ∧ ¬ N.Normal (push N a b) ∧ push N a b ≠ concat N a b := by
  have e : push N ['\u1100'] ['\u1161'] = ['\u1100', '\u1161'] := by simp [push, hm]
  refine ⟨['\u1100'], ['\u1161'], hL, hV, ?_, ?_⟩
  · rw [e, Normaliser.Normal, h]
    decide
  · rw [e, concat]
    change _ ≠ N.nfc ['\u1100', '\u1161']
    rw [h]
    decide

/-- The assumptions hold for a normaliser with all the laws. -/
example : hangul.Lawful ∧ hangul.Normal ['\u1100'] ∧ hangul.Normal ['\u1161'] ∧ hangul.mark '\u1161' = false ∧
    hangul.nfc ['\u1100', '\u1161'] = ['가'] := by
  refine ⟨hangul_lawful, ?_, ?_, by decide, ?_⟩
  · rw [hangul_normal]; trivial
  · rw [hangul_normal]; trivial
  · change compose hangulPair _ = _
    rw [compose_cons_some (d := '가') (by decide), compose]

/-- Appending a combining tilde is safe and composes. -/
example : push hangul ['a', 'n'] ['\u0303', 'b'] = ['a', 'ñ', 'b'] := by
  rw [C44_push_is_concat_partial hangul_lawful]
  · change compose hangulPair _ = _
    simp only [List.cons_append, List.nil_append]
    rw [compose_cons_none (by decide), compose_cons_some (d := 'ñ') (by decide), compose_cons_none (by decide), compose]
  · rw [hangul_normal]; exact ⟨by decide, trivial⟩
  · rw [hangul_normal]; exact ⟨by decide, trivial⟩
  · intro c r h
    simp only [List.cons.injEq] at h
    obtain ⟨rfl, _⟩ := h
    left
    decide

/-! ### C55: splitting -/

/-- Joining the parts of a split with the separator gives the string back. -/
theorem C55_split_join (L : N.Lawful) (s separator : Text) : joined separator (split N s separator) = s := by
  rw [split, splitParts_joined, L.clusters]

/-- Each part is a run of clusters of the string in which the separator does not occur. -/
theorem C55_split_parts (L : N.Lawful) {s separator : Text} (h : separator ≠ []) :
    ∀ p ∈ split N s separator, ∃ before part after : List Text, N.graphemes s = before ++ part ++ after ∧ p = part.flatten ∧
      ∀ x y z : List Text, part = x ++ y ++ z → y.length = (N.graphemes separator).length → y.flatten ≠ separator := by
  intro p hp
  obtain ⟨a, b, e, hab, hb, hs⟩ := splitParts_parts separator (graphemes_pos L h) _ (N.graphemes s) (le_refl _) p hp
  refine ⟨(N.graphemes s).take a, ((N.graphemes s).take b).drop a, (N.graphemes s).drop b, ?_, e, ?_⟩
  · have h1 : (N.graphemes s).take a = ((N.graphemes s).take b).take a := by
      rw [List.take_take, Nat.min_eq_left hab]
    rw [h1, List.take_append_drop, List.take_append_drop]
  · intro x y z hxyz hy
    have hl : x.length + y.length + z.length = b - a := by
      have := congrArg List.length hxyz
      simp only [List.length_drop, List.length_take, List.length_append] at this
      omega
    have := hs (a + x.length) (by omega) (by omega)
    have hyy : ((N.graphemes s).drop (a + x.length)).take (N.graphemes separator).length = y := by
      have h1 : (((N.graphemes s).take b).drop (a + x.length)).take y.length = y := by
        rw [← List.drop_drop, hxyz]
        simp
      rw [List.drop_take, List.take_take, Nat.min_eq_left (by omega)] at h1
      rw [← hy]
      exact h1
    rwa [hyy] at this

/-- A string has at least one part; an empty string has one empty part. -/
theorem C55_split_nonempty (s separator : Text) : split N s separator ≠ [] := by
  obtain ⟨p, ps, e⟩ := splitParts_ne_nil separator (N.graphemes separator).length (N.graphemes s).length (N.graphemes s)
  rw [split, e]
  simp

example : split hangul "a,b,,c".toList ",".toList = ["a".toList, "b".toList, [], "c".toList] := by decide

end Ferlium.Text
