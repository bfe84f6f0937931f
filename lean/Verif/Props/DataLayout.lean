import Verif.Props.DataText
import Mathlib.Data.List.Infix

/-! C19: what the reader of data text does with white space, comments, parentheses, exponents and text which is left over. -/
namespace Ferlium.Text

variable {F : Type} {H : Host F}

/-- White space, comments to the end of the line and comments between `/*` and the next `*/`. -/
inductive Blank (white : Char → Bool) : Text → Prop
  | nil : Blank white []
  | white {c : Char} {b : Text} (hc : white c = true) (hb : Blank white b) : Blank white (c :: b)
  | line {s b : Text} (hs : '\n' ∉ s) (hb : Blank white b) : Blank white ('/' :: '/' :: (s ++ '\n' :: b))
  | block {s b : Text} (hs : ¬ ['*', '/'] <:+: s ++ ['*']) (hb : Blank white b) : Blank white ('/' :: '*' :: (s ++ '*' :: '/' :: b))

theorem skipIn_line (white : Char → Bool) {s b : Text} (hs : '\n' ∉ s) :
    skipIn white .line (s ++ '\n' :: b) = skipIn white .code b := by
  induction s with
  | nil => simp [skipIn]
  | cons c s ih =>
    simp only [List.mem_cons, not_or] at hs
    rw [List.cons_append, skipIn, if_neg (Ne.symm hs.1), ih hs.2]

theorem skipIn_step (white : Char → Bool) {c : Char} {t : Text} (h : ¬ (c = '*' ∧ ∃ r, t = '/' :: r)) :
    skipIn white .block (c :: t) = skipIn white .block t := by
  rw [skipIn]
  intro r h1 h2
  exact h ⟨h1, r, h2⟩

theorem skipIn_block (white : Char → Bool) {s b : Text} (hs : ¬ ['*', '/'] <:+: s ++ ['*']) :
    skipIn white .block (s ++ '*' :: '/' :: b) = skipIn white .code b := by
  induction s with
  | nil => simp [skipIn]
  | cons c s ih =>
    have h2 : ¬ ['*', '/'] <:+: s ++ ['*'] := fun h => hs (h.trans (List.suffix_cons c _).isInfix)
    have h1 : ¬ (c = '*' ∧ ∃ r, s ++ '*' :: '/' :: b = '/' :: r) := by
      rintro ⟨rfl, r, hr⟩
      cases s with
      | nil => simp at hr
      | cons d s =>
        simp only [List.cons_append, List.cons.injEq] at hr
        obtain ⟨rfl, _⟩ := hr
        exact hs ⟨[], s ++ ['*'], by simp⟩
    rw [List.cons_append, skipIn_step white h1, ih h2]

theorem skip_blank (L : H.Lawful) {b : Text} (hb : Blank H.white b) (s : Text) : skip H (b ++ s) = skip H s := by
  induction hb with
  | nil => rfl
  | @white c b hc _ ih =>
    have : c ≠ '/' := by rintro rfl; rw [L.not_white (by decide)] at hc; exact nomatch hc
    rw [List.cons_append, skip_white hc this, ih]
  | @line t b hs _ ih =>
    show skip H ('/' :: '/' :: (t ++ '\n' :: b) ++ s) = _
    simp only [skip, List.cons_append, List.append_assoc, skipIn] at ih ⊢
    rw [skipIn_line _ hs]
    exact ih
  | @block t b hs _ ih =>
    simp only [skip, List.cons_append, List.append_assoc, skipIn] at ih ⊢
    rw [skipIn_block _ hs]
    exact ih

/-- A comment which is not closed is an error wherever white space is allowed. -/
theorem C19_open_comment (L : H.Lawful) {b s : Text} (hb : Blank H.white b) (hs : ¬ ['*', '/'] <:+: s) :
    skip H (b ++ '/' :: '*' :: s) = none := by
  rw [skip_blank L hb]
  simp only [skip, skipIn]
  induction s with
  | nil => rfl
  | cons c s ih =>
    have h2 : ¬ ['*', '/'] <:+: s := fun h => hs (h.trans (List.suffix_cons c _).isInfix)
    rw [skipIn_step _ (by
      rintro ⟨rfl, r, rfl⟩
      exact hs ⟨[], r, rfl⟩)]
    exact ih h2

theorem readValue_blank (L : H.Lawful) {b : Text} (hb : Blank H.white b) (n : Nat) (s : Text) :
    readValue H n (b ++ s) = readValue H n s := by
  cases n with
  | zero => rfl
  | succ n => rw [readValue, skip_blank L hb, readValue]

/-- White space and comments before a printed value and, after a space, behind it make no difference. -/
theorem C19_layout_partial (L : H.Lawful) {v : Data F} (h : Printable H v) {b b' : Text} (hb : Blank H.white b)
    (hb' : Blank H.white b') : ∃ t, print H v = some t ∧ parse H (b ++ t ++ ' ' :: b') = some v := by
  refine ⟨text H v, print_text L v h, ?_⟩
  have hs : skip H (' ' :: b') = some [] := by
    rw [L.space]
    have := skip_blank L hb' []
    rw [List.append_nil] at this; rw [this]; rfl
  obtain ⟨r', h1, h2⟩ := value_read L v h ((b ++ text H v ++ ' ' :: b').length + 1) (' ' :: b') [] (by simp; omega)
    ⟨hs, .inl rfl, .inr ⟨' ', b', rfl, .inl rfl⟩⟩
  rw [parse, List.append_assoc, readValue_blank L hb]
  rw [List.append_assoc] at h1
  rw [h1, Option.bind_some, h2]
  rfl

/-- Nothing may follow the value but white space and comments: a text which goes on with a delimiter is rejected. -/
theorem C19_left_over_rejected (L : H.Lawful) {v : Data F} (h : Printable H v) {c : Char} {r : Text}
    (hc : c = ',' ∨ c = ')' ∨ c = ']' ∨ c = '}' ∨ c = '=') : ∃ t, print H v = some t ∧ parse H (t ++ c :: r) = none := by
  refine ⟨text H v, print_text L v h, ?_⟩
  have hd : delimiter c = true := by simp only [delimiter, Bool.or_eq_true, beq_iff_eq]; tauto
  obtain ⟨r', h1, h2⟩ := value_read L v h ((text H v ++ c :: r).length + 1) (c :: r) (c :: r) (by simp; omega)
    (Follow.delim L hd)
  rw [parse, h1, Option.bind_some, h2]
  rfl

/-- Parentheses around a printed value make no difference; with a comma they make a tuple. -/
theorem C19_parentheses (L : H.Lawful) {v : Data F} (h : Printable H v) : ∃ t, print H v = some t ∧
    parse H ('(' :: t ++ [')']) = some v ∧ parse H ('(' :: t ++ [',', ')']) = some (.tuple (.cons v .nil)) := by
  refine ⟨text H v, print_text L v h, ?_, ?_⟩
  · obtain ⟨r', h1, h2⟩ := value_read L v h ((text H v ++ [')']).length + 1) [')'] [')'] (by simp; omega)
      (Follow.delim L (by decide))
    rw [parse, List.cons_append, List.length_cons, readValue_paren L, readParen, skip_text L h, Option.bind_some,
      if_neg (head_text L h (by decide)), h1, Option.bind_some, h2, Option.bind_some, if_neg (by simp), skip_delimiter L (by decide)]
    simp [skip_nil]
  · obtain ⟨r', h1, h2⟩ := value_read L v h ((text H v ++ [',', ')']).length + 1) [',', ')'] [',', ')'] (by simp; omega)
      (Follow.delim L (by decide))
    rw [parse, List.cons_append, List.length_cons, readValue_paren L, readParen, skip_text L h, Option.bind_some,
      if_neg (head_text L h (by decide)), h1, Option.bind_some, h2, Option.bind_some, if_pos (by simp)]
    have : skip H [')'] = some [')'] := skip_delimiter L (by decide)
    simp [readItems, this, skip_nil]

/-- A number with an exponent is a floating point number, with or without a fraction. -/
theorem C19_exponents (L : H.Lawful) {sign digits fraction mark sign' digits' : Text}
    (hsign : sign = [] ∨ sign = ['-']) (hne : digits ≠ []) (hd : ∀ c ∈ digits, isDigit c = true)
    (hf : fraction = [] ∨ ∃ ds, fraction = '.' :: ds ∧ ∀ c ∈ ds, isDigit c = true)
    (hm : mark = ['e'] ∨ mark = ['E']) (hs' : sign' = [] ∨ sign' = ['-'] ∨ sign' = ['+'])
    (hd' : ∀ c ∈ digits', isDigit c = true) (hne' : digits' ≠ []) :
    parse H (sign ++ digits ++ fraction ++ mark ++ sign' ++ digits') =
      (H.readFloat (sign ++ digits ++ fraction ++ mark ++ sign' ++ digits')).map .float := by
  generalize htail : mark ++ sign' ++ digits' = tail
  have he : scanExponent tail = (some tail, []) := by
    obtain ⟨h1, h2⟩ := takeWhile_all hd' (rest := []) (.inl rfl)
    rw [List.append_nil] at h1 h2
    have hg : scanExponentSign (sign' ++ digits') = (sign', digits') := by
      rcases hs' with rfl | rfl | rfl
      · match digits', hne', hd' with
        | c :: r, _, hd' =>
          have h0 := hd' c (by simp)
          rw [List.nil_append, scanExponentSign.eq_def]
          split
          · rename_i heq; simp only [List.cons.injEq] at heq; rw [heq.1] at h0; exact absurd h0 (by decide)
          · rename_i heq; simp only [List.cons.injEq] at heq; rw [heq.1] at h0; exact absurd h0 (by decide)
          · rfl
      · rfl
      · rfl
    subst htail
    rcases hm with rfl | rfl <;>
      simp [scanExponent, hg, h1, h2]
  have htl : ∃ c r, tail = c :: r ∧ (c = 'e' ∨ c = 'E') := by
    subst htail
    rcases hm with rfl | rfl
    · exact ⟨'e', _, rfl, .inl rfl⟩
    · exact ⟨'E', _, rfl, .inr rfl⟩
  obtain ⟨tc, tr, htc, hte⟩ := htl
  have hnd : isDigit tc = false := by rcases hte with rfl | rfl <;> decide
  have hnp : tc ≠ '.' := by rcases hte with rfl | rfl <;> decide
  have hfr : ∃ fr, scanFraction (fraction ++ tail) = (fr, tail) ∧ fr.getD [] = fraction := by
    rcases hf with rfl | ⟨ds, rfl, hds⟩
    · exact ⟨none, by rw [List.nil_append]; exact scanFraction_none (.inr ⟨tc, tr, htc, hnp⟩), rfl⟩
    · obtain ⟨h1, h2⟩ := takeWhile_all hds (rest := tail) (.inr ⟨tc, tr, htc, hnd⟩)
      exact ⟨some ('.' :: ds), by simp [scanFraction, h1, h2], rfl⟩
  obtain ⟨fr, hfr1, hfr2⟩ := hfr
  have htd := takeWhile_all hd (rest := fraction ++ tail) (by
    rcases hf with rfl | ⟨ds, rfl, _⟩
    · exact .inr ⟨tc, tr, by simpa using htc, hnd⟩
    · exact .inr ⟨'.', ds ++ tail, rfl, by decide⟩)
  have hsg : scanSign (sign ++ (digits ++ (fraction ++ tail))) = (sign, digits ++ (fraction ++ tail)) := by
    rcases hsign with rfl | rfl
    · match digits, hne, hd with
      | c :: r, _, hd =>
        exact scanSign_digits (.inr ⟨c, r ++ (fraction ++ tail), rfl, isDigit_ne_minus (hd c (by simp))⟩)
    · rfl
  have hall : sign ++ digits ++ fraction ++ mark ++ sign' ++ digits' = sign ++ (digits ++ (fraction ++ tail)) := by
    rw [← htail]; simp
  have hhead : ∃ c r, sign ++ (digits ++ (fraction ++ tail)) = c :: r ∧ (c = '-' ∨ isDigit c = true) := by
    rcases hsign with rfl | rfl
    · match digits, hne, hd with
      | c :: r, _, hd => exact ⟨c, _, rfl, .inr (hd c (by simp))⟩
    · exact ⟨'-', _, rfl, .inl rfl⟩
  obtain ⟨c, r, hcr, hc⟩ := hhead
  rw [hall, parse, readValue_number L _ hcr hc]
  simp only [readNumber, hsg, htd.1, htd.2, hfr1, he, hfr2]
  simp only [Option.isSome_some, Bool.or_true, if_true, Option.getD_some, List.append_assoc]
  cases H.readFloat (sign ++ (digits ++ (fraction ++ tail))) with
  | none => rfl
  | some f => simp [skip_nil]

/-- Comments before and behind a value. -/
example : Blank halves.white "// [\n /* * ] / */ ".toList ∧
    ∃ t, print halves (.int 3) = some t ∧ parse halves ("// [\n /* * ] / */ ".toList ++ t ++ ' ' :: "//\n".toList) = some (.int 3) := by
  have hb : Blank halves.white "// [\n /* * ] / */ ".toList :=
    .line (s := " [".toList) (by decide) (.white (by decide) (.block (s := " * ] / ".toList) (by decide) (.white (by decide) .nil)))
  exact ⟨hb, C19_layout_partial halves_lawful (by simp [Printable, IntRange]) hb (.line (s := []) (by decide) .nil)⟩

end Ferlium.Text
