import Verif.Proofs.Source

/-!
Properties C28 and C52: source positions and ranges.

Specification: a text is its list of characters; a position in it is a split `pre ++ post`.
-/

namespace Ferlium.Source

/-- Line number after the text `pre`: one more than the newlines in it. -/
def lineAfter (pre : List Char) : Nat := pre.count '\n' + 1

/-- Column after the text `pre`: one more than the characters since the last newline. -/
def columnAfter (pre : List Char) : Nat := (pre.reverse.takeWhile (· ≠ '\n')).length + 1

theorem columnAfter_split (q m : List Char) (hm : '\n' ∉ m) (hq : q = [] ∨ ∃ q', q = q' ++ ['\n']) :
    columnAfter (q ++ m) = m.length + 1 ∧ lineAfter (q ++ m) = q.count '\n' + 1 := by
  constructor
  · unfold columnAfter
    rw [List.reverse_append, List.takeWhile_append_of_pos]
    · rcases hq with rfl | ⟨q', rfl⟩ <;> simp
    · intro x hx
      have : x ≠ '\n' := fun h => hm (by rw [← h]; simpa using hx)
      simpa using this
  · simp [lineAfter, List.count_eq_zero.mpr hm]

/-- **C28** At every byte offset of a text the reported line and column are those of the character
the offset is in (or of the end of the text): one more than the newlines before it, and one more than
the characters between the last newline and it. -/
theorem C28_line_column (pre post : List Char) (b : Nat) (h1 : bytes pre ≤ b)
    (h2 : b ≤ bytes (pre ++ post)) (h3 : ∀ c ∈ post.head?, b < bytes pre + c.utf8Size) :
    (Entry.new (pre ++ post)).getLineColumn b = some (lineAfter pre, columnAfter pre) := by
  obtain ⟨q, m, rfl, hm, hq⟩ := split_last_line pre
  obtain ⟨hc, hl⟩ := columnAfter_split q m hm hq
  rw [hc, hl]
  refine getLineColumn_boundary q m post hm hq b h2 ?_
  obtain ⟨p, r, ht, hp, hle, hmax⟩ := floorCharBoundary_spec (q ++ m ++ post) b
  rw [← hp]
  have hge := hmax (q ++ m) post rfl h1
  obtain ⟨d, rfl⟩ := prefix_of_bytes_le ht hge
  cases d with
  | nil => simp
  | cons c d =>
    have hpost : post = c :: d ++ r := by simpa using ht
    have := h3 c (by simp [hpost])
    simp only [bytes_append, bytes_cons] at hle this
    omega

/-- **C28** On a character boundary. -/
theorem C28_line_column_at_boundary (pre post : List Char) :
    (Entry.new (pre ++ post)).getLineColumn (bytes pre) = some (lineAfter pre, columnAfter pre) :=
  C28_line_column pre post (bytes pre) le_rfl (by simp)
    (fun c _ => by have := size_pos c; omega)

/-- **C28** The assertion on the offset is the only way to fail. -/
theorem C28_line_column_panics_iff (t : List Char) (b : Nat) :
    (Entry.new t).getLineColumn b = none ↔ bytes t < b := by
  constructor
  · intro h
    by_contra hle
    obtain ⟨p, r, ht, hp, hpb, hmax⟩ := floorCharBoundary_spec t b
    subst ht
    rw [C28_line_column p r b hpb (by omega)] at h
    · cases h
    · intro c hc
      by_contra hge
      cases r with
      | nil => simp at hc
      | cons d r =>
        simp only [List.head?_cons, Option.mem_def, Option.some.injEq] at hc
        subst hc
        have := hmax (p ++ [d]) r (by simp) (by simp; omega)
        have hd := size_pos d
        simp at this
        omega
  · intro h
    unfold Entry.getLineColumn
    rw [if_neg (by show ¬ b ≤ bytes t; omega)]

/-- The UTF-16 encoding of a character (the Unicode standard, not the code). -/
def utf16 (c : Char) : List Nat :=
  if c.toNat < 0x10000 then [c.toNat]
  else [0xD800 + (c.toNat - 0x10000) / 0x400, 0xDC00 + (c.toNat - 0x10000) % 0x400]

/-- The length of a text in the units an editor counts in. -/
def units : Encoding → List Char → Nat
  | .unicodeScalar, t => t.length
  | .utf16CodeUnit, t => (t.flatMap utf16).length

theorem units_eq (enc : Encoding) (t : List Char) : (t.map enc.size).sum = units enc t := by
  induction t with
  | nil => cases enc <;> rfl
  | cons c t ih =>
    rw [List.map_cons, List.sum_cons, ih]
    cases enc
    · simp only [units, List.length_cons, Encoding.size]; omega
    · simp only [units, List.flatMap_cons, List.length_append, Encoding.size]
      congr 1
      unfold utf16Size utf16
      have : c.val.toNat = c.toNat := rfl
      split_ifs <;> first | rfl | omega

/-- **C28** Editor positions count exactly the units (characters, or UTF-16 code units) before the
character the offset is in. -/
theorem C28_editor_position (enc : Encoding) (pre : List Char) (c : Char) (post : List Char) (b : Nat)
    (h1 : bytes pre ≤ b) (h2 : b < bytes pre + c.utf8Size) :
    (Lookup.new (pre ++ c :: post) enc).byteToPosition b = units enc pre := by
  rw [← units_eq]
  obtain ⟨hl, _, h3⟩ := lookupLoop_spec enc (pre ++ c :: post) 0
  have hget := h3 pre c post b rfl h1 h2
  obtain ⟨hb, hx⟩ := List.getElem?_eq_some_iff.mp hget
  unfold Lookup.byteToPosition
  rw [dif_pos (by simpa [Lookup.new] using hb)]
  simpa [Lookup.new] using hx

/-- **C28** Past the text the editor position is the number of units of the text. -/
theorem C28_editor_position_end (enc : Encoding) (t : List Char) (b : Nat) (h : bytes t ≤ b) :
    (Lookup.new t enc).byteToPosition b = units enc t := by
  rw [← units_eq]
  obtain ⟨hl, he, _⟩ := lookupLoop_spec enc t 0
  unfold Lookup.byteToPosition
  rw [dif_neg (by simp only [Lookup.new, hl]; omega)]
  simp [Lookup.new, he]

/-- **C28** A snippet always exists, consists of whole characters, starts with the character the start
offset is in and ends with the first character that reaches the end offset. -/
theorem C28_snippet (t : List Char) (start stop : Nat) :
    ∃ pre mid post, t = pre ++ mid ++ post ∧ (Entry.new t).getSnippet start stop = some mid ∧
      -- the longest prefix not beyond the start
      (bytes pre ≤ start ∧ ∀ p q, t = p ++ q → bytes p ≤ start → bytes p ≤ bytes pre) ∧
      -- the shortest prefix reaching the end
      (min (max stop (bytes pre)) (bytes t) ≤ bytes (pre ++ mid) ∧
        ∀ p q, t = p ++ q → min (max stop (bytes pre)) (bytes t) ≤ bytes p →
          bytes (pre ++ mid) ≤ bytes p) := by
  obtain ⟨p, q, ht, hp, hle, hmax⟩ := floorCharBoundary_spec t start
  obtain ⟨p', q', ht', hp', hge, hmin⟩ := ceilCharBoundary_spec t (max stop (bytes p))
  have hpp : bytes p ≤ bytes p' := by
    have : bytes p ≤ bytes t := by rw [ht]; simp
    omega
  obtain ⟨m, rfl⟩ := prefix_of_bytes_le (ht.symm.trans ht') hpp
  refine ⟨p, m, q', ht', ?_, ⟨hle, hmax⟩, ⟨hge, hmin⟩⟩
  unfold Entry.getSnippet
  simp only [show (Entry.new t).source = t from rfl, ← hp, ← hp']
  rw [ht', slice_append]

/-- **C28** The snippet of a range of whole characters is that range. -/
theorem C28_snippet_exact (pre mid post : List Char) :
    (Entry.new (pre ++ mid ++ post)).getSnippet (bytes pre) (bytes (pre ++ mid)) = some mid := by
  obtain ⟨p, m, q, ht, hs, ⟨h1, h2⟩, h3, h4⟩ :=
    C28_snippet (pre ++ mid ++ post) (bytes pre) (bytes (pre ++ mid))
  rw [hs]
  have e1 := h2 pre (mid ++ post) (by simp) le_rfl
  have hbp : bytes p = bytes pre := by omega
  have e2 := h4 (pre ++ mid) post rfl (by rw [hbp]; simp)
  have e3 : bytes (pre ++ mid) ≤ bytes (p ++ m) := by
    rw [hbp] at h3
    simp only [bytes_append] at h3 ⊢
    omega
  obtain ⟨d, hd⟩ := prefix_of_bytes_le (p := p) (q := m ++ q) (p' := pre) (q' := mid ++ post)
    (by simpa using ht.symm) (by omega)
  have hd0 : d = [] := bytes_eq_zero.mp (by rw [hd] at hbp; simp at hbp; omega)
  subst hd0
  simp only [List.append_nil] at hd
  subst hd
  obtain ⟨d, hd⟩ := prefix_of_bytes_le (p := pre ++ m) (q := q) (p' := pre ++ mid) (q' := post)
    ht.symm (by omega)
  have hd0 : d = [] := bytes_eq_zero.mp (by rw [hd] at e3; simp at e3; omega)
  subst hd0
  simp only [List.append_nil, List.append_cancel_left_eq] at hd
  rw [hd]

/-- A text with a two-byte, a four-byte and a newline character. -/
def sample : List Char := ['é', '\n', '😀', 'a']

/-- Offset 5 is inside the four-byte character: line 2, column 1, UTF-16 position 2. -/
example : (Entry.new sample).getLineColumn 5 = some (2, 1) :=
  C28_line_column ['é', '\n'] ['😀', 'a'] 5 (by decide) (by decide) (by
    intro c hc; simp at hc; subst hc; decide)

example : (Lookup.new sample .utf16CodeUnit).byteToPosition 7 = 4 :=
  C28_editor_position .utf16CodeUnit ['é', '\n', '😀'] 'a' [] 7 (by decide) (by decide)

/-! ### Fusing ranges -/

theorem fuse_foldl (src : Nat) : ∀ (ls : List Loc) (st : FuseState),
    (∀ l ∈ ls, l.source = src) → (st.source = none ∨ st.source = some src) →
    ∃ st', ls.foldlM fuseStep st = some st' ∧
      st'.source = (if ls = [] then st.source else some src) ∧
      st'.start = ls.foldl (fun a l => min a l.start) st.start ∧
      st'.stop = ls.foldl (fun a l => max a l.stop) st.stop := by
  intro ls
  induction ls with
  | nil => intro st _ _; exact ⟨st, rfl, by simp, rfl, rfl⟩
  | cons l ls ih =>
    intro st hl hs
    have hsrc : l.source = src := hl l (by simp)
    have hstep : fuseStep st l = some ⟨some src, min st.start l.start, max st.stop l.stop⟩ := by
      unfold fuseStep
      rcases hs with h | h <;> rw [h] <;> simp [hsrc]
    obtain ⟨st', h1, h2, h3, h4⟩ := ih ⟨some src, min st.start l.start, max st.stop l.stop⟩
      (fun l' h => hl l' (by simp [h])) (.inr rfl)
    refine ⟨st', ?_, ?_, h3, h4⟩
    · simp [List.foldlM_cons, hstep, h1]
    · simp only [reduceCtorEq, if_false]
      rw [h2]; split_ifs <;> rfl

theorem foldl_min_spec : ∀ (ls : List Loc) (a : Nat),
    ls.foldl (fun a l => min a l.start) a ≤ a ∧
    (∀ l ∈ ls, ls.foldl (fun a l => min a l.start) a ≤ l.start) ∧
    (ls.foldl (fun a l => min a l.start) a = a ∨
      ∃ l ∈ ls, l.start = ls.foldl (fun a l => min a l.start) a) := by
  intro ls
  induction ls with
  | nil => intro a; exact ⟨le_rfl, by simp, .inl rfl⟩
  | cons l ls ih =>
    intro a
    obtain ⟨h1, h2, h3⟩ := ih (min a l.start)
    simp only [List.foldl_cons, List.mem_cons, forall_eq_or_imp]
    refine ⟨by omega, ⟨by omega, h2⟩, ?_⟩
    rcases h3 with h | ⟨l', hl', h⟩
    · rcases Nat.le_total a l.start with h' | h'
      · left; omega
      · right; exact ⟨l, .inl rfl, by omega⟩
    · right; exact ⟨l', .inr hl', h⟩

theorem foldl_max_spec : ∀ (ls : List Loc) (a : Nat),
    a ≤ ls.foldl (fun a l => max a l.stop) a ∧
    (∀ l ∈ ls, l.stop ≤ ls.foldl (fun a l => max a l.stop) a) ∧
    (ls.foldl (fun a l => max a l.stop) a = a ∨
      ∃ l ∈ ls, l.stop = ls.foldl (fun a l => max a l.stop) a) := by
  intro ls
  induction ls with
  | nil => intro a; exact ⟨le_rfl, by simp, .inl rfl⟩
  | cons l ls ih =>
    intro a
    obtain ⟨h1, h2, h3⟩ := ih (max a l.stop)
    simp only [List.foldl_cons, List.mem_cons, forall_eq_or_imp]
    refine ⟨by omega, ⟨by omega, h2⟩, ?_⟩
    rcases h3 with h | ⟨l', hl', h⟩
    · rcases Nat.le_total a l.stop with h' | h'
      · right; exact ⟨l, .inl rfl, by omega⟩
      · left; omega
    · right; exact ⟨l', .inr hl', h⟩

/-- **C52** Fusing a non-empty list of ranges of one source gives the smallest range containing them
all: it contains each of them and both its ends are ends of one of them. -/
theorem C52_fuse_smallest (src : Nat) (ls : List Loc) (hne : ls ≠ []) (hsrc : ∀ l ∈ ls, l.source = src)
    (hwf : ∀ l ∈ ls, l.start ≤ l.stop ∧ l.stop < 2 ^ 32) :
    ∃ r, fuse ls = some (some r) ∧ r.source = src ∧
      (∀ l ∈ ls, r.start ≤ l.start ∧ l.stop ≤ r.stop) ∧
      (∃ l ∈ ls, l.start = r.start) ∧ (∃ l ∈ ls, l.stop = r.stop) := by
  obtain ⟨st, h1, h2, h3, h4⟩ := fuse_foldl src ls ⟨none, 2 ^ 32 - 1, 0⟩ hsrc (.inl rfl)
  obtain ⟨m1, m2, m3⟩ := foldl_min_spec ls (2 ^ 32 - 1)
  obtain ⟨x1, x2, x3⟩ := foldl_max_spec ls 0
  simp only [] at h3 h4
  rw [← h3] at m1 m2 m3
  rw [← h4] at x1 x2 x3
  rw [if_neg hne] at h2
  obtain ⟨l₀, hl₀⟩ := List.exists_mem_of_ne_nil ls hne
  have hle : ¬ st.stop < st.start := by
    have := m2 l₀ hl₀; have := x2 l₀ hl₀; have := hwf l₀ hl₀; omega
  refine ⟨⟨src, st.start, st.stop⟩, ?_, rfl, fun l hl => ⟨m2 l hl, x2 l hl⟩, ?_, ?_⟩
  · unfold fuse
    rw [h1]
    simp [h2, Loc.new, hle]
  · rcases m3 with h | h
    · refine ⟨l₀, hl₀, ?_⟩
      have := m2 l₀ hl₀; have := hwf l₀ hl₀
      simp only []; omega
    · exact h
  · rcases x3 with h | h
    · refine ⟨l₀, hl₀, ?_⟩
      have := x2 l₀ hl₀
      simp only []; omega
    · exact h

/-- **C52** Fusing nothing gives nothing. -/
theorem C52_fuse_empty : fuse [] = some none := rfl

theorem fuse_foldl_none (src : Nat) (l : Loc) (hsrc : l.source ≠ src) : ∀ (ls : List Loc) (st : FuseState),
    l ∈ ls → st.source = some src → ls.foldlM fuseStep st = none := by
  intro ls
  induction ls with
  | nil => intro st h; simp at h
  | cons l' ls ih =>
    intro st h hs
    by_cases hl' : l'.source = src
    · have hne : l ≠ l' := by rintro rfl; exact hsrc hl'
      have hstep : fuseStep st l' = some ⟨some src, min st.start l'.start, max st.stop l'.stop⟩ := by
        unfold fuseStep; rw [hs]; simp [hl']
      simp only [List.foldlM_cons, hstep, Option.bind_eq_bind, Option.bind_some]
      exact ih _ (by simpa [hne] using h) rfl
    · have hstep : fuseStep st l' = none := by
        unfold fuseStep; rw [hs]; simp [hl']
      simp [List.foldlM_cons, hstep]

/-- **C52** Ranges of different sources are never mixed: fusing them is refused (host panic). -/
theorem C52_fuse_different_sources (l : Loc) (ls : List Loc) (h : ∃ l' ∈ ls, l'.source ≠ l.source) :
    fuse (l :: ls) = none := by
  obtain ⟨l', hl', hne⟩ := h
  have hstep : fuseStep ⟨none, 2 ^ 32 - 1, 0⟩ l =
      some ⟨some l.source, min (2 ^ 32 - 1) l.start, max 0 l.stop⟩ := rfl
  simp only [fuse, List.foldlM_cons, hstep, Option.bind_eq_bind, Option.bind_some]
  rw [fuse_foldl_none l.source l' hne ls _ hl' rfl]
  rfl

example : fuse [⟨3, 10, 12⟩, ⟨3, 4, 6⟩, ⟨3, 11, 20⟩] = some (some ⟨3, 4, 20⟩) := by rfl

end Ferlium.Source
