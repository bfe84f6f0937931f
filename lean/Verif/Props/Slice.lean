import Verif.Model.Escape
import Verif.Model.StringApi
import Verif.Proofs.Normal
import Mathlib.Tactic

/-! C63: slices of strings.  C18: which texts are string literals. -/
namespace Ferlium.Text

variable {N : Normaliser}

/-! ### Slices -/

/-- The position an index means: negative ones count from the end. -/
def position (index : Int) (len : Nat) : Int := if index < 0 then len + index else index

/-- The characters as a user sees them whose number is from `start` to before `stop`. -/
def between (chars : List Text) (start stop : Int) : List Text :=
  ((chars.zipIdx.filter fun p => start ≤ (p.2 : Int) ∧ (p.2 : Int) < stop).map Prod.fst)

theorem filter_zipIdx (cs : List Text) : ∀ (k : Nat) (a b : Nat), 
    ((cs.zipIdx k).filter fun p => decide ((a : Int) ≤ (p.2 : Int) ∧ (p.2 : Int) < b)).map Prod.fst =
      (cs.take (b - k)).drop (a - k) := by
  induction cs with
  | nil => intro k a b; simp
  | cons c cs ih =>
    intro k a b
    rw [List.zipIdx_cons, List.filter_cons]
    by_cases h1 : b ≤ k
    · rw [if_neg (by simp; omega), ih]
      rw [show b - (k + 1) = 0 by omega, show b - k = 0 by omega]; simp
    · rw [show b - k = (b - (k + 1)) + 1 by omega, List.take_succ_cons]
      by_cases h2 : a ≤ k
      · rw [if_pos (by simp; omega), List.map_cons, ih]
        rw [show a - k = 0 by omega, show a - (k + 1) = 0 by omega]; simp
      · rw [if_neg (by simp; omega), ih, show a - k = (a - (k + 1)) + 1 by omega, List.drop_succ_cons]

theorem filter_congr_pos (cs : List Text) (a b : Int) (a' b' : Nat)
    (h : ∀ k : Nat, k < cs.length → ((a ≤ (k : Int) ∧ (k : Int) < b) ↔ ((a' : Int) ≤ (k : Int) ∧ (k : Int) < b'))) :
    between cs a b = (cs.take b').drop a' := by
  have := filter_zipIdx cs 0 a' b'
  simp only [Nat.sub_zero] at this
  rw [← this, between]
  congr 1
  apply List.filter_congr
  intro p hp
  have hk : p.2 < cs.length := by
    obtain ⟨i, hi⟩ := List.mem_iff_getElem?.mp hp
    rw [List.getElem?_zipIdx, Option.map_eq_some_iff] at hi
    obtain ⟨x, hx, rfl⟩ := hi
    have := (List.getElem?_eq_some_iff.mp hx).1
    simpa using this
  rw [decide_eq_decide]
  exact h p.2 hk

/-- **C63.** A slice consists of exactly the characters, as a user sees them, between the two positions; negative indices
count from the end, and positions outside of the string are no error. -/
theorem C63_slice_exact (s : Text) (start stop : Int) :
    slice N s start stop =
      (between (N.graphemes s) (position start (N.graphemes s).length) (position stop (N.graphemes s).length)).flatten := by
  rw [filter_congr_pos (N.graphemes s) _ _ (sliceIndex start (N.graphemes s).length) (sliceIndex stop (N.graphemes s).length)]
  · simp only [slice]
    split
    · rename_i h
      rw [List.drop_eq_nil_of_le (by simp; omega)]; rfl
    · rfl
  · intro k hk
    simp only [position, sliceIndex]
    split <;> split <;> omega

/-- **C63.** Cutting a string at any position gives two parts which together are the string. -/
theorem C63_cut (L : N.Lawful) (s : Text) (i : Int) :
    slice N s 0 i ++ slice N s i (N.graphemes s).length = s := by
  have e : ∀ (a b : Int) (a' b' : Nat), sliceIndex a (N.graphemes s).length = a' → sliceIndex b (N.graphemes s).length = b' →
      slice N s a b = (((N.graphemes s).take b').drop a').flatten := by
    rintro a b _ _ rfl rfl
    simp only [slice]
    split
    · rename_i h
      rw [List.drop_eq_nil_of_le (by simp; omega)]; rfl
    · rfl
  rw [e 0 i 0 _ (by simp [sliceIndex]) rfl, e i _ _ (N.graphemes s).length rfl (by simp only [sliceIndex]; split <;> omega)]
  rw [List.drop_zero, List.take_length, ← List.flatten_append, List.take_append_drop, L.clusters]

/-- `slice("hello", -4, 4)` on characters without composition. -/
example : slice hangul "hello".toList (-4) 4 = "ell".toList ∧ slice hangul "hello".toList 2 (-4) = [] ∧
    slice hangul "hello".toList (-9) 99 = "hello".toList := by decide

example : hangul.Lawful ∧ slice hangul "hello".toList 0 (-2) = "hel".toList := ⟨hangul_lawful, by decide⟩

/-! ### String literals -/

/-- The text between the quotes of a literal: no quote, and no backslash but before a character of the same line. -/
inductive Inside : Text → Prop
  | nil : Inside []
  | plain {c : Char} {s : Text} (h1 : c ≠ '"') (h2 : c ≠ '\\') (h : Inside s) : Inside (c :: s)
  | escape {c : Char} {s : Text} (h1 : c ≠ '\n') (h : Inside s) : Inside ('\\' :: c :: s)

theorem token_sound : ∀ {n : Nat} {s body rest : Text}, s.length ≤ n → token s = some (body, rest) →
    s = body ++ '"' :: rest ∧ Inside body := by
  intro n
  induction n with
  | zero =>
    intro s body rest hs h
    match s, hs with
    | [], _ => simp [token] at h
  | succ n ih =>
    intro s body rest hs h
    rw [token.eq_def] at h
    split at h
    · exact nomatch h
    · simp only [Option.some.injEq, Prod.mk.injEq] at h
      obtain ⟨rfl, rfl⟩ := h
      exact ⟨rfl, .nil⟩
    · split at h
      · exact nomatch h
      · rename_i c r hc
        simp only [Option.map_eq_some_iff, Prod.mk.injEq] at h
        obtain ⟨q, hq, rfl, rfl⟩ := h
        obtain ⟨rfl, h2⟩ := ih (by simp at hs; omega) hq
        exact ⟨by simp, .escape hc h2⟩
    · exact nomatch h
    · rename_i c r h1 h2 h3
      simp only [Option.map_eq_some_iff, Prod.mk.injEq] at h
      obtain ⟨q, hq, rfl, rfl⟩ := h
      obtain ⟨rfl, h4⟩ := ih (by simp at hs; omega) hq
      refine ⟨by simp, .plain (fun h => h1 h) ?_ h4⟩
      rintro rfl
      cases hb : q.1 ++ '"' :: q.2 with
      | nil => simp at hb
      | cons d t => exact h2 d t rfl hb

theorem token_complete {body rest : Text} (h : Inside body) : token (body ++ '"' :: rest) = some (body, rest) := by
  induction h with
  | nil => simp [token]
  | @plain c s h1 h2 _ ih =>
    rw [List.cons_append, token, ih]
    · rfl
    · exact h1
    · intro _ _ h; exact absurd h h2
    · intro h; exact absurd h h2
  | @escape c s h1 _ ih =>
    simp only [List.cons_append]
    rw [token, if_neg h1, ih]; rfl

/-- **C18.** Exactly the texts between two quotes without another bare quote are string literals, and their value is the text
between the quotes with the escapes applied, normalised. -/
theorem C18_literals_exact (s v : Text) : readLiteral N s = some v ↔
    ∃ body, s = '"' :: body ++ ['"'] ∧ Inside body ∧ v = N.nfc (unescape body) := by
  constructor
  · intro h
    unfold readLiteral at h
    split at h
    · rename_i rest
      split at h
      · rename_i body ht
        obtain ⟨rfl, h2⟩ := token_sound (Nat.le_refl _) ht
        exact ⟨body, rfl, h2, (Option.some.inj h).symm⟩
      · exact nomatch h
    · exact nomatch h
  · rintro ⟨body, rfl, h, rfl⟩
    have := token_complete (rest := []) h
    show readLiteral N ('"' :: (body ++ ['"'])) = _
    simp only [readLiteral, this]

example : Inside "a\\\"b\\\\".toList := .plain (by decide) (by decide) (.escape (by decide) (.plain (by decide) (by decide)
  (.escape (by decide) .nil)))

end Ferlium.Text
