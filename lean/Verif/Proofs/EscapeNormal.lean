import Verif.Proofs.Escape

/-! Normalising a quoted text changes nothing when no escape which ends with a letter is followed by a composing character. -/
namespace Ferlium.Text

/-- A way to escape characters: the escapes are ASCII texts which start with a backslash. -/
structure EscapeLaws (e : Char → Text) : Prop where
  form : ∀ c, e c = [c] ∨ (c.toNat < 0x300 ∧ ∃ r x, e c = '\\' :: (r ++ [x]) ∧ (∀ y ∈ r, y.toNat < 128) ∧
    x.toNat < 128 ∧ (x.isAlpha = true ∨ solitary x = true))

/-- The escape of `c` ends with a letter. -/
def EndsInLetter (e : Char → Text) (c : Char) : Prop := ∃ r x, e c = '\\' :: (r ++ [x]) ∧ x.isAlpha = true

/-- No escape which ends with a letter is followed by a character which may compose with the letter. -/
def Separated (N : Normaliser) (e : Char → Text) (s : Text) : Prop :=
  ∀ (a b : Text) (c d : Char), s = a ++ c :: d :: b → EndsInLetter e c → N.Opens d

theorem Separated.tail {N : Normaliser} {e : Char → Text} {c : Char} {s : Text} (h : Separated N e (c :: s)) : Separated N e s :=
  fun a b x y hs hx => h (c :: a) b x y (by rw [hs]; rfl) hx

/-- A text splits at its first escaped character. -/
theorem first_escaped (e : Char → Text) : ∀ s : Text, (s.flatMap e = s) ∨
    ∃ a c b, s = a ++ c :: b ∧ a.flatMap e = a ∧ e c ≠ [c]
  | [] => .inl rfl
  | c :: s => by
    by_cases hc : e c = [c]
    · rcases first_escaped e s with h | ⟨a, d, b, hs, ha, hd⟩
      · left
        rw [List.flatMap_cons, hc, h]
        rfl
      · right
        refine ⟨c :: a, d, b, by rw [hs]; rfl, ?_, hd⟩
        rw [List.flatMap_cons, hc, ha]
        rfl
    · exact .inr ⟨[], c, s, rfl, rfl, hc⟩

theorem quote_normal {N : Normaliser} (L : N.Lawful) {e : Char → Text} (E : EscapeLaws e) :
    ∀ (n : Nat) (s : Text), s.length = n → N.Normal s → Separated N e s → N.Normal (s.flatMap e ++ ['"']) := by
  have hq : ('"' : Char).toNat < 0x300 := by decide
  have hb : ('\\' : Char).toNat < 0x300 := by decide
  intro n
  induction n using Nat.strong_induction_on with
  | _ n ih =>
    intro s hn hs hsep
    rcases first_escaped e s with h | ⟨a, c, b, rfl, ha, hc⟩
    · rw [h]
      exact L.opens '"' hq s [] hs (L.low _ hq)
    · have hna : N.Normal a := L.left hs
      have hnb : N.Normal b := by
        have : a ++ c :: b = (a ++ [c]) ++ b := by simp
        rw [this] at hs
        exact L.right hs
      have hsb : Separated N e b := by
        intro p q x y hb hx
        exact hsep (a ++ c :: p) q x y (by rw [hb]; simp) hx
      have hY := ih b.length (by simp at hn; omega) b rfl hnb hsb
      obtain h | ⟨hlow, r, x, hec, hr, hx, hlast⟩ := E.form c
      · exact absurd h hc
      have hall : ∀ y ∈ '\\' :: (r ++ [x]), y.toNat < 0x300 := by
        intro y hy
        simp only [List.mem_cons, List.mem_append, List.not_mem_nil, or_false] at hy
        rcases hy with rfl | hy | rfl
        · decide
        · have := hr y hy; omega
        · omega
      have hesc : N.Normal ('\\' :: (r ++ [x])) := L.ascii _ hall
      have hmid : N.Normal ('\\' :: (r ++ [x]) ++ (b.flatMap e ++ ['"'])) := by
        rcases hlast with halpha | hsol
        · have hhead : ∃ y t, b.flatMap e ++ ['"'] = y :: t ∧ N.Opens y := by
            cases b with
            | nil => exact ⟨'"', [], rfl, L.opens _ hq⟩
            | cons d b =>
              obtain h | ⟨_, r', x', hed, _⟩ := E.form d
              · refine ⟨d, b.flatMap e ++ ['"'], by rw [List.flatMap_cons, h]; simp, ?_⟩
                exact hsep a b c d rfl ⟨r, x, hec, halpha⟩
              · exact ⟨'\\', (r' ++ [x']) ++ (b.flatMap e ++ ['"']), by rw [List.flatMap_cons, hed]; simp, L.opens _ hb⟩
          obtain ⟨y, t, hyt, hy⟩ := hhead
          rw [hyt] at hY ⊢
          exact hy _ _ hesc hY
        · have := L.closes x hsol ('\\' :: r) (b.flatMap e ++ ['"']) (by simpa using hesc) hY
          simpa using this
      have hfin := L.opens '\\' hb a _ hna hmid
      rw [List.flatMap_append, List.flatMap_cons, ha, hec]
      simpa using hfin

theorem quoted_normal {N : Normaliser} (L : N.Lawful) {e : Char → Text} (E : EscapeLaws e) {s : Text} (hs : N.Normal s)
    (hsep : Separated N e s) : N.nfc (quoted e s) = quoted e s := by
  have := L.closes '"' (by decide) [] _ (L.low _ (by decide)) (quote_normal L E _ s rfl hs hsep)
  simpa [quoted, Normaliser.Normal] using this

theorem IsHex.class {c : Char} (h : IsHex c) : c.isAlpha = true ∨ solitary c = true := by
  have : ∀ n : Fin 128, (48 ≤ n.val ∧ n.val ≤ 57) ∨ (97 ≤ n.val ∧ n.val ≤ 102) →
      (Char.ofNat n.val).isAlpha = true ∨ solitary (Char.ofNat n.val) = true := by decide
  have hlt : c.toNat < 128 := by unfold IsHex at h; omega
  have h1 := this ⟨c.toNat, hlt⟩ h
  simpa [Char.ofNat_toNat] using h1

theorem IsHex.lt {c : Char} (h : IsHex c) : c.toNat < 128 := by unfold IsHex at h; omega

theorem isControl_lt {c : Char} (h : isControl c = true) : c.toNat < 0xA0 := by
  simp only [isControl, Bool.or_eq_true, decide_eq_true_eq, Bool.and_eq_true] at h
  omega

theorem escape_laws : EscapeLaws escape where
  form c := by
    unfold escape
    split
    · rename_i h; subst h; exact .inr ⟨by decide, [], '"', rfl, by simp, by decide, .inr (by decide)⟩
    · split
      · rename_i h; subst h; exact .inr ⟨by decide, [], '\\', rfl, by simp, by decide, .inr (by decide)⟩
      · split
        · rename_i h; subst h; exact .inr ⟨by decide, [], 'n', rfl, by simp, by decide, .inl (by decide)⟩
        · split
          · rename_i h; subst h; exact .inr ⟨by decide, [], 'r', rfl, by simp, by decide, .inl (by decide)⟩
          · split
            · rename_i h; subst h; exact .inr ⟨by decide, [], 't', rfl, by simp, by decide, .inl (by decide)⟩
            · split
              · rename_i h
                have hlt := isControl_lt h
                refine .inr ⟨by omega, 'u' :: '{' :: toHex c.toNat, '}', by simp, ?_, by decide, .inr (by decide)⟩
                intro y hy
                simp only [List.mem_cons] at hy
                rcases hy with rfl | rfl | hy
                · decide
                · decide
                · exact (toHex_hex _ y hy).lt
              · exact .inl rfl

theorem toHex4_hex (n : Nat) : ∀ c ∈ toHex4 n, IsHex c := by
  intro c hc
  rcases List.mem_append.mp hc with hc | hc
  · rw [List.eq_of_mem_replicate hc]
    exact .inl (by decide)
  · exact toHex_hex n c hc

theorem toHex4_last (n : Nat) : ∃ r x, toHex4 n = r ++ [x] := by
  rcases List.eq_nil_or_concat (toHex4 n) with h | ⟨r, x, h⟩
  · have := toHex_ne_nil n
    simp only [toHex4, List.append_eq_nil_iff] at h
    exact absurd h.2 this
  · exact ⟨r, x, by simpa using h⟩

theorem escapeJson_laws : EscapeLaws escapeJson where
  form c := by
    unfold escapeJson
    split
    · rename_i h; subst h; exact .inr ⟨by decide, [], '"', rfl, by simp, by decide, .inr (by decide)⟩
    · split
      · rename_i h; subst h; exact .inr ⟨by decide, [], '\\', rfl, by simp, by decide, .inr (by decide)⟩
      · split
        · rename_i h; subst h; exact .inr ⟨by decide, [], 'n', rfl, by simp, by decide, .inl (by decide)⟩
        · split
          · rename_i h; subst h; exact .inr ⟨by decide, [], 'r', rfl, by simp, by decide, .inl (by decide)⟩
          · split
            · rename_i h; subst h; exact .inr ⟨by decide, [], 't', rfl, by simp, by decide, .inl (by decide)⟩
            · split
              · rename_i h; subst h; exact .inr ⟨by decide, [], 'b', rfl, by simp, by decide, .inl (by decide)⟩
              · split
                · rename_i h; subst h; exact .inr ⟨by decide, [], 'f', rfl, by simp, by decide, .inl (by decide)⟩
                · split
                  · rename_i h
                    have hlt := isControl_lt h
                    obtain ⟨r, x, hrx⟩ := toHex4_last c.toNat
                    have hx : ∀ y ∈ r ++ [x], IsHex y := hrx ▸ toHex4_hex c.toNat
                    refine .inr ⟨by omega, 'u' :: r, x, by rw [hrx]; simp, ?_, (hx x (by simp)).lt, (hx x (by simp)).class⟩
                    intro y hy
                    simp only [List.mem_cons] at hy
                    rcases hy with rfl | hy
                    · decide
                    · exact (hx y (by simp [hy])).lt
                  · exact .inl rfl

end Ferlium.Text
