import Verif.Model.Normal
import Mathlib.Tactic

/-! Composition from left to right satisfies the laws of a normal form when no composite and no first part is a second part. -/
namespace Ferlium.Text

/-- What the composition of neighbours needs. -/
structure PairLaws (pair : Char → Char → Option Char) : Prop where
  first : ∀ a b d, pair a b = some d → ∀ p, pair p a = none
  result : ∀ a b d, pair a b = some d → ∀ p, pair p d = none

section
variable {pair : Char → Char → Option Char}

/-- No two neighbours compose. -/
def Stable (pair : Char → Char → Option Char) : Text → Prop
  | [] => True
  | [_] => True
  | a :: b :: rest => pair a b = none ∧ Stable pair (b :: rest)

theorem compose_cons_some {a b d : Char} {r : Text} (h : pair a b = some d) :
    compose pair (a :: b :: r) = compose pair (d :: r) := by
  rw [compose, h]

theorem compose_cons_none {a b : Char} {r : Text} (h : pair a b = none) :
    compose pair (a :: b :: r) = a :: compose pair (b :: r) := by
  rw [compose, h]

/-- The result starts with the first character or with a composite. -/
theorem compose_head (L : PairLaws pair) :
    ∀ (n : Nat) (a : Char) (r : Text), r.length = n → ∃ (h : Char) (t : Text), compose pair (a :: r) = h :: t ∧ ∀ p, pair p a = none → pair p h = none := by
  intro n
  induction n with
  | zero =>
    intro a r hr
    cases r with
    | nil => exact ⟨a, [], by rw [compose], fun p h => h⟩
    | cons _ _ => simp at hr
  | succ n ih =>
    intro a r hr
    cases r with
    | nil => simp at hr
    | cons b r =>
      have hr : r.length = n := by simpa using hr
      rcases hp : pair a b with _ | d
      · exact ⟨a, compose pair (b :: r), compose_cons_none hp, fun p h => h⟩
      · obtain ⟨h, t, e, hh⟩ := ih d r hr
        exact ⟨h, t, by rw [compose_cons_some hp, e], fun p _ => hh p (L.result a b d hp p)⟩

theorem compose_head_none (L : PairLaws pair) {x y : Char} {r : Text} (hp : pair x y = none) :
    ∃ (h : Char) (t : Text), compose pair (y :: r) = h :: t ∧ pair x h = none := by
  obtain ⟨h, t, e, hh⟩ := compose_head L r.length y r rfl
  exact ⟨h, t, e, hh x hp⟩

theorem compose_stable (L : PairLaws pair) : ∀ (n : Nat) (s : Text), s.length = n → Stable pair (compose pair s) := by
  intro n
  induction n using Nat.strong_induction_on with
  | _ n ih =>
    intro s hs
    match s with
    | [] => simp [compose, Stable]
    | [a] => simp [compose, Stable]
    | a :: b :: r =>
      rcases hp : pair a b with _ | d
      · rw [compose_cons_none hp]
        have h0 := ih (b :: r).length (by simp at hs ⊢; omega) (b :: r) rfl
        obtain ⟨h, t, e, hh⟩ := compose_head_none L (r := r) hp
        rw [e] at h0 ⊢
        exact ⟨hh, h0⟩
      · rw [compose_cons_some hp]
        exact ih (d :: r).length (by simp at hs ⊢; omega) (d :: r) rfl

theorem compose_of_stable : ∀ {s : Text}, Stable pair s → compose pair s = s
  | [], _ => by rw [compose]
  | [a], _ => by rw [compose]
  | a :: b :: r, h => by rw [compose_cons_none h.1, compose_of_stable h.2]

theorem normal_iff (L : PairLaws pair) (s : Text) : compose pair s = s ↔ Stable pair s :=
  ⟨fun h => h ▸ compose_stable L _ s rfl, compose_of_stable⟩

theorem stable_cons {a : Char} {s : Text} (h : Stable pair (a :: s)) : Stable pair s := by
  cases s with
  | nil => trivial
  | cons b r => exact h.2

theorem stable_append_right : ∀ {a b : Text}, Stable pair (a ++ b) → Stable pair b
  | [], _, h => h
  | _ :: a, _, h => stable_append_right (a := a) (stable_cons h)

theorem stable_append_left : ∀ {a b : Text}, Stable pair (a ++ b) → Stable pair a
  | [], _, _ => trivial
  | [_], _, _ => trivial
  | x :: y :: r, b, h => ⟨h.1, stable_append_left (a := y :: r) (b := b) h.2⟩

/-- Stability is local. -/
theorem stable_join : ∀ {a : Text} {x y : Char} {b : Text}, Stable pair (a ++ [x]) → pair x y = none → Stable pair (y :: b) →
    Stable pair (a ++ x :: y :: b)
  | [], _, _, _, _, hp, h => ⟨hp, h⟩
  | [_], _, _, _, h0, hp, h => ⟨h0.1, hp, h⟩
  | _ :: q :: a, _, _, _, h0, hp, h => ⟨h0.1, stable_join (a := q :: a) h0.2 hp h⟩

theorem compose_append_left (L : PairLaws pair) :
    ∀ (n : Nat) (a b : Text), a.length = n → compose pair (compose pair a ++ b) = compose pair (a ++ b) := by
  intro n
  induction n using Nat.strong_induction_on with
  | _ n ih =>
    intro a b ha
    match a with
    | [] => rw [compose]
    | [x] => rw [compose]
    | x :: y :: r =>
      rcases hp : pair x y with _ | d
      · have h0 := ih (y :: r).length (by simp at ha ⊢; omega) (y :: r) b rfl
        obtain ⟨h, t, e, hh⟩ := compose_head_none L (r := r) hp
        rw [compose_cons_none hp]
        rw [e] at h0 ⊢
        simp only [List.cons_append] at h0 ⊢
        rw [compose_cons_none hh, h0, compose_cons_none hp]
      · rw [compose_cons_some hp, ih (d :: r).length (by simp at ha ⊢; omega) (d :: r) b rfl]
        simp only [List.cons_append]
        rw [compose_cons_some hp]

/-- A character which is no second part starts afresh. -/
theorem compose_split (L : PairLaws pair) {x : Char} (hx : ∀ p, pair p x = none) :
    ∀ (n : Nat) (s t : Text), s.length = n → compose pair (s ++ x :: t) = compose pair s ++ compose pair (x :: t) := by
  intro n
  induction n using Nat.strong_induction_on with
  | _ n ih =>
    intro s t hs
    match s with
    | [] => simp [compose]
    | [a] => simp only [List.cons_append, List.nil_append]; rw [compose_cons_none (hx a), compose]; rfl
    | a :: b :: r =>
      rcases hp : pair a b with _ | d
      · rw [compose_cons_none hp]
        simp only [List.cons_append]
        rw [compose_cons_none hp, ← List.cons_append (a := b), ih (b :: r).length (by simp at hs ⊢; omega) (b :: r) t rfl]
      · rw [compose_cons_some hp]
        simp only [List.cons_append]
        rw [compose_cons_some hp, ← List.cons_append (a := d), ih (d :: r).length (by simp at hs ⊢; omega) (d :: r) t rfl]

theorem compose_append_right (L : PairLaws pair) :
    ∀ (n : Nat) (a b : Text), b.length = n → compose pair (a ++ compose pair b) = compose pair (a ++ b) := by
  intro n
  induction n using Nat.strong_induction_on with
  | _ n ih =>
    intro a b hb
    match b with
    | [] => rw [compose]
    | [x] => rw [compose]
    | x :: y :: r =>
      rcases hp : pair x y with _ | d
      · rw [compose_cons_none hp]
        have := ih (y :: r).length (by simp at hb ⊢; omega) (a ++ [x]) (y :: r) rfl
        simpa using this
      · rw [compose_cons_some hp, ih (d :: r).length (by simp at hb ⊢; omega) a (d :: r) rfl,
          compose_split L (L.result x y d hp) _ a r rfl, compose_split L (L.first x y d hp) _ a (y :: r) rfl,
          compose_cons_some hp]

end

theorem hangulPair_cases {a b d : Char} (h : hangulPair a b = some d) :
    (0x1161 ≤ b.toNat ∧ b.toNat < 0x1176 ∨ 0x11A7 < b.toNat ∧ b.toNat < 0x11C3 ∨ b.toNat = 0x303) ∧
    (0x1100 ≤ a.toNat ∧ a.toNat < 0x1113 ∨ 0xAC00 ≤ a.toNat ∧ a.toNat < 0xD7A4 ∨ a.toNat = 0x6E) ∧
    (0xAC00 ≤ d.toNat ∧ d.toNat < 0xD7A4 ∨ d.toNat = 0xF1) := by
  have ofNat (n : Nat) (h : n < 0xD800) : (Char.ofNat n).toNat = n := by
    rw [Char.ofNat, dif_pos (Or.inl h)]
    rfl
  unfold hangulPair at h
  simp only at h
  split at h
  · rename_i hc
    simp only [Option.some.injEq] at h
    subst h
    rw [ofNat _ (by omega)]
    omega
  · split at h
    · rename_i hc
      simp only [Option.some.injEq] at h
      subst h
      rw [ofNat _ (by omega)]
      omega
    · split at h
      · rename_i hc
        simp only [Option.some.injEq] at h
        subst h
        rw [ofNat _ (by omega)]
        omega
      · simp at h

theorem hangul_pairLaws : PairLaws hangulPair where
  first a b d h p := by
    rcases hp : hangulPair p a with _ | e
    · rfl
    · have h1 := hangulPair_cases h
      have h2 := hangulPair_cases hp
      omega
  result a b d h p := by
    rcases hp : hangulPair p d with _ | e
    · rfl
    · have h1 := hangulPair_cases h
      have h2 := hangulPair_cases hp
      omega

theorem hangul_normal (s : Text) : hangul.Normal s ↔ Stable hangulPair s := normal_iff hangul_pairLaws s

theorem hangul_second {p c : Char} (h : c.toNat < 0x300) : hangulPair p c = none := by
  rcases hp : hangulPair p c with _ | e
  · rfl
  · have := hangulPair_cases hp
    omega

theorem isAlpha_n {c : Char} (h : c.toNat = 0x6E) : c.isAlpha = true := by
  have : c = 'n' := by
    apply Char.ext
    apply UInt32.toNat_inj.mp
    exact h
  subst this
  decide

theorem hangul_lawful : hangul.Lawful where
  idem s := by
    rw [hangul_normal]
    exact compose_stable hangul_pairLaws _ s rfl
  join a b := by
    change compose hangulPair (compose hangulPair a ++ compose hangulPair b) = compose hangulPair (a ++ b)
    rw [compose_append_left hangul_pairLaws _ a _ rfl, compose_append_right hangul_pairLaws _ a b rfl]
  part a b c h := by
    rw [hangul_normal] at h ⊢
    exact stable_append_right (stable_append_left h)
  low c _ := by
    rw [hangul_normal]
    trivial
  opens c hc a b ha hb := by
    rw [hangul_normal] at ha hb ⊢
    rcases List.eq_nil_or_concat a with rfl | ⟨a', x, rfl⟩
    · simpa using hb
    · simp only [List.concat_eq_append, List.append_assoc, List.singleton_append] at ha ⊢
      exact stable_join ha (hangul_second hc) hb
  closes c hc a b ha hb := by
    rw [hangul_normal] at ha hb ⊢
    cases b with
    | nil => exact ha
    | cons y b =>
      refine stable_join ha ?_ hb
      rcases hp : hangulPair c y with _ | e
      · rfl
      · have h1 := hangulPair_cases hp
        simp only [solitary, Bool.and_eq_true, decide_eq_true_eq, Bool.not_eq_true', bne_iff_ne] at hc
        have hn : c.toNat = 0x6E := by omega
        rw [isAlpha_n hn] at hc
        simp at hc
  marks c hc := by
    simp only [hangul, Bool.and_eq_false_iff, decide_eq_false_iff_not]
    omega
  clusters s := by
    induction s with
    | nil => rfl
    | cons c s ih => simpa [hangul] using ih
  plain s _ := rfl

/-! ### Consequences of the laws -/

namespace Normaliser
variable {N : Normaliser}

theorem Lawful.nil (L : N.Lawful) : N.Normal [] := L.part (N.nfc []) [] [] (by simpa using L.idem [])

theorem Lawful.left (L : N.Lawful) {a b : Text} (h : N.Normal (a ++ b)) : N.Normal a := L.part [] a b (by simpa using h)

theorem Lawful.right (L : N.Lawful) {a b : Text} (h : N.Normal (a ++ b)) : N.Normal b := L.part a b [] (by simpa using h)

/-- A text of characters below U+0300 is normalised. -/
theorem Lawful.ascii (L : N.Lawful) : ∀ s : Text, (∀ c ∈ s, c.toNat < 0x300) → N.Normal s
  | [], _ => L.nil
  | [c], h => L.low c (h c (by simp))
  | c :: d :: s, h => by
    have := L.opens d (h d (by simp)) [c] s (L.low c (h c (by simp))) (L.ascii (d :: s) fun x hx => h x (by simp [List.mem_cons.mp hx]))
    simpa using this

end Normaliser

end Ferlium.Text
