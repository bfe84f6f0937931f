import Verif.Model.BitSet
import Mathlib.Tactic
import Mathlib.Data.Finset.Sort

/-! Lemmas about the bit set model. -/
namespace Ferlium.BitSet

theorem word_ext {a b : W} (h : ∀ i < 64, a.getLsbD i = b.getLsbD i) : a = b :=
  BitVec.eq_of_getLsbD_eq (by intro i hi; exact h i hi)

theorem word_ne_zero {a : W} : a ≠ 0#64 ↔ ∃ i < 64, a.getLsbD i = true := by
  constructor
  · intro h
    by_contra hc
    push Not at hc
    exact h (word_ext (by intro i hi; simpa using hc i hi))
  · rintro ⟨i, hi, h⟩ rfl
    simp at h

theorem getLsbD_bitOf (i j : Nat) (hj : j < 64) : (bitOf i).getLsbD j = decide (j = i % 64) := by
  have : i % 64 < 64 := Nat.mod_lt _ (by omega)
  rw [bitOf, BitVec.getLsbD_shiftLeft]
  simp only [BitVec.getLsbD_one]
  by_cases h : j = i % 64
  · simp [h, this]
  · simp [h, hj]; omega

theorem and_bitOf (w : W) (i : Nat) : ((w &&& bitOf i) != 0#64) = w.getLsbD (i % 64) := by
  have hlt : i % 64 < 64 := Nat.mod_lt _ (by omega)
  rw [Bool.eq_iff_iff, bne_iff_ne, word_ne_zero]
  constructor
  · rintro ⟨j, hj, h⟩
    rw [BitVec.getLsbD_and, getLsbD_bitOf _ _ hj] at h
    simp at h
    rw [← h.2]; exact h.1
  · intro h
    exact ⟨i % 64, hlt, by rw [BitVec.getLsbD_and, getLsbD_bitOf _ _ hlt]; simp [h]⟩

/-- Membership as seen through the words. -/
def bit (s : BS) (i : Nat) : Bool := (wordAt s (i / 64)).getLsbD (i % 64)

theorem contains_eq_bit (s : BS) (i : Nat) : contains s i = bit s i := by
  cases s with
  | empty => simp [contains, bit, wordAt]
  | inline b =>
    simp only [contains, bit, wordAt, and_bitOf]
    by_cases h : i / 64 = 0 <;> simp [h]
  | heap ws =>
    simp only [contains, bit, wordAt]
    cases h : ws[i / 64]? with
    | none => simp
    | some w => simp [and_bitOf]

theorem div_mod_inj {i j : Nat} : (i / 64 = j / 64 ∧ i % 64 = j % 64) ↔ i = j := by omega

/-- Representation invariant: a boxed slice is never empty. -/
def Ok : BS → Prop
  | .heap ws => ws ≠ []
  | _ => True

theorem zeroed_get (n i : Nat) : ((zeroed n)[i]?).getD 0#64 = 0#64 := by
  rw [zeroed, List.getElem?_replicate]; split <;> simp

theorem bit_of_wordAt_or {s t : BS} {index : Nat}
    (h : ∀ k, wordAt t k = if k = index / 64 then wordAt s k ||| bitOf index else wordAt s k) (i : Nat) :
    bit t i = (decide (i = index) || bit s i) := by
  have hlt : i % 64 < 64 := Nat.mod_lt _ (by omega)
  rw [bit, h]
  by_cases hk : i / 64 = index / 64
  · rw [if_pos hk, BitVec.getLsbD_or, getLsbD_bitOf _ _ hlt]
    have : (i % 64 = index % 64) ↔ i = index := by omega
    simp only [this, bit]
    exact Bool.or_comm _ _
  · rw [if_neg hk]
    have : i ≠ index := by omega
    simp [this, bit]

theorem wordAt_insert (s : BS) (index k : Nat) :
    wordAt (insert s index) k = if k = index / 64 then wordAt s k ||| bitOf index else wordAt s k := by
  cases s with
  | empty =>
    simp only [insert]
    split
    · rename_i h
      simp only [wordAt, h]; by_cases hk : k = 0 <;> simp [hk]
    · simp only [wordAt, List.getElem?_set, zeroed, List.length_replicate, List.getElem?_replicate]
      by_cases hk : k = index / 64
      · simp [hk]
      · simp only [hk, if_false, Ne.symm hk]; split <;> simp
  | inline b =>
    simp only [insert]
    split
    · rename_i h
      simp only [wordAt, h]; by_cases hk : k = 0 <;> simp [hk]
    · rename_i h
      simp only [wordAt, List.getElem?_modify, List.getElem?_set, zeroed, List.length_replicate,
        List.getElem?_replicate]
      by_cases hk : k = index / 64
      · subst hk; simp [h, Ne.symm h]
      · by_cases hz : k = 0
        · subst hz; simp [h, Ne.symm h]
        · simp only [hk, hz, if_false, Ne.symm hk, Ne.symm hz]; split <;> simp
  | heap ws =>
    simp only [insert]
    split
    · rename_i h
      simp only [wordAt, List.getElem?_modify]
      by_cases hk : k = index / 64
      · subst hk; simp [h]
      · simp [hk, Ne.symm hk]
    · rename_i h
      simp only [wordAt, List.getElem?_modify, List.getElem?_append, zeroed, List.getElem?_replicate]
      by_cases hk : k = index / 64
      · subst hk
        have : index / 64 - ws.length < index / 64 + 1 - ws.length := by omega
        have h' : ws.length ≤ index / 64 := by omega
        simp [h, this]
      · simp only [hk, Ne.symm hk, if_false]
        by_cases hkl : k < ws.length
        · simp [hkl]
        · have h' : ws.length ≤ k := by omega
          rw [List.getElem?_eq_none h']; simp only [hkl, if_false]; split <;> simp

theorem bit_insert (s : BS) (index i : Nat) : bit (insert s index) i = (decide (i = index) || bit s i) :=
  bit_of_wordAt_or (wordAt_insert s index) i

theorem ok_insert {s : BS} (h : Ok s) (index : Nat) : Ok (insert s index) := by
  cases s <;> simp only [insert] <;> split <;> simp_all [Ok, zeroed]

theorem wordAt_remove (s : BS) (index k : Nat) :
    wordAt (remove s index) k = if k = index / 64 then wordAt s k &&& ~~~bitOf index else wordAt s k := by
  cases s with
  | empty => simp [remove, wordAt]
  | inline b =>
    simp only [remove]
    split
    · rename_i h; simp only [wordAt, h]; by_cases hk : k = 0 <;> simp [hk]
    · rename_i h
      simp only [wordAt]; by_cases hk : k = index / 64
      · subst hk; simp [h]
      · simp [hk]
  | heap ws =>
    simp only [remove, wordAt, List.getElem?_modify]
    by_cases hk : k = index / 64
    · subst hk; cases ws[index / 64]? <;> simp
    · simp [hk, Ne.symm hk]

theorem bit_remove (s : BS) (index i : Nat) : bit (remove s index) i = (!decide (i = index) && bit s i) := by
  have hlt : i % 64 < 64 := Nat.mod_lt _ (by omega)
  rw [bit, wordAt_remove]
  by_cases hk : i / 64 = index / 64
  · rw [if_pos hk, BitVec.getLsbD_and, BitVec.getLsbD_not, getLsbD_bitOf _ _ hlt]
    have : (i % 64 = index % 64) ↔ i = index := by omega
    simp only [this, bit, hlt, decide_true, Bool.true_and]
    exact Bool.and_comm _ _
  · rw [if_neg hk]
    have : i ≠ index := by omega
    simp [this, bit]

theorem ok_remove {s : BS} (h : Ok s) (index : Nat) : Ok (remove s index) := by
  cases s <;> simp only [remove] <;> try split
  all_goals simp_all [Ok]

theorem wordAt_cons_or (w b : W) (ws : List W) (k : Nat) :
    (((w ||| b) :: ws)[k]?).getD 0#64 = (((w :: ws)[k]?).getD 0#64 ||| if k = 0 then b else 0#64) := by
  cases k <;> simp

theorem unionWith_spec {s t : BS} (hs : Ok s) (ht : Ok t) :
    ∃ u, unionWith s t = some u ∧ Ok u ∧ ∀ k, wordAt u k = wordAt s k ||| wordAt t k := by
  cases s with
  | empty => cases t <;> exact ⟨_, rfl, ht, by simp [wordAt]⟩
  | inline a =>
    cases t with
    | empty => exact ⟨_, rfl, hs, by simp [wordAt]⟩
    | inline b => exact ⟨_, rfl, trivial, by intro k; simp only [wordAt]; split <;> simp⟩
    | heap ws =>
      cases ws with
      | nil => exact absurd rfl ht
      | cons w ws =>
        refine ⟨_, rfl, by simp [Ok], fun k => ?_⟩
        simp only [wordAt, wordAt_cons_or]; exact BitVec.or_comm _ _
  | heap ws =>
    cases t with
    | empty => exact ⟨_, rfl, hs, by simp [wordAt]⟩
    | inline b =>
      cases ws with
      | nil => exact absurd rfl hs
      | cons w ws =>
        refine ⟨_, rfl, by simp [Ok], fun k => ?_⟩
        simp only [wordAt, wordAt_cons_or]
    | heap vs =>
      have key : ∀ l : List W, vs.length ≤ l.length → ∀ k : Nat,
          ((List.zipWith (· ||| ·) l vs ++ l.drop vs.length)[k]?).getD 0#64 =
            ((l[k]?).getD 0#64 ||| (vs[k]?).getD 0#64) := by
        intro l hl k
        rw [List.getElem?_append, List.length_zipWith, Nat.min_eq_right hl]
        by_cases hk : k < vs.length
        · rw [if_pos hk, List.getElem?_zipWith]
          rw [List.getElem?_eq_getElem hk, List.getElem?_eq_getElem (show k < l.length by omega)]
          simp
        · rw [if_neg hk, List.getElem?_drop, List.getElem?_eq_none (show vs.length ≤ k by omega)]
          rw [show vs.length + (k - vs.length) = k by omega]; simp
      refine ⟨_, rfl, ?_, fun k => ?_⟩
      · simp only [Ok] at *
        split
        · intro h
          have := congrArg List.length h
          simp [zeroed] at this
          rcases ws with _ | ⟨_, _⟩ <;> rcases vs with _ | ⟨_, _⟩ <;> simp_all
        · intro h
          have := congrArg List.length h
          simp at this
          rcases ws with _ | ⟨_, _⟩ <;> rcases vs with _ | ⟨_, _⟩ <;> simp_all
      · simp only [wordAt]
        split
        · rename_i h
          rw [key _ (by simp [zeroed]; omega)]
          congr 1
          rw [List.getElem?_append]
          split
          · rfl
          · rw [zeroed_get, List.getElem?_eq_none (by omega)]; rfl
        · rename_i h
          rw [key _ (by omega)]

theorem ok_withCapacity (n : Nat) : Ok (withCapacity n) := by
  rw [withCapacity]; split
  · trivial
  · rename_i h
    simp only [Ok, zeroed]
    intro hc
    have := congrArg List.length hc
    simp at this; omega

theorem wordAt_withCapacity (n k : Nat) : wordAt (withCapacity n) k = 0#64 := by
  rw [withCapacity]; split
  · simp [wordAt]
  · simp only [wordAt, zeroed_get]

theorem nonzeroLen_spec (ws : List W) :
    (∀ k, nonzeroLen ws ≤ k → (ws[k]?).getD 0#64 = 0#64) ∧
    (∀ n, nonzeroLen ws = n + 1 → (ws[n]?).getD 0#64 ≠ 0#64) := by
  induction ws with
  | nil => simp [nonzeroLen]
  | cons w ws ih =>
    obtain ⟨h1, h2⟩ := ih
    simp only [nonzeroLen]
    split
    · rename_i h
      rw [h] at h1
      split
      · rename_i hw
        refine ⟨fun k _ => ?_, by simp⟩
        cases k with
        | zero => simp [hw]
        | succ k => simpa using h1 k (by omega)
      · rename_i hw
        refine ⟨fun k hk => ?_, fun n hn => ?_⟩
        · cases k with
          | zero => omega
          | succ k => simpa using h1 k (by omega)
        · obtain rfl : n = 0 := by omega
          simpa using hw
    · rename_i h
      refine ⟨fun k hk => ?_, fun n hn => ?_⟩
      · cases k with
        | zero => omega
        | succ k => simpa using h1 k (by omega)
      · obtain ⟨m, hm⟩ : ∃ m, nonzeroLen ws = m + 1 := ⟨nonzeroLen ws - 1, by omega⟩
        have : n = m + 1 := by omega
        subst this
        simpa using h2 m hm

theorem nonzeroWordLen_spec (s : BS) :
    (∀ k, nonzeroWordLen s ≤ k → wordAt s k = 0#64) ∧ (∀ n, nonzeroWordLen s = n + 1 → wordAt s n ≠ 0#64) := by
  cases s with
  | empty => simp [nonzeroWordLen, wordAt]
  | inline b =>
    simp only [nonzeroWordLen, wordAt]
    by_cases h : b = 0#64
    · simp [h]
    · simp only [h, if_false]
      refine ⟨fun k hk => ?_, fun n hn => ?_⟩
      · rw [if_neg (by omega)]
      · rw [if_pos (by omega)]; exact h
  | heap ws => exact nonzeroLen_spec ws

theorem nonzeroWordLen_congr {s t : BS} (h : ∀ k, wordAt s k = wordAt t k) :
    nonzeroWordLen s = nonzeroWordLen t := by
  obtain ⟨s1, s2⟩ := nonzeroWordLen_spec s
  obtain ⟨t1, t2⟩ := nonzeroWordLen_spec t
  rcases Nat.lt_trichotomy (nonzeroWordLen s) (nonzeroWordLen t) with hlt | heq | hlt
  · exfalso
    obtain ⟨m, hm⟩ : ∃ m, nonzeroWordLen t = m + 1 := ⟨nonzeroWordLen t - 1, by omega⟩
    exact t2 m hm (by rw [← h]; exact s1 m (by omega))
  · exact heq
  · exfalso
    obtain ⟨m, hm⟩ : ∃ m, nonzeroWordLen s = m + 1 := ⟨nonzeroWordLen s - 1, by omega⟩
    exact s2 m hm (by rw [h]; exact t1 m (by omega))

theorem wordAt_congr {s t : BS} (h : ∀ i, bit s i = bit t i) (k : Nat) : wordAt s k = wordAt t k := by
  refine word_ext (fun i hi => ?_)
  have := h (k * 64 + i)
  rw [bit, bit, show (k * 64 + i) / 64 = k by omega, show (k * 64 + i) % 64 = i by omega] at this
  exact this

theorem eqB_iff (s t : BS) : eqB s t = true ↔ ∀ i, bit s i = bit t i := by
  rw [eqB]
  constructor
  · split
    · simp
    · rename_i h
      push Not at h
      intro hall i
      have : ∀ k, wordAt s k = wordAt t k := by
        intro k
        by_cases hk : k < nonzeroWordLen s
        · simpa using List.all_eq_true.1 hall k (by simpa using hk)
        · rw [(nonzeroWordLen_spec s).1 k (by omega), (nonzeroWordLen_spec t).1 k (by omega)]
      rw [bit, bit, this]
  · intro h
    have hw := wordAt_congr h
    have := nonzeroWordLen_congr hw
    simp [this, hw]

theorem hashInput_iff (s t : BS) : hashInput s = hashInput t ↔ ∀ i, bit s i = bit t i := by
  constructor
  · intro h i
    simp only [hashInput, Prod.mk.injEq] at h
    obtain ⟨h1, h2⟩ := h
    rw [bit, bit]
    congr 1
    by_cases hk : i / 64 < nonzeroWordLen s
    · rw [h1] at h2
      have := congrArg (·[i / 64]?) h2
      simpa [show i / 64 < nonzeroWordLen t by omega] using this
    · rw [(nonzeroWordLen_spec s).1 _ (by omega), (nonzeroWordLen_spec t).1 _ (by omega)]
  · intro h
    have hw := wordAt_congr h
    rw [hashInput, hashInput, nonzeroWordLen_congr hw]
    simp [hw]

theorem isEmpty_iff (s : BS) : isEmpty s = true ↔ ∀ i, bit s i = false := by
  rw [isEmpty]
  simp only [decide_eq_true_eq]
  constructor
  · intro h i
    rw [bit, (nonzeroWordLen_spec s).1 _ (by omega)]; simp
  · intro h
    by_contra hc
    obtain ⟨m, hm⟩ : ∃ m, nonzeroWordLen s = m + 1 := ⟨nonzeroWordLen s - 1, by omega⟩
    refine (nonzeroWordLen_spec s).2 m hm (word_ext fun i hi => ?_)
    have := h (m * 64 + i)
    rw [bit, show (m * 64 + i) / 64 = m by omega, show (m * 64 + i) % 64 = i by omega] at this
    simpa using this

theorem and_ne_zero (a b : W) : ((a &&& b) != 0#64) = true ↔ ∃ i < 64, a.getLsbD i = true ∧ b.getLsbD i = true := by
  rw [bne_iff_ne, word_ne_zero]; simp [BitVec.getLsbD_and]

theorem exists_bit_iff {s t : BS} :
    (∃ i, bit s i = true ∧ bit t i = true) ↔ ∃ k, ((wordAt s k &&& wordAt t k) != 0#64) = true := by
  constructor
  · rintro ⟨i, h1, h2⟩
    exact ⟨i / 64, (and_ne_zero _ _).2 ⟨i % 64, Nat.mod_lt _ (by omega), h1, h2⟩⟩
  · rintro ⟨k, h⟩
    obtain ⟨i, hi, h1, h2⟩ := (and_ne_zero _ _).1 h
    refine ⟨k * 64 + i, ?_, ?_⟩ <;>
    rw [bit, show (k * 64 + i) / 64 = k by omega, show (k * 64 + i) % 64 = i by omega] <;> assumption

theorem intersects_spec {s t : BS} (hs : Ok s) (ht : Ok t) :
    ∃ b, intersects s t = some b ∧ (b = true ↔ ∃ i, bit s i = true ∧ bit t i = true) := by
  simp only [exists_bit_iff]
  cases s with
  | empty => exact ⟨false, by cases t <;> rfl, by simp [wordAt]⟩
  | inline a =>
    cases t with
    | empty => exact ⟨false, rfl, by simp [wordAt]⟩
    | inline b =>
      refine ⟨_, rfl, fun h => ⟨0, by simpa [wordAt] using h⟩, ?_⟩
      rintro ⟨k, h⟩
      simp only [wordAt] at h
      by_cases hk : k = 0 <;> simp [hk] at h ⊢; exact h
    | heap vs =>
      cases vs with
      | nil => exact absurd rfl ht
      | cons v vs =>
        refine ⟨_, rfl, fun h => ⟨0, by simpa [wordAt] using h⟩, ?_⟩
        rintro ⟨k, h⟩
        simp only [wordAt] at h
        by_cases hk : k = 0 <;> simp [hk] at h ⊢; exact h
  | heap ws =>
    cases t with
    | empty => exact ⟨false, rfl, by simp [wordAt]⟩
    | inline b =>
      cases ws with
      | nil => exact absurd rfl hs
      | cons w ws =>
        refine ⟨_, rfl, fun h => ⟨0, by simpa [wordAt, BitVec.and_comm] using h⟩, ?_⟩
        rintro ⟨k, h⟩
        simp only [wordAt] at h
        by_cases hk : k = 0 <;> simp [hk] at h ⊢; rwa [BitVec.and_comm]
    | heap vs =>
      refine ⟨_, rfl, ?_⟩
      simp only [List.any_eq_true, wordAt, id]
      constructor
      · rintro ⟨x, hx, h⟩
        obtain ⟨k, hk, rfl⟩ := List.getElem_of_mem hx
        simp only [List.length_zipWith] at hk
        refine ⟨k, ?_⟩
        rw [List.getElem_zipWith] at h
        rw [List.getElem?_eq_getElem (by omega), List.getElem?_eq_getElem (by omega)]
        exact h
      · rintro ⟨k, h⟩
        by_cases h1 : k < ws.length
        · by_cases h2 : k < vs.length
          · rw [List.getElem?_eq_getElem h1, List.getElem?_eq_getElem h2] at h
            exact ⟨true, List.mem_iff_getElem.2 ⟨k, by simp; omega, by rw [List.getElem_zipWith]; exact h⟩, rfl⟩
          · rw [List.getElem?_eq_none (show vs.length ≤ k by omega)] at h; simp at h
        · rw [List.getElem?_eq_none (show ws.length ≤ k by omega)] at h; simp at h

/-! ### Iteration -/

/-- Positions of the set bits of a word, ascending. -/
def ones (w : W) : List Nat := (List.range 64).filter (fun i => w.getLsbD i)

theorem mem_ones {w : W} {i : Nat} : i ∈ ones w ↔ w.getLsbD i = true := by
  simp only [ones, List.mem_filter, List.mem_range]
  constructor
  · exact fun h => h.2
  · intro h
    exact ⟨by by_contra hc; rw [BitVec.getLsbD_of_ge _ _ (by omega)] at h; simp at h, h⟩

theorem ones_sorted (w : W) : (ones w).Pairwise (· < ·) := List.Pairwise.filter _ (List.pairwise_lt_range)

theorem countOnes_eq (w : W) : countOnes w = (ones w).length := by
  rw [countOnes, ones, List.countP_eq_length_filter]

theorem ones_zero : ones 0#64 = [] := by simp [ones]

theorem trailingZeros_spec {w : W} (h : w ≠ 0#64) :
    w.getLsbD (trailingZeros w) = true ∧ ∀ j < trailingZeros w, w.getLsbD j = false := by
  obtain ⟨i, hi, hb⟩ := word_ne_zero.1 h
  rw [trailingZeros]
  cases hf : (List.range 64).find? (fun i => w.getLsbD i) with
  | none =>
    rw [List.find?_eq_none] at hf
    exact absurd hb (hf i (by simpa using hi))
  | some t =>
    simp only [Option.getD_some]
    rw [List.find?_eq_some_iff_getElem] at hf
    obtain ⟨ht, k, hk, hkt, hall⟩ := hf
    simp at hkt
    subst hkt
    refine ⟨ht, fun j hj => ?_⟩
    have := hall j hj
    simpa using this

theorem testBit_clear_lowest (x t : Nat) (ht : x.testBit t = true) (hl : ∀ j < t, x.testBit j = false) (j : Nat) :
    (x &&& (x - 1)).testBit j = (x.testBit j && decide (j ≠ t)) := by
  have hmod : x % 2 ^ t = 0 := by
    apply Nat.eq_of_testBit_eq
    intro i
    rw [Nat.testBit_mod_two_pow]
    by_cases hi : i < t <;> simp [hi, hl]
  obtain ⟨q, hq⟩ := Nat.dvd_of_mod_eq_zero hmod
  have hqo : q.testBit 0 = true := by
    have := ht
    rw [hq, show 2 ^ t * q = 2 ^ t * q + 0 by omega, Nat.testBit_two_pow_mul_add _ (by positivity)] at this
    simpa using this
  obtain ⟨a, ha⟩ : ∃ a, q = 2 * a + 1 := by
    rw [Nat.testBit_zero] at hqo
    simp at hqo
    exact ⟨q / 2, by omega⟩
  have hpos : 0 < 2 ^ t := by positivity
  have hx1 : x - 1 = 2 ^ t * (2 * a) + (2 ^ t - 1) := by
    rw [hq, ha, Nat.mul_add]; omega
  rw [Nat.testBit_and, hx1, Nat.testBit_two_pow_mul_add _ (by omega)]
  by_cases hj : j < t
  · simp [hj, hl j hj]
  · rw [if_neg hj]
    have hxj : x.testBit j = (2 * a + 1).testBit (j - t) := by
      rw [hq, ha, show 2 ^ t * (2 * a + 1) = 2 ^ t * (2 * a + 1) + 0 by omega,
        Nat.testBit_two_pow_mul_add _ hpos, if_neg hj]
    by_cases hjt : j = t
    · subst hjt; simp
    · rw [hxj]
      obtain ⟨m, hm⟩ : ∃ m, j - t = m + 1 := ⟨j - t - 1, by omega⟩
      rw [hm, Nat.testBit_succ, Nat.testBit_succ]
      rw [show (2 * a + 1) / 2 = a by omega, show 2 * a / 2 = a by omega]
      simp [hjt]

theorem getLsbD_clear_lowest {w : W} (h : w ≠ 0#64) (j : Nat) :
    (w &&& (w - 1#64)).getLsbD j = (w.getLsbD j && decide (j ≠ trailingZeros w)) := by
  obtain ⟨h1, h2⟩ := trailingZeros_spec h
  have hne : w.toNat ≠ 0 := fun hc => h (by apply BitVec.eq_of_toNat_eq; simpa using hc)
  have hsub : (w - 1#64).toNat = w.toNat - 1 := by
    rw [BitVec.toNat_sub]
    have := w.isLt
    simp
    omega
  rw [← BitVec.testBit_toNat, ← BitVec.testBit_toNat, BitVec.toNat_and, hsub]
  exact testBit_clear_lowest _ _ (by simpa [BitVec.testBit_toNat] using h1)
    (by intro j hj; simpa [BitVec.testBit_toNat] using h2 j hj) j

/-- Two strictly ascending lists with the same members are equal. -/
theorem sorted_ext {a b : List Nat} (ha : a.Pairwise (· < ·)) (hb : b.Pairwise (· < ·)) (h : ∀ i, i ∈ a ↔ i ∈ b) :
    a = b := by
  have hp : a.Perm b := (List.perm_ext_iff_of_nodup (ha.imp (fun h => Nat.ne_of_lt h)) (hb.imp (fun h => Nat.ne_of_lt h))).2 h
  exact List.Perm.eq_of_pairwise (le := (· < ·)) (fun x y _ _ h1 h2 => absurd h1 (by omega)) ha hb hp

theorem ones_ne_zero {w : W} (h : w ≠ 0#64) : ones w = trailingZeros w :: ones (w &&& (w - 1#64)) := by
  obtain ⟨h1, h2⟩ := trailingZeros_spec h
  refine sorted_ext (ones_sorted w) ?_ ?_
  · refine List.pairwise_cons.2 ⟨fun j hj => ?_, ones_sorted _⟩
    rw [mem_ones, getLsbD_clear_lowest h] at hj
    simp at hj
    rcases Nat.lt_trichotomy (trailingZeros w) j with hlt | heq | hgt
    · exact hlt
    · exact absurd heq.symm hj.2
    · rw [h2 j hgt] at hj; simp at hj
  · intro i
    rw [List.mem_cons, mem_ones, mem_ones, getLsbD_clear_lowest h]
    by_cases hi : i = trailingZeros w
    · simp [hi, h1]
    · simp [hi]

/-- Members contributed by the words of a slice starting at word number `base`. -/
def onesFrom : Nat → List W → List Nat
  | _, [] => []
  | base, w :: ws => (ones w).map (base * 64 + ·) ++ onesFrom (base + 1) ws

theorem mem_onesFrom {ws : List W} {base i : Nat} :
    i ∈ onesFrom base ws ↔ base * 64 ≤ i ∧ ((ws[i / 64 - base]?).getD 0#64).getLsbD (i % 64) = true := by
  induction ws generalizing base with
  | nil => simp [onesFrom]
  | cons w ws ih =>
    rw [onesFrom, List.mem_append, ih, List.mem_map]
    constructor
    · rintro (⟨j, hj, rfl⟩ | ⟨h1, h2⟩)
      · rw [mem_ones] at hj
        have : j < 64 := by by_contra hc; rw [BitVec.getLsbD_of_ge _ _ (by omega)] at hj; simp at hj
        rw [show (base * 64 + j) / 64 - base = 0 by omega, show (base * 64 + j) % 64 = j by omega]
        exact ⟨by omega, by simpa using hj⟩
      · refine ⟨by omega, ?_⟩
        rw [show i / 64 - base = (i / 64 - (base + 1)) + 1 by omega]
        simpa using h2
    · rintro ⟨h1, h2⟩
      by_cases hb : i / 64 = base
      · left
        rw [show i / 64 - base = 0 by omega] at h2
        exact ⟨i % 64, mem_ones.2 (by simpa using h2), by omega⟩
      · right
        refine ⟨by omega, ?_⟩
        rw [show i / 64 - base = (i / 64 - (base + 1)) + 1 by omega] at h2
        simpa using h2

theorem onesFrom_sorted (ws : List W) (base : Nat) : (onesFrom base ws).Pairwise (· < ·) := by
  induction ws generalizing base with
  | nil => simp [onesFrom]
  | cons w ws ih =>
    rw [onesFrom, List.pairwise_append]
    refine ⟨?_, ih _, ?_⟩
    · rw [List.pairwise_map]
      exact (ones_sorted w).imp (by intro a b h; omega)
    · intro a ha b hb
      rw [List.mem_map] at ha
      obtain ⟨j, hj, rfl⟩ := ha
      rw [mem_ones] at hj
      have : j < 64 := by by_contra hc; rw [BitVec.getLsbD_of_ge _ _ (by omega)] at hj; simp at hj
      have := (mem_onesFrom.1 hb).1
      omega

theorem onesFrom_length (ws : List W) (base : Nat) : (onesFrom base ws).length = (ws.map countOnes).sum := by
  induction ws generalizing base with
  | nil => rfl
  | cons w ws ih => simp [onesFrom, ih, countOnes_eq]

/-- The members of a set in ascending order. -/
def elems : BS → List Nat
  | .empty => []
  | .inline b => ones b
  | .heap ws => onesFrom 0 ws

theorem mem_elems (s : BS) (i : Nat) : i ∈ elems s ↔ bit s i = true := by
  cases s with
  | empty => simp [elems, bit, wordAt]
  | inline b =>
    rw [elems, mem_ones, bit, wordAt]
    by_cases h : i < 64
    · rw [if_pos (by omega), Nat.mod_eq_of_lt h]
    · rw [if_neg (by omega), BitVec.getLsbD_of_ge _ _ (by omega)]; simp
  | heap ws => rw [elems, mem_onesFrom, bit, wordAt]; simp

theorem elems_sorted (s : BS) : (elems s).Pairwise (· < ·) := by
  cases s with
  | empty => simp [elems]
  | inline b => exact ones_sorted b
  | heap ws => exact onesFrom_sorted ws 0

theorem len_eq (s : BS) : len s = (elems s).length := by
  cases s with
  | empty => rfl
  | inline b => simp [len, elems, countOnes_eq]
  | heap ws => simp [len, elems, onesFrom_length]

/-- What an iterator will still yield. -/
def remaining : Ones → List Nat
  | .inline c => ones c
  | .heap ws k c => (ones c).map (k * 64 + ·) ++ onesFrom (k + 1) (ws.drop (k + 1))

theorem next_spec (it : Ones) : (next it).1 = (remaining it).head? ∧ remaining (next it).2 = (remaining it).tail := by
  cases it with
  | inline c =>
    rw [next]
    split
    · rename_i h; subst h; simp [remaining, ones_zero]
    · rename_i h; simp only [remaining, ones_ne_zero h]; simp
  | heap ws k c =>
    rw [next]
    fun_induction heapNext ws k c with
    | case1 k c h =>
      simp only [remaining]
      conv => rhs; rw [ones_ne_zero h]
      conv => lhs; rw [ones_ne_zero h]
      simp
    | case2 k c h h' =>
      simp at h
      subst h
      simp only [remaining, ones_zero]
      rw [List.drop_eq_nil_of_le (by omega), List.drop_eq_nil_of_le (by omega)]
      simp [onesFrom]
    | case3 k c h h' ih =>
      simp at h
      subst h
      have heq : remaining (.heap ws k 0#64) = remaining (.heap ws (k + 1) (ws[k + 1]'(by omega))) := by
        simp only [remaining, ones_zero]
        rw [List.drop_eq_getElem_cons (show k + 1 < ws.length by omega)]
        simp [onesFrom]
      rw [heq]
      exact ih

theorem remaining_iterOnes {s : BS} (hs : Ok s) : remaining (iterOnes s) = elems s := by
  cases s with
  | empty => simp [iterOnes, remaining, elems, ones_zero]
  | inline b => rfl
  | heap ws =>
    cases ws with
    | nil => exact absurd rfl hs
    | cons w ws => simp [iterOnes, remaining, elems, onesFrom]

theorem takeNext_spec (n : Nat) (it : Ones) :
    takeNext n it = (List.range n).map (fun i => (remaining it)[i]?) := by
  induction n generalizing it with
  | zero => rfl
  | succ n ih =>
    obtain ⟨h1, h2⟩ := next_spec it
    simp only [takeNext]
    rw [ih, h1, h2, List.range_succ_eq_map, List.map_cons, List.map_map]
    cases remaining it <;> simp [Function.comp_def]

end Ferlium.BitSet
