import Verif.Model.Int
import Mathlib.Tactic

/-! Integer operations: C14 (bits), C15 (division), C16 (comparison helpers). -/
namespace Ferlium.IntOps.Props
open Ferlium.IntOps

theorem toInt_bounds (x : I) : -2^63 ≤ x.toInt ∧ x.toInt < 2^63 := by
  have h1 := BitVec.le_toInt x
  have h2 := BitVec.toInt_lt (x := x)
  constructor <;> [simpa using h1; simpa using h2]

theorem toNat_eq {x : I} (h : 0 ≤ x.toInt) : (x.toNat : Int) = x.toInt := by
  rw [BitVec.toInt_eq_toNat_cond] at h ⊢
  have := x.isLt
  split at h <;> split <;> omega

theorem toInt_neg {x : I} (h : x ≠ BitVec.intMin 64) : (-x).toInt = -x.toInt := by
  have hb := toInt_bounds x
  have hne : x.toInt ≠ -2^63 := fun h' => h (BitVec.toInt_inj.mp (by rw [h']; decide))
  rw [BitVec.toInt_neg, Int.bmod_eq_of_le] <;> omega

theorem clampToU32_eq (x : I) : clampToU32 x = min x.toInt.toNat (2^32 - 1) := by
  unfold clampToU32
  split
  · omega
  · have := toNat_eq (x := x) (by omega); omega

theorem clampedNegatedShift_eq (x : I) : clampedNegatedShift x = min (-x.toInt).toNat (2^32 - 1) := by
  unfold clampedNegatedShift
  simp only []
  rw [clampToU32_eq]
  split
  · rename_i h; subst h; decide
  · rename_i h; rw [toInt_neg h]

/-! ### C14 -/

theorem bit_getLsbD (p : I) (i : Nat) :
    (bit p).getLsbD i = decide (0 ≤ p.toInt ∧ p.toInt < 64 ∧ (i : Int) = p.toInt) := by
  unfold bit
  split
  · simp; omega
  · rename_i h
    unfold checkedShlOne
    rw [clampToU32_eq]
    have hb := toInt_bounds p
    by_cases h64 : p.toInt < 64
    · rw [show min p.toInt.toNat (2^32 - 1) = p.toInt.toNat by omega, if_pos (by omega)]
      simp only [Option.getD_some, BitVec.getLsbD_shiftLeft]
      by_cases hi : (i : Int) = p.toInt
      · have hin : i = p.toInt.toNat := by omega
        have hi64 : i < 64 := by omega
        have h1 : 0 ≤ p.toInt ∧ p.toInt < 64 ∧ (i : Int) = p.toInt := by omega
        simp [h1, ← hin, hi64]
      · have h1 : ¬ (0 ≤ p.toInt ∧ p.toInt < 64 ∧ (i : Int) = p.toInt) := by omega
        simp only [h1, decide_false]
        by_cases h2 : i < p.toInt.toNat
        · simp [h2]
        · have : (1#64).getLsbD (i - p.toInt.toNat) = false := by
            rw [BitVec.getLsbD_one]; simp; omega
          simp [this]
    · rw [if_neg (by omega)]
      simp; omega

/-- **C14 (single bits).** For every value and every position, valid or not: `set_bit`, `clear_bit` change exactly the
addressed bit (nothing when the position is outside 0..63), and `test_bit` reads exactly that bit. -/
theorem C14_single_bit (v p : I) :
    (∀ i : Nat, i < 64 → (setBit v p).getLsbD i = (v.getLsbD i || decide ((i : Int) = p.toInt))) ∧
    (∀ i : Nat, i < 64 → (clearBit v p).getLsbD i = (v.getLsbD i && !decide ((i : Int) = p.toInt))) ∧
    (testBit v p = true ↔ ∃ i : Nat, i < 64 ∧ (i : Int) = p.toInt ∧ v.getLsbD i = true) := by
  refine ⟨fun i hi => ?_, fun i hi => ?_, ?_⟩
  · rw [setBit, BitVec.getLsbD_or, bit_getLsbD]
    congr 1
    rw [decide_eq_decide]; omega
  · rw [clearBit, BitVec.getLsbD_and, BitVec.getLsbD_not, bit_getLsbD]
    simp only [hi, decide_true, Bool.true_and]
    congr 2
    rw [decide_eq_decide]; omega
  · unfold testBit
    rw [decide_eq_true_iff]
    constructor
    · intro hne
      by_contra hno
      push Not at hno
      apply hne
      apply BitVec.eq_of_getLsbD_eq
      intro i hi
      rw [BitVec.getLsbD_and, bit_getLsbD]
      by_cases h : (i : Int) = p.toInt
      · have := hno i hi h
        simp [this]
      · simp [h]
    · rintro ⟨i, hi, hp, hv⟩ h0
      have : (v &&& bit p).getLsbD i = true := by
        rw [BitVec.getLsbD_and, bit_getLsbD, hv]
        simp; omega
      rw [h0] at this
      simp at this

/-- **C14 (population counts).** `count_ones` counts the set bits and `count_zeros` the clear ones; they sum to 64. -/
theorem C14_counts (v : I) :
    countOnes v = ((Finset.range 64).filter (fun i => v.getLsbD i = true)).card ∧
    countZeros v = ((Finset.range 64).filter (fun i => v.getLsbD i = false)).card ∧
    countOnes v + countZeros v = 64 := by
  have key : ∀ p : Nat → Bool, (List.range 64).countP p = ((Finset.range 64).filter (fun i => p i = true)).card := by
    intro p
    rw [List.countP_eq_length_filter, Finset.card_def, Finset.filter_val, Finset.range_val, Multiset.range,
      Multiset.filter_coe, Multiset.coe_card]
    simp
  have hz : countZeros v = ((Finset.range 64).filter (fun i => v.getLsbD i = false)).card := by
    rw [countZeros, countOnes, key]
    congr 1
    apply Finset.filter_congr
    intro i hi
    rw [BitVec.getLsbD_not]
    simp only [Finset.mem_range] at hi
    simp [hi]
  have ho : countOnes v = ((Finset.range 64).filter (fun i => v.getLsbD i = true)).card := key _
  refine ⟨ho, hz, ?_⟩
  rw [ho, hz]
  have := Finset.card_filter_add_card_filter_not (s := Finset.range 64) (fun i => v.getLsbD i = true)
  simpa using this

theorem rotateLeft_getLsbD (v : I) (n i : Nat) (hi : i < 64) :
    (v.rotateLeft n).getLsbD i = v.getLsbD ((i + (64 - n % 64)) % 64) := by
  have hn : n % 64 < 64 := Nat.mod_lt _ (by omega)
  rw [BitVec.getLsbD_rotateLeft]
  by_cases h : i < n % 64
  · rw [cond_eq_ite, if_pos (by simpa using h)]; congr 1; omega
  · rw [cond_eq_ite, if_neg (by simpa using h)]; simp only [hi, decide_true, Bool.true_and]; congr 1; omega

theorem rotateRight_getLsbD (v : I) (n i : Nat) (hi : i < 64) :
    (v.rotateRight n).getLsbD i = v.getLsbD ((i + n) % 64) := by
  have hn : n % 64 < 64 := Nat.mod_lt _ (by omega)
  rw [BitVec.getLsbD_rotateRight]
  by_cases h : i < 64 - n % 64
  · rw [cond_eq_ite, if_pos (by simpa using h)]; congr 1; omega
  · rw [cond_eq_ite, if_neg (by simpa using h)]; simp only [hi, decide_true, Bool.true_and]; congr 1; omega

theorem rotr_rotl (v : I) (n : Nat) : rotr (rotl v n) n = v := by
  apply BitVec.eq_of_getLsbD_eq
  intro i hi
  rw [rotr, rotateRight_getLsbD _ _ _ hi, rotl, rotateLeft_getLsbD _ _ _ (Nat.mod_lt _ (by omega))]
  congr 1; omega

theorem rotl_rotr (v : I) (n : Nat) : rotl (rotr v n) n = v := by
  apply BitVec.eq_of_getLsbD_eq
  intro i hi
  rw [rotl, rotateLeft_getLsbD _ _ _ hi, rotr, rotateRight_getLsbD _ _ _ (Nat.mod_lt _ (by omega))]
  congr 1; omega

/-- **C14 (rotations are inverse).** For every value and every 64-bit amount (negative and huge ones included)
rotating one way and back by the same amount is the identity. -/
theorem C14_rotate_inverse (v s : I) :
    rotateRight (rotateLeft v s) s = v ∧ rotateLeft (rotateRight v s) s = v := by
  unfold rotateLeft rotateRight
  split <;> simp [rotr_rotl, rotl_rotr]

/-- **C14 (rotation meaning), partial.** For amounts of magnitude below 2^32, bit `i` of the value moves to position
`i + s` modulo 64 (`i - s` for right rotation).  Missing: larger amounts, where the claim is false
(`C14_rotate_large_violated`). -/
theorem C14_rotate_meaning_partial (v s : I) (hs : -2^32 < s.toInt ∧ s.toInt < 2^32) (i : Nat) (hi : i < 64) :
    (rotateLeft v s).getLsbD ((i + s.toInt) % 64).toNat = v.getLsbD i ∧
    (rotateRight v s).getLsbD ((i - s.toInt) % 64).toNat = v.getLsbD i := by
  unfold rotateLeft rotateRight
  rw [clampToU32_eq, clampedNegatedShift_eq]
  split
  · rw [rotr, rotl, rotateRight_getLsbD _ _ _ (by omega), rotateLeft_getLsbD _ _ _ (by omega)]
    constructor <;> · congr 1; omega
  · rw [rotr, rotl, rotateRight_getLsbD _ _ _ (by omega), rotateLeft_getLsbD _ _ _ (by omega)]
    constructor <;> · congr 1; omega

/-- **C14 violated (rotation by 2^32).** 2^32 is a multiple of 64, so rotating by it should change nothing; the
amount is clamped to 2^32 - 1 first and the value is rotated by 63. -/
theorem C14_rotate_large_violated :
    (BitVec.ofInt 64 (2^32)).toInt % 64 = 0 ∧ rotateLeft 1#64 (BitVec.ofInt 64 (2^32)) ≠ 1#64 := by
  constructor
  · decide
  · decide

/-- **C14 (negative shift amounts).** For every value and every amount whose negation exists, shifting by the negated
amount is shifting the other way. -/
theorem C14_shift_negative (v s : I) (h : s ≠ BitVec.intMin 64) :
    shiftLeft v (-s) = shiftRight v s ∧ shiftRight v (-s) = shiftLeft v s := by
  unfold shiftLeft shiftRight
  simp only [clampToU32_eq, clampedNegatedShift_eq, toInt_neg h, neg_neg]
  rcases lt_trichotomy s.toInt 0 with h0 | h0 | h0
  · rw [if_neg (by omega), if_pos h0, if_neg (by omega), if_pos h0]; simp
  · rw [h0]; simp [wrappingShl, wrappingShr]
  · rw [if_pos (by omega), if_neg (by omega), if_pos (by omega), if_neg (by omega)]; simp

/-- **C14 (shift meaning), partial.** For amounts 0..63 a left shift multiplies by 2^s (wrapping) and a right shift
is division by 2^s rounding down.  Missing: amounts of 64 and more, where the claim is false
(`C14_shift_large_violated`). -/
theorem C14_shift_meaning_partial (v s : I) (hs : 0 ≤ s.toInt ∧ s.toInt < 64) :
    shiftLeft v s = BitVec.ofInt 64 (v.toInt * 2 ^ s.toInt.toNat) ∧
    (shiftRight v s).toInt = v.toInt / 2 ^ s.toInt.toNat := by
  unfold shiftLeft shiftRight
  rw [if_neg (by omega), if_neg (by omega), clampToU32_eq]
  have e : min s.toInt.toNat (2^32 - 1) % 64 = s.toInt.toNat := by omega
  constructor
  · rw [wrappingShl, e]
    apply BitVec.eq_of_toNat_eq
    rw [BitVec.toNat_shiftLeft, BitVec.toNat_ofInt, Nat.shiftLeft_eq]
    have hv : v.toInt = (v.toNat : Int) - (if 2 * v.toNat < 2^64 then 0 else 2^64) := by
      rw [BitVec.toInt_eq_toNat_cond]; split <;> simp
    rw [hv]
    zify
    rw [Int.toNat_of_nonneg (Int.emod_nonneg _ (by norm_num))]
    split
    · simp
    · rw [sub_mul]
      push_cast
      exact (Int.sub_mul_emod_self_left _ _ _).symm
  · rw [wrappingShr, e, BitVec.toInt_sshiftRight, Int.shiftRight_eq_div_pow]
    norm_num

/-- **C14 violated (shift by 64).** The mathematical results are 0 and -1/0; the amount is masked to 6 bits instead, so
shifting by 64 returns the value unchanged. -/
theorem C14_shift_large_violated :
    shiftLeft 1#64 64#64 = 1#64 ∧ shiftRight 1#64 64#64 = 1#64 ∧
    BitVec.ofInt 64 ((1#64).toInt * 2 ^ 64) = 0#64 ∧ (1#64).toInt / 2 ^ 64 = 0 := by
  refine ⟨by decide, by decide, by decide, by decide⟩

example : (-2^32 : Int) < (BitVec.ofInt 64 (-5)).toInt ∧ (BitVec.ofInt 64 (-5)).toInt < 2^32 := by decide

/-! ### C15 -/

theorem neg_one_iff (r : I) : r = BitVec.allOnes 64 ↔ r.toInt = -1 := by
  constructor
  · rintro rfl; decide
  · intro h; apply BitVec.toInt_inj.mp; rw [h]; decide

theorem min_iff (r : I) : r = BitVec.intMin 64 ↔ r.toInt = -2^63 := by
  constructor
  · rintro rfl; decide
  · intro h; apply BitVec.toInt_inj.mp; rw [h]; decide

theorem zero_iff (r : I) : r = 0#64 ↔ r.toInt = 0 := by
  constructor
  · rintro rfl; decide
  · intro h; apply BitVec.toInt_inj.mp; rw [h]; decide

theorem tdiv_bounds {a b : Int} (ha : -2^63 ≤ a ∧ a < 2^63) (hb0 : b ≠ 0) (hn : ¬(a = -2^63 ∧ b = -1)) :
    -2^63 ≤ a.tdiv b ∧ a.tdiv b < 2^63 := by
  have h1 : (a.tdiv b).natAbs = a.natAbs / b.natAbs := Int.natAbs_tdiv a b
  have h2 : a.natAbs / b.natAbs ≤ a.natAbs := Nat.div_le_self _ _
  have hb : 1 ≤ b.natAbs := by omega
  by_cases hab : a.natAbs = 2^63
  · -- a = MIN
    have ha' : a = -2^63 := by omega
    by_cases hb1 : b.natAbs = 1
    · have : b = 1 := by omega
      subst this ha'; decide
    · have : a.natAbs / b.natAbs ≤ a.natAbs / 2 := Nat.div_le_div_left (by omega) (by omega)
      omega
  · omega

theorem rustDiv_spec {l r : I} (h0 : r ≠ 0#64) (h : ¬(l = BitVec.intMin 64 ∧ r = BitVec.allOnes 64)) :
    ∃ q, rustDiv l r = some q ∧ q.toInt = l.toInt.tdiv r.toInt := by
  refine ⟨l.sdiv r, by rw [rustDiv, if_neg h], ?_⟩
  have hb := tdiv_bounds (toInt_bounds l) (fun e => h0 ((zero_iff r).mpr e))
    (fun e => h ⟨(min_iff l).mpr e.1, (neg_one_iff r).mpr e.2⟩)
  rw [BitVec.toInt_sdiv, Int.bmod_eq_of_le] <;> omega

theorem rustRem_spec {l r : I} (h : ¬(l = BitVec.intMin 64 ∧ r = BitVec.allOnes 64)) :
    ∃ m, rustRem l r = some m ∧ m.toInt = l.toInt.tmod r.toInt :=
  ⟨l.srem r, by rw [rustRem, if_neg h], BitVec.toInt_srem l r⟩

/-- **C15 (truncated division), partial.** Division by zero is a program failure; for every other pair except
(smallest integer, -1): `n = idiv(n,d)*d + rem(n,d)`, `|rem| < |d|`, and `rem` is zero or has the sign of `n`.
Missing: the pair (smallest integer, -1), where the host panics (`C15_host_panic_violated`). -/
theorem C15_truncated_partial (n d : I) :
    (d = 0#64 → idiv n d = .divisionByZero ∧ rem n d = .remainderByZero) ∧
    (d ≠ 0#64 → ¬(n = BitVec.intMin 64 ∧ d = BitVec.allOnes 64) →
      ∃ q r, idiv n d = .ok q ∧ rem n d = .ok r ∧ n.toInt = q.toInt * d.toInt + r.toInt ∧
        |r.toInt| < |d.toInt| ∧ (r.toInt = 0 ∨ r.toInt.sign = n.toInt.sign)) := by
  refine ⟨fun h => by simp [idiv, rem, h], fun h0 hov => ?_⟩
  obtain ⟨q, hq, hq'⟩ := rustDiv_spec h0 hov
  obtain ⟨r, hr, hr'⟩ := rustRem_spec hov
  refine ⟨q, r, by simp [idiv, h0, hq], by simp [rem, h0, hr], ?_, ?_, ?_⟩
  · rw [hq', hr', mul_comm]; exact (Int.mul_tdiv_add_tmod n.toInt d.toInt).symm
  · rw [hr']
    have hd : d.toInt ≠ 0 := fun e => h0 ((zero_iff d).mpr e)
    rw [Int.abs_eq_natAbs, Int.abs_eq_natAbs, Int.natAbs_tmod]
    have := Nat.mod_lt n.toInt.natAbs (show 0 < d.toInt.natAbs by omega)
    omega
  · rw [hr']
    by_cases hz : n.toInt.tmod d.toInt = 0
    · exact .inl hz
    · right
      rcases lt_trichotomy n.toInt 0 with hn | hn | hn
      · have h1 : n.toInt.tmod d.toInt ≤ 0 := by
          have := Int.tmod_nonneg (a := -n.toInt) d.toInt (by omega)
          rw [Int.neg_tmod] at this; omega
        rw [Int.sign_eq_neg_one_of_neg hn, Int.sign_eq_neg_one_of_neg (by omega)]
      · rw [hn] at hz; simp at hz
      · have h1 := Int.tmod_nonneg (a := n.toInt) d.toInt (by omega)
        rw [Int.sign_eq_one_of_pos hn, Int.sign_eq_one_of_pos (by omega)]

theorem add_toInt {x y : I} (h : -2^63 ≤ x.toInt + y.toInt ∧ x.toInt + y.toInt < 2^63) :
    (x + y).toInt = x.toInt + y.toInt := by
  rw [BitVec.toInt_add, Int.bmod_eq_of_le] <;> omega

theorem sub_toInt {x y : I} (h : -2^63 ≤ x.toInt - y.toInt ∧ x.toInt - y.toInt < 2^63) :
    (x - y).toInt = x.toInt - y.toInt := by
  rw [BitVec.toInt_sub, Int.bmod_eq_of_le] <;> omega

/-- **C15 (Euclidean division), partial.** Same scope as the truncated case: `n = idiv_euclid(n,d)*d + mod(n,d)` with
`0 <= mod < |d|`. -/
theorem C15_euclidean_partial (n d : I) :
    (d = 0#64 → idivEuclid n d = .divisionByZero ∧ modEuclid n d = .remainderByZero) ∧
    (d ≠ 0#64 → ¬(n = BitVec.intMin 64 ∧ d = BitVec.allOnes 64) →
      ∃ q r, idivEuclid n d = .ok q ∧ modEuclid n d = .ok r ∧ n.toInt = q.toInt * d.toInt + r.toInt ∧
        0 ≤ r.toInt ∧ r.toInt < |d.toInt|) := by
  refine ⟨fun h => by simp [idivEuclid, modEuclid, h], fun h0 hov => ?_⟩
  obtain ⟨q, hq, hq'⟩ := rustDiv_spec h0 hov
  obtain ⟨r, hr, hr'⟩ := rustRem_spec hov
  have hd : d.toInt ≠ 0 := fun e => h0 ((zero_iff d).mpr e)
  have hlaw : n.toInt = q.toInt * d.toInt + r.toInt := by
    rw [hq', hr', mul_comm]; exact (Int.mul_tdiv_add_tmod n.toInt d.toInt).symm
  have hrb : |r.toInt| < |d.toInt| := by
    rw [hr', Int.abs_eq_natAbs, Int.abs_eq_natAbs, Int.natAbs_tmod]
    have := Nat.mod_lt n.toInt.natAbs (show 0 < d.toInt.natAbs by omega)
    omega
  have hnb := toInt_bounds n
  have hdb := toInt_bounds d
  have hqb := toInt_bounds q
  have hrb' := toInt_bounds r
  by_cases hneg : r.toInt < 0
  · have hs : r.slt 0#64 = true := by simp [BitVec.slt, hneg]
    have hn : n.toInt < 0 := by
      by_contra hc
      have := Int.tmod_nonneg (a := n.toInt) d.toInt (by omega)
      omega
    by_cases hdp : 0 < d.toInt
    · have hdp' : (0#64).slt d = true := by simp [BitVec.slt, hdp]
      have hdn : d.slt 0#64 = false := by simp [BitVec.slt]; omega
      rw [abs_of_pos hdp] at hrb ⊢
      have hr2 := abs_lt.mp hrb
      -- q ≥ MIN + 1
      have hq2 : -2^63 < q.toInt := by
        by_contra hc
        have : q.toInt = -2^63 := by omega
        rw [this] at hlaw
        nlinarith
      refine ⟨q - 1#64, r + d, ?_, ?_, ?_, ?_, ?_⟩
      · simp [idivEuclid, h0, hq, hr, hs, hdp']
      · simp [modEuclid, h0, hr, hs, hdn]
      · rw [sub_toInt (by simp; omega), add_toInt (by omega)]; simp; linarith
      · rw [add_toInt (by omega)]; omega
      · rw [add_toInt (by omega)]; omega
    · have hdp' : (0#64).slt d = false := by simp [BitVec.slt]; omega
      have hdn : d.slt 0#64 = true := by simp [BitVec.slt]; omega
      have hdneg : d.toInt < 0 := by omega
      rw [abs_of_neg hdneg] at hrb ⊢
      have hr2 := abs_lt.mp hrb
      have hq2 : q.toInt < 2^63 - 1 := by
        by_contra hc
        have : q.toInt = 2^63 - 1 := by omega
        rw [this] at hlaw
        have : d.toInt = -1 := by nlinarith
        rw [this] at hr2
        omega
      -- r + (-d); if d = MIN then -d wraps but the sum is still right
      have hsum : (r + -d).toInt = r.toInt - d.toInt := by
        rw [← BitVec.sub_eq_add_neg, sub_toInt (by omega)]
      refine ⟨q + 1#64, r + -d, ?_, ?_, ?_, ?_, ?_⟩
      · simp [idivEuclid, h0, hq, hr, hs, hdp']
      · simp [modEuclid, h0, hr, hs, hdn]
      · rw [add_toInt (by simp; omega), hsum]; simp; linarith
      · rw [hsum]; omega
      · rw [hsum]; omega
  · have hs : r.slt 0#64 = false := by simp [BitVec.slt]; omega
    refine ⟨q, r, by simp [idivEuclid, h0, hq, hr, hs], by simp [modEuclid, h0, hr, hs], hlaw, by omega, ?_⟩
    rwa [abs_of_nonneg (by omega)] at hrb

/-- **C15 violated.** The pair (smallest integer, -1) brings the host down in all four operations, and only that pair
does. -/
theorem C15_host_panic_violated (n d : I) :
    (idiv n d = .hostPanic ∨ rem n d = .hostPanic ∨ idivEuclid n d = .hostPanic ∨ modEuclid n d = .hostPanic) ↔
      (n = BitVec.intMin 64 ∧ d = BitVec.allOnes 64) := by
  constructor
  · intro h
    by_contra hov
    by_cases h0 : d = 0#64
    · have h1 := (C15_truncated_partial n d).1 h0
      have h2 := (C15_euclidean_partial n d).1 h0
      simp [h1, h2] at h
    · obtain ⟨q, r, h1, h2, _⟩ := (C15_truncated_partial n d).2 h0 hov
      obtain ⟨q', r', h3, h4, _⟩ := (C15_euclidean_partial n d).2 h0 hov
      simp [h1, h2, h3, h4] at h
  · rintro ⟨rfl, rfl⟩; left; decide

example : ∃ q r, idivEuclid (BitVec.ofInt 64 (-7)) (BitVec.ofInt 64 (-2)) = .ok q ∧
    modEuclid (BitVec.ofInt 64 (-7)) (BitVec.ofInt 64 (-2)) = .ok r ∧ q.toInt = 4 ∧ r.toInt = 1 :=
  ⟨4#64, 1#64, by decide, by decide, by decide, by decide⟩

/-- **C15 (absolute value), partial.** `abs` is right except for the smallest integer. -/
theorem C15_abs_partial (v : I) :
    (v ≠ BitVec.intMin 64 → ∃ a, absChecked v = some a ∧ a.toInt = |v.toInt|) ∧
    (v = BitVec.intMin 64 → absChecked v = none) := by
  refine ⟨fun h => ?_, fun h => by simp [absChecked, h]⟩
  by_cases hv : v.toInt < 0
  · exact ⟨-v, by simp [absChecked, h, BitVec.slt, hv], by rw [toInt_neg h, abs_of_neg hv]⟩
  · exact ⟨v, by simp [absChecked, h, BitVec.slt, hv], by rw [abs_of_nonneg (by omega)]⟩

/-! ### C16 -/

section Cmp
variable {α : Type}

/-- A lawful three-way comparison: antisymmetric under swap and transitive. -/
structure Lawful (cmp : α → α → Ordering) : Prop where
  swap : ∀ a b, cmp b a = (cmp a b).swap
  trans : ∀ a b c, cmp a b ≠ .gt → cmp b c ≠ .gt → cmp a c ≠ .gt

theorem Lawful.refl {cmp : α → α → Ordering} (L : Lawful cmp) (a : α) : cmp a a = .eq := by
  have := L.swap a a
  cases h : cmp a a <;> simp_all

/-- **C16 (operators).** For a lawful comparison exactly one of `<`, comparing equal, `>` holds; `<=` is `<` or equal
(the negation of `>`), `>=` likewise, and `a < b` is `b > a`. -/
theorem C16_operators {cmp : α → α → Ordering} (L : Lawful cmp) (eq : α → α → Bool)
    (heq : ∀ a b, eq a b = true ↔ cmp a b = .eq) (a b : α) :
    ((lt cmp a b = true ∧ eq a b = false ∧ gt cmp a b = false) ∨
     (lt cmp a b = false ∧ eq a b = true ∧ gt cmp a b = false) ∨
     (lt cmp a b = false ∧ eq a b = false ∧ gt cmp a b = true)) ∧
    (le cmp a b = (lt cmp a b || eq a b)) ∧ (ge cmp a b = (gt cmp a b || eq a b)) ∧
    (ne eq a b = !(eq a b)) ∧ (ne eq a b = (lt cmp a b || gt cmp a b)) ∧
    (lt cmp a b = gt cmp b a) ∧ (le cmp a b = ge cmp b a) ∧
    (∀ c, lt cmp a b = true → lt cmp b c = true → lt cmp a c = true) := by
  have hf : cmp a b ≠ .eq → eq a b = false := fun h => by
    cases he : eq a b
    · rfl
    · exact absurd ((heq a b).mp he) h
  have hsw := L.swap a b
  refine ⟨?_, ?_, ?_, rfl, ?_, ?_, ?_, ?_⟩
  · cases h : cmp a b
    · exact .inl ⟨by simp [lt, h], hf (by simp [h]), by simp [gt, h]⟩
    · exact .inr (.inl ⟨by simp [lt, h], (heq a b).mpr h, by simp [gt, h]⟩)
    · exact .inr (.inr ⟨by simp [lt, h], hf (by simp [h]), by simp [gt, h]⟩)
  · cases h : cmp a b
    · simp [le, lt, h]
    · simp [le, lt, h, (heq a b).mpr h]
    · simp [le, lt, h, hf (by simp [h])]
  · cases h : cmp a b
    · simp [ge, gt, h, hf (by simp [h])]
    · simp [ge, gt, h, (heq a b).mpr h]
    · simp [ge, gt, h]
  · cases h : cmp a b
    · simp [ne, gt, lt, h, hf (by simp [h])]
    · simp [ne, gt, lt, h, (heq a b).mpr h]
    · simp [ne, gt, lt, h, hf (by simp [h])]
  · rw [lt, gt, hsw]; cases cmp a b <;> rfl
  · rw [le, ge, hsw]; cases cmp a b <;> rfl
  · intro c h1 h2
    have e1 : cmp a b = .lt := by unfold lt at h1; cases h : cmp a b <;> simp_all
    have e2 : cmp b c = .lt := by unfold lt at h2; cases h : cmp b c <;> simp_all
    have h3 := L.trans a b c (by simp [e1]) (by simp [e2])
    have h4 : cmp a c ≠ .eq := by
      intro he
      have hca : cmp c a ≠ .gt := by rw [L.swap a c, he]; simp
      have := L.trans b c a (by simp [e2]) hca
      rw [hsw, e1] at this
      exact this rfl
    unfold lt
    cases h : cmp a c <;> simp_all

/-- **C16 (min, max, clamp).** `min`/`max` return one of their arguments and are bounds; when the two arguments do not
compare equal, min and max together are exactly the two arguments; `clamp` panics exactly when the bounds are crossed
and otherwise returns a value between the bounds which compares equal to the input when that is inside. -/
theorem C16_min_max_clamp {cmp : α → α → Ordering} (L : Lawful cmp) (a b : α) :
    (min2 cmp a b = a ∨ min2 cmp a b = b) ∧ (max2 cmp a b = a ∨ max2 cmp a b = b) ∧
    cmp (min2 cmp a b) a ≠ .gt ∧ cmp (min2 cmp a b) b ≠ .gt ∧
    cmp a (max2 cmp a b) ≠ .gt ∧ cmp b (max2 cmp a b) ≠ .gt ∧
    (cmp a b ≠ .eq → (min2 cmp a b = a ∧ max2 cmp a b = b) ∨ (min2 cmp a b = b ∧ max2 cmp a b = a)) ∧
    (∀ lo hi v, (cmp lo hi = .gt → clamp cmp v lo hi = none) ∧
      (cmp lo hi ≠ .gt → ∃ r, clamp cmp v lo hi = some r ∧ cmp lo r ≠ .gt ∧ cmp r hi ≠ .gt ∧
        (cmp lo v ≠ .gt → cmp v hi ≠ .gt → cmp r v = .eq) ∧
        (cmp lo v = .lt → cmp v hi = .lt → r = v))) := by
  have hmin : ∀ a b, cmp (min2 cmp a b) a ≠ .gt ∧ cmp (min2 cmp a b) b ≠ .gt := by
    intro a b
    have hsw := L.swap a b
    unfold min2
    cases h : cmp a b
    · simp [L.refl, h]
    · simp [hsw, h, L.refl]
    · simp [hsw, h, L.refl]
  have hmax : ∀ a b, cmp a (max2 cmp a b) ≠ .gt ∧ cmp b (max2 cmp a b) ≠ .gt := by
    intro a b
    have hsw := L.swap a b
    unfold max2
    cases h : cmp a b
    · simp [L.refl, h]
    · simp [h, L.refl]
    · simp [hsw, h, L.refl]
  refine ⟨?_, ?_, (hmin a b).1, (hmin a b).2, (hmax a b).1, (hmax a b).2, ?_, ?_⟩
  · unfold min2; cases cmp a b <;> simp
  · unfold max2; cases cmp a b <;> simp
  · intro h; unfold min2 max2; cases hc : cmp a b <;> simp_all
  · intro lo hi v
    refine ⟨fun h => by simp [clamp, gt, h], fun h => ?_⟩
    have hg : gt cmp lo hi = false := by unfold gt; cases hc : cmp lo hi <;> simp_all
    refine ⟨max2 cmp lo (min2 cmp v hi), by simp [clamp, hg], (hmax _ _).1, ?_, ?_, ?_⟩
    · unfold max2
      cases cmp lo (min2 cmp v hi)
      · exact (hmin v hi).2
      · exact (hmin v hi).2
      · exact h
    · intro h1 h2
      unfold min2
      cases hvh : cmp v hi
      · simp only []
        unfold max2
        cases hlv : cmp lo v
        · exact L.refl v
        · exact L.refl v
        · exact absurd hlv h1
      · simp only []
        have hhv : cmp hi v = .eq := by rw [L.swap v hi, hvh]; rfl
        unfold max2
        cases hlh : cmp lo hi
        · exact hhv
        · exact hhv
        · exact absurd hlh h
      · exact absurd hvh h2
    · intro h1 h2; simp [min2, max2, h1, h2]

/-- **C16 violated for ties.** When two distinct values compare equal (for example `0.0` and `-0.0`, or pairs ordered
by their first component), `min` and `max` both return the second argument, so together they are not the two
arguments; for the same reason `clamp` replaces a value that compares equal to the upper bound by the bound. -/
theorem C16_tie_violated {cmp : α → α → Ordering} (a b : α) (h : cmp a b = .eq) :
    min2 cmp a b = b ∧ max2 cmp a b = b ∧ (∀ lo, cmp lo b ≠ .gt → clamp cmp a lo b = some b) := by
  refine ⟨by simp [min2, h], by simp [max2, h], fun lo hlo => ?_⟩
  have hg : gt cmp lo b = false := by unfold gt; cases hc : cmp lo b <;> simp_all
  simp only [clamp, hg, min2, h, max2]
  cases hc : cmp lo b <;> simp_all

/-- Pairs compared by first component: lawful, with ties between distinct values. -/
def cmpFst (a b : Int × Int) : Ordering := compare a.1 b.1

theorem cmpFst_lawful : Lawful cmpFst := by
  refine ⟨fun a b => ?_, fun a b c => ?_⟩
  · exact (Std.OrientedCmp.eq_swap (cmp := fun a b : Int => compare a b) (a := b.1) (b := a.1))
  · simp only [cmpFst, ne_eq, compare_gt_iff_gt]; omega

example : cmpFst (1, 2) (1, 3) = .eq ∧ ((1, 2) : Int × Int) ≠ (1, 3) := by decide

end Cmp
end Ferlium.IntOps.Props
