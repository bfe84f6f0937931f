import Verif.Model.Float
import Mathlib.Tactic

/-! Lemmas on binary64 rounding. -/
namespace Ferlium.Flt

/-- Magnitudes representable in binary64: 53-bit significand, exponent of the last bit between -1074 and 971. -/
def Rep (q : ℚ) : Prop := ∃ (m : ℕ) (e : ℤ), m < 2^53 ∧ -1074 ≤ e ∧ e ≤ 971 ∧ q = m * 2 ^ e

theorem Rep.nonneg {q : ℚ} (h : Rep q) : 0 ≤ q := by
  obtain ⟨m, e, _, _, _, rfl⟩ := h; positivity

theorem rep_zero : Rep 0 := ⟨0, 0, by norm_num, by norm_num, by norm_num, by simp⟩
theorem rep_one : Rep 1 := ⟨1, 0, by norm_num, by norm_num, by norm_num, by simp⟩
theorem rep_max : Rep maxMag :=
  ⟨2^53 - 1, 971, by norm_num, by norm_num, by norm_num, by unfold maxMag; norm_num⟩

theorem two_mul_zpow (n : ℕ) (e : ℤ) : (2:ℚ)^n * 2^e = 2^((n:ℤ)+e) := by
  rw [zpow_add₀ (by norm_num), zpow_natCast]

theorem two_pos (e : ℤ) : (0:ℚ) < 2^e := by positivity

theorem rep_le_max {q : ℚ} (h : Rep q) : q ≤ maxMag := by
  obtain ⟨m, e, hm, _, he, rfl⟩ := h
  unfold maxMag
  have h1 : (m : ℚ) ≤ 2^53 - 1 := by
    have : (m : ℚ) + 1 ≤ 2^53 := by exact_mod_cast hm
    linarith
  have h2 : (2:ℚ)^e ≤ 2^(971:ℤ) := zpow_le_zpow_right₀ one_le_two he
  exact mul_le_mul h1 h2 (two_pos e).le (by norm_num)

theorem maxMag_lt : maxMag < (2:ℚ) ^ (1024:ℤ) := by
  have : (2:ℚ) ^ (1024:ℤ) = 2^53 * 2^(971:ℤ) := by
    rw [two_mul_zpow]; rfl
  rw [this, maxMag]
  exact mul_lt_mul_of_pos_right (by norm_num) (two_pos _)

theorem rhe_nearest (x : ℚ) (n : ℤ) : |x - roundHalfEven x| ≤ |x - n| := by
  have h1 := Int.floor_le x
  have h2 := Int.lt_floor_add_one x
  have hn : (n : ℚ) ≤ ⌊x⌋ ∨ (⌊x⌋ : ℚ) + 1 ≤ n := by
    rcases le_or_gt n ⌊x⌋ with h | h
    · left; exact_mod_cast h
    · right; exact_mod_cast h
  have h3 : x - n ≤ |x - n| := le_abs_self _
  have h4 : -(x - n) ≤ |x - n| := neg_le_abs _
  unfold roundHalfEven
  split_ifs with a b c
  · rw [abs_of_nonneg (by linarith)]; rcases hn with h | h <;> linarith
  · push_cast; rw [abs_of_nonpos (by linarith)]; rcases hn with h | h <;> linarith
  · rw [abs_of_nonneg (by linarith)]; rcases hn with h | h <;> linarith
  · push_cast; rw [abs_of_nonpos (by linarith)]; rcases hn with h | h <;> linarith

theorem rhe_int (n : ℤ) : roundHalfEven (n : ℚ) = n := by
  have h := rhe_nearest (n : ℚ) n
  simp only [sub_self, abs_zero] at h
  have := abs_nonpos_iff.mp h
  have h' : (n : ℚ) = roundHalfEven (n : ℚ) := by linarith
  exact_mod_cast h'.symm

theorem rhe_bounds (x : ℚ) : (⌊x⌋ : ℤ) ≤ roundHalfEven x ∧ roundHalfEven x ≤ ⌊x⌋ + 1 := by
  unfold roundHalfEven; split_ifs <;> omega

theorem rhe_nonneg {x : ℚ} (h : 0 ≤ x) : 0 ≤ roundHalfEven x :=
  le_trans (Int.floor_nonneg.mpr h) (rhe_bounds x).1

theorem rhe_le {x : ℚ} {n : ℤ} (h : x < n) : roundHalfEven x ≤ n := by
  have h1 := (rhe_bounds x).2
  have h2 : ⌊x⌋ < n := Int.floor_lt.mpr h
  omega

theorem log_le {q : ℚ} (hq : 0 < q) : (2:ℚ) ^ (Int.log 2 q) ≤ q := by
  have := Int.zpow_log_le_self (b := 2) (by norm_num) hq
  exact_mod_cast this

theorem lt_log (q : ℚ) : q < (2:ℚ) ^ (Int.log 2 q + 1) := by
  have := Int.lt_zpow_succ_log_self (b := 2) (by norm_num) q
  exact_mod_cast this

/-- The rounded magnitude before the overflow test. -/
def rounded (q : ℚ) : ℚ := roundHalfEven (q / 2 ^ ulpExp q) * 2 ^ ulpExp q

theorem q_lt (q : ℚ) : q / 2 ^ ulpExp q < 2^53 := by
  have hp : (0:ℚ) < 2 ^ ulpExp q := by positivity
  rw [div_lt_iff₀ hp]
  refine lt_of_lt_of_le (lt_log q) ?_
  rw [← zpow_natCast, ← zpow_add₀ (by norm_num)]
  apply zpow_le_zpow_right₀ (by norm_num)
  unfold ulpExp; push_cast; omega

/-- Rounding is to a nearest number among those representable, ignoring overflow. -/
theorem rounded_nearest {q : ℚ} (hq : 0 < q) {r : ℚ} (hr : Rep r) : |q - rounded q| ≤ |q - r| := by
  have hp : (0:ℚ) < 2 ^ ulpExp q := by positivity
  have key : ∀ n : ℤ, |q - rounded q| ≤ |q - n * 2 ^ ulpExp q| := by
    intro n
    have h := rhe_nearest (q / 2 ^ ulpExp q) n
    have e1 : q - rounded q = (q / 2 ^ ulpExp q - roundHalfEven (q / 2 ^ ulpExp q)) * 2 ^ ulpExp q := by
      unfold rounded; field_simp
    have e2 : q - n * 2 ^ ulpExp q = (q / 2 ^ ulpExp q - n) * 2 ^ ulpExp q := by field_simp
    rw [e1, e2, abs_mul, abs_mul]
    exact mul_le_mul_of_nonneg_right h (abs_nonneg _)
  obtain ⟨m, e, hm, he, _, rfl⟩ := hr
  rcases le_or_gt (ulpExp q) e with h | h
  · have : (m : ℚ) * 2 ^ e = ((m * 2 ^ (e - ulpExp q).toNat : ℤ) : ℚ) * 2 ^ ulpExp q := by
      push_cast
      rw [mul_assoc, ← zpow_natCast, ← zpow_add₀ (by norm_num)]
      congr 2; omega
    rw [this]; exact key _
  · -- `r` is below the binade of `q`
    have hu : ulpExp q = Int.log 2 q - 52 := by unfold ulpExp at h ⊢; omega
    have h1 : (m : ℚ) * 2 ^ e ≤ 2 ^ Int.log 2 q := by
      have hm' : (m : ℚ) ≤ 2^53 := by exact_mod_cast hm.le
      calc (m : ℚ) * 2 ^ e ≤ 2^53 * 2 ^ e := mul_le_mul_of_nonneg_right hm' (by positivity)
        _ = (2:ℚ) ^ (53 + e) := by rw [zpow_add₀ (by norm_num)]; norm_num
        _ ≤ 2 ^ Int.log 2 q := zpow_le_zpow_right₀ (by norm_num) (by omega)
    have h2 := log_le hq
    have h3 := key (2^52)
    have e3 : (((2:ℤ)^52 : ℤ) : ℚ) * 2 ^ ulpExp q = 2 ^ Int.log 2 q := by
      have : (((2:ℤ)^52 : ℤ) : ℚ) = 2^52 := by norm_num
      rw [this, two_mul_zpow, hu]; congr 1; push_cast; ring
    rw [e3, abs_of_nonneg (by linarith : (0:ℚ) ≤ q - 2 ^ Int.log 2 q)] at h3
    rw [abs_of_nonneg (by linarith : (0:ℚ) ≤ q - m * 2 ^ e)]
    linarith

theorem rounded_nonneg {q : ℚ} (hq : 0 < q) : 0 ≤ rounded q := by
  have h : 0 ≤ roundHalfEven (q / 2 ^ ulpExp q) := rhe_nonneg (by positivity)
  have h' : (0:ℚ) ≤ roundHalfEven (q / 2 ^ ulpExp q) := by exact_mod_cast h
  unfold rounded; positivity

/-- When it does not overflow, the rounded magnitude is representable. -/
theorem rounded_rep {q : ℚ} (hq : 0 < q) (hov : rounded q < (2:ℚ) ^ (1024:ℤ)) : Rep (rounded q) := by
  have hp : (0:ℚ) < 2 ^ ulpExp q := by positivity
  have h0 : 0 ≤ roundHalfEven (q / 2 ^ ulpExp q) := rhe_nonneg (by positivity)
  have h1 : roundHalfEven (q / 2 ^ ulpExp q) ≤ 2^53 := rhe_le (by exact_mod_cast q_lt q)
  obtain ⟨k, hk⟩ := Int.eq_ofNat_of_zero_le h0
  have hr : rounded q = k * 2 ^ ulpExp q := by unfold rounded; rw [hk]; simp
  have hu : -1074 ≤ ulpExp q := le_max_right _ _
  rw [hk] at h1
  have hk1 : k ≤ 2^53 := by exact_mod_cast h1
  by_cases hk2 : k = 2^53
  · refine ⟨2^52, ulpExp q + 1, by norm_num, by omega, ?_, ?_⟩
    · by_contra hc
      have : (2:ℚ) ^ (1024:ℤ) ≤ rounded q := by
        have : ((2^53 : ℕ) : ℚ) = 2^53 := by norm_num
        rw [hr, hk2, this, two_mul_zpow]
        exact zpow_le_zpow_right₀ one_le_two (by push_cast; omega)
      linarith
    · rw [hr, hk2, zpow_add₀ (by norm_num)]; push_cast; ring
  · by_cases hk0 : k = 0
    · rw [hr, hk0]; simpa using rep_zero
    · refine ⟨k, ulpExp q, by omega, hu, ?_, hr⟩
      by_contra hc
      have hlog : ulpExp q = Int.log 2 q - 52 := by unfold ulpExp at hc ⊢; omega
      -- q ≥ 2^log, so the significand is at least 2^52
      have hge : (2:ℚ)^52 ≤ q / 2 ^ ulpExp q := by
        rw [le_div_iff₀ hp, ← zpow_natCast, ← zpow_add₀ (by norm_num), hlog]
        refine le_trans (le_of_eq ?_) (log_le hq)
        congr 1; push_cast; ring
      have hk3 : (2:ℤ)^52 ≤ k := by
        have := (rhe_bounds (q / 2 ^ ulpExp q)).1
        rw [hk] at this
        refine le_trans (Int.le_floor.mpr ?_) this
        exact_mod_cast hge
      have : (2:ℚ) ^ (1024:ℤ) ≤ rounded q := by
        rw [hr]
        calc (2:ℚ) ^ (1024:ℤ) ≤ 2 ^ (52 + ulpExp q) := zpow_le_zpow_right₀ one_le_two (by omega)
          _ = 2^52 * 2 ^ ulpExp q := by rw [two_mul_zpow]; rfl
          _ ≤ k * 2 ^ ulpExp q := mul_le_mul_of_nonneg_right (by exact_mod_cast hk3) hp.le
      linarith

/-- A representable magnitude is not changed by rounding. -/
theorem rounded_self {q : ℚ} (hq : 0 < q) (h : Rep q) : rounded q = q := by
  have := rounded_nearest hq h
  simp only [sub_self, abs_zero] at this
  have := abs_nonpos_iff.mp this
  linarith

theorem roundMag_eq {n : Bool} {q : ℚ} (hq : 0 < q) :
    roundMag n q = if (2:ℚ) ^ (1024:ℤ) ≤ rounded q then .inf n else .fin n (rounded q) := by
  unfold roundMag rounded
  rw [if_neg hq.ne']

theorem roundMag_rep {n : Bool} {q : ℚ} (h : Rep q) : roundMag n q = .fin n q := by
  rcases h.nonneg.eq_or_lt with h0 | h0
  · rw [← h0]; simp [roundMag]
  · rw [roundMag_eq h0, rounded_self h0 h, if_neg]
    have := rep_le_max h
    have := maxMag_lt
    linarith

/-- What saturating a rounded magnitude gives: never a panic, always a nearest finite float, with the given sign. -/
theorem sat_roundMag (n : Bool) {q : ℚ} (hq : 0 ≤ q) :
    ∃ x, sat (roundMag n q) = .ok x ∧ x.neg = n ∧ Rep x.mag ∧ ∀ r, Rep r → |q - x.mag| ≤ |q - r| := by
  rcases hq.eq_or_lt with h0 | h0
  · subst h0
    refine ⟨⟨n, 0⟩, by simp [roundMag, sat, Float.newSaturating], rfl, rep_zero, ?_⟩
    intro r _; simp
  · rw [roundMag_eq h0]
    by_cases hov : (2:ℚ) ^ (1024:ℤ) ≤ rounded q
    · refine ⟨⟨n, maxMag⟩, ?_, rfl, rep_max, ?_⟩
      · rw [if_pos hov]; cases n <;> rfl
      · intro r hr
        -- the maximum cannot be above q
        have hmax : maxMag ≤ q := by
          by_contra hc
          have h1 := rounded_nearest h0 rep_max
          have h2 := maxMag_lt
          rw [abs_of_nonpos (by linarith), abs_of_nonpos (by linarith)] at h1
          linarith
        have := rep_le_max hr
        rw [abs_of_nonneg (by linarith), abs_of_nonneg (by linarith)]
        linarith
    · refine ⟨⟨n, rounded q⟩, by rw [if_neg hov]; rfl, rfl, rounded_rep h0 (not_le.mp hov), ?_⟩
      intro r hr; exact rounded_nearest h0 hr

end Ferlium.Flt
