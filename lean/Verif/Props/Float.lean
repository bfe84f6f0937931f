import Verif.Proofs.Float
import Mathlib.Tactic

/-! Floats: C46 (always finite, correctly saturating), C17 (optimizer identities), C13 (float equality and hash). -/
namespace Ferlium.Flt.Props
open Ferlium.Flt

/-- A float that binary64 can hold. -/
def IsFloat (x : Float) : Prop := Rep x.mag

/-- `r` is a finite float nearest to the exact real result `q`. -/
def NearestFinite (q : ℚ) (r : Float) : Prop :=
  IsFloat r ∧ ∀ z : Float, IsFloat z → |q - r.val| ≤ |q - z.val|

theorem nearest_of_mag {n : Bool} {q : ℚ} {x : Float} (hx : x.neg = n) (hr : Rep x.mag) (hq : 0 ≤ q)
    (h : ∀ r, Rep r → |q - x.mag| ≤ |q - r|) : NearestFinite (sval n q) x := by
  refine ⟨hr, fun z hz => ?_⟩
  have h1 : |sval n q - x.val| = |q - x.mag| := by
    subst hx; unfold Float.val sval
    split
    · rw [show -q - -x.mag = -(q - x.mag) by ring, abs_neg]
    · rfl
  have h2 : |q - z.mag| ≤ |sval n q - z.val| := by
    have hz0 := hz.nonneg
    have e1 : |sval n q| = q := by unfold sval; split <;> simp [abs_of_nonneg hq]
    have e2 : |z.val| = z.mag := by unfold Float.val sval; split <;> simp [abs_of_nonneg hz0]
    have := abs_abs_sub_abs_le (sval n q) z.val
    rwa [e1, e2] at this
  rw [h1]
  exact le_trans (h _ hz) h2

theorem sat_nearest (n : Bool) {q : ℚ} (hq : 0 ≤ q) :
    ∃ x, sat (roundMag n q) = .ok x ∧ x.neg = n ∧ NearestFinite (sval n q) x := by
  obtain ⟨x, h1, h2, h3, h4⟩ := sat_roundMag n hq
  exact ⟨x, h1, h2, nearest_of_mag h2 h3 hq h4⟩

theorem sval_decide (s : ℚ) : sval (decide (s < 0)) |s| = s := by
  unfold sval
  by_cases h : s < 0
  · simp [h, abs_of_neg h]
  · simp [h, abs_of_nonneg (not_lt.mp h)]

theorem add_nearest (x y : Float) : ∃ r, addFloat x y = .ok r ∧ NearestFinite (x.val + y.val) r := by
  unfold addFloat f64Add
  simp only []
  by_cases h : x.val + y.val = 0
  · rw [if_pos h, h]
    refine ⟨⟨x.neg && y.neg, 0⟩, rfl, rep_zero, fun z _ => ?_⟩
    have : (Float.val ⟨x.neg && y.neg, 0⟩) = 0 := by unfold Float.val sval; split <;> simp
    rw [this]; simp
  · rw [if_neg h]
    obtain ⟨r, h1, _, h3⟩ := sat_nearest (decide (x.val + y.val < 0)) (abs_nonneg (x.val + y.val))
    rw [sval_decide] at h3
    exact ⟨r, h1, h3⟩

theorem val_negate (y : Float) : y.negate.val = -y.val := by
  unfold Float.negate Float.val sval; cases y.neg <;> simp

theorem sval_xor_mul (a b : Bool) (p q : ℚ) : sval (a ^^ b) (p * q) = sval a p * sval b q := by
  unfold sval; cases a <;> cases b <;> simp

theorem sval_xor_div (a b : Bool) (p q : ℚ) : sval (a ^^ b) (p / q) = sval a p / sval b q := by
  unfold sval; cases a <;> cases b <;> simp [neg_div, div_neg]

theorem val_zero_iff (y : Float) : y.val = 0 ↔ y.mag = 0 := by
  unfold Float.val sval; cases y.neg <;> simp

/-- **C46 (arithmetic).** For every pair of floats, addition, subtraction and multiplication return (no panic, no NaN)
a finite float nearest to the exact real result, hence the largest finite one with the right sign on overflow; division
fails with a program error exactly when the divisor is a zero and otherwise returns a finite float nearest to the exact
quotient. -/
theorem C46_arithmetic (x y : Float) (hx : IsFloat x) (hy : IsFloat y) :
    (∃ r, addFloat x y = .ok r ∧ NearestFinite (x.val + y.val) r) ∧
    (∃ r, subFloat x y = .ok r ∧ NearestFinite (x.val - y.val) r) ∧
    (∃ r, mulFloat x y = .ok r ∧ NearestFinite (x.val * y.val) r) ∧
    (y.val = 0 → divFloat x y = .divisionByZero) ∧
    (y.val ≠ 0 → ∃ r, divFloat x y = .ok r ∧ NearestFinite (x.val / y.val) r) := by
  refine ⟨add_nearest x y, ?_, ?_, ?_, ?_⟩
  · have := add_nearest x y.negate
    rw [val_negate, ← sub_eq_add_neg] at this
    exact this
  · obtain ⟨r, h1, _, h3⟩ := sat_nearest (x.neg ^^ y.neg) (mul_nonneg hx.nonneg hy.nonneg)
    rw [sval_xor_mul] at h3
    exact ⟨r, h1, h3⟩
  · intro h; simp [divFloat, h]
  · intro h
    have hm : y.mag ≠ 0 := fun e => h ((val_zero_iff y).mpr e)
    obtain ⟨r, h1, _, h3⟩ := sat_nearest (x.neg ^^ y.neg) (div_nonneg hx.nonneg hy.nonneg)
    rw [sval_xor_div] at h3
    exact ⟨r, by rw [divFloat, if_neg h, f64Div, if_neg hm, h1], h3⟩

/-- **C46 (overflow).** When the exact sum, difference, product or quotient exceeds every finite float, the result is
the largest finite float (the smallest one for negative overflow). -/
theorem C46_overflow (q : ℚ) (r : Float) (h : NearestFinite q r) :
    (maxMag ≤ q → r.val = maxMag) ∧ (q ≤ -maxMag → r.val = -maxMag) := by
  have hm := rep_le_max h.1
  have h0 := h.1.nonneg
  have hb : -maxMag ≤ r.val ∧ r.val ≤ maxMag := by
    unfold Float.val sval; split <;> constructor <;> linarith
  constructor
  · intro hq
    have h1 := h.2 ⟨false, maxMag⟩ rep_max
    have e : (Float.val ⟨false, maxMag⟩) = maxMag := rfl
    rw [e, abs_of_nonneg (by linarith), abs_of_nonneg (by linarith)] at h1
    linarith
  · intro hq
    have h1 := h.2 ⟨true, maxMag⟩ rep_max
    have e : (Float.val ⟨true, maxMag⟩) = -maxMag := rfl
    rw [e, abs_of_nonpos (by linarith), abs_of_nonpos (by linarith)] at h1
    linarith

/-- **C46 (exactness).** An exact result that is itself a float is returned exactly. -/
theorem C46_exact (q : ℚ) (r z : Float) (h : NearestFinite q r) (hz : IsFloat z) (e : z.val = q) : r.val = q := by
  have := h.2 z hz
  rw [e, sub_self, abs_zero] at this
  have := abs_nonpos_iff.mp this
  linarith

/-- **C46 (conversion from int).** Converting an integer never panics and gives a nearest finite float. -/
theorem C46_from_int (n : BitVec 64) : ∃ r, intToFloat n = .ok r ∧ NearestFinite (n.toInt : ℚ) r := by
  unfold intToFloat
  by_cases h : n.toInt = 0
  · simp only [h, if_true, Float.new]
    refine ⟨_, rfl, rep_zero, fun z _ => ?_⟩
    have : (Float.val ⟨false, 0⟩) = 0 := rfl
    rw [this]; simp
  · rw [if_neg h]
    have hq : (0:ℚ) < |(n.toInt : ℚ)| := abs_pos.mpr (by exact_mod_cast h)
    have hlt : rounded |(n.toInt : ℚ)| < (2:ℚ) ^ (1024:ℤ) := by
      -- |n| ≤ 2^63 is far below the maximum; 2^63 is representable, so rounding cannot pass it
      have hb : |(n.toInt : ℚ)| ≤ 2^63 := by
        have h1 := BitVec.le_toInt n
        have h2 := BitVec.toInt_lt (x := n)
        have : |n.toInt| ≤ 2^63 := abs_le.mpr ⟨by simpa using h1, by have := (by simpa using h2 : n.toInt < 2^63); omega⟩
        exact_mod_cast this
      have hrep : Rep ((2:ℚ)^64) := ⟨1, 64, by norm_num, by norm_num, by norm_num, by norm_num⟩
      have h1 := rounded_nearest hq hrep
      rw [abs_of_nonpos (by linarith [hb] : |(n.toInt : ℚ)| - 2^64 ≤ 0)] at h1
      have h2 := neg_le_of_abs_le h1
      have h3 : (2:ℚ)^(64:ℕ) < 2^(1024:ℤ) := by
        rw [← zpow_natCast]; exact zpow_lt_zpow_right₀ one_lt_two (by norm_num)
      generalize (2:ℚ)^(1024:ℤ) = M at h3 ⊢
      linarith
    have hd : decide (n.toInt < 0) = decide ((n.toInt : ℚ) < 0) := by
      rw [decide_eq_decide]; exact_mod_cast Iff.rfl
    rw [hd]
    obtain ⟨r, h1, _, h3⟩ := sat_nearest (decide ((n.toInt : ℚ) < 0)) (abs_nonneg (n.toInt : ℚ))
    rw [sval_decide] at h3
    refine ⟨r, ?_, h3⟩
    rw [roundMag_eq hq, if_neg (not_le.mpr hlt)] at h1 ⊢
    exact h1

/-- Clamp an integer into the 64-bit range. -/
def clampI (t : ℤ) : ℤ := max (-2^63) (min t (2^63 - 1))

theorem ofInt_toInt {t : ℤ} (h : -2^63 ≤ t ∧ t < 2^63) : (BitVec.ofInt 64 t).toInt = t := by
  rw [BitVec.toInt_ofInt, Int.bmod_eq_of_le] <;> omega

theorem castInt_toInt (t : ℤ) : (castInt t).toInt = clampI t := by
  unfold castInt clampI
  split_ifs with h1 h2
  · have : (BitVec.intMin 64).toInt = -2^63 := by decide
    omega
  · have : (BitVec.intMax 64).toInt = 2^63 - 1 := by decide
    omega
  · rw [ofInt_toInt (by omega)]; omega

/-- **C46 (conversion to int).** Truncation, floor, ceiling and rounding (half away from zero) give the mathematical
integer, clamped to the 64-bit range, for every float. -/
theorem C46_to_int (x : Float) (hx : IsFloat x) :
    (saturatingTrunc x).toInt = clampI (if 0 ≤ x.val then ⌊x.val⌋ else ⌈x.val⌉) ∧
    (floorFloat x).toInt = clampI ⌊x.val⌋ ∧ (ceilFloat x).toInt = clampI ⌈x.val⌉ ∧
    (roundFloat x).toInt = clampI (if 0 ≤ x.val then ⌊x.val + 1/2⌋ else ⌈x.val - 1/2⌉) := by
  refine ⟨?_, castInt_toInt _, castInt_toInt _, castInt_toInt _⟩
  have h0 := hx.nonneg
  unfold saturatingTrunc
  simp only []
  have hsign : (x.neg = true → x.val ≤ 0) ∧ (x.neg = false → 0 ≤ x.val) := by
    unfold Float.val sval; cases x.neg <;> simp [h0]
  have ht : (x.val ≤ 0 → trunc x.val ≤ 0) ∧ (0 ≤ x.val → 0 ≤ trunc x.val) := by
    unfold trunc
    constructor
    · intro h
      split
      · rename_i h'
        have : x.val = 0 := le_antisymm h h'
        rw [this]; simp
      · exact Int.ceil_le.mpr (by simpa using h)
    · intro h; rw [if_pos h]; exact Int.floor_nonneg.mpr h
  change _ = clampI (trunc x.val)
  generalize trunc x.val = t at *
  split_ifs with h1 h2
  · rw [ofInt_toInt h1]; unfold clampI; omega
  · have := ht.1 (hsign.1 h2)
    have e : (BitVec.intMin 64).toInt = -2^63 := by decide
    unfold clampI; omega
  · have := ht.2 (hsign.2 (by simpa using h2))
    have e : (BitVec.intMax 64).toInt = 2^63 - 1 := by decide
    unfold clampI; omega

/-- The hypotheses of the C46 theorems: two floats whose product overflows. -/
example : IsFloat ⟨false, maxMag⟩ ∧ IsFloat ⟨true, 2⟩ ∧
    (Float.val ⟨false, maxMag⟩) * (Float.val ⟨true, 2⟩) ≤ -maxMag := by
  refine ⟨rep_max, ⟨2, 0, by norm_num, by norm_num, by norm_num, by norm_num⟩, ?_⟩
  change maxMag * (-2) ≤ -maxMag
  have := rep_max.nonneg
  linarith

/-! ### C17 -/

/-- A run-time value that exists: a float argument is a binary64 float. -/
def WfVal : Val → Prop
  | .float x => IsFloat x
  | _ => True

/-- The facts are right about the arguments: known literals are the arguments' values, and arguments reported to be
the same place have the same value. -/
structure Sound (F : Facts) (args : List Val) : Prop where
  literal : ∀ i v, F.literal i = some v → args[i]? = some v
  same : ∀ i j, F.same i j = true → args[i]? = args[j]?

theorem addFloat_exact {x y z : Float} (hz : IsFloat z) (h : x.val + y.val = z.val) (h0 : z.val ≠ 0) :
    addFloat x y = .ok z := by
  unfold addFloat f64Add
  simp only []
  rw [h, if_neg h0]
  have hm := hz.nonneg
  have e1 : |z.val| = z.mag := by unfold Float.val sval; split <;> simp [abs_of_nonneg hm]
  have e2 : decide (z.val < 0) = z.neg := by
    have hm0 : z.mag ≠ 0 := fun e => h0 ((val_zero_iff z).mpr e)
    have hpos : 0 < z.mag := lt_of_le_of_ne hm (Ne.symm hm0)
    unfold Float.val sval
    cases z.neg <;> simp [hpos, hm]
  rw [e1, e2, roundMag_rep hz]
  rfl

theorem sub_self_zero (x : Float) : subFloat x x = .ok ⟨false, 0⟩ := by
  have h : x.val + x.negate.val = 0 := by rw [val_negate]; ring
  unfold subFloat f64Sub f64Add
  simp only []
  rw [if_pos h]
  simp [Float.negate, sat, Float.newSaturating]

theorem sub_zero (x : Float) (hx : IsFloat x) : subFloat x ⟨false, 0⟩ = .ok x := by
  by_cases h : x.val = 0
  · have hm := (val_zero_iff x).mp h
    unfold subFloat f64Sub f64Add
    have : (Float.negate ⟨false, 0⟩).val = 0 := by simp [Float.negate, Float.val, sval]
    simp only []
    rw [if_pos (by rw [h, this]; ring)]
    obtain ⟨n, m⟩ := x
    simp only at hm; subst hm
    simp [Float.negate, sat, Float.newSaturating]
  · have := addFloat_exact (x := x) (y := Float.negate ⟨false, 0⟩) hx (by simp [Float.negate, Float.val, sval]) h
    exact this

theorem mul_one (x : Float) (hx : IsFloat x) :
    mulFloat x ⟨false, 1⟩ = .ok x ∧ mulFloat ⟨false, 1⟩ x = .ok x := by
  unfold mulFloat f64Mul
  simp only [_root_.mul_one, _root_.one_mul, Bool.xor_false, Bool.false_xor, roundMag_rep hx]
  exact ⟨rfl, rfl⟩

theorem two_args {c : Callee} {args : List Val} {r : Val} (h : callValue c args = some r)
    (hc : c ≠ .intNeg ∧ c ≠ .intFromInt ∧ c ≠ .floatNeg ∧ c ≠ .boolNot) : ∃ a b, args = [a, b] := by
  match args, h with
  | [], h => cases c <;> simp_all [callValue]
  | [a], h => cases c <;> cases a <;> simp_all [callValue]
  | [a, b], _ => exact ⟨a, b, rfl⟩
  | a :: b :: c' :: t, h => cases c <;> cases a <;> cases b <;> simp_all [callValue]

/-- **C17.** For every call to a known arithmetic or comparison function that returns a value, and whatever facts the
analysis has about the arguments as long as they are true, the code the call is rewritten to computes exactly the same
value: bit for bit on integers (with wrapping) and sign included on floats. -/
theorem C17_rewrite_preserves (F : Facts) (c : Callee) (args : List Val) (r : Val) (rw' : Rewrite)
    (hwf : ∀ v ∈ args, WfVal v) (hs : Sound F args) (hcall : callValue c args = some r)
    (hrw : partialCallOutcome F c = some rw') : rewriteValue args rw' = some r := by
  have hlit := hs.literal
  have hsame := hs.same 0 1
  cases c <;> simp only [partialCallOutcome] at hrw
  case intAdd =>
    obtain ⟨a, b, rfl⟩ := two_args hcall (by decide)
    cases a <;> cases b <;> simp only [callValue, reduceCtorEq] at hcall
    split_ifs at hrw with h1 h2
    · simp only [Option.some.injEq] at hrw hcall; subst hrw; subst hcall
      have := hlit 0 _ (of_decide_eq_true h1)
      simp_all [rewriteValue]
    · simp only [Option.some.injEq] at hrw hcall; subst hrw; subst hcall
      have := hlit 1 _ (of_decide_eq_true h2)
      simp_all [rewriteValue]
  case intSub =>
    obtain ⟨a, b, rfl⟩ := two_args hcall (by decide)
    cases a <;> cases b <;> simp only [callValue, reduceCtorEq] at hcall
    split_ifs at hrw with h1 h2
    · simp only [Option.some.injEq] at hrw hcall; subst hrw; subst hcall
      have := hsame h1
      simp_all [rewriteValue]
    · simp only [Option.some.injEq] at hrw hcall; subst hrw; subst hcall
      have := hlit 1 _ (of_decide_eq_true h2)
      simp_all [rewriteValue]
  case intMul =>
    obtain ⟨a, b, rfl⟩ := two_args hcall (by decide)
    cases a <;> cases b <;> simp only [callValue, reduceCtorEq] at hcall
    split_ifs at hrw with h1 h2 h3
    · rcases (Bool.or_eq_true _ _).mp h1 with h | h
      · simp only [Option.some.injEq] at hrw hcall; subst hrw; subst hcall
        have := hlit 0 _ (of_decide_eq_true h)
        simp_all [rewriteValue]
      · simp only [Option.some.injEq] at hrw hcall; subst hrw; subst hcall
        have := hlit 1 _ (of_decide_eq_true h)
        simp_all [rewriteValue]
    · simp only [Option.some.injEq] at hrw hcall; subst hrw; subst hcall
      have := hlit 0 _ (of_decide_eq_true h2)
      simp_all [rewriteValue]
    · simp only [Option.some.injEq] at hrw hcall; subst hrw; subst hcall
      have := hlit 1 _ (of_decide_eq_true h3)
      simp_all [rewriteValue]
  case intNeg => simp at hrw
  case intFromInt =>
    match args, hcall with
    | [.int a], hcall =>
      simp only [callValue] at hcall
      split_ifs at hrw
      simp only [Option.some.injEq] at hrw hcall; subst hrw; subst hcall
      simp_all [rewriteValue]
  case intCmp =>
    obtain ⟨a, b, rfl⟩ := two_args hcall (by decide)
    cases a <;> cases b <;> simp only [callValue, reduceCtorEq] at hcall
    split_ifs at hrw with h1
    simp only [Option.some.injEq] at hrw hcall; subst hrw; subst hcall
    have := hsame h1
    simp_all [rewriteValue]
  case floatAdd => simp at hrw
  case floatSub =>
    obtain ⟨a, b, rfl⟩ := two_args hcall (by decide)
    cases a <;> cases b <;> simp only [callValue, reduceCtorEq] at hcall
    rename_i x y
    have hx : IsFloat x := hwf (.float x) (by simp)
    split_ifs at hrw with h1 h2
    · have h := hsame h1
      simp only [List.getElem?_cons_zero, List.getElem?_cons_succ, Option.some.injEq, Val.float.injEq] at h
      subst h
      rw [sub_self_zero] at hcall
      simp only [ofRes] at hcall
      simp only [Option.some.injEq] at hrw
      subst hrw; exact hcall
    · have h := hlit 1 _ (of_decide_eq_true h2)
      simp only [List.getElem?_cons_zero, List.getElem?_cons_succ, Option.some.injEq, Val.float.injEq] at h
      subst h
      rw [sub_zero x hx] at hcall
      simp only [ofRes] at hcall
      simp only [Option.some.injEq] at hrw
      subst hrw; exact hcall
  case floatMul =>
    obtain ⟨a, b, rfl⟩ := two_args hcall (by decide)
    cases a <;> cases b <;> simp only [callValue, reduceCtorEq] at hcall
    rename_i x y
    have hx : IsFloat x := hwf (.float x) (by simp)
    have hy : IsFloat y := hwf (.float y) (by simp)
    split_ifs at hrw with h1 h2
    · have h := hlit 0 _ (of_decide_eq_true h1)
      simp only [List.getElem?_cons_zero, Option.some.injEq, Val.float.injEq] at h
      subst h
      rw [(mul_one y hy).2] at hcall
      simp only [ofRes] at hcall
      simp only [Option.some.injEq] at hrw
      subst hrw; exact hcall
    · have h := hlit 1 _ (of_decide_eq_true h2)
      simp only [List.getElem?_cons_zero, List.getElem?_cons_succ, Option.some.injEq, Val.float.injEq] at h
      subst h
      rw [(mul_one x hx).1] at hcall
      simp only [ofRes] at hcall
      simp only [Option.some.injEq] at hrw
      subst hrw; exact hcall
  case floatNeg => simp at hrw
  case floatCmp =>
    obtain ⟨a, b, rfl⟩ := two_args hcall (by decide)
    cases a <;> cases b <;> simp only [callValue, reduceCtorEq] at hcall
    split_ifs at hrw with h1
    simp only [Option.some.injEq] at hrw hcall; subst hrw; subst hcall
    have := hsame h1
    simp_all [rewriteValue, compareFloat]
  case boolNot =>
    match args, hcall with
    | [.bool a], hcall =>
      simp only [callValue] at hcall
      split_ifs at hrw
      simp only [Option.some.injEq] at hrw hcall
      subst hrw hcall
      cases a <;> rfl

/-- The rules the table leaves out would be wrong: `x + 0.0` and `x * 0.0` differ from `x` and `0.0` in the sign of
zero. -/
theorem C17_float_omissions_needed :
    addFloat ⟨true, 0⟩ ⟨false, 0⟩ ≠ .ok ⟨true, 0⟩ ∧ mulFloat ⟨true, 1⟩ ⟨false, 0⟩ ≠ .ok ⟨false, 0⟩ := by
  constructor
  · unfold addFloat f64Add sat; simp [Float.val, sval, Float.newSaturating]
  · unfold mulFloat f64Mul sat roundMag; simp [Float.newSaturating]

example : ∃ F args, Sound F args ∧ (∀ v ∈ args, WfVal v) ∧ partialCallOutcome F .floatSub = some (.copy 0) ∧
    callValue .floatSub args = some (.float ⟨true, 0⟩) :=
  ⟨⟨fun i => if i = 1 then some (.float ⟨false, 0⟩) else none, fun _ => false, fun _ _ => false⟩,
   [.float ⟨true, 0⟩, .float ⟨false, 0⟩],
   ⟨fun i v h => by simp only [] at h; split_ifs at h with hi; subst hi; simpa using h, fun _ _ h => by simp at h⟩,
   by simp [WfVal, IsFloat, rep_zero],
   by simp [partialCallOutcome, floatIs],
   by simp [callValue, sub_zero ⟨true, 0⟩ rep_zero, ofRes]⟩

/-! ### C13 on floats -/

/-- Fields of a bit pattern. -/
def expo (b : BitVec 64) : ℕ := b.toNat / 2^52 % 2^11
def mant (b : BitVec 64) : ℕ := b.toNat % 2^52
/-- Magnitude of a finite bit pattern. -/
def magOf (e m : ℕ) : ℚ := if e = 0 then (m : ℚ) * 2 ^ (-1074 : ℤ) else (2^52 + (m : ℚ)) * 2 ^ ((e : ℤ) - 1075)

theorem decode_fin {b : BitVec 64} {n : Bool} {q : ℚ} (h : decode b = .fin n q) :
    n = b.getLsbD 63 ∧ q = magOf (expo b) (mant b) := by
  unfold decode at h
  simp only [] at h
  unfold magOf expo mant
  split_ifs at h ⊢ <;> simp_all

theorem magOf_lt {e1 e2 m1 m2 : ℕ} (hm : m1 < 2^52) (h : e1 < e2) : magOf e1 m1 < magOf e2 m2 := by
  have h2 : e2 ≠ 0 := by omega
  have hm' : (m1 : ℚ) < 2^52 := by exact_mod_cast hm
  have hm2 : (0:ℚ) ≤ m2 := by positivity
  unfold magOf
  rw [if_neg h2]
  have hle : ∀ k : ℤ, k ≤ (e2 : ℤ) - 1075 → (2:ℚ) ^ k ≤ 2 ^ ((e2 : ℤ) - 1075) :=
    fun k hk => zpow_le_zpow_right₀ one_le_two hk
  have hstep : (2:ℚ)^52 * 2 ^ ((e2 : ℤ) - 1075) ≤ (2^52 + (m2:ℚ)) * 2 ^ ((e2 : ℤ) - 1075) :=
    mul_le_mul_of_nonneg_right (by linarith) (two_pos _).le
  split_ifs with h1
  · calc (m1:ℚ) * 2 ^ (-1074:ℤ) < 2^52 * 2 ^ (-1074:ℤ) := mul_lt_mul_of_pos_right hm' (two_pos _)
      _ ≤ 2^52 * 2 ^ ((e2 : ℤ) - 1075) := mul_le_mul_of_nonneg_left (hle _ (by omega)) (by norm_num)
      _ ≤ _ := hstep
  · calc (2^52 + (m1:ℚ)) * 2 ^ ((e1 : ℤ) - 1075) < 2^53 * 2 ^ ((e1 : ℤ) - 1075) :=
          mul_lt_mul_of_pos_right (by linarith [hm', (by norm_num : (2:ℚ)^53 = 2^52 + 2^52)]) (two_pos _)
      _ = 2^52 * 2 ^ ((e1 : ℤ) - 1075 + 1) := by
          rw [two_mul_zpow, two_mul_zpow]; congr 1; push_cast; ring
      _ ≤ 2^52 * 2 ^ ((e2 : ℤ) - 1075) := mul_le_mul_of_nonneg_left (hle _ (by omega)) (by norm_num)
      _ ≤ _ := hstep

theorem magOf_inj {e1 e2 m1 m2 : ℕ} (h1 : m1 < 2^52) (h2 : m2 < 2^52) (h : magOf e1 m1 = magOf e2 m2) :
    e1 = e2 ∧ m1 = m2 := by
  have he : e1 = e2 := by
    rcases lt_trichotomy e1 e2 with hl | hl | hl
    · have := magOf_lt (m2 := m2) h1 hl; linarith
    · exact hl
    · have := magOf_lt (m2 := m1) h2 hl; linarith
  refine ⟨he, ?_⟩
  subst he
  unfold magOf at h
  split_ifs at h
  · have := mul_right_cancel₀ (two_pos _).ne' h
    exact_mod_cast this
  · have := mul_right_cancel₀ (two_pos _).ne' h
    have : (m1:ℚ) = m2 := by linarith
    exact_mod_cast this

theorem bits_eq {a b : BitVec 64} (h1 : expo a = expo b) (h2 : mant a = mant b)
    (h3 : a.getLsbD 63 = b.getLsbD 63) : a = b := by
  apply BitVec.eq_of_toNat_eq
  unfold expo at h1
  unfold mant at h2
  have key : ∀ x : BitVec 64, x.getLsbD 63 = decide (2^63 ≤ x.toNat) := by
    intro x
    rw [BitVec.getLsbD, Nat.testBit_eq_decide_div_mod_eq, decide_eq_decide]
    have := x.isLt; omega
  rw [key, key, decide_eq_decide] at h3
  have := a.isLt
  have := b.isLt
  omega

/-- **C13 (floats), partial.** Two finite floats that compare equal have the same bit pattern — the word their hash
feeds to the hasher — unless both are zeros.  Missing: `0.0` and `-0.0` (`C13_float_zero_violated`). -/
theorem C13_float_partial (a b : BitVec 64) (x y : Float)
    (ha : decode a = .fin x.neg x.mag) (hb : decode b = .fin y.neg y.mag) (hne : x.val ≠ 0)
    (h : equalFloat x y = true) : a = b := by
  have hv : x.val = y.val := of_decide_eq_true h
  obtain ⟨ha1, ha2⟩ := decode_fin ha
  obtain ⟨hb1, hb2⟩ := decode_fin hb
  have hnn : ∀ e m, 0 ≤ magOf e m := by
    intro e m
    unfold magOf
    split_ifs
    · exact mul_nonneg (by positivity) (two_pos _).le
    · exact mul_nonneg (by positivity) (two_pos _).le
  have hx0 : 0 ≤ x.mag := ha2 ▸ hnn _ _
  have hy0 : 0 ≤ y.mag := hb2 ▸ hnn _ _
  have hxm : x.mag ≠ 0 := fun e => hne ((val_zero_iff x).mpr e)
  have hsm : x.neg = y.neg ∧ x.mag = y.mag := by
    have hxp : 0 < x.mag := lt_of_le_of_ne hx0 (Ne.symm hxm)
    unfold Float.val sval at hv
    cases hxn : x.neg <;> cases hyn : y.neg <;> simp only [hxn, hyn, if_true] at hv
    · exact ⟨rfl, by simpa using hv⟩
    · exfalso; simp at hv; linarith
    · exfalso; simp at hv; linarith
    · exact ⟨rfl, by simpa using hv⟩
  obtain ⟨h1, h2⟩ := magOf_inj (Nat.mod_lt _ (by norm_num)) (Nat.mod_lt _ (by norm_num))
    (show magOf (expo a) (mant a) = magOf (expo b) (mant b) by rw [← ha2, ← hb2, hsm.2])
  exact bits_eq h1 h2 (by rw [← ha1, ← hb1, hsm.1])

/-- **C13 violated on floats.** `0.0 == -0.0`, but their bit patterns, hence the words hashed, differ. -/
theorem C13_float_zero_violated :
    ∃ (a b : BitVec 64) (x y : Float), decode a = .fin x.neg x.mag ∧ decode b = .fin y.neg y.mag ∧
      equalFloat x y = true ∧ a ≠ b := by
  refine ⟨0#64, 0x8000000000000000#64, ⟨false, 0⟩, ⟨true, 0⟩, ?_, ?_, ?_, by decide⟩
  · simp [decode]
  · simp [decode]
  · simp [equalFloat, Float.val, sval]

example : decode 0x3FF8000000000000#64 = .fin false (3/2) := by
  have h1 : (0x3FF8000000000000#64).toNat / 2^52 % 2^11 = 1023 := by decide
  have h2 : (0x3FF8000000000000#64).toNat % 2^52 = 2^51 := by decide
  have h3 : (0x3FF8000000000000#64).getLsbD 63 = false := by decide
  unfold decode
  simp only [h1, h2, h3]
  norm_num

end Ferlium.Flt.Props
