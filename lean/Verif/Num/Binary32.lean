import Verif.Num.Error64

/-!
# Single precision exponentials in double precision arithmetic

The utilities of a model with `precision = 4` are float32. `multinomial_probabilities` (core.py:133-157) takes `np.exp` of a float32, which
Numba evaluates in single precision; the sum and the quotients are float64, because `total_ls` and `p` are. So its arithmetic is the one of
binary64 with an exponential whose results are binary32 numbers. (`nested_probabilities` converts to float64 first, core.py:168.)
-/
namespace Cheval.B32
open Cheval B64

/-- exponent of the last place of `x >= 0` in binary32 -/
noncomputable def q32 (x : ℝ) : ℤ := max (Int.log 2 x) (-126) - 23

/-- rounding of a non-negative real to 24 significant bits, before the overflow check -/
noncomputable def rpos32 (x : ℝ) : ℝ := roundEven (x / 2 ^ q32 x) * 2 ^ q32 x

/-- binary32 rounding of a non-negative real: to nearest, ties to even, subnormals, overflow to infinity -/
noncomputable def rnd32 (x : ℝ) : XR := open Classical in if 2 ^ (128 : ℕ) ≤ rpos32 x then .pinf else .fin (rpos32 x)

theorem rpos32_err (x : ℝ) : |rpos32 x - x| ≤ 2 ^ q32 x / 2 := by
  have hp := two_zpow_pos (q32 x)
  have h := roundEven_err (x / 2 ^ q32 x)
  have e : rpos32 x - x = ((roundEven (x / 2 ^ q32 x) : ℝ) - x / 2 ^ q32 x) * 2 ^ q32 x := by
    unfold rpos32; rw [sub_mul, div_mul_cancel₀ _ hp.ne']
  rw [e, abs_mul, abs_of_pos hp]
  calc _ ≤ 1 / 2 * (2 : ℝ) ^ q32 x := mul_le_mul_of_nonneg_right h hp.le
    _ = _ := by ring

/-- relative error `2^-24`, or absolute error `2^-150` -/
theorem rpos32_abs (x : ℝ) (hx : 0 < x) : |rpos32 x - x| ≤ 1 / 2 ^ 24 * x + 1 / 2 ^ 150 := by
  refine (rpos32_err x).trans ?_
  have h2 : (2 : ℝ) ^ Int.log 2 x ≤ x := by
    have := Int.zpow_log_le_self (b := 2) (by norm_num) hx
    exact_mod_cast this
  unfold q32
  rcases le_total (Int.log 2 x) (-126) with h | h
  · rw [max_eq_right h]
    have : (2 : ℝ) ^ (-126 - 23 : ℤ) / 2 = 1 / 2 ^ 150 := by
      rw [show (-126 - 23 : ℤ) = -149 by norm_num, zpow_neg]
      norm_num
    rw [this]
    have : 0 ≤ 1 / 2 ^ 24 * x := by positivity
    linarith
  · rw [max_eq_left h, zpow_sub₀ (by norm_num)]
    have : (2 : ℝ) ^ Int.log 2 x / 2 ^ (23 : ℤ) / 2 = 1 / 2 ^ 24 * 2 ^ Int.log 2 x := by
      norm_num; ring
    rw [this]
    have h3 : 1 / 2 ^ 24 * (2 : ℝ) ^ Int.log 2 x ≤ 1 / 2 ^ 24 * x := mul_le_mul_of_nonneg_left h2 (by positivity)
    have : (0 : ℝ) ≤ 1 / 2 ^ 150 := by positivity
    linarith

theorem roundEven_nonneg {x : ℝ} (h : 0 ≤ x) : 0 ≤ roundEven x := by
  have := roundEven_mono h
  rwa [show (0 : ℝ) = ((0 : ℤ) : ℝ) by norm_num, roundEven_int] at this

theorem rpos32_nonneg {x : ℝ} (h : 0 ≤ x) : 0 ≤ rpos32 x := by
  have hp := two_zpow_pos (q32 x)
  exact mul_nonneg (by exact_mod_cast roundEven_nonneg (div_nonneg h hp.le)) hp.le

theorem rpos32_le_pow (x : ℝ) (k : ℤ) (hk : q32 x ≤ k) (h : x ≤ 2 ^ k) : rpos32 x ≤ 2 ^ k := by
  have hp := two_zpow_pos (q32 x)
  have e := zpow_split k (q32 x) hk
  unfold rpos32
  rw [e]
  have h1 : x / 2 ^ q32 x ≤ ((2 ^ (k - q32 x).toNat : ℤ) : ℝ) := by
    rw [div_le_iff₀ hp, ← e]; exact h
  have h2 := roundEven_mono h1
  rw [roundEven_int] at h2
  exact mul_le_mul_of_nonneg_right (by exact_mod_cast h2) hp.le

theorem pow_le_rpos32 (x : ℝ) (k : ℤ) (hk : q32 x ≤ k) (h : 2 ^ k ≤ x) : 2 ^ k ≤ rpos32 x := by
  have hp := two_zpow_pos (q32 x)
  have e := zpow_split k (q32 x) hk
  unfold rpos32
  rw [e]
  have h1 : ((2 ^ (k - q32 x).toNat : ℤ) : ℝ) ≤ x / 2 ^ q32 x := by
    rw [le_div_iff₀ hp, ← e]; exact h
  have h2 := roundEven_mono h1
  rw [roundEven_int] at h2
  exact mul_le_mul_of_nonneg_right (by exact_mod_cast h2) hp.le

/-- the significand has at most 24 bits, or is 2^24 -/
theorem significand_le (x : ℝ) : roundEven (x / 2 ^ q32 x) ≤ 2 ^ 24 := by
  have h1 : x < (2 : ℝ) ^ (Int.log 2 x + 1) := by
    have := Int.lt_zpow_succ_log_self (b := 2) (by norm_num) x
    exact_mod_cast this
  have h2 : x ≤ (2 : ℝ) ^ (24 : ℕ) * 2 ^ q32 x := by
    refine h1.le.trans ?_
    rw [← zpow_natCast, ← zpow_add₀ (by norm_num)]
    refine zpow_le_zpow_right₀ (by norm_num) ?_
    unfold q32; push_cast; omega
  have h3 : x / 2 ^ q32 x ≤ ((2 ^ 24 : ℤ) : ℝ) := by
    rw [div_le_iff₀ (two_zpow_pos _)]; refine h2.trans (le_of_eq ?_); norm_num
  have := roundEven_mono h3
  rwa [roundEven_int] at this

/-- binary32 numbers are binary64 numbers -/
theorem rnd32_rep (x y : ℝ) (hx : 0 ≤ x) (h : rnd32 x = .fin y) : rnd y = .fin y := by
  unfold rnd32 at h
  split at h
  · cases h
  rename_i hb
  have e : rpos32 x = y := by simpa using h
  have h0 : 0 ≤ y := e ▸ rpos32_nonneg hx
  have hm0 := roundEven_nonneg (div_nonneg hx (two_zpow_pos (q32 x)).le)
  have hm1 := significand_le x
  have hr : rpos y = y := by
    have := rpos_dyadic (roundEven (x / 2 ^ q32 x)).toNat (q32 x) (by omega) (by unfold q32; omega)
    have ec : (((roundEven (x / 2 ^ q32 x)).toNat : ℕ) : ℝ) = (roundEven (x / 2 ^ q32 x) : ℝ) := by
      have : (((roundEven (x / 2 ^ q32 x)).toNat : ℕ) : ℤ) = roundEven (x / 2 ^ q32 x) := Int.toNat_of_nonneg hm0
      exact_mod_cast congrArg (fun z : ℤ => (z : ℝ)) this
    rw [ec] at this
    rw [← e]; exact this
  rw [rnd_nonneg h0, hr, if_neg]
  push Not at hb ⊢
  rw [e] at hb
  exact hb.trans (by unfold big; exact pow_lt_pow_right₀ (by norm_num) (by norm_num))

theorem rnd32_nonneg (x : ℝ) (h : 0 ≤ x) : XR.le (.fin 0) (rnd32 x) = true := by
  unfold rnd32
  split
  · rfl
  · simpa [XR.le] using rpos32_nonneg h

/-- double precision arithmetic with an exponential in single precision -/
noncomputable def R32 : Rounding :=
  { R64 with
    fexp := fun x => rnd32 (Real.exp x)
    fexp_rep := fun x y h => rnd32_rep _ y (Real.exp_pos x).le h
    fexp_nonneg := fun x => rnd32_nonneg _ (Real.exp_pos x).le }

theorem rnd_R32 : R32.rnd = B64.rnd := rfl

/-- values of the arithmetic used for single precision utilities -/
abbrev F32 := Rnd R32

theorem rnd32_fin {x : ℝ} (hx : 0 < x) (h : x ≤ 2 ^ (127 : ℕ)) : ∃ y, rnd32 x = .fin y ∧ y ≤ 2 ^ (127 : ℕ) := by
  have hq : q32 x ≤ 127 := by
    have : Int.log 2 x ≤ 127 := by
      have h1 : x < (2 : ℝ) ^ (128 : ℤ) := lt_of_le_of_lt h (by
        rw [show (128 : ℤ) = ((128 : ℕ) : ℤ) by norm_num, zpow_natCast]; exact pow_lt_pow_right₀ (by norm_num) (by norm_num))
      have := (Int.lt_zpow_iff_log_lt (b := 2) (by norm_num) (x := 128) hx).mp (by exact_mod_cast h1)
      omega
    unfold q32; omega
  have h2 : rpos32 x ≤ 2 ^ (127 : ℕ) := by
    have := rpos32_le_pow x 127 hq (by rw [show (127 : ℤ) = ((127 : ℕ) : ℤ) by norm_num, zpow_natCast]; exact h)
    rwa [show (127 : ℤ) = ((127 : ℕ) : ℤ) by norm_num, zpow_natCast] at this
  refine ⟨rpos32 x, ?_, h2⟩
  unfold rnd32
  rw [if_neg]
  push Not
  exact lt_of_le_of_lt h2 (pow_lt_pow_right₀ (by norm_num) (by norm_num))

theorem rnd32_over {x : ℝ} (h : 2 ^ (128 : ℕ) ≤ x) : rnd32 x = .pinf := by
  unfold rnd32
  rw [if_pos]
  have hx : 0 < x := lt_of_lt_of_le (by positivity) h
  rcases le_total (q32 x) 128 with hq | hq
  · have := pow_le_rpos32 x 128 hq (by rw [show (128 : ℤ) = ((128 : ℕ) : ℤ) by norm_num, zpow_natCast]; exact h)
    rwa [show (128 : ℤ) = ((128 : ℕ) : ℤ) by norm_num, zpow_natCast] at this
  · have h2 : (2 : ℝ) ^ q32 x ≤ x := by
      have := Int.zpow_log_le_self (b := 2) (by norm_num) hx
      refine le_trans (zpow_le_zpow_right₀ (by norm_num) ?_) (by exact_mod_cast this)
      unfold q32 at hq ⊢; omega
    have := pow_le_rpos32 x _ (le_refl _) h2
    refine le_trans ?_ this
    rw [← zpow_natCast]
    exact zpow_le_zpow_right₀ (by norm_num) (by exact_mod_cast hq)

theorem rnd32_pos {x y : ℝ} (h : (2 : ℝ) ^ (-149 : ℤ) ≤ x) (hy : rnd32 x = .fin y) : 0 < y := by
  unfold rnd32 at hy
  split at hy
  · cases hy
  have e : rpos32 x = y := by simpa using hy
  have hx : 0 < x := lt_of_lt_of_le (two_zpow_pos _) h
  have hq : (2 : ℝ) ^ q32 x ≤ x := by
    unfold q32
    rcases le_total (Int.log 2 x) (-126) with h' | h'
    · rw [max_eq_right h']; exact h
    · rw [max_eq_left h']
      have := Int.zpow_log_le_self (b := 2) (by norm_num) hx
      exact le_trans (zpow_le_zpow_right₀ (n := Int.log 2 x) (by norm_num) (by omega)) (by exact_mod_cast this)
  have := pow_le_rpos32 x _ (le_refl _) hq
  rw [← e]
  exact lt_of_lt_of_le (two_zpow_pos _) this

end Cheval.B32
