import Verif.Num.Error64
import Mathlib.Analysis.SpecialFunctions.Log.Basic

/-!
# Rounding errors measured on the logarithmic scale
-/
namespace Cheval.B64
open Cheval

/-- a number with a small relative error -/
theorem log_near {x y a : ℝ} (hx : 0 < x) (ha : a ≤ 1 / 2) (h : |y - x| ≤ a * x) : 0 < y ∧ |Real.log y - Real.log x| ≤ 2 * a := by
  have ha0 : 0 ≤ a := by
    by_contra hc
    push Not at hc
    have := abs_nonneg (y - x)
    nlinarith
  rw [abs_le] at h
  have hy : x / 2 ≤ y := by nlinarith
  have hy0 : 0 < y := by linarith
  refine ⟨hy0, ?_⟩
  rw [← Real.log_div hy0.ne' hx.ne', abs_le]
  have hr : 0 < y / x := div_pos hy0 hx
  have h1 : 1 - a ≤ y / x := by rw [le_div_iff₀ hx]; linarith
  have h2 : y / x ≤ 1 + a := by rw [div_le_iff₀ hx]; linarith
  constructor
  · have h3 := Real.one_sub_inv_le_log_of_pos hr
    have h4 : (y / x)⁻¹ ≤ 1 + 2 * a := by
      rw [inv_le_comm₀ hr (by linarith)]
      refine le_trans ?_ h1
      rw [inv_le_iff_one_le_mul₀ (by linarith)]
      nlinarith
    linarith
  · have := Real.log_le_sub_one_of_pos hr
    linarith

/-- the converse: a small error of the logarithm is a small absolute error of a number below 1 -/
theorem near_of_log {x y a : ℝ} (hx : 0 < x) (hx1 : x ≤ 1) (hy : 0 < y) (ha : a ≤ 1 / 2) (h : |Real.log y - Real.log x| ≤ a) : |y - x| ≤ 2 * a := by
  have ha0 : 0 ≤ a := (abs_nonneg _).trans h
  rw [abs_le] at h
  have e : y = x * Real.exp (Real.log y - Real.log x) := by
    rw [Real.exp_sub, Real.exp_log hy, Real.exp_log hx]; field_simp
  have hb := Real.abs_exp_sub_one_le (x := Real.log y - Real.log x) (by rw [abs_le]; constructor <;> linarith)
  have : y - x = x * (Real.exp (Real.log y - Real.log x) - 1) := by
    conv_lhs => rw [e]
    ring
  rw [this, abs_mul, abs_of_pos hx]
  have hb2 : |Real.exp (Real.log y - Real.log x) - 1| ≤ 2 * a := hb.trans (by
    have : |Real.log y - Real.log x| ≤ a := abs_le.mpr h
    linarith)
  calc x * |Real.exp (Real.log y - Real.log x) - 1| ≤ 1 * (2 * a) := mul_le_mul hx1 hb2 (abs_nonneg _) zero_le_one
    _ = 2 * a := one_mul _

theorem uro_small : uro ≤ 1 / 100 := by unfold uro; norm_num
theorem eta_le_uro : eta ≤ uro := by
  unfold eta uro
  calc (2 : ℝ) ^ (-1075 : ℤ) ≤ 2 ^ (-53 : ℤ) := zpow_le_zpow_right₀ (by norm_num) (by norm_num)
    _ = 1 / 2 ^ 53 := by norm_num

private theorem rpos_lt_big {x : ℝ} (h0 : 0 ≤ x) (h : x ≤ 2 ^ 1000) : rpos x < big := by
  have h1 := rpos_abs x h0
  rw [abs_le] at h1
  have h2 : uro * x ≤ 1 * x := mul_le_mul_of_nonneg_right (by linarith [uro_small]) h0
  have h3 : eta ≤ 1 := by linarith [eta_le_uro, uro_small]
  have h4 : (1 : ℝ) ≤ 2 ^ 1000 := one_le_pow₀ (by norm_num)
  have h5 : (2 : ℝ) ^ 1000 * 4 < big := by
    unfold big
    calc (2 : ℝ) ^ 1000 * 4 = 2 ^ 1002 := by rw [show (1002 : ℕ) = 1000 + 2 by norm_num, pow_add]; norm_num
      _ < 2 ^ 1024 := pow_lt_pow_right₀ (by norm_num) (by norm_num)
  generalize (2 : ℝ) ^ 1000 = b at *
  linarith [h1.2]

/-- rounding a number of either sign, below the overflow threshold -/
theorem rnd_signed {x : ℝ} (h : |x| ≤ 2 ^ 1000) : ∃ y, rnd x = .fin y ∧ |y - x| ≤ uro * |x| + eta := by
  by_cases h0 : 0 ≤ x
  · rw [abs_of_nonneg h0] at h ⊢
    refine ⟨rpos x, ?_, rpos_abs x h0⟩
    rw [rnd_nonneg h0, if_neg (not_le.mpr (rpos_lt_big h0 h))]
  · push Not at h0
    rw [abs_of_neg h0] at h ⊢
    refine ⟨-rpos (-x), ?_, ?_⟩
    · unfold rnd
      rw [if_neg (not_le.mpr h0), if_neg (not_le.mpr (rpos_lt_big (by linarith) h))]
    · have := rpos_abs (-x) (by linarith)
      rw [abs_sub_comm] at this
      have e : -rpos (-x) - x = -x - rpos (-x) := by ring
      rwa [e]

/-- the same with a bound on the number -/
theorem rnd_bounded {x B : ℝ} (h : |x| ≤ B) (hB : B ≤ 2000) : ∃ y, rnd x = .fin y ∧ |y - x| ≤ uro * B + eta := by
  have hb : (2000 : ℝ) ≤ 2 ^ 1000 := by
    calc (2000 : ℝ) ≤ 2 ^ 11 := by norm_num
      _ ≤ 2 ^ 1000 := pow_le_pow_right₀ (by norm_num) (by norm_num)
  obtain ⟨y, h1, h2⟩ := rnd_signed (x := x) ((h.trans hB).trans hb)
  exact ⟨y, h1, h2.trans (by linarith [mul_le_mul_of_nonneg_left h uro_pos.le])⟩

/-- a sum known up to `k` roundings -/
theorem log_sum_err {A S : ℝ} (k : ℕ) (hA : 0 < A) (h1 : (1 - uro) ^ k * A ≤ S) (h2 : S ≤ (1 + uro) ^ k * A) :
    0 < S ∧ |Real.log S - Real.log A| ≤ 2 * k * uro := by
  have hu := uro_small
  have hu0 := uro_pos
  have hp : 0 < (1 - uro) ^ k := pow_pos (by linarith) k
  have hS : 0 < S := lt_of_lt_of_le (mul_pos hp hA) h1
  refine ⟨hS, ?_⟩
  have hl1 := Real.log_le_log (mul_pos hp hA) h1
  have hl2 := Real.log_le_log hS h2
  have hp2 : 0 < (1 + uro) ^ k := pow_pos (by linarith) k
  rw [Real.log_mul hp.ne' hA.ne', Real.log_pow] at hl1
  rw [Real.log_mul hp2.ne' hA.ne', Real.log_pow] at hl2
  have h3 : Real.log (1 + uro) ≤ uro := by
    have := Real.log_le_sub_one_of_pos (show 0 < 1 + uro by linarith)
    linarith
  have h4 : -(2 * uro) ≤ Real.log (1 - uro) := by
    have := (log_near (x := 1) (y := 1 - uro) (a := uro) one_pos (by linarith) (by
      rw [mul_one]; simp [abs_of_pos hu0])).2
    rw [Real.log_one, sub_zero, abs_le] at this
    linarith [this.1]
  have hk : (0 : ℝ) ≤ k := Nat.cast_nonneg k
  have h5 := mul_le_mul_of_nonneg_left h3 hk
  have h6 := mul_le_mul_of_nonneg_left h4 hk
  have h7 := mul_nonneg hk hu0.le
  rw [abs_le]
  constructor <;> nlinarith

/-- computed and exact terms that are both 0, or both positive and close on the logarithmic scale -/
def LogClose (δ T y : ℝ) : Prop := (T = 0 ∧ y = 0) ∨ (0 < T ∧ 0 < y ∧ |Real.log y - Real.log T| ≤ δ)

theorem LogClose.bounds {δ T y : ℝ} (h : LogClose δ T y) : y ≤ Real.exp δ * T ∧ T ≤ Real.exp δ * y ∧ 0 ≤ y ∧ 0 ≤ T := by
  rcases h with ⟨rfl, rfl⟩ | ⟨hT, hy, h⟩
  · simp
  · rw [abs_le] at h
    refine ⟨?_, ?_, hy.le, hT.le⟩
    · have := Real.exp_le_exp.mpr (show Real.log y ≤ δ + Real.log T by linarith [h.2])
      rwa [Real.exp_add, Real.exp_log hy, Real.exp_log hT] at this
    · have := Real.exp_le_exp.mpr (show Real.log T ≤ δ + Real.log y by linarith [h.1])
      rwa [Real.exp_add, Real.exp_log hy, Real.exp_log hT] at this

theorem LogClose.sum {α : Type} (l : List α) (T y : α → ℝ) (δ : ℝ) (h : ∀ i ∈ l, LogClose δ (T i) (y i)) :
    LogClose δ (l.map T).sum (l.map y).sum := by
  have h1 : (l.map y).sum ≤ Real.exp δ * (l.map T).sum := by
    rw [← List.sum_map_mul_left]
    exact List.sum_le_sum fun i hi => (h i hi).bounds.1
  have h2 : (l.map T).sum ≤ Real.exp δ * (l.map y).sum := by
    rw [← List.sum_map_mul_left]
    exact List.sum_le_sum fun i hi => (h i hi).bounds.2.1
  have h3 : 0 ≤ (l.map y).sum := List.sum_nonneg (by
    intro x hx; obtain ⟨i, hi, rfl⟩ := List.mem_map.mp hx; exact (h i hi).bounds.2.2.1)
  have h4 : 0 ≤ (l.map T).sum := List.sum_nonneg (by
    intro x hx; obtain ⟨i, hi, rfl⟩ := List.mem_map.mp hx; exact (h i hi).bounds.2.2.2)
  have he := Real.exp_pos δ
  rcases h4.eq_or_lt with h0 | h0
  · left
    rw [← h0, mul_zero] at h1
    exact ⟨h0.symm, le_antisymm h1 h3⟩
  · right
    have h5 : 0 < (l.map y).sum := by
      by_contra hc
      have : (l.map y).sum = 0 := le_antisymm (not_lt.mp hc) h3
      rw [this, mul_zero] at h2
      linarith
    refine ⟨h0, h5, ?_⟩
    have e1 := Real.log_le_log h5 h1
    have e2 := Real.log_le_log h0 h2
    rw [Real.log_mul he.ne' h0.ne', Real.log_exp] at e1
    rw [Real.log_mul he.ne' h5.ne', Real.log_exp] at e2
    rw [abs_le]
    constructor <;> linarith

end Cheval.B64
