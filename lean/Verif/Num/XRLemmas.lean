import Verif.Num.Rounded
import Verif.Core.Logit

/-! Helper lemmas: the interface operations on `XR`, and sums of finite values. -/
namespace Cheval
open FOps

namespace XR
@[simp] theorem zero_def : (FOps.zero : XR) = fin 0 := rfl
@[simp] theorem one_def : (FOps.one : XR) = fin 1 := rfl
@[simp] theorem negInf_def : (FOps.negInf : XR) = ninf := rfl
@[simp] theorem posInf_def : (FOps.posInf : XR) = pinf := rfl
@[simp] theorem nan_def : (FOps.nan : XR) = nan := rfl
@[simp] theorem add_fin (x y : ℝ) : FOps.add (fin x) (fin y) = fin (x + y) := rfl
@[simp] theorem mul_fin (x y : ℝ) : FOps.mul (fin x) (fin y) = fin (x * y) := rfl
theorem div_fin (x y : ℝ) (h : y ≠ 0) : FOps.div (fin x) (fin y) = fin (x / y) := by
  simp [FOps.div, div, h]
@[simp] theorem exp_fin (x : ℝ) : FOps.exp (fin x) = fin (Real.exp x) := rfl
@[simp] theorem exp_ninf : FOps.exp ninf = fin 0 := rfl
@[simp] theorem le_fin (x y : ℝ) : (FOps.le (fin x) (fin y) = true) ↔ x ≤ y := by simp [FOps.le, le]
@[simp] theorem le_fin_false (x y : ℝ) : (FOps.le (fin x) (fin y) = false) ↔ y < x := by simp [FOps.le, le]
@[simp] theorem lt_fin (x y : ℝ) : (FOps.lt (fin x) (fin y) = true) ↔ x < y := by simp [FOps.lt, lt]
@[simp] theorem isNan_fin (x : ℝ) : FOps.isNan (fin x) = false := rfl

/-- `np.finfo(np.float64).tiny = 2^-1022` -/
noncomputable def tinyR : ℝ := (1 / 2 : ℝ) ^ (1022 : ℕ)
theorem tiny_def : (FOps.tiny : XR) = fin tinyR := rfl
theorem tinyR_pos : 0 < tinyR := by unfold tinyR; positivity
theorem tinyR_lt_one : tinyR < 1 := by
  unfold tinyR
  exact pow_lt_one₀ (by norm_num) (by norm_num) (by norm_num)

theorem foldl_add_fin (l : List ℝ) (c : ℝ) :
    (l.map fin).foldl FOps.add (fin c) = fin (c + l.sum) := by
  induction l generalizing c with
  | nil => simp
  | cons x l ih => simp [ih, add_assoc]

theorem sumF_fin (l : List ℝ) : sumF (l.map fin) = fin l.sum := by
  simp [sumF, foldl_add_fin]

theorem pyMax_fin (x y : ℝ) : pyMax (fin x) (fin y) = fin (max x y) := by
  unfold pyMax
  by_cases h : y ≤ x
  · simp [h]
  · simp [h, (not_le.mp h).le]

end XR
end Cheval
