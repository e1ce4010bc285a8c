import Verif.Num.Binary64
import Mathlib.Algebra.Order.Floor.Ring

/-!
# Rounding errors of binary64 arithmetic
-/
namespace Cheval.B64
open Cheval

/-- half a unit in the last place of 1 -/
noncomputable def uro : ℝ := 1 / 2 ^ 53

/-- half of the smallest subnormal number -/
noncomputable def eta : ℝ := 2 ^ (-1075 : ℤ)

theorem uro_pos : 0 < uro := by unfold uro; positivity
theorem eta_pos : 0 < eta := two_zpow_pos _

theorem roundEven_err (x : ℝ) : |(roundEven x : ℝ) - x| ≤ 1 / 2 := by
  have h1 := Int.floor_le x
  have h2 := Int.lt_floor_add_one x
  unfold roundEven
  rw [abs_le]
  split_ifs <;> push_cast <;> constructor <;> linarith

theorem rpos_err (x : ℝ) : |rpos x - x| ≤ 2 ^ qexp x / 2 := by
  have hp := two_zpow_pos (qexp x)
  have h := roundEven_err (x / 2 ^ qexp x)
  have e : rpos x - x = ((roundEven (x / 2 ^ qexp x) : ℝ) - x / 2 ^ qexp x) * 2 ^ qexp x := by
    unfold rpos; rw [sub_mul, div_mul_cancel₀ _ hp.ne']
  rw [e, abs_mul, abs_of_pos hp]
  calc _ ≤ 1 / 2 * (2 : ℝ) ^ qexp x := mul_le_mul_of_nonneg_right h hp.le
    _ = _ := by ring

/-- normal numbers: relative error `2^-53` -/
theorem rpos_rel (x : ℝ) (h : (2 : ℝ) ^ (-1022 : ℤ) ≤ x) : |rpos x - x| ≤ uro * x := by
  have hx : 0 < x := lt_of_lt_of_le (two_zpow_pos _) h
  have hl : (-1022 : ℤ) ≤ Int.log 2 x := by
    rw [← Int.zpow_le_iff_le_log (by norm_num) hx]; exact_mod_cast h
  have hq : qexp x = Int.log 2 x - 52 := by unfold qexp; omega
  have h2 : (2 : ℝ) ^ Int.log 2 x ≤ x := by
    have := Int.zpow_log_le_self (b := 2) (by norm_num) hx
    exact_mod_cast this
  refine (rpos_err x).trans ?_
  rw [hq, zpow_sub₀ (by norm_num)]
  unfold uro
  have : (2 : ℝ) ^ Int.log 2 x / 2 ^ (52 : ℤ) / 2 = 1 / 2 ^ 53 * 2 ^ Int.log 2 x := by
    norm_num; ring
  rw [this]
  exact mul_le_mul_of_nonneg_left h2 (by positivity)

theorem qexp_small (x : ℝ) (hx : 0 < x) (h : x < (2 : ℝ) ^ (-1021 : ℤ)) : qexp x = -1074 := by
  unfold qexp
  have : Int.log 2 x < -1021 := by
    rw [← Int.lt_zpow_iff_log_lt (by norm_num) hx]; exact_mod_cast h
  omega

/-- all numbers: relative error `2^-53`, or absolute error `2^-1075` -/
theorem rpos_abs (x : ℝ) (h : 0 ≤ x) : |rpos x - x| ≤ uro * x + eta := by
  rcases lt_or_eq_of_le h with hx | hx
  · by_cases hs : (2 : ℝ) ^ (-1022 : ℤ) ≤ x
    · exact (rpos_rel x hs).trans (by linarith [eta_pos])
    · push Not at hs
      have hq := qexp_small x hx (hs.trans_le (zpow_le_zpow_right₀ (by norm_num) (by norm_num)))
      have he := rpos_err x
      rw [hq] at he
      have e : (2 : ℝ) ^ (-1074 : ℤ) / 2 = eta := by
        unfold eta
        rw [show (-1074 : ℤ) = -1075 + 1 by norm_num, zpow_add₀ (by norm_num)]
        norm_num
      rw [e] at he
      have := mul_nonneg uro_pos.le h
      linarith
  · rw [← hx, rpos_zero]
    simp [eta_pos.le]

/-- representable non-negative numbers are multiples of the smallest one -/
theorem rep_multiple (x : ℝ) (hx : 0 ≤ x) (h : rpos x = x) : ∃ n : ℕ, x = n * 2 ^ (-1074 : ℤ) := by
  have hq : (-1074 : ℤ) ≤ qexp x := by unfold qexp; omega
  have e := zpow_split (qexp x) (-1074) hq
  have h2 : x = ((roundEven (x / 2 ^ qexp x) * 2 ^ (qexp x - -1074).toNat : ℤ) : ℝ) * 2 ^ (-1074 : ℤ) := by
    have h5 : x = (roundEven (x / 2 ^ qexp x) : ℝ) * 2 ^ qexp x := h.symm
    have h6 : (roundEven (x / 2 ^ qexp x) : ℝ) * 2 ^ qexp x
        = (roundEven (x / 2 ^ qexp x) : ℝ) * (((2 ^ (qexp x - -1074).toNat : ℤ) : ℝ) * 2 ^ (-1074 : ℤ)) := by rw [← e]
    refine h5.trans (h6.trans ?_)
    push_cast
    ring
  have h3 : (0 : ℝ) ≤ ((roundEven (x / 2 ^ qexp x) * 2 ^ (qexp x - -1074).toNat : ℤ) : ℝ) := by
    by_contra hn
    push Not at hn
    have := mul_neg_of_neg_of_pos hn (two_zpow_pos (-1074))
    rw [← h2] at this
    linarith
  have h4 : (0 : ℤ) ≤ roundEven (x / 2 ^ qexp x) * 2 ^ (qexp x - -1074).toNat := by exact_mod_cast h3
  obtain ⟨n, hn⟩ := Int.eq_ofNat_of_zero_le h4
  refine ⟨n, ?_⟩
  conv_lhs => rw [h2, hn]
  simp

/-- sums of representable non-negative numbers: relative error `2^-53`, never an underflow -/
theorem rpos_add (a b : ℝ) (ha : 0 ≤ a) (hb : 0 ≤ b) (ra : rpos a = a) (rb : rpos b = b) :
    |rpos (a + b) - (a + b)| ≤ uro * (a + b) := by
  by_cases hs : (2 : ℝ) ^ (-1022 : ℤ) ≤ a + b
  · exact rpos_rel _ hs
  · push Not at hs
    obtain ⟨n, hn⟩ := rep_multiple a ha ra
    obtain ⟨m, hm⟩ := rep_multiple b hb rb
    have e : rpos (a + b) = a + b := by
      rcases lt_or_eq_of_le (add_nonneg ha hb) with h0 | h0
      · have hq := qexp_small _ h0 (hs.trans_le (zpow_le_zpow_right₀ (by norm_num) (by norm_num)))
        apply rpos_exact _ ((n + m : ℕ) : ℤ)
        rw [hq]
        push_cast
        rw [add_mul, ← hn, ← hm]
      · rw [← h0, rpos_zero]
    rw [e]
    simp only [sub_self, abs_zero]
    exact mul_nonneg uro_pos.le (add_nonneg ha hb)

theorem rnd_fin {x y : ℝ} (hx : 0 ≤ x) (h : rnd x = .fin y) : rpos x = y := by
  rw [rnd_nonneg hx] at h
  split_ifs at h
  simpa using h

/-- rounding a non-negative number, if there is no overflow -/
theorem rnd_err {x y : ℝ} (hx : 0 ≤ x) (h : rnd x = .fin y) : |y - x| ≤ uro * x + eta := by
  rw [← rnd_fin hx h]; exact rpos_abs x hx

theorem rnd_add_err {a b y : ℝ} (ha : 0 ≤ a) (hb : 0 ≤ b) (ra : rnd a = .fin a) (rb : rnd b = .fin b) (h : rnd (a + b) = .fin y) :
    |y - (a + b)| ≤ uro * (a + b) := by
  rw [← rnd_fin (add_nonneg ha hb) h]
  exact rpos_add a b ha hb (rnd_fin ha ra) (rnd_fin hb rb)

end Cheval.B64
