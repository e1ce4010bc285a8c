import Verif.Num.Rounded
import Mathlib.Data.Int.Log
import Mathlib.Algebra.Order.Floor.Ring
import Mathlib.Tactic.Linarith
import Mathlib.Tactic.Positivity
import Mathlib.Tactic.NormNum

/-!
# IEEE-754 binary64 as an instance of `Rounding`

Round to nearest, ties to even, with gradual underflow (smallest spacing `2^-1074`) and overflow to infinity.
This discharges the claim that the arithmetic the code runs on satisfies the laws `FLaws` (the sign of zero is not
represented; `exp` and `log` are taken correctly rounded).
-/
namespace Cheval.B64
open Classical

/-- nearest integer, ties to even -/
noncomputable def roundEven (x : ℝ) : ℤ :=
  if x - ⌊x⌋ < 1 / 2 then ⌊x⌋ else if 1 / 2 < x - ⌊x⌋ then ⌊x⌋ + 1 else if Even ⌊x⌋ then ⌊x⌋ else ⌊x⌋ + 1

theorem roundEven_bounds (x : ℝ) : ⌊x⌋ ≤ roundEven x ∧ roundEven x ≤ ⌊x⌋ + 1 := by
  unfold roundEven
  split_ifs <;> omega

theorem roundEven_int (m : ℤ) : roundEven (m : ℝ) = m := by
  unfold roundEven
  simp

theorem roundEven_mono {x y : ℝ} (h : x ≤ y) : roundEven x ≤ roundEven y := by
  rcases lt_or_eq_of_le (Int.floor_mono h) with hlt | heq
  · have := (roundEven_bounds x).2
    have := (roundEven_bounds y).1
    omega
  · unfold roundEven
    rw [heq]
    split_ifs with h1 h2 h3 h4 h5 h6 h7 h8 h9 <;> first | omega | (exfalso; linarith)

/-- exponent of the last place of `x >= 0` -/
noncomputable def qexp (x : ℝ) : ℤ := max (Int.log 2 x) (-1022) - 52

/-- rounding of a non-negative real, before the overflow check -/
noncomputable def rpos (x : ℝ) : ℝ := roundEven (x / 2 ^ qexp x) * 2 ^ qexp x

theorem two_zpow_pos (k : ℤ) : (0 : ℝ) < 2 ^ k := zpow_pos (by norm_num) k

theorem zpow_split (a b : ℤ) (h : b ≤ a) : (2 : ℝ) ^ a = ((2 ^ (a - b).toNat : ℤ) : ℝ) * 2 ^ b := by
  have : (2 : ℝ) ^ a = 2 ^ (a - b) * 2 ^ b := by rw [← zpow_add₀ (by norm_num)]; congr 1; omega
  rw [this]
  congr 1
  obtain ⟨n, hn⟩ : ∃ n : ℕ, a - b = (n : ℤ) := ⟨(a - b).toNat, (Int.toNat_of_nonneg (by omega)).symm⟩
  rw [hn]
  simp

/-- multiples of the spacing are exact -/
theorem rpos_exact (x : ℝ) (n : ℤ) (h : x = n * 2 ^ qexp x) : rpos x = x := by
  have hp := (two_zpow_pos (qexp x)).ne'
  unfold rpos
  have : x / 2 ^ qexp x = n := by rw [div_eq_iff hp]; exact h
  rw [this, roundEven_int]
  exact h.symm

theorem rpos_zero : rpos 0 = 0 := rpos_exact 0 0 (by simp)

theorem rpos_nonneg {x : ℝ} (h : 0 ≤ x) : 0 ≤ rpos x := by
  unfold rpos
  have hp := two_zpow_pos (qexp x)
  have h1 : (0 : ℝ) ≤ x / 2 ^ qexp x := div_nonneg h hp.le
  have h2 := roundEven_mono h1
  rw [show (0 : ℝ) = ((0 : ℤ) : ℝ) by norm_num, roundEven_int] at h2
  exact mul_nonneg (by exact_mod_cast h2) hp.le

/-- `x < 2^(e+1)` where `e = qexp x + 52` -/
theorem lt_top (x : ℝ) : x < 2 ^ (qexp x + 53) := by
  have h1 : x < (2 : ℝ) ^ (Int.log 2 x + 1) := by
    have := Int.lt_zpow_succ_log_self (b := 2) (by norm_num) x
    exact_mod_cast this
  refine lt_of_lt_of_le h1 (zpow_le_zpow_right₀ (by norm_num) ?_)
  unfold qexp; omega

theorem rpos_le_pow (x : ℝ) (k : ℤ) (hk : qexp x ≤ k) (h : x ≤ 2 ^ k) : rpos x ≤ 2 ^ k := by
  have hp := two_zpow_pos (qexp x)
  have e := zpow_split k (qexp x) hk
  unfold rpos
  rw [e]
  have h1 : x / 2 ^ qexp x ≤ ((2 ^ (k - qexp x).toNat : ℤ) : ℝ) := by
    rw [div_le_iff₀ hp, ← e]; exact h
  have h2 := roundEven_mono h1
  rw [roundEven_int] at h2
  exact mul_le_mul_of_nonneg_right (by exact_mod_cast h2) hp.le

theorem pow_le_rpos (x : ℝ) (k : ℤ) (hk : qexp x ≤ k) (h : 2 ^ k ≤ x) : 2 ^ k ≤ rpos x := by
  have hp := two_zpow_pos (qexp x)
  have e := zpow_split k (qexp x) hk
  unfold rpos
  rw [e]
  have h1 : ((2 ^ (k - qexp x).toNat : ℤ) : ℝ) ≤ x / 2 ^ qexp x := by
    rw [le_div_iff₀ hp, ← e]; exact h
  have h2 := roundEven_mono h1
  rw [roundEven_int] at h2
  exact mul_le_mul_of_nonneg_right (by exact_mod_cast h2) hp.le

theorem rpos_mono {x y : ℝ} (h0 : 0 ≤ x) (h : x ≤ y) : rpos x ≤ rpos y := by
  rcases lt_or_eq_of_le h0 with hx | hx
  · have hlog : Int.log 2 x ≤ Int.log 2 y := Int.log_mono_right hx h
    have hq : qexp x ≤ qexp y := by unfold qexp; omega
    rcases lt_or_eq_of_le hq with hlt | heq
    · have hy : 0 < y := lt_of_lt_of_le hx h
      have he : qexp y = Int.log 2 y - 52 := by unfold qexp at hlt ⊢; omega
      have h1 : rpos x ≤ 2 ^ (qexp y + 52) := by
        apply rpos_le_pow _ _ (by omega)
        exact (lt_top x).le.trans (zpow_le_zpow_right₀ (by norm_num) (by omega))
      have h2 : (2 : ℝ) ^ (qexp y + 52) ≤ rpos y := by
        apply pow_le_rpos _ _ (by omega)
        have := Int.zpow_log_le_self (b := 2) (by norm_num) hy
        rw [he, show Int.log 2 y - 52 + 52 = Int.log 2 y by ring]
        exact_mod_cast this
      exact h1.trans h2
    · unfold rpos
      rw [heq]
      have hp := two_zpow_pos (qexp y)
      apply mul_le_mul_of_nonneg_right _ hp.le
      exact_mod_cast roundEven_mono (div_le_div_of_nonneg_right h hp.le)
  · rw [← hx, rpos_zero]
    exact rpos_nonneg (by rw [hx]; exact h)

theorem rpos_idem {x : ℝ} (h0 : 0 ≤ x) : rpos (rpos x) = rpos x := by
  set y := rpos x with hy
  have hyn : 0 ≤ y := rpos_nonneg h0
  by_cases hq : qexp y ≤ qexp x
  · apply rpos_exact y (roundEven (x / 2 ^ qexp x) * 2 ^ (qexp x - qexp y).toNat)
    have e := zpow_split (qexp x) (qexp y) hq
    conv_lhs => rw [hy]; unfold rpos
    rw [e]
    push_cast
    ring
  · push Not at hq
    have h1 : y ≤ 2 ^ (qexp x + 53) := rpos_le_pow x _ (by omega) (lt_top x).le
    by_cases hy0 : y = 0
    · rw [hy0, rpos_zero]
    have hyp : 0 < y := lt_of_le_of_ne hyn (Ne.symm hy0)
    have he : qexp y = Int.log 2 y - 52 := by unfold qexp at hq ⊢; omega
    have h2 : (2 : ℝ) ^ (qexp x + 53) ≤ y := by
      have h3 : (2 : ℝ) ^ (Int.log 2 y) ≤ y := by
        have := Int.zpow_log_le_self (b := 2) (by norm_num) hyp
        exact_mod_cast this
      exact (zpow_le_zpow_right₀ (by norm_num) (by omega)).trans h3
    have h4 : y = 2 ^ (qexp x + 53) := le_antisymm h1 h2
    have hlog : Int.log 2 y = qexp x + 53 := by
      rw [h4]
      have := Int.log_zpow (R := ℝ) (b := 2) (by norm_num) (qexp x + 53)
      exact_mod_cast this
    apply rpos_exact y (2 ^ 52)
    rw [he, hlog]
    conv_lhs => rw [h4]
    rw [zpow_split (qexp x + 53) (qexp x + 53 - 52) (by omega)]
    congr 2
    have : qexp x + 53 - (qexp x + 53 - 52) = 52 := by ring
    rw [this]
    rfl

/-- a dyadic number with at most 53 significant bits and exponent at least `-1074` is representable -/
theorem rpos_dyadic (m : ℕ) (k : ℤ) (hm : m < 2 ^ 53) (hk : -1074 ≤ k) : rpos (m * 2 ^ k) = m * 2 ^ k := by
  rcases Nat.eq_zero_or_pos m with rfl | hpos
  · simp [rpos_zero]
  have hx : (0 : ℝ) < m * 2 ^ k := mul_pos (by exact_mod_cast hpos) (two_zpow_pos k)
  have hlog : Int.log 2 ((m : ℝ) * 2 ^ k) < k + 53 := by
    have h1 : (m : ℝ) * 2 ^ k < 2 ^ (k + 53) := by
      have : (2 : ℝ) ^ (k + 53) = 2 ^ 53 * 2 ^ k := by
        rw [zpow_add₀ (by norm_num), mul_comm]; norm_num
      rw [this]
      apply mul_lt_mul_of_pos_right _ (two_zpow_pos k)
      exact_mod_cast hm
    exact (Int.lt_zpow_iff_log_lt (b := 2) (by norm_num) hx).mp (by exact_mod_cast h1)
  have hq : qexp ((m : ℝ) * 2 ^ k) ≤ k := by unfold qexp; omega
  apply rpos_exact _ ((m : ℤ) * 2 ^ (k - qexp ((m : ℝ) * 2 ^ k)).toNat)
  have e := zpow_split k _ hq
  conv_lhs => rw [e]
  push_cast
  ring

/-- overflow threshold -/
noncomputable def big : ℝ := 2 ^ (1024 : ℕ)

/-- binary64 rounding -/
noncomputable def rnd (x : ℝ) : XR :=
  if 0 ≤ x then (if big ≤ rpos x then .pinf else .fin (rpos x))
  else (if big ≤ rpos (-x) then .ninf else .fin (-rpos (-x)))

theorem rnd_nonneg {x : ℝ} (h : 0 ≤ x) : rnd x = if big ≤ rpos x then .pinf else .fin (rpos x) := by
  simp [rnd, h]

theorem big_pos : 0 < big := by unfold big; positivity

theorem rnd_mono (x y : ℝ) (h : x ≤ y) : XR.le (rnd x) (rnd y) = true := by
  unfold rnd
  by_cases hx : 0 ≤ x
  · have hy : 0 ≤ y := hx.trans h
    have hm := rpos_mono hx h
    simp only [hx, hy, if_true]
    split_ifs with h1 h2 h2
    · rfl
    · linarith
    · rfl
    · simpa [XR.le] using hm
  · have hx' : 0 ≤ -x := by linarith
    by_cases hy : 0 ≤ y
    · simp only [hx, hy, if_true, if_false]
      have a := rpos_nonneg hx'
      have b := rpos_nonneg hy
      split_ifs
      · rfl
      · rfl
      · rfl
      · simp only [XR.le, decide_eq_true_eq]; linarith
    · have hm := rpos_mono (x := -y) (y := -x) (by linarith) (by linarith)
      simp only [hx, hy, if_false]
      split_ifs with h1 h2 h2
      · rfl
      · rfl
      · linarith
      · simp only [XR.le, decide_eq_true_eq]; linarith

theorem rnd_idem (x y : ℝ) (h : rnd x = .fin y) : rnd y = .fin y := by
  unfold rnd at h
  by_cases hx : 0 ≤ x
  · simp only [hx, if_true] at h
    split_ifs at h with h1
    · have hy : rpos x = y := by simpa using h
      subst hy
      rw [rnd_nonneg (rpos_nonneg hx), rpos_idem hx, if_neg h1]
  · have hx' : 0 ≤ -x := by linarith
    simp only [hx, if_false] at h
    split_ifs at h with h1
    · have hy : -rpos (-x) = y := by simpa using h
      subst hy
      have hnn := rpos_nonneg hx'
      unfold rnd
      by_cases h0 : 0 ≤ -rpos (-x)
      · have : rpos (-x) = 0 := by linarith
        simp only [this, neg_zero, le_refl, if_true, rpos_zero]
        rw [if_neg (not_le.mpr big_pos)]
      · simp only [h0, if_false, neg_neg, rpos_idem hx', h1]

theorem rnd_dyadic (m : ℕ) (k : ℤ) (hm : m < 2 ^ 53) (hk : -1074 ≤ k) (hk2 : k ≤ 0) :
    rnd (m * 2 ^ k) = .fin (m * 2 ^ k) := by
  have h0 : (0 : ℝ) ≤ m * 2 ^ k := mul_nonneg (by positivity) (two_zpow_pos k).le
  rw [rnd_nonneg h0, rpos_dyadic m k hm hk, if_neg]
  push Not
  have h1 : (2 : ℝ) ^ k ≤ 1 := by
    calc (2:ℝ) ^ k ≤ 2 ^ (0:ℤ) := zpow_le_zpow_right₀ (by norm_num) hk2
      _ = 1 := by norm_num
  have h2 : (m : ℝ) < 2 ^ 53 := by exact_mod_cast hm
  have h3 : (2:ℝ) ^ 53 < big := by unfold big; exact pow_lt_pow_right₀ (by norm_num) (by norm_num)
  have h4 : (m : ℝ) * 2 ^ k ≤ m * 1 := mul_le_mul_of_nonneg_left h1 (by positivity)
  linarith

theorem rnd_not_nan (x : ℝ) : rnd x ≠ .nan := by
  unfold rnd; split_ifs <;> simp

theorem rnd_rep_nonneg (x : ℝ) (h : 0 ≤ x) : XR.le (.fin 0) (rnd x) = true := by
  rw [rnd_nonneg h]
  split_ifs
  · rfl
  · simpa [XR.le] using rpos_nonneg h

/-- IEEE-754 binary64 arithmetic -/
noncomputable def R64 : Rounding where
  rnd := rnd
  not_nan := rnd_not_nan
  mono := rnd_mono
  idem := rnd_idem
  zero := by simpa using rnd_dyadic 0 0 (by norm_num) (by norm_num) (by norm_num)
  one := by simpa using rnd_dyadic 1 0 (by norm_num) (by norm_num) (by norm_num)
  tiny := by
    have := rnd_dyadic 1 (-1022) (by norm_num) (by norm_num) (by norm_num)
    have e : ((1 : ℕ) : ℝ) * 2 ^ (-1022 : ℤ) = (1 / 2 : ℝ) ^ (1022 : ℕ) := by
      rw [zpow_neg, Nat.cast_one, one_mul, one_div, inv_pow]; rfl
    rwa [e] at this
  fexp := fun x => rnd (Real.exp x)
  fexp_rep := fun x y h => rnd_idem _ _ h
  fexp_nonneg := fun x => rnd_rep_nonneg _ (Real.exp_pos x).le
  flog := fun x => rnd (Real.log x)
  flog_rep := fun x y h => rnd_idem _ _ h

/-- binary64 numbers -/
abbrev F64 := Rnd R64

end Cheval.B64
