import Verif.Num.Binary32
import Verif.Num.LogError
import Verif.Num.SignedSum
import Verif.Props.RoundedDraws
import Mathlib.Analysis.Complex.ExponentialBounds

/-!
# C75: the size of the utilities

`multinomial_probabilities` takes the exponentials of the utilities as they are. `ExpRange R L H T` says where the exponential of the
arithmetic `R` is good: it overflows from `T` on, does not below `H`, and does not vanish above `L`.
-/
namespace Cheval
open FOps B64 B32 Spec
variable {R : Rounding}

/-- the range of an implementation of `exp` -/
structure ExpRange (R : Rounding) (L H T : ℝ) : Prop where
  finite : ∀ x ≤ H, ∃ y, R.fexp x = .fin y ∧ y ≤ 2 ^ 940
  positive : ∀ x, L ≤ x → R.fexp x ≠ .fin 0
  overflow : ∀ x, T ≤ x → R.fexp x = .pinf

theorem exp_nat (n : ℕ) : Real.exp (n : ℝ) = Real.exp 1 ^ n := by
  rw [← Real.exp_nat_mul]; norm_num

theorem exp_le_pow {n : ℕ} {x b : ℝ} (h : x ≤ n) (hb : 2.7182818286 ^ n ≤ b) : Real.exp x ≤ b := by
  refine (Real.exp_le_exp.mpr h).trans ?_
  rw [exp_nat]
  exact (pow_le_pow_left₀ (Real.exp_pos 1).le Real.exp_one_lt_d9.le n).trans hb

theorem pow_le_exp {n : ℕ} {x b : ℝ} (h : n ≤ x) (hb : b ≤ 2.7182818283 ^ n) : b ≤ Real.exp x := by
  refine le_trans ?_ (Real.exp_le_exp.mpr h)
  rw [exp_nat]
  exact hb.trans (pow_le_pow_left₀ (by norm_num) Real.exp_one_gt_d9.le n)

theorem exp_65_le : Real.exp 65 ≤ 2 ^ 94 := exp_le_pow (n := 65) (by norm_num) (by norm_num)
theorem exp_88_le : Real.exp 88 ≤ 2 ^ 127 := exp_le_pow (n := 88) (by norm_num) (by norm_num)
theorem exp_89_ge : 2 ^ 128 ≤ Real.exp 89 := pow_le_exp (n := 89) (by norm_num) (by norm_num)
theorem exp_74_le : Real.exp 74 ≤ 2 ^ 107 := exp_le_pow (n := 74) (by norm_num) (by norm_num)
theorem exp_103_le : Real.exp 103 ≤ 2 ^ 149 := exp_le_pow (n := 103) (by norm_num) (by norm_num)

theorem exp_mul_nat (n : ℕ) (x : ℝ) : Real.exp (n * x) = Real.exp x ^ n := Real.exp_nat_mul x n

theorem exp_650_le : Real.exp 650 ≤ 2 ^ 940 := by
  have e : (650 : ℝ) = (10 : ℕ) * 65 := by norm_num
  rw [e, exp_mul_nat]
  calc Real.exp 65 ^ 10 ≤ (2 ^ 94) ^ 10 := pow_le_pow_left₀ (Real.exp_pos _).le exp_65_le 10
    _ = 2 ^ 940 := by rw [← pow_mul]

theorem exp_740_le : Real.exp 740 ≤ 2 ^ 1070 := by
  have e : (740 : ℝ) = (10 : ℕ) * 74 := by norm_num
  rw [e, exp_mul_nat]
  calc Real.exp 74 ^ 10 ≤ (2 ^ 107) ^ 10 := pow_le_pow_left₀ (Real.exp_pos _).le exp_74_le 10
    _ = 2 ^ 1070 := by rw [← pow_mul]

theorem exp_710_ge : 2 ^ 1024 ≤ Real.exp 710 := by
  have h1 : (2 : ℝ) ^ 102 * 1.33 ≤ Real.exp 71 := pow_le_exp (n := 71) (by norm_num) (by norm_num)
  have e : (710 : ℝ) = (10 : ℕ) * 71 := by norm_num
  rw [e, exp_mul_nat]
  calc (2 : ℝ) ^ 1024 = (2 ^ 102) ^ 10 * 2 ^ 4 := by rw [← pow_mul, ← pow_add]
    _ ≤ (2 ^ 102) ^ 10 * 1.33 ^ 10 := mul_le_mul_of_nonneg_left (by norm_num) (by positivity)
    _ = (2 ^ 102 * 1.33) ^ 10 := (mul_pow _ _ _).symm
    _ ≤ Real.exp 71 ^ 10 := pow_le_pow_left₀ (by positivity) h1 10

/-- a correctly rounded double precision exponential -/
theorem expRange_64 : ExpRange R64 (-740) 650 710 where
  finite x hx := by
    have h0 := (Real.exp_pos x).le
    have h1 : Real.exp x ≤ 2 ^ 940 := (Real.exp_le_exp.mpr hx).trans exp_650_le
    have hq : qexp (Real.exp x) ≤ 940 := by
      have h2 : Real.exp x < (2 : ℝ) ^ (941 : ℤ) := lt_of_le_of_lt h1 (by
        rw [show (941 : ℤ) = ((941 : ℕ) : ℤ) by norm_num, zpow_natCast]; exact pow_lt_pow_right₀ (by norm_num) (by norm_num))
      have := (Int.lt_zpow_iff_log_lt (b := 2) (by norm_num) (x := 941) (Real.exp_pos x)).mp (by exact_mod_cast h2)
      unfold qexp; omega
    have h3 : rpos (Real.exp x) ≤ 2 ^ 940 := by
      have := rpos_le_pow (Real.exp x) 940 hq (by rw [show (940 : ℤ) = ((940 : ℕ) : ℤ) by norm_num, zpow_natCast]; exact h1)
      rwa [show (940 : ℤ) = ((940 : ℕ) : ℤ) by norm_num, zpow_natCast] at this
    refine ⟨rpos (Real.exp x), ?_, h3⟩
    show rnd (Real.exp x) = _
    rw [rnd_nonneg h0, if_neg]
    push Not
    exact lt_of_le_of_lt h3 (by unfold big; exact pow_lt_pow_right₀ (by norm_num) (by norm_num))
  positive x hx h := by
    have h1 : (1 : ℝ) / 2 ^ 1070 ≤ Real.exp x := by
      refine le_trans ?_ (Real.exp_le_exp.mpr hx)
      rw [Real.exp_neg, one_div]
      exact inv_anti₀ (Real.exp_pos _) exp_740_le
    have := rnd_err (Real.exp_pos x).le h
    have e : eta = 1 / 2 ^ 1070 * (1 / 2 ^ 5) := by
      unfold eta
      rw [show (-1075 : ℤ) = -((1070 + 5 : ℕ) : ℤ) by norm_num, zpow_neg, zpow_natCast, pow_add]
      simp only [one_div, mul_inv]
    rw [zero_sub, abs_neg, abs_of_pos (Real.exp_pos x), e] at this
    have hu := uro_small
    have hp := Real.exp_pos x
    have h2 : uro * Real.exp x ≤ 1 / 100 * Real.exp x := mul_le_mul_of_nonneg_right hu hp.le
    generalize (1 : ℝ) / 2 ^ 1070 = A at *
    norm_num at this h2
    linarith
  overflow x hx := by
    have h1 : 2 ^ 1024 ≤ Real.exp x := exp_710_ge.trans (Real.exp_le_exp.mpr hx)
    show rnd (Real.exp x) = _
    rw [rnd_nonneg (Real.exp_pos x).le, if_pos]
    have hm := rpos_mono (x := 2 ^ 1024) (by positivity) h1
    have e : rpos ((2 : ℝ) ^ 1024) = 2 ^ 1024 := by
      have := rpos_dyadic 1 1024 (by norm_num) (by norm_num)
      rw [show (1024 : ℤ) = ((1024 : ℕ) : ℤ) by norm_num, zpow_natCast, Nat.cast_one, one_mul] at this
      exact this
    rw [e] at hm
    exact hm

/-- a correctly rounded single precision exponential -/
theorem expRange_32 : ExpRange R32 (-103) 88 89 where
  finite x hx := by
    obtain ⟨y, h1, h2⟩ := rnd32_fin (Real.exp_pos x) ((Real.exp_le_exp.mpr hx).trans exp_88_le)
    exact ⟨y, h1, h2.trans (pow_le_pow_right₀ (by norm_num) (by norm_num))⟩
  positive x hx h := by
    have h1 : (2 : ℝ) ^ (-149 : ℤ) ≤ Real.exp x := by
      refine le_trans ?_ (Real.exp_le_exp.mpr hx)
      rw [Real.exp_neg, show (-149 : ℤ) = -((149 : ℕ) : ℤ) by norm_num, zpow_neg, zpow_natCast]
      exact inv_anti₀ (Real.exp_pos _) exp_103_le
    exact absurd (rnd32_pos h1 h) (lt_irrefl 0)
  overflow x hx := rnd32_over (exp_89_ge.trans (Real.exp_le_exp.mpr hx))

/-! ### utilities in range -/

/-- sums of finite non-negative numbers do not overflow below `2^1000` -/
theorem foldl_add_fin_below (hR : R.rnd = B64.rnd) : ∀ (ws : List (Rnd R)) (c : Rnd R), c.FinNonneg → (∀ w ∈ ws, w.FinNonneg) →
    (1 + uro) ^ ws.length * (c.val + (ws.map Rnd.val).sum) ≤ 2 ^ 1000 → (ws.foldl FOps.add c).FinNonneg
  | [], c, hc, _, _ => hc
  | w :: ws, c, hc, hws, h => by
    have hw := hws w (List.mem_cons_self ..)
    have hsum : 0 ≤ (ws.map Rnd.val).sum := List.sum_nonneg (by
      intro x hx
      obtain ⟨y, hy, rfl⟩ := List.mem_map.mp hx
      exact (hws y (List.mem_cons_of_mem _ hy)).nonneg)
    have hcw := add_nonneg hc.nonneg hw.nonneg
    have hp : (1 : ℝ) ≤ (1 + uro) ^ ws.length := one_le_pow₀ (by linarith [uro_pos])
    rw [List.length_cons, pow_succ, List.map_cons, List.sum_cons] at h
    have hle : c.val + w.val ≤ 2 ^ 1000 := by
      refine le_trans ?_ h
      have h1 : (1 : ℝ) ≤ (1 + uro) ^ ws.length * (1 + uro) := by
        have := uro_pos
        nlinarith
      nlinarith
    have hv : (FOps.add c w).v = .fin (rpos (c.val + w.val)) := by
      show R.rndX (XR.add c.v w.v) = _
      rw [hc.v, hw.v]
      show R.rnd (c.val + w.val) = _
      obtain ⟨y, hy, -⟩ := rnd_signed (x := c.val + w.val) (by rw [abs_of_nonneg hcw]; exact hle)
      rw [hR, hy, rnd_fin hcw hy]
    have hfn : (FOps.add c w).FinNonneg := ⟨_, hv, rpos_nonneg hcw⟩
    refine foldl_add_fin_below hR ws (FOps.add c w) hfn (fun x hx => hws x (List.mem_cons_of_mem _ hx)) (le_trans ?_ h)
    rw [mul_assoc]
    refine mul_le_mul_of_nonneg_left ?_ (by linarith)
    have hrc : rpos c.val = c.val := rnd_fin hc.nonneg (by rw [← hR]; exact c.rep _ hc.v)
    have hrw : rpos w.val = w.val := rnd_fin hw.nonneg (by rw [← hR]; exact w.rep _ hw.v)
    have he := rpos_add c.val w.val hc.nonneg hw.nonneg hrc hrw
    rw [abs_le] at he
    rw [Rnd.val_fin hv]
    have : 0 ≤ uro * (ws.map Rnd.val).sum := mul_nonneg uro_pos.le hsum
    nlinarith [he.2]

/-- `u` is `-inf`, or a number that is at most `H` -/
def AtMost (H : ℝ) (u : Rnd R) : Prop := u.v = .ninf ∨ ∃ x : ℝ, u.v = .fin x ∧ x ≤ H

theorem exp_atMost {L H T : ℝ} (hE : ExpRange R L H T) {u : Rnd R} (h : AtMost H u) : (FOps.exp u).FinNonneg ∧ (FOps.exp u).val ≤ 2 ^ 940 := by
  rcases h with h | ⟨x, h, hx⟩
  · have hv : (FOps.exp u).v = .fin 0 := by show Rnd.expV R u.v = _; rw [h]; rfl
    refine ⟨⟨0, hv, le_refl _⟩, ?_⟩
    rw [Rnd.val_fin hv]; positivity
  · obtain ⟨y, h1, h2⟩ := hE.finite x hx
    have hv : (FOps.exp u).v = .fin y := by show Rnd.expV R u.v = _; rw [h]; exact h1
    refine ⟨⟨y, hv, ?_⟩, by rw [Rnd.val_fin hv]; exact h2⟩
    have := R.fexp_nonneg x
    rw [h1] at this
    simpa [XR.le] using this

/-- the logsum of utilities in range is a finite positive number -/
theorem total_finite (hR : R.rnd = B64.rnd) {L H T : ℝ} (hE : ExpRange R L H T) (us : List (Rnd R)) (hn : us.length ≤ 2 ^ 50)
    (hus : ∀ u ∈ us, AtMost H u) (hbig : ∃ u ∈ us, ∃ x : ℝ, u.v = .fin x ∧ L ≤ x) :
    ∃ S : ℝ, (sumF (us.map FOps.exp)).v = .fin S ∧ 0 < S := by
  have hf : ∀ w ∈ us.map FOps.exp, w.FinNonneg := by
    intro w hw
    obtain ⟨u, hu, rfl⟩ := List.mem_map.mp hw
    exact (exp_atMost hE (hus u hu)).1
  have h0 : (FOps.zero : Rnd R).FinNonneg := ⟨0, rfl, le_refl _⟩
  have hz : (FOps.zero : Rnd R).val = 0 := rfl
  have hsum : ((us.map FOps.exp).map Rnd.val).sum ≤ us.length * 2 ^ 940 := by
    rw [List.map_map]
    have : ∀ x ∈ us.map (Rnd.val ∘ FOps.exp), x ≤ (2 : ℝ) ^ 940 := by
      intro x hx
      obtain ⟨u, hu, rfl⟩ := List.mem_map.mp hx
      exact (exp_atMost hE (hus u hu)).2
    have := List.sum_le_card_nsmul _ _ this
    simpa using this
  have hs0 : 0 ≤ ((us.map FOps.exp).map Rnd.val).sum := List.sum_nonneg (by
    intro x hx
    obtain ⟨w, hw, rfl⟩ := List.mem_map.mp hx
    exact (hf w hw).nonneg)
  have hfin := foldl_add_fin_below hR (us.map FOps.exp) FOps.zero h0 hf (by
    rw [hz, zero_add, List.length_map]
    have hnR : (us.length : ℝ) ≤ 2 ^ 50 := by exact_mod_cast hn
    have hp : (1 + uro) ^ us.length ≤ 2 := by
      have h1 := pow_uro_le (n := us.length) (by omega)
      have h2 : (us.length : ℝ) / 2 ^ 52 ≤ 1 := by rw [div_le_one (by positivity)]; linarith
      linarith
    have h940 : (0 : ℝ) < 2 ^ 940 := by positivity
    have e : (2 : ℝ) ^ 1000 = 2 ^ 940 * 2 ^ 60 := by rw [← pow_add]
    rw [e]
    generalize (2 : ℝ) ^ 940 = A at *
    calc (1 + uro) ^ us.length * ((us.map FOps.exp).map Rnd.val).sum ≤ 2 * (2 ^ 50 * A) := by
          refine mul_le_mul hp (hsum.trans (mul_le_mul_of_nonneg_right hnR h940.le)) hs0 (by norm_num)
      _ = A * 2 ^ 51 := by ring
      _ ≤ A * 2 ^ 60 := mul_le_mul_of_nonneg_left (by norm_num) h940.le)
  refine ⟨_, hfin.v, ?_⟩
  obtain ⟨u, hu, x, hx, hL⟩ := hbig
  have hexp : ∀ w ∈ us.map FOps.exp, FOps.le FOps.zero w = true := fun w hw => FinNonneg.le_zero (hf w hw)
  have hle := le_foldl_add_of_mem (FOps.zero : Rnd R) (us.map FOps.exp) (FLaws.le_refl _ FLaws.zero_notNan) hexp _ (List.mem_map_of_mem hu)
  have hle' : XR.le (FOps.exp u).v ((us.map FOps.exp).foldl FOps.add FOps.zero).v = true := hle
  have hu1 := (exp_atMost hE (hus u hu)).1
  rw [hfin.v, hu1.v] at hle'
  have hle2 : (FOps.exp u).val ≤ ((us.map FOps.exp).foldl FOps.add FOps.zero).val := by simpa [XR.le] using hle'
  show 0 < ((us.map FOps.exp).foldl FOps.add FOps.zero).val
  refine lt_of_lt_of_le (lt_of_le_of_ne hu1.nonneg ?_) hle2
  intro h
  have hv : R.fexp x = .fin (FOps.exp u).val := by
    have := hu1.v
    have e : (FOps.exp u).v = Rnd.expV R u.v := rfl
    rw [e, hx] at this
    exact this
  rw [← h] at hv
  exact hE.positive x hL hv

/-- what `multinomial` returns for utilities in range -/
theorem multinomial_in_range (hR : R.rnd = B64.rnd) {L H T : ℝ} (hE : ExpRange R L H T) (us : List (Rnd R)) (hn : us.length ≤ 2 ^ 50)
    (hus : ∀ u ∈ us, AtMost H u) (hbig : ∃ u ∈ us, ∃ x : ℝ, u.v = .fin x ∧ L ≤ x) (check : Bool) :
    ∃ ps ls terms, ∃ S : ℝ, multinomial us check = .ok (ps, ls, terms) ∧ ls.v = .fin S ∧ 0 < S ∧ ps.length = us.length ∧
      (∀ p ∈ ps, ∃ x : ℝ, p.v = .fin x ∧ 0 ≤ x ∧ x ≤ 1) ∧ |(ps.map Rnd.val).sum - 1| ≤ us.length * (1 / 2 ^ 52) := by
  obtain ⟨S, hS, hpos⟩ := total_finite hR hE us hn hus hbig
  have hle : ¬ FOps.le (sumF (us.map FOps.exp)) FOps.zero = true := by
    show ¬ XR.le (sumF (us.map FOps.exp)).v (.fin 0) = true
    rw [hS]
    simp only [XR.le, decide_eq_true_eq]
    linarith
  have hm : multinomial us check = .ok (us.map fun u => FOps.div (FOps.exp u) (sumF (us.map FOps.exp)), sumF (us.map FOps.exp), us.map FOps.exp) := by
    rw [multinomial_eq, if_neg hle]
  obtain ⟨h1, h2, h3⟩ := C57_sum hR us check _ _ _ hm S hS hpos hn
  have hnan : ∀ u ∈ us, FOps.isNan u = false := by
    intro u hu
    show XR.isNan u.v = false
    rcases hus u hu with h | ⟨x, h, -⟩ <;> rw [h] <;> rfl
  obtain ⟨-, h4, -⟩ := C14_multinomial us check _ _ _ hnan hm (by show XR.lt (sumF (us.map FOps.exp)).v .pinf = true; rw [hS]; rfl)
  refine ⟨_, _, _, S, hm, hS, hpos, h1, fun p hp => ?_, h3⟩
  obtain ⟨x, hx, h0⟩ := h2 p hp
  refine ⟨x, hx, h0, ?_⟩
  have : XR.le p.v (.fin 1) = true := (h4 p hp).2
  rw [hx] at this
  simpa [XR.le] using this

/-- **C75 (in range, double precision)** If every utility of a row is `-inf` or a number up to 650, and one is at least -740, then the
multinomial probabilities are computed, all are numbers in [0,1], and they sum to 1 within `n * 2^-52`. Missing: larger utilities
(`C75_overflow`). -/
theorem C75_in_range_partial (us : List F64) (hn : us.length ≤ 2 ^ 50) (hus : ∀ u ∈ us, u.v = .ninf ∨ ∃ x : ℝ, u.v = .fin x ∧ x ≤ 650)
    (hbig : ∃ u ∈ us, ∃ x : ℝ, u.v = .fin x ∧ -740 ≤ x) (check : Bool) :
    ∃ ps ls terms, ∃ S : ℝ, multinomial us check = .ok (ps, ls, terms) ∧ ls.v = .fin S ∧ 0 < S ∧ ps.length = us.length ∧
      (∀ p ∈ ps, ∃ x : ℝ, p.v = .fin x ∧ 0 ≤ x ∧ x ≤ 1) ∧ |(ps.map Rnd.val).sum - 1| ≤ us.length * (1 / 2 ^ 52) :=
  multinomial_in_range rfl expRange_64 us hn hus hbig check

/-- **C75 (in range, single precision)** For a model of precision 4 without nests, whose exponentials are float32: the same if every
utility is `-inf` or a number up to 88, and one is at least -103. -/
theorem C75_in_range_single_partial (us : List F32) (hn : us.length ≤ 2 ^ 50) (hus : ∀ u ∈ us, u.v = .ninf ∨ ∃ x : ℝ, u.v = .fin x ∧ x ≤ 88)
    (hbig : ∃ u ∈ us, ∃ x : ℝ, u.v = .fin x ∧ -103 ≤ x) (check : Bool) :
    ∃ ps ls terms, ∃ S : ℝ, multinomial us check = .ok (ps, ls, terms) ∧ ls.v = .fin S ∧ 0 < S ∧ ps.length = us.length ∧
      (∀ p ∈ ps, ∃ x : ℝ, p.v = .fin x ∧ 0 ≤ x ∧ x ≤ 1) ∧ |(ps.map Rnd.val).sum - 1| ≤ us.length * (1 / 2 ^ 52) :=
  multinomial_in_range rnd_R32 expRange_32 us hn hus hbig check

/-! ### overflow -/

theorem foldl_add_pinf (c : Rnd R) (ws : List (Rnd R)) (hc : XR.le (.fin 0) c.v = true) (hws : ∀ w ∈ ws, XR.le (.fin 0) w.v = true)
    (h : c.v = .pinf ∨ ∃ w ∈ ws, w.v = .pinf) : (ws.foldl FOps.add c).v = .pinf := by
  induction ws generalizing c with
  | nil =>
    rcases h with h | ⟨w, hw, -⟩
    · exact h
    · cases hw
  | cons w ws ih =>
    have hw := hws w (List.mem_cons_self ..)
    have hws' : ∀ x ∈ ws, XR.le (.fin 0) x.v = true := fun x hx => hws x (List.mem_cons_of_mem _ hx)
    have hadd : XR.le (.fin 0) (FOps.add c w).v = true := by
      have := FLaws.le_add c w hc hw
      exact XR.le_trans _ _ _ hc this
    have hp : c.v = .pinf ∨ w.v = .pinf → (FOps.add c w).v = .pinf := by
      intro hh
      show R.rndX (XR.add c.v w.v) = .pinf
      rcases XR.nonneg_cases hc with e1 | ⟨x, e1, _⟩ <;> rcases XR.nonneg_cases hw with e2 | ⟨y, e2, _⟩ <;> rw [e1, e2] at hh ⊢ <;>
        first | rfl | simp at hh
    refine ih (FOps.add c w) hadd hws' ?_
    rcases h with h | ⟨x, hx, hx'⟩
    · exact Or.inl (hp (Or.inl h))
    · rcases List.mem_cons.mp hx with rfl | hx
      · exact Or.inl (hp (Or.inr hx'))
      · exact Or.inr ⟨x, hx, hx'⟩

/-- a row of probabilities of which none is positive -/
def Void (p : Rnd R) : Prop := p.v = .fin 0 ∨ p.v = .nan

theorem void_add {a b : Rnd R} (ha : Void a) (hb : Void b) : Void (FOps.add a b) := by
  show R.rndX (XR.add a.v b.v) = .fin 0 ∨ R.rndX (XR.add a.v b.v) = .nan
  rcases ha with e1 | e1 <;> rcases hb with e2 | e2 <;> rw [e1, e2]
  · left
    show R.rnd (0 + 0) = _
    rw [add_zero]; exact R.zero
  · right; rfl
  · right; rfl
  · right; rfl

theorem le_void {r p : Rnd R} (hr : XR.le r.v (.fin 0) = false) (hp : Void p) : FOps.le r p = false := by
  show XR.le r.v p.v = false
  rcases hp with e | e <;> rw [e]
  · exact hr
  · cases r.v <;> rfl

theorem sampleLoop_void (r : Rnd R) (hr : XR.le r.v (.fin 0) = false) (ps : List (Rnd R)) (hps : ∀ p ∈ ps, Void p) (c : Rnd R) (hc : Void c) (i : Nat) :
    sampleLoop r ps c i = none := by
  induction ps generalizing c i with
  | nil => rfl
  | cons p ps ih =>
    have h1 := void_add hc (hps p (List.mem_cons_self ..))
    simp only [sampleLoop]
    rw [if_neg (by rw [le_void hr h1]; simp)]
    exact ih (fun x hx => hps x (List.mem_cons_of_mem _ hx)) _ h1 _

theorem cumsum_void (ps : List (Rnd R)) (hps : ∀ p ∈ ps, Void p) (c : Rnd R) (hc : Void c) : ∀ p ∈ cumsumFrom c ps, Void p := by
  induction ps generalizing c with
  | nil => intro p hp; cases hp
  | cons p ps ih =>
    have h1 := void_add hc (hps p (List.mem_cons_self ..))
    intro q hq
    simp only [cumsumFrom] at hq
    rcases List.mem_cons.mp hq with rfl | hq
    · exact h1
    · exact ih (fun x hx => hps x (List.mem_cons_of_mem _ hx)) _ h1 q hq

theorem cumsumFrom_len (ps : List (Rnd R)) (c : Rnd R) : (cumsumFrom c ps).length = ps.length := by
  induction ps generalizing c with
  | nil => rfl
  | cons p ps ih => simp [cumsumFrom, ih]

theorem searchLoop_void (r : Rnd R) (hr : XR.le r.v (.fin 0) = false) (cps : List (Rnd R)) (hps : ∀ p ∈ cps, Void p) (lower upper : Nat)
    (h1 : lower ≤ upper) (h2 : upper < cps.length) : ∃ l, l ≤ upper ∧ searchLoop r cps lower upper = some (l, upper) := by
  induction hk : upper - lower using Nat.strong_induction_on generalizing lower with
  | _ k ih =>
    rw [searchLoop]
    split
    · have hmid : (upper + lower) / 2 < cps.length := by omega
      simp only [List.getElem?_eq_getElem hmid]
      rw [if_neg (by rw [le_void hr (hps _ (List.getElem_mem hmid))]; simp)]
      exact ih (upper - (upper + lower) / 2) (by omega) _ (by omega) rfl
    · exact ⟨lower, h1, rfl⟩

/-- with no positive probability, the last position is drawn -/
theorem draws_void (ps : List (Rnd R)) (hne : ps ≠ []) (hps : ∀ p ∈ ps, Void p) (r : Rnd R) (hr : FOps.le FOps.zero r = true) :
    sampleOnce ps r = (ps.length : Int) - 1 ∧ logSearch r (nbfCumsum ps) = some (ps.length - 1) := by
  have h0 : Void (FOps.zero : Rnd R) := Or.inl rfl
  have htiny : XR.le (FOps.tiny : Rnd R).v (.fin 0) = false := by
    show XR.le (.fin ((1 / 2 : ℝ) ^ (1022 : ℕ))) (.fin 0) = false
    simp only [XR.le, decide_eq_false_iff_not, not_le]
    exact pow_pos (by norm_num) _
  constructor
  · unfold sampleOnce
    have hmax : XR.le (pyMax r (FOps.tiny : Rnd R)).v (.fin 0) = false := by
      unfold pyMax
      split
      · rename_i h
        have h' : XR.le (FOps.tiny : Rnd R).v r.v = true := h
        by_contra hc
        have hc' : XR.le r.v (.fin 0) = true := by simpa using hc
        rw [XR.le_trans _ _ _ h' hc'] at htiny
        cases htiny
      · exact htiny
    rw [sampleLoop_void _ hmax ps hps _ h0]
  · have hl : (nbfCumsum ps).length = ps.length := cumsumFrom_len ps _
    have hv : ∀ p ∈ nbfCumsum ps, Void p := cumsum_void ps hps _ h0
    have hpos : 0 < ps.length := List.length_pos_iff.mpr hne
    unfold logSearch
    have hr' : XR.le (if FOps.le r (FOps.zero : Rnd R) && FOps.le FOps.zero r then (FOps.tiny : Rnd R) else r).v (.fin 0) = false := by
      split
      · exact htiny
      · rename_i h
        rw [hr, Bool.and_true] at h
        have : XR.le r.v (.fin 0) = true ↔ FOps.le r (FOps.zero : Rnd R) = true := Iff.rfl
        by_contra hc
        have hc' : XR.le r.v (.fin 0) = true := by simpa using hc
        exact h (this.mp hc')
    simp only [hl]
    rw [if_neg (by omega)]
    obtain ⟨l, h1, h2⟩ := searchLoop_void _ hr' _ hv 0 (ps.length - 1) (by omega) (by omega)
    rw [h2]
    have hll : l < (nbfCumsum ps).length := by omega
    simp only [List.getElem?_eq_getElem hll]
    rw [if_neg (by rw [le_void hr' (hv _ (List.getElem_mem hll))]; simp)]

/-- rows with an exponential that overflows -/
theorem multinomial_overflow {L H T : ℝ} (hE : ExpRange R L H T) (us : List (Rnd R)) (hnan : ∀ u ∈ us, FOps.isNan u = false)
    (hover : ∃ u ∈ us, u.v = .pinf ∨ ∃ x : ℝ, u.v = .fin x ∧ T ≤ x) (check : Bool) :
    ∃ ps terms, multinomial us check = .ok (ps, FOps.posInf, terms) ∧ ps.length = us.length ∧
      (∀ i (h : i < us.length) (h' : i < ps.length), (us[i].v = .pinf ∨ ∃ x : ℝ, us[i].v = .fin x ∧ T ≤ x) → ps[i].v = .nan) ∧
      (∀ i (h : i < us.length) (h' : i < ps.length), (us[i].v = .ninf ∨ ∃ x : ℝ, us[i].v = .fin x ∧ x ≤ H) → ps[i].v = .fin 0) ∧
      ∀ r, FOps.le FOps.zero r = true → sampleOnce ps r = (us.length : Int) - 1 ∧ logSearch r (nbfCumsum ps) = some (us.length - 1) := by
  have hinf : ∀ u : Rnd R, (u.v = .pinf ∨ ∃ x : ℝ, u.v = .fin x ∧ T ≤ x) → (FOps.exp u).v = .pinf := by
    rintro u (h | ⟨x, h, hx⟩)
    · show Rnd.expV R u.v = _; rw [h]; rfl
    · show Rnd.expV R u.v = _; rw [h]; exact hE.overflow x hx
  have hnn : ∀ w ∈ us.map FOps.exp, XR.le (.fin 0) w.v = true := by
    intro w hw
    obtain ⟨u, hu, rfl⟩ := List.mem_map.mp hw
    exact FLaws.exp_nonneg u (hnan u hu)
  have hsum : (sumF (us.map FOps.exp)).v = .pinf := by
    obtain ⟨u, hu, hu'⟩ := hover
    exact foldl_add_pinf _ _ (XR.le_refl _ rfl) hnn (Or.inr ⟨_, List.mem_map_of_mem hu, hinf u hu'⟩)
  have hS : sumF (us.map FOps.exp) = FOps.posInf := by
    cases hs : sumF (us.map FOps.exp)
    rw [hs] at hsum
    simp only at hsum
    subst hsum
    rfl
  have hm : multinomial us check = .ok (us.map fun u => FOps.div (FOps.exp u) FOps.posInf, FOps.posInf, us.map FOps.exp) := by
    rw [multinomial_eq, hS]
    rw [if_neg]
    show ¬ XR.le .pinf (.fin 0) = true
    simp [XR.le]
  have hdiv : ∀ u ∈ us, Void (FOps.div (FOps.exp u) (FOps.posInf : Rnd R)) ∧ ((FOps.exp u).v = .pinf → (FOps.div (FOps.exp u) (FOps.posInf : Rnd R)).v = .nan) ∧
      ((FOps.exp u).FinNonneg → (FOps.div (FOps.exp u) (FOps.posInf : Rnd R)).v = .fin 0) := by
    intro u hu
    have hz : R.rnd 0 = .fin 0 := R.zero
    have h := hnn _ (List.mem_map_of_mem hu)
    have key : (FOps.div (FOps.exp u) (FOps.posInf : Rnd R)).v = R.rndX (XR.div (FOps.exp u).v .pinf) := rfl
    rcases XR.nonneg_cases h with e | ⟨x, e, hx⟩
    · have e3 : (FOps.div (FOps.exp u) (FOps.posInf : Rnd R)).v = .nan := by rw [key, e]; rfl
      refine ⟨Or.inr e3, fun _ => e3, ?_⟩
      rintro ⟨y, hy, -⟩
      rw [e] at hy; cases hy
    · have e3 : (FOps.div (FOps.exp u) (FOps.posInf : Rnd R)).v = .fin 0 := by rw [key, e]; exact hz
      refine ⟨Or.inl e3, fun h' => ?_, fun _ => e3⟩
      rw [e] at h'; cases h'
  refine ⟨_, _, hm, by simp, ?_, ?_, ?_⟩
  · intro i h h' hu
    rw [List.getElem_map]
    exact (hdiv _ (List.getElem_mem h)).2.1 (hinf _ hu)
  · intro i h h' hu
    rw [List.getElem_map]
    exact (hdiv _ (List.getElem_mem h)).2.2 (exp_atMost hE hu).1
  · intro r hr
    have := draws_void (us.map fun u => FOps.div (FOps.exp u) (FOps.posInf : Rnd R)) (by
      obtain ⟨u, hu, -⟩ := hover
      intro h
      rw [List.map_eq_nil_iff] at h
      rw [h] at hu; cases hu) (by
      intro p hp
      obtain ⟨u, hu, rfl⟩ := List.mem_map.mp hp
      exact (hdiv u hu).1) r hr
    simpa using this

/-- **C75 (overflow, double precision)** If a utility is 710 or more (and none is NaN), nothing is reported: the logsum is `+inf`, the
probability of every such choice is NaN, and that of the choices with a utility up to 650 is 0; sampling draws the last choice, whatever the
random number and whatever that choice's utility. The check for infeasible rows makes no difference. -/
theorem C75_overflow (us : List F64) (hnan : ∀ u ∈ us, u.v ≠ .nan) (hover : ∃ u ∈ us, ∃ x : ℝ, u.v = .fin x ∧ 710 ≤ x) (check : Bool) :
    ∃ ps terms, multinomial us check = .ok (ps, FOps.posInf, terms) ∧ ps.length = us.length ∧
      (∀ i (h : i < us.length) (h' : i < ps.length), ∀ x : ℝ, us[i].v = .fin x → 710 ≤ x → ps[i].v = .nan) ∧
      (∀ i (h : i < us.length) (h' : i < ps.length), (us[i].v = .ninf ∨ ∃ x : ℝ, us[i].v = .fin x ∧ x ≤ 650) → ps[i].v = .fin 0) ∧
      ∀ r : F64, FOps.le FOps.zero r = true → sampleOnce ps r = (us.length : Int) - 1 ∧ logSearch r (nbfCumsum ps) = some (us.length - 1) := by
  have hnan' : ∀ u ∈ us, FOps.isNan u = false := by
    intro u hu
    have := hnan u hu
    show XR.isNan u.v = false
    cases hv : u.v <;> rw [hv] at this <;> first | rfl | simp at this
  obtain ⟨u, hu, hx⟩ := hover
  obtain ⟨ps, terms, h1, h2, h3, h4, h5⟩ := multinomial_overflow expRange_64 us hnan' ⟨u, hu, Or.inr hx⟩ check
  exact ⟨ps, terms, h1, h2, fun i h h' x e hx => h3 i h h' (Or.inr ⟨x, e, hx⟩), h4, h5⟩

/-- **C75 (overflow, single precision)** In a model of precision 4 without nests this happens from a utility of 89 on. -/
theorem C75_overflow_single (us : List F32) (hnan : ∀ u ∈ us, u.v ≠ .nan) (hover : ∃ u ∈ us, ∃ x : ℝ, u.v = .fin x ∧ 89 ≤ x) (check : Bool) :
    ∃ ps terms, multinomial us check = .ok (ps, FOps.posInf, terms) ∧ ps.length = us.length ∧
      (∀ i (h : i < us.length) (h' : i < ps.length), ∀ x : ℝ, us[i].v = .fin x → 89 ≤ x → ps[i].v = .nan) ∧
      (∀ i (h : i < us.length) (h' : i < ps.length), (us[i].v = .ninf ∨ ∃ x : ℝ, us[i].v = .fin x ∧ x ≤ 88) → ps[i].v = .fin 0) ∧
      ∀ r : F32, FOps.le FOps.zero r = true → sampleOnce ps r = (us.length : Int) - 1 ∧ logSearch r (nbfCumsum ps) = some (us.length - 1) := by
  have hnan' : ∀ u ∈ us, FOps.isNan u = false := by
    intro u hu
    have := hnan u hu
    show XR.isNan u.v = false
    cases hv : u.v <;> rw [hv] at this <;> first | rfl | simp at this
  obtain ⟨u, hu, hx⟩ := hover
  obtain ⟨ps, terms, h1, h2, h3, h4, h5⟩ := multinomial_overflow expRange_32 us hnan' ⟨u, hu, Or.inr hx⟩ check
  exact ⟨ps, terms, h1, h2, fun i h h' x e hx => h3 i h h' (Or.inr ⟨x, e, hx⟩), h4, h5⟩

/-! ### underflow -/

theorem exp_746_ge : 2 ^ 1076 ≤ Real.exp 746 := by
  have h1 : (2 : ℝ) ^ 106 * 1.69 ≤ Real.exp 74 := pow_le_exp (n := 74) (by norm_num) (by norm_num)
  have h2 : (2 : ℝ) ^ 8 * 1.57 ≤ Real.exp 6 := pow_le_exp (n := 6) (by norm_num) (by norm_num)
  have e : (746 : ℝ) = (10 : ℕ) * 74 + 6 := by norm_num
  rw [e, Real.exp_add, exp_mul_nat]
  calc (2 : ℝ) ^ 1076 = ((2 ^ 106) ^ 10 * 2 ^ 8) * 2 ^ 8 := by rw [← pow_mul, ← pow_add, ← pow_add]
    _ ≤ ((2 ^ 106) ^ 10 * 2 ^ 8) * (1.69 ^ 10 * 1.57) := mul_le_mul_of_nonneg_left (by norm_num) (by positivity)
    _ = (2 ^ 106 * 1.69) ^ 10 * (2 ^ 8 * 1.57) := by rw [mul_pow]; ring
    _ ≤ Real.exp 74 ^ 10 * Real.exp 6 := mul_le_mul (pow_le_pow_left₀ (by positivity) h1 10) h2 (by positivity) (by positivity)

theorem exp_104_ge : 2 ^ 150 ≤ Real.exp 104 := pow_le_exp (n := 104) (by norm_num) (by norm_num)

theorem roundEven_small {x : ℝ} (h0 : 0 ≤ x) (h : x < 1 / 2) : roundEven x = 0 := by
  have hf : ⌊x⌋ = 0 := by rw [Int.floor_eq_iff]; constructor <;> norm_num <;> linarith
  unfold roundEven
  rw [hf]
  simp only [Int.cast_zero, sub_zero]
  rw [if_pos h]

theorem exp_underflow_64 {x : ℝ} (h : x ≤ -746) : R64.fexp x = .fin 0 := by
  have hp := Real.exp_pos x
  have h1 : Real.exp x ≤ (2 : ℝ) ^ (-1076 : ℤ) := by
    refine (Real.exp_le_exp.mpr h).trans ?_
    rw [Real.exp_neg, show (-1076 : ℤ) = -((1076 : ℕ) : ℤ) by norm_num, zpow_neg, zpow_natCast]
    exact inv_anti₀ (by positivity) exp_746_ge
  have hl : Int.log 2 (Real.exp x) ≤ -1022 := by
    have h2 : Real.exp x < (2 : ℝ) ^ (-1021 : ℤ) := lt_of_le_of_lt h1 (zpow_lt_zpow_right₀ (by norm_num) (by norm_num))
    have := (Int.lt_zpow_iff_log_lt (b := 2) (by norm_num) (x := -1021) hp).mp (by exact_mod_cast h2)
    omega
  have hq : qexp (Real.exp x) = -1074 := by unfold qexp; omega
  have hr : rpos (Real.exp x) = 0 := by
    unfold rpos
    rw [hq, roundEven_small (div_nonneg hp.le (two_zpow_pos _).le), Int.cast_zero, zero_mul]
    rw [div_lt_iff₀ (two_zpow_pos _)]
    refine lt_of_le_of_lt h1 ?_
    have : (1 : ℝ) / 2 * 2 ^ (-1074 : ℤ) = 2 ^ (-1075 : ℤ) := by
      rw [show (1 : ℝ) / 2 = 2 ^ (-1 : ℤ) by norm_num, ← zpow_add₀ (by norm_num)]; norm_num
    rw [this]
    exact zpow_lt_zpow_right₀ (by norm_num) (by norm_num)
  show rnd (Real.exp x) = _
  rw [rnd_nonneg hp.le, hr, if_neg]
  push Not
  unfold big; positivity

theorem exp_underflow_32 {x : ℝ} (h : x ≤ -105) : R32.fexp x = .fin 0 := by
  have hp := Real.exp_pos x
  have h105 : (2 : ℝ) ^ 151 ≤ Real.exp 105 := pow_le_exp (n := 105) (by norm_num) (by norm_num)
  have h1 : Real.exp x ≤ (2 : ℝ) ^ (-151 : ℤ) := by
    refine (Real.exp_le_exp.mpr h).trans ?_
    rw [Real.exp_neg, show (-151 : ℤ) = -((151 : ℕ) : ℤ) by norm_num, zpow_neg, zpow_natCast]
    exact inv_anti₀ (by positivity) h105
  have hl : Int.log 2 (Real.exp x) ≤ -126 := by
    have h2 : Real.exp x < (2 : ℝ) ^ (-125 : ℤ) := lt_of_le_of_lt h1 (zpow_lt_zpow_right₀ (by norm_num) (by norm_num))
    have := (Int.lt_zpow_iff_log_lt (b := 2) (by norm_num) (x := -125) hp).mp (by exact_mod_cast h2)
    omega
  have hq : B32.q32 (Real.exp x) = -149 := by unfold B32.q32; omega
  have hr : B32.rpos32 (Real.exp x) = 0 := by
    unfold B32.rpos32
    rw [hq, roundEven_small (div_nonneg hp.le (two_zpow_pos _).le), Int.cast_zero, zero_mul]
    rw [div_lt_iff₀ (two_zpow_pos _)]
    refine lt_of_le_of_lt h1 ?_
    have : (1 : ℝ) / 2 * 2 ^ (-149 : ℤ) = 2 ^ (-150 : ℤ) := by
      rw [show (1 : ℝ) / 2 = 2 ^ (-1 : ℤ) by norm_num, ← zpow_add₀ (by norm_num)]; norm_num
    rw [this]
    exact zpow_lt_zpow_right₀ (by norm_num) (by norm_num)
  show B32.rnd32 (Real.exp x) = _
  unfold B32.rnd32
  rw [hr, if_neg]
  push Not
  positivity

/-- rows whose exponentials are all zero -/
theorem multinomial_underflow (us : List (Rnd R)) (hus : ∀ u ∈ us, (FOps.exp u).v = .fin 0) :
    multinomial us true = .error .utilityBounds ∧
    ∃ ls terms, multinomial us false = .ok (us.map fun _ => FOps.zero, ls, terms) ∧ ls.v = .fin 0 := by
  have hs : (sumF (us.map FOps.exp)).v = .fin 0 := by
    unfold sumF
    have : ∀ (ws : List (Rnd R)) (c : Rnd R), c.v = .fin 0 → (∀ w ∈ ws, w.v = .fin 0) → (ws.foldl FOps.add c).v = .fin 0 := by
      intro ws
      induction ws with
      | nil => intro c hc _; exact hc
      | cons w ws ih =>
        intro c hc hw
        refine ih _ ?_ fun x hx => hw x (List.mem_cons_of_mem _ hx)
        show R.rndX (XR.add c.v w.v) = _
        rw [hc, hw w (List.mem_cons_self ..)]
        show R.rnd (0 + 0) = _
        rw [add_zero]; exact R.zero
    exact this _ _ rfl (by
      intro w hw
      obtain ⟨u, hu, rfl⟩ := List.mem_map.mp hw
      exact hus u hu)
  have hle : FOps.le (sumF (us.map FOps.exp)) (FOps.zero : Rnd R) = true := by
    show XR.le (sumF (us.map FOps.exp)).v (.fin 0) = true
    rw [hs]; simp [XR.le]
  constructor
  · rw [multinomial_eq, if_pos hle, if_pos rfl]
  · refine ⟨_, us.map FOps.exp, ?_, hs⟩
    rw [multinomial_eq, if_pos hle, if_neg (by simp)]

/-- **C75 (underflow, double precision)** If every utility is `-inf` or at most -746, the row is reported infeasible although its utilities
may be finite; without the check for infeasible rows all probabilities and the logsum are 0. -/
theorem C75_underflow (us : List F64) (hus : ∀ u ∈ us, u.v = .ninf ∨ ∃ x : ℝ, u.v = .fin x ∧ x ≤ -746) :
    multinomial us true = .error .utilityBounds ∧
    ∃ ls terms, multinomial us false = .ok (us.map fun _ => FOps.zero, ls, terms) ∧ ls.v = .fin 0 := by
  refine multinomial_underflow us fun u hu => ?_
  show Rnd.expV R64 u.v = _
  rcases hus u hu with h | ⟨x, h, hx⟩
  · rw [h]; rfl
  · rw [h]; exact exp_underflow_64 hx

/-- **C75 (underflow, single precision)** In a model of precision 4 without nests this happens from -105 on. -/
theorem C75_underflow_single (us : List F32) (hus : ∀ u ∈ us, u.v = .ninf ∨ ∃ x : ℝ, u.v = .fin x ∧ x ≤ -105) :
    multinomial us true = .error .utilityBounds ∧
    ∃ ls terms, multinomial us false = .ok (us.map fun _ => FOps.zero, ls, terms) ∧ ls.v = .fin 0 := by
  refine multinomial_underflow us fun u hu => ?_
  show Rnd.expV R32 u.v = _
  rcases hus u hu with h | ⟨x, h, hx⟩
  · rw [h]; rfl
  · rw [h]; exact exp_underflow_32 hx

/-! ### concrete rows -/

/-- the whole number `n` -/
noncomputable def whole (hR : R.rnd = B64.rnd) (n : ℕ) (hn : n < 2 ^ 53) : Rnd R :=
  ⟨.fin n, by
    intro y h
    simp only [XR.fin.injEq] at h
    subst h
    rw [hR]
    have := rnd_dyadic n 0 hn (by norm_num) (by norm_num)
    simpa using this⟩

/-- minus the whole number `n` -/
noncomputable def wholeNeg (hR : R.rnd = B64.rnd) (n : ℕ) (hn : n < 2 ^ 53) : Rnd R :=
  ⟨.fin (-n), by
    intro y h
    simp only [XR.fin.injEq] at h
    subst h
    rw [hR]
    rcases Nat.eq_zero_or_pos n with rfl | hp
    · simpa using rnd_dyadic 0 0 (by norm_num) (by norm_num) (by norm_num)
    · have := rnd_dyadic n 0 hn (by norm_num) (by norm_num)
      have hp' : (0 : ℝ) < n := by exact_mod_cast hp
      rw [zpow_zero, mul_one, rnd_nonneg hp'.le] at this
      split at this
      · cases this
      · rename_i hb
        have e : rpos (n : ℝ) = n := by simpa using this
        unfold rnd
        rw [if_neg (by linarith), neg_neg, if_neg (by simpa using hb), e]⟩

/-- C75_in_range_single_partial: utilities 80 and -200 -/
example : ∃ ps ls terms, multinomial [whole (R := R32) rfl 80 (by norm_num), wholeNeg (R := R32) rfl 200 (by norm_num)] true = .ok (ps, ls, terms) ∧
    ps.length = 2 := by
  obtain ⟨ps, ls, t, S, h, -, -, hl, -⟩ := C75_in_range_single_partial
    [whole (R := R32) rfl 80 (by norm_num), wholeNeg (R := R32) rfl 200 (by norm_num)] (by norm_num) (by
      intro u hu
      simp only [List.mem_cons, List.not_mem_nil, or_false] at hu
      rcases hu with rfl | rfl
      · exact Or.inr ⟨_, rfl, by norm_num⟩
      · exact Or.inr ⟨_, rfl, by norm_num⟩) ⟨_, List.mem_cons_self .., _, rfl, by norm_num⟩ true
  exact ⟨ps, ls, t, h, hl⟩

/-- C75_overflow_single: utilities 100 and 0; the probability of the first is NaN -/
example : ∃ ps terms, multinomial [whole (R := R32) rfl 100 (by norm_num), FOps.zero] true = .ok (ps, FOps.posInf, terms) ∧
    ∃ h : 0 < ps.length, (ps[0]).v = .nan := by
  obtain ⟨ps, t, h, hl, h1, -⟩ := C75_overflow_single [whole (R := R32) rfl 100 (by norm_num), FOps.zero] (by
      intro u hu
      simp only [List.mem_cons, List.not_mem_nil, or_false] at hu
      rcases hu with rfl | rfl <;> (intro h; cases h)) ⟨_, List.mem_cons_self .., _, rfl, by norm_num⟩ true
  have hl2 : ps.length = 2 := hl
  exact ⟨ps, t, h, by omega, h1 0 (by simp) (by omega) 100 (by simp [whole]) (by norm_num)⟩

/-- C75_underflow, C75_underflow_single: utilities -800 and -900 -/
example : multinomial [wholeNeg (R := R64) rfl 800 (by norm_num), wholeNeg (R := R64) rfl 900 (by norm_num)] true = .error .utilityBounds ∧
    multinomial [wholeNeg (R := R32) rfl 800 (by norm_num), wholeNeg (R := R32) rfl 900 (by norm_num)] true = .error .utilityBounds := by
  refine ⟨(C75_underflow _ ?_).1, (C75_underflow_single _ ?_).1⟩ <;>
  · intro u hu
    simp only [List.mem_cons, List.not_mem_nil, or_false] at hu
    rcases hu with rfl | rfl
    · exact Or.inr ⟨_, rfl, by norm_num⟩
    · exact Or.inr ⟨_, rfl, by norm_num⟩

end Cheval
