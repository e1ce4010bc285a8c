import Verif.Num.SumError
import Verif.Props.Multinomial
import Mathlib.Analysis.Complex.ExponentialBounds

/-!
# C57, C58: multinomial probabilities in double precision

`R` is any arithmetic whose basic operations are those of IEEE binary64 (`R.rnd = B64.rnd`); what `exp` and `log` return is left
open, except for an error bound of `exp` in C58.
-/
namespace Cheval
open FOps B64 Spec
variable {R : Rounding}

theorem exp_nonneg_or_nan (u : Rnd R) : XR.le (.fin 0) (FOps.exp u).v = true ∨ (FOps.exp u).v = .nan := by
  cases h : XR.isNan u.v with
  | false => left; exact FLaws.exp_nonneg u h
  | true =>
    right
    show Rnd.expV R u.v = .nan
    cases hv : u.v <;> rw [hv] at h <;> simp_all [XR.isNan, Rnd.expV]

/-- what `multinomial` returns when the computed total is finite and positive -/
theorem multinomial_rounded (hR : R.rnd = B64.rnd) (us : List (Rnd R)) (check : Bool) (ps : List (Rnd R)) (ls : Rnd R)
    (terms : List (Rnd R)) (h : multinomial us check = .ok (ps, ls, terms)) (S : ℝ) (hS : ls.v = .fin S) (hpos : 0 < S) :
    us ≠ [] ∧ ps = us.map (fun u => FOps.div (FOps.exp u) ls) ∧ (∀ u ∈ us, (FOps.exp u).FinNonneg) ∧
    (1 - uro) ^ (us.length - 1) * (us.map fun u => (FOps.exp u).val).sum ≤ S ∧
    S ≤ (1 + uro) ^ (us.length - 1) * (us.map fun u => (FOps.exp u).val).sum ∧
    ∀ u ∈ us, (FOps.div (FOps.exp u) ls).FinNonneg ∧
      |(FOps.div (FOps.exp u) ls).val - (FOps.exp u).val / S| ≤ uro * ((FOps.exp u).val / S) + eta := by
  have hne : us ≠ [] := by
    rintro rfl
    rw [multinomial_eq] at h
    have hz : (sumF (List.map FOps.exp ([] : List (Rnd R)))) = FOps.zero := rfl
    rw [hz, if_pos (FLaws.le_refl _ FLaws.zero_notNan)] at h
    cases check with
    | true => simp at h
    | false =>
      simp only [Bool.false_eq_true, if_false, Except.ok.injEq, Prod.mk.injEq] at h
      obtain ⟨-, rfl, -⟩ := h
      have : (0 : ℝ) = S := by simpa [FOps.zero] using hS
      linarith
  rw [multinomial_eq] at h
  have hls : sumF (us.map FOps.exp) = ls := by
    split at h
    · cases check with
      | true => simp at h
      | false =>
        simp only [Bool.false_eq_true, if_false, Except.ok.injEq, Prod.mk.injEq] at h
        exact h.2.1
    · simp only [Except.ok.injEq, Prod.mk.injEq] at h
      exact h.2.1
  have hle : ¬ FOps.le (sumF (us.map FOps.exp)) FOps.zero = true := by
    rw [hls]
    show ¬ XR.le ls.v (.fin 0) = true
    rw [hS]
    simp only [XR.le, decide_eq_true_eq]
    linarith
  rw [if_neg hle, hls] at h
  simp only [Except.ok.injEq, Prod.mk.injEq] at h
  obtain ⟨hps, -, -⟩ := h
  obtain ⟨h1, h2, h3⟩ := sumF_acc hR (us.map FOps.exp) (by simpa using hne)
    (by intro w hw; obtain ⟨u, _, rfl⟩ := List.mem_map.mp hw; exact exp_nonneg_or_nan u) S (by rw [hls]; exact hS)
  have hfin : ∀ u ∈ us, (FOps.exp u).FinNonneg := fun u hu => h1 _ (List.mem_map_of_mem hu)
  rw [List.length_map, List.map_map] at h2 h3
  refine ⟨hne, hps.symm, hfin, h2, h3, ?_⟩
  intro u hu
  have hexp : ∀ w ∈ us.map FOps.exp, FOps.le FOps.zero w = true := by
    intro w hw
    obtain ⟨u, hu, rfl⟩ := List.mem_map.mp hw
    show XR.le (.fin 0) (FOps.exp u).v = true
    rw [(hfin u hu).v]
    simpa [XR.le] using (hfin u hu).nonneg
  have hunit := FLaws.div_unit (FOps.exp u) ls (hexp _ (List.mem_map_of_mem hu))
    (by rw [← hls]; exact le_foldl_add_of_mem _ _ (FLaws.le_refl _ FLaws.zero_notNan) hexp _ (List.mem_map_of_mem hu))
    (by show XR.lt (.fin 0) ls.v = true; rw [hS]; simpa [XR.lt] using hpos)
    (by show XR.lt ls.v .pinf = true; rw [hS]; rfl)
  have hv := rndX_div_fin (FOps.exp u) ls _ S (hfin u hu).v hS hpos.ne'
  have hfn : (FOps.div (FOps.exp u) ls).FinNonneg := by
    have h0 : XR.le (.fin 0) (FOps.div (FOps.exp u) ls).v = true := hunit.1
    have h1 : XR.le (FOps.div (FOps.exp u) ls).v (.fin 1) = true := hunit.2
    rcases XR.nonneg_cases h0 with e | ⟨x, e, hx⟩
    · rw [e] at h1; simp [XR.le] at h1
    · exact ⟨x, e, hx⟩
  refine ⟨hfn, ?_⟩
  rw [hfn.v, hR] at hv
  exact rnd_err (div_nonneg (hfin u hu).nonneg hpos.le) hv.symm

theorem sum_abs_le {α : Type} (l : List α) (f g : α → ℝ) (b : α → ℝ) (h : ∀ x ∈ l, |f x - g x| ≤ b x) :
    |(l.map f).sum - (l.map g).sum| ≤ (l.map b).sum := by
  induction l with
  | nil => simp
  | cons a l ih =>
    have h1 := h a (List.mem_cons_self ..)
    have h2 := ih fun x hx => h x (List.mem_cons_of_mem _ hx)
    simp only [List.map_cons, List.sum_cons]
    rw [abs_le] at *
    constructor <;> linarith [h1.1, h1.2, h2.1, h2.2]

theorem sum_map_div (l : List ℝ) (S : ℝ) : (l.map (· / S)).sum = l.sum / S := by
  induction l with
  | nil => simp
  | cons a l ih => simp [ih, add_div]

theorem eta_small (n : ℕ) (hn : n ≤ 2 ^ 50) : (n : ℝ) * eta ≤ uro / 4 := by
  have h1 : (n : ℝ) ≤ 2 ^ 50 := by exact_mod_cast hn
  have h2 : eta ≤ 1 / 2 ^ 105 := by
    unfold eta
    calc (2 : ℝ) ^ (-1075 : ℤ) ≤ 2 ^ (-105 : ℤ) := zpow_le_zpow_right₀ (by norm_num) (by norm_num)
      _ = _ := by rw [zpow_neg]; norm_num
  calc (n : ℝ) * eta ≤ 2 ^ 50 * (1 / 2 ^ 105) := mul_le_mul h1 h2 eta_pos.le (by positivity)
    _ ≤ uro / 4 := by unfold uro; norm_num

/-- **C57** In double precision, with any implementation of `exp`: if the computed logsum is a finite positive number, the probabilities
of a multinomial model are finite, not negative, and their exact sum differs from 1 by at most `n * 2^-52` for `n <= 2^50` choices. -/
theorem C57_sum (hR : R.rnd = B64.rnd) (us : List (Rnd R)) (check : Bool) (ps : List (Rnd R)) (ls : Rnd R)
    (terms : List (Rnd R)) (h : multinomial us check = .ok (ps, ls, terms)) (S : ℝ) (hS : ls.v = .fin S) (hpos : 0 < S)
    (hn : us.length ≤ 2 ^ 50) :
    ps.length = us.length ∧ (∀ p ∈ ps, ∃ x : ℝ, p.v = .fin x ∧ 0 ≤ x) ∧ |(ps.map Rnd.val).sum - 1| ≤ us.length * (1 / 2 ^ 52) := by
  obtain ⟨hne, rfl, h1, h2, h3, h4⟩ := multinomial_rounded hR us check ps ls terms h S hS hpos
  have hl : 1 ≤ us.length := by
    rcases us with _ | ⟨a, us⟩
    · exact absurd rfl hne
    · simp
  refine ⟨by simp, ?_, ?_⟩
  · intro p hp
    obtain ⟨u, hu, rfl⟩ := List.mem_map.mp hp
    exact (h4 u hu).1
  · rw [List.map_map]
    have hs := sum_abs_le us (fun u => (FOps.div (FOps.exp u) ls).val) (fun u => (FOps.exp u).val / S) _ fun u hu => (h4 u hu).2
    have e1 : (us.map fun u => (FOps.exp u).val / S).sum = (us.map fun u => (FOps.exp u).val).sum / S := by
      rw [← sum_map_div, List.map_map]; rfl
    have e2 : (us.map fun u => uro * ((FOps.exp u).val / S) + eta).sum = uro * ((us.map fun u => (FOps.exp u).val).sum / S) + us.length * eta := by
      rw [List.sum_map_add, List.sum_map_mul_left, e1]; simp
    rw [e1, e2] at hs
    have hk : ((us.length - 1 : ℕ) : ℝ) + 1 = us.length := by
      have : us.length - 1 + 1 = us.length := by omega
      exact_mod_cast this
    have hk4 : ((us.length - 1 : ℕ) : ℝ) * uro ≤ 1 / 4 := by
      have : ((us.length - 1 : ℕ) : ℝ) ≤ 2 ^ 50 := by exact_mod_cast (Nat.sub_le _ _).trans hn
      calc _ ≤ 2 ^ 50 * uro := mul_le_mul_of_nonneg_right this uro_pos.le
        _ ≤ 1 / 4 := by unfold uro; norm_num
    have := shares_sum uro eta uro_pos eta_pos.le (us.length - 1) _ S _ us.length hpos h2 h3 hk4 hs (eta_small _ hn) (by unfold uro; norm_num)
    rw [hk] at this
    refine this.trans (le_of_eq ?_)
    unfold uro
    norm_num
    ring

/-! ### Accuracy -/

/-- `R`'s exponential is accurate: relative error `ε`, or one subnormal step -/
def ExpAcc (R : Rounding) (ε : ℝ) : Prop :=
  (∀ x y : ℝ, R.fexp x = .fin y → |y - Real.exp x| ≤ ε * Real.exp x + 1 / 2 ^ 1074)

/-- the exact weight of a utility: `exp`, 0 for `-inf` -/
noncomputable def exactWeight (u : Rnd R) : ℝ := match u.v with | .fin x => Real.exp x | _ => 0

theorem exactWeight_nonneg (u : Rnd R) : 0 ≤ exactWeight u := by
  unfold exactWeight; split
  · exact (Real.exp_pos _).le
  · exact le_refl _

/-- the exponential of a utility whose exponential is finite -/
theorem exp_err (ε : ℝ) (hexp : ExpAcc R ε) (u : Rnd R) (h : (FOps.exp u).FinNonneg) :
    |(FOps.exp u).val - exactWeight u| ≤ ε * exactWeight u + 1 / 2 ^ 1074 := by
  have hv : Rnd.expV R u.v = .fin (FOps.exp u).val := h.v
  unfold exactWeight
  cases hu : u.v with
  | fin x =>
    rw [hu] at hv
    exact hexp x _ hv
  | ninf =>
    rw [hu] at hv
    simp only [Rnd.expV, XR.fin.injEq] at hv
    rw [← hv]
    simp
  | pinf => rw [hu] at hv; cases hv
  | nan => rw [hu] at hv; cases hv

/-- the last step of `share_acc` -/
theorem share_final (u ε κ a s q p : ℝ) (hu : 0 < u) (hε : 0 ≤ ε) (hκ : 0 ≤ κ) (ha : 0 ≤ a) (ha8 : a ≤ 1 / 8) (hs0 : 0 ≤ s) (hs1 : s ≤ 1)
    (hq0 : 0 ≤ q) (hx : q * ((1 - a) * (1 - ε - κ)) ≤ s * (1 + ε) + κ) (hy : (s * (1 - ε) - κ) * ((1 - a) * (1 - ε - κ)) ≤ q)
    (hp : -(u * q + κ) ≤ p - q ∧ p - q ≤ u * q + κ) (hε1 : ε ≤ 1 / 100) (hκ1 : κ ≤ u / 100) (hu1 : u ≤ 1 / 1000) :
    |p - s| ≤ 3 * ε + (2 * a + 2 * u) := by
  have hκ2 : κ ≤ 1 / 1000 := by linarith
  set m := (1 - a) * (1 - ε - κ) with hm
  have hmlow : 1 - a - ε - κ ≤ m := by
    have : 0 ≤ a * (ε + κ) := mul_nonneg ha (by linarith)
    rw [hm]; nlinarith
  have hm1 : m ≤ 1 := by
    rw [hm]; exact mul_le_one₀ (by linarith) (by linarith) (by linarith)
  have hm0 : 0.86 ≤ m := by norm_num at *; linarith
  have hd1 : q - s ≤ 1.17 * (a + 2 * ε + 2 * κ) := by
    by_cases hd : q - s ≤ 0
    · norm_num; linarith
    · push Not at hd
      have h1 : (q - s) * m ≤ a + 2 * ε + 2 * κ := by
        have h2 : s * (1 - m) ≤ 1 * (a + ε + κ) := mul_le_mul hs1 (by linarith) (by linarith) (by norm_num)
        have h3 : s * ε ≤ 1 * ε := mul_le_mul_of_nonneg_right hs1 hε
        nlinarith
      have h4 : (q - s) * 0.86 ≤ (q - s) * m := mul_le_mul_of_nonneg_left hm0 hd.le
      norm_num at *
      linarith
  have hd2 : s - q ≤ a + 2 * ε + 2 * κ := by
    have h1 : κ * m ≤ κ * 1 := mul_le_mul_of_nonneg_left hm1 hκ
    have h2 : s * (1 - (1 - ε) * m) ≤ 1 * (a + 2 * ε + κ) := by
      have h3 : ε * m ≤ ε * 1 := mul_le_mul_of_nonneg_left hm1 hε
      refine mul_le_mul hs1 (by linarith) ?_ (by norm_num)
      have h4 : 0 ≤ ε * m := mul_nonneg hε (by norm_num at hm0; linarith)
      linarith
    nlinarith
  have hq2 : q ≤ 1.5 := by norm_num at *; linarith
  have huq : u * q ≤ u * 1.5 := mul_le_mul_of_nonneg_left hq2 hu.le
  rw [abs_le]
  norm_num at *
  constructor <;> linarith [hp.1, hp.2]

/-- real inequality: a rounded share compared with the exact one; `κ` bounds the underflows -/
theorem share_acc (u ε κ : ℝ) (hu : 0 < u) (hε : 0 ≤ ε) (hκ : 0 ≤ κ) (k : ℕ) (T S W e w p : ℝ) (hS : 0 < S) (hW : 0 < W)
    (h1 : (1 - u) ^ k * T ≤ S) (h2 : S ≤ (1 + u) ^ k * T) (hk : (k : ℝ) * u ≤ 1 / 8) (he0 : 0 ≤ e) (hw0 : 0 ≤ w) (hwW : w ≤ W)
    (hT : |T - W| ≤ (ε + κ) * W) (he : |e - w| ≤ ε * w + κ * W) (hp : |p - e / S| ≤ u * (e / S) + κ)
    (hε1 : ε ≤ 1 / 100) (hκ1 : κ ≤ u / 100) (hu1 : u ≤ 1 / 1000) : |p - w / W| ≤ 3 * ε + 2 * (k + 1) * u := by
  have hb : 1 - (k : ℝ) * u ≤ (1 - u) ^ k := by
    have := one_add_mul_le_pow (a := -u) (by linarith) k
    have e1 : (1 : ℝ) + k * -u = 1 - k * u := by ring
    have e2 : (1 : ℝ) + -u = 1 - u := by ring
    rwa [e1, e2] at this
  have hk0 : (0 : ℝ) ≤ k * u := mul_nonneg (Nat.cast_nonneg k) hu.le
  rw [abs_le] at hT he hp
  have hc : 0 ≤ 1 - (k : ℝ) * u := by linarith
  have hd : 0 < 1 - ε - κ := by linarith
  -- everything relative to `W`
  set s := w / W with hs
  have hs0 : 0 ≤ s := div_nonneg hw0 hW.le
  have hs1 : s ≤ 1 := by rw [hs, div_le_one hW]; exact hwW
  have hws : w = s * W := by rw [hs, div_mul_cancel₀ _ hW.ne']
  have hTlow : (1 - ε - κ) * W ≤ T := by linarith [hT.1]
  have hThigh : T ≤ (1 + ε + κ) * W := by linarith [hT.2]
  have hTpos : 0 < T := lt_of_lt_of_le (mul_pos hd hW) hTlow
  have hup : e ≤ (s * (1 + ε) + κ) * W := by
    have : (s * (1 + ε) + κ) * W = w + ε * w + κ * W := by rw [hws]; ring
    linarith [he.2]
  have hlo : (s * (1 - ε) - κ) * W ≤ e := by
    have : (s * (1 - ε) - κ) * W = w - ε * w - κ * W := by rw [hws]; ring
    linarith [he.1]
  -- the quotient, from above
  have hD : (1 - k * u) * ((1 - ε - κ) * W) ≤ S :=
    le_trans (mul_le_mul hb hTlow (mul_nonneg hd.le hW.le) (pow_nonneg (by linarith) k)) h1
  have hq1 : e / S * ((1 - k * u) * (1 - ε - κ)) ≤ s * (1 + ε) + κ := by
    have hx : e / S * ((1 - k * u) * ((1 - ε - κ) * W)) ≤ e := by
      calc e / S * ((1 - k * u) * ((1 - ε - κ) * W)) ≤ e / S * S := mul_le_mul_of_nonneg_left hD (div_nonneg he0 hS.le)
        _ = e := div_mul_cancel₀ _ hS.ne'
    have hy : (e / S * ((1 - k * u) * (1 - ε - κ))) * W ≤ (s * (1 + ε) + κ) * W := by
      calc _ = e / S * ((1 - k * u) * ((1 - ε - κ) * W)) := by ring
        _ ≤ _ := hx.trans hup
    exact le_of_mul_le_mul_right hy hW
  -- the quotient, from below
  have hSW : S * ((1 - k * u) * (1 - ε - κ)) ≤ W := by
    have hpow : (1 - (k : ℝ) * u) * (1 + u) ^ k ≤ 1 := by
      calc (1 - (k : ℝ) * u) * (1 + u) ^ k ≤ (1 - u) ^ k * (1 + u) ^ k := mul_le_mul_of_nonneg_right hb (pow_nonneg (by linarith) k)
        _ = (1 - u ^ 2) ^ k := by rw [← mul_pow]; congr 1; ring
        _ ≤ 1 := by
          have : u ^ 2 ≤ 1 := pow_le_one₀ hu.le (by linarith)
          exact pow_le_one₀ (by linarith) (by linarith [sq_nonneg u])
    have hT2 : T * (1 - ε - κ) ≤ W := by
      calc T * (1 - ε - κ) ≤ ((1 + ε + κ) * W) * (1 - ε - κ) := mul_le_mul_of_nonneg_right hThigh hd.le
        _ = (1 - (ε + κ) ^ 2) * W := by ring
        _ ≤ 1 * W := mul_le_mul_of_nonneg_right (by linarith [sq_nonneg (ε + κ)]) hW.le
        _ = W := one_mul W
    calc S * ((1 - k * u) * (1 - ε - κ)) ≤ ((1 + u) ^ k * T) * ((1 - k * u) * (1 - ε - κ)) :=
          mul_le_mul_of_nonneg_right h2 (mul_nonneg hc hd.le)
      _ = ((1 - k * u) * (1 + u) ^ k) * (T * (1 - ε - κ)) := by ring
      _ ≤ 1 * (T * (1 - ε - κ)) := mul_le_mul_of_nonneg_right hpow (mul_nonneg hTpos.le hd.le)
      _ ≤ W := by linarith
  have hq2 : (s * (1 - ε) - κ) * ((1 - k * u) * (1 - ε - κ)) ≤ e / S := by
    rw [le_div_iff₀ hS]
    by_cases hneg : s * (1 - ε) - κ ≤ 0
    · refine le_trans ?_ he0
      exact mul_nonpos_of_nonpos_of_nonneg (mul_nonpos_of_nonpos_of_nonneg hneg (mul_nonneg hc hd.le)) hS.le
    · push Not at hneg
      calc (s * (1 - ε) - κ) * ((1 - k * u) * (1 - ε - κ)) * S = (s * (1 - ε) - κ) * (S * ((1 - k * u) * (1 - ε - κ))) := by ring
        _ ≤ (s * (1 - ε) - κ) * W := mul_le_mul_of_nonneg_left hSW hneg.le
        _ ≤ e := hlo
  have e3 : 2 * ((k : ℝ) + 1) * u = 2 * (k * u) + 2 * u := by ring
  rw [e3]
  exact share_final u ε κ (k * u) s (e / S) p hu hε hκ hk0 hk hs0 hs1 (div_nonneg he0 hS.le) hq1 hq2 hp hε1 hκ1 hu1

theorem exp_620 : (1 : ℝ) / 2 ^ 900 ≤ Real.exp (-620) := by
  have h1 : Real.exp 1 ^ 31 ≤ 2 ^ 45 := by
    calc Real.exp 1 ^ 31 ≤ 2.7182818286 ^ 31 := pow_le_pow_left₀ (Real.exp_pos 1).le Real.exp_one_lt_d9.le 31
      _ ≤ 2 ^ 45 := by norm_num
  have h2 : Real.exp 620 ≤ 2 ^ 900 := by
    have e : Real.exp 620 = (Real.exp 1 ^ 31) ^ 20 := by
      rw [← pow_mul, ← Real.exp_nat_mul]; norm_num
    rw [e]
    calc (Real.exp 1 ^ 31) ^ 20 ≤ (2 ^ 45) ^ 20 := pow_le_pow_left₀ (by positivity) h1 20
      _ = 2 ^ 900 := by rw [← pow_mul]
  rw [Real.exp_neg, one_div]
  exact inv_anti₀ (Real.exp_pos _) h2

/-- **C58** In double precision, `exp` having relative error at most `ε <= 1/100`: if some utility is at least -620 and the logsum does
not overflow, every probability of a multinomial model differs from the exact one, `exp(u_i) / sum of exp(u_j)`, by at most
`3 ε + n * 2^-52` for `n <= 2^50` choices. -/
theorem C58_accuracy (hR : R.rnd = B64.rnd) (ε : ℝ) (hε : 0 ≤ ε) (hε1 : ε ≤ 1 / 100) (hexp : ExpAcc R ε) (us : List (Rnd R)) (check : Bool)
    (ps : List (Rnd R)) (ls : Rnd R) (terms : List (Rnd R)) (h : multinomial us check = .ok (ps, ls, terms)) (S : ℝ) (hS : ls.v = .fin S)
    (hpos : 0 < S) (hn : us.length ≤ 2 ^ 50) (hbig : ∃ u ∈ us, ∃ x : ℝ, u.v = .fin x ∧ -620 ≤ x) (i : Nat) (hi : i < us.length)
    (hi' : i < ps.length) :
    |ps[i].val - exactWeight us[i] / (us.map exactWeight).sum| ≤ 3 * ε + us.length * (1 / 2 ^ 52) := by
  obtain ⟨hne, rfl, h1, h2, h3, h4⟩ := multinomial_rounded hR us check ps ls terms h S hS hpos
  have hmem : us[i] ∈ us := List.getElem_mem hi
  have hle : ∀ u ∈ us, exactWeight u ≤ (us.map exactWeight).sum := by
    intro u hu
    exact List.single_le_sum (by
      intro x hx
      obtain ⟨v, _, rfl⟩ := List.mem_map.mp hx
      exact exactWeight_nonneg v) _ (List.mem_map_of_mem hu)
  have hW : (1 : ℝ) / 2 ^ 900 ≤ (us.map exactWeight).sum := by
    obtain ⟨u, hu, x, hx, hx0⟩ := hbig
    refine le_trans ?_ (hle u hu)
    unfold exactWeight
    rw [hx]
    exact exp_620.trans (Real.exp_le_exp.mpr hx0)
  have hW0 : 0 < (us.map exactWeight).sum := lt_of_lt_of_le (by positivity) hW
  have hnR : (us.length : ℝ) ≤ 2 ^ 50 := by exact_mod_cast hn
  have hlen : (1 : ℝ) ≤ us.length := by
    have : 1 ≤ us.length := by omega
    exact_mod_cast this
  have hκ : (us.length : ℝ) * (1 / 2 ^ 1074) ≤ 1 / 2 ^ 100 * (us.map exactWeight).sum := by
    calc (us.length : ℝ) * (1 / 2 ^ 1074) ≤ 2 ^ 50 * (1 / 2 ^ 1074) := mul_le_mul_of_nonneg_right hnR (by positivity)
      _ ≤ 1 / 2 ^ 100 * (1 / 2 ^ 900) := by
        have e : (2 : ℝ) ^ 1074 = 2 ^ 50 * 2 ^ 100 * 2 ^ 900 * 2 ^ 24 := by rw [← pow_add, ← pow_add, ← pow_add]
        have hA : (0 : ℝ) < 2 ^ 900 := by positivity
        rw [e]
        generalize (2 : ℝ) ^ 900 = A at hA
        have : (2 : ℝ) ^ 50 * (1 / (2 ^ 50 * 2 ^ 100 * A * 2 ^ 24)) = 1 / 2 ^ 100 * (1 / A) * (1 / 2 ^ 24) := by field_simp
        rw [this]
        exact mul_le_of_le_one_right (by positivity) (by norm_num)
      _ ≤ _ := mul_le_mul_of_nonneg_left hW (by positivity)
  have hT := sum_abs_le us (fun u => (FOps.exp u).val) exactWeight _ fun u hu => exp_err ε hexp u (h1 u hu)
  have e2 : (us.map fun u => ε * exactWeight u + (1 : ℝ) / 2 ^ 1074).sum
      = ε * (us.map exactWeight).sum + us.length * (1 / 2 ^ 1074) := by
    rw [List.sum_map_add, List.sum_map_mul_left]; simp
  rw [e2] at hT
  have hk : ((us.length - 1 : ℕ) : ℝ) + 1 = us.length := by
    have : us.length - 1 + 1 = us.length := by omega
    exact_mod_cast this
  have hk8 : ((us.length - 1 : ℕ) : ℝ) * uro ≤ 1 / 8 := by
    have : ((us.length - 1 : ℕ) : ℝ) ≤ 2 ^ 50 := by linarith
    calc _ ≤ 2 ^ 50 * uro := mul_le_mul_of_nonneg_right this uro_pos.le
      _ ≤ 1 / 8 := by unfold uro; norm_num
  have he := exp_err ε hexp us[i] (h1 _ hmem)
  have hp := (h4 _ hmem).2
  have heta : eta ≤ 1 / 2 ^ 100 := by
    unfold eta
    calc (2 : ℝ) ^ (-1075 : ℤ) ≤ 2 ^ (-100 : ℤ) := zpow_le_zpow_right₀ (by norm_num) (by norm_num)
      _ = _ := by rw [zpow_neg]; norm_num
  have key := share_acc uro ε (1 / 2 ^ 100) uro_pos hε (by positivity) (us.length - 1) _ S (us.map exactWeight).sum
    (FOps.exp us[i]).val (exactWeight us[i]) (FOps.div (FOps.exp us[i]) ls).val hpos hW0 h2 h3 hk8 (h1 _ hmem).nonneg
    (exactWeight_nonneg _) (hle _ hmem) (hT.trans (by linarith))
    (he.trans (by
      have : (1 : ℝ) * (1 / 2 ^ 1074) ≤ us.length * (1 / 2 ^ 1074) := mul_le_mul_of_nonneg_right hlen (by positivity)
      linarith))
    (hp.trans (by linarith)) hε1 (by unfold uro; norm_num) (by unfold uro; norm_num)
  rw [hk] at key
  rw [List.getElem_map]
  refine key.trans (le_of_eq ?_)
  unfold uro
  norm_num
  ring

/-- a correctly rounded exponential has relative error `2^-53` -/
theorem expAcc_R64 : ExpAcc R64 (1 / 2 ^ 53) := by
  intro x y h
  have := rnd_err (Real.exp_pos x).le h
  refine this.trans ?_
  have e : eta ≤ 1 / 2 ^ 1074 := by
    unfold eta
    calc (2 : ℝ) ^ (-1075 : ℤ) ≤ 2 ^ (-1074 : ℤ) := zpow_le_zpow_right₀ (by norm_num) (by norm_num)
      _ = _ := by rw [zpow_neg, one_div]; norm_cast
  unfold uro
  linarith

/-- **C58, with a correctly rounded `exp`**: the error is at most `(n + 3/2) * 2^-52`. -/
theorem C58_correctly_rounded (us : List F64) (check : Bool) (ps : List F64) (ls : F64) (terms : List F64)
    (h : multinomial us check = .ok (ps, ls, terms)) (S : ℝ) (hS : ls.v = .fin S) (hpos : 0 < S) (hn : us.length ≤ 2 ^ 50)
    (hbig : ∃ u ∈ us, ∃ x : ℝ, u.v = .fin x ∧ -620 ≤ x) (i : Nat) (hi : i < us.length) (hi' : i < ps.length) :
    |ps[i].val - exactWeight us[i] / (us.map exactWeight).sum| ≤ (us.length + 3 / 2) * (1 / 2 ^ 52) := by
  refine (C58_accuracy rfl (1 / 2 ^ 53) (by positivity) (by norm_num) expAcc_R64 us check ps ls terms h S hS hpos hn hbig i hi hi').trans ?_
  norm_num
  linarith

/-! ### Non-vacuity: three choices, one of them unavailable -/

theorem f64_sum_example : (sumF ([FOps.zero, FOps.zero, FOps.negInf].map FOps.exp : List F64)).v = .fin 2 := by
  have e1 : (FOps.exp (FOps.zero : F64)).v = .fin 1 := by
    show rnd (Real.exp 0) = .fin 1
    rw [Real.exp_zero]; exact R64.one
  have e2 : (FOps.exp (FOps.negInf : F64)).v = .fin 0 := rfl
  have r2 : rnd 2 = .fin 2 := by simpa using rnd_dyadic 2 0 (by norm_num) (by norm_num) (by norm_num)
  have r1 : rnd 1 = .fin 1 := R64.one
  have a (a b : F64) (x y z : ℝ) (ha : a.v = .fin x) (hb : b.v = .fin y) (h : rnd (x + y) = .fin z) : (FOps.add a b).v = .fin z := by
    show R64.rndX (XR.add a.v b.v) = _
    rw [ha, hb]; exact h
  exact a _ _ 2 0 2 (a _ _ 1 1 2 (a _ _ 0 1 1 rfl e1 (by rw [zero_add]; exact r1)) e1 (by norm_num [r2])) e2 (by norm_num [r2])

example : ∃ (ps : List F64) (ls : F64) (terms : List F64), multinomial [FOps.zero, FOps.zero, FOps.negInf] true = .ok (ps, ls, terms) ∧
    ls.v = .fin 2 ∧ |(ps.map Rnd.val).sum - 1| ≤ 3 * (1 / 2 ^ 52) ∧ ∀ h : 0 < ps.length, |ps[0].val - 1 / 2| ≤ (3 + 3 / 2) * (1 / 2 ^ 52) := by
  have hs := f64_sum_example
  have hr := multinomial_eq ([FOps.zero, FOps.zero, FOps.negInf] : List F64) true
  rw [if_neg (by show ¬ XR.le _ _ = true; rw [hs]; norm_num [XR.le, FOps.zero])] at hr
  refine ⟨_, _, _, hr, hs, ?_, ?_⟩
  · simpa using (C57_sum rfl _ _ _ _ _ hr 2 hs (by norm_num) (by norm_num)).2.2
  · intro h
    have := C58_correctly_rounded _ _ _ _ _ hr 2 hs (by norm_num) (by norm_num)
      ⟨FOps.zero, by simp, 0, rfl, by norm_num⟩ 0 (by simp) h
    have w1 : exactWeight (FOps.zero : F64) = 1 := by show Real.exp 0 = 1; exact Real.exp_zero
    have w2 : exactWeight (FOps.negInf : F64) = 0 := rfl
    simpa [w1, w2, show (1 : ℝ) + 1 = 2 by norm_num] using this

end Cheval
