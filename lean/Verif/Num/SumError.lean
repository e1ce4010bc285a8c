import Verif.Num.Error64
import Verif.Num.XRLemmas
import Verif.Core.Logit

/-!
# Rounding errors of sums and quotients of non-negative binary64 numbers

`R` is any arithmetic whose basic operations round like binary64; `exp` and `log` are arbitrary.
-/
namespace Cheval
open FOps B64
variable {R : Rounding}

/-- the real value of a finite number (0 for infinities and NaN) -/
noncomputable def Rnd.val (a : Rnd R) : ℝ := match a.v with | .fin x => x | _ => 0

/-- a finite number that is not negative -/
def Rnd.FinNonneg (a : Rnd R) : Prop := ∃ x : ℝ, a.v = .fin x ∧ 0 ≤ x

theorem Rnd.val_fin {a : Rnd R} {x : ℝ} (h : a.v = .fin x) : a.val = x := by unfold Rnd.val; rw [h]

theorem Rnd.FinNonneg.v {a : Rnd R} (h : a.FinNonneg) : a.v = .fin a.val := by
  obtain ⟨x, hx, -⟩ := h; rw [Rnd.val_fin hx, hx]

theorem Rnd.FinNonneg.nonneg {a : Rnd R} (h : a.FinNonneg) : 0 ≤ a.val := by
  obtain ⟨x, hx, h0⟩ := h; rw [Rnd.val_fin hx]; exact h0

/-- a sum of a non-negative number and one that is non-negative or NaN: if it is finite, so are both -/
theorem add_fin_parts {a b : Rnd R} {y : ℝ} (ha : XR.le (.fin 0) a.v = true ∨ a.v = .nan) (hb : XR.le (.fin 0) b.v = true ∨ b.v = .nan)
    (h : (FOps.add a b).v = .fin y) : a.FinNonneg ∧ b.FinNonneg ∧ R.rnd (a.val + b.val) = .fin y := by
  have h' : R.rndX (XR.add a.v b.v) = .fin y := h
  rcases ha with ha | ha
  · rcases hb with hb | hb
    · rcases XR.nonneg_cases ha with ea | ⟨x, ea, hx⟩ <;> rcases XR.nonneg_cases hb with eb | ⟨z, eb, hz⟩
      · rw [ea, eb] at h'; cases h'
      · rw [ea, eb] at h'; cases h'
      · rw [ea, eb] at h'; cases h'
      · refine ⟨⟨x, ea, hx⟩, ⟨z, eb, hz⟩, ?_⟩
        rw [Rnd.val_fin ea, Rnd.val_fin eb]
        rw [ea, eb] at h'
        exact h'
    · rw [hb] at h'; cases hav : a.v <;> rw [hav] at h' <;> cases h'
  · rw [ha] at h'; cases h'

theorem foldl_add_acc (hR : R.rnd = B64.rnd) : ∀ (ws : List (Rnd R)) (c : Rnd R),
    (XR.le (.fin 0) c.v = true ∨ c.v = .nan) → (∀ w ∈ ws, XR.le (.fin 0) w.v = true ∨ w.v = .nan) →
    ∀ S : ℝ, (ws.foldl FOps.add c).v = .fin S →
    c.FinNonneg ∧ (∀ w ∈ ws, w.FinNonneg) ∧
      (1 - uro) ^ ws.length * (c.val + (ws.map Rnd.val).sum) ≤ S ∧ S ≤ (1 + uro) ^ ws.length * (c.val + (ws.map Rnd.val).sum)
  | [], c, hc, _, S, h => by
    rw [List.foldl_nil] at h
    rw [h] at hc
    have h0 : 0 ≤ S := by
      rcases hc with hc | hc
      · simpa [XR.le] using hc
      · cases hc
    refine ⟨⟨S, h, h0⟩, by simp, ?_, ?_⟩ <;> simp [Rnd.val_fin h]
  | w :: ws, c, hc, hws, S, h => by
    rw [List.foldl_cons] at h
    have hu : uro ≤ 1 := by unfold uro; norm_num
    have hs : XR.le (.fin 0) (FOps.add c w).v = true ∨ (FOps.add c w).v = .nan := by
      rcases hc with hc | hc
      · rcases hws w (List.mem_cons_self ..) with hw | hw
        · left; exact FLaws.le_trans (FOps.zero : Rnd R) c _ hc (FLaws.le_add c w hc hw)
        · right
          show R.rndX (XR.add c.v w.v) = _
          rw [hw]; cases c.v <;> rfl
      · right
        show R.rndX (XR.add c.v w.v) = _
        rw [hc]; rfl
    obtain ⟨h1, h2, h3, h4⟩ := foldl_add_acc hR ws (FOps.add c w) hs (fun x hx => hws x (List.mem_cons_of_mem _ hx)) S h
    obtain ⟨a1, a2, a3⟩ := add_fin_parts hc (hws w (List.mem_cons_self ..)) h1.v
    rw [hR] at a3
    have hrc : B64.rnd c.val = .fin c.val := by rw [← hR]; exact c.rep _ a1.v
    have hrw : B64.rnd w.val = .fin w.val := by rw [← hR]; exact w.rep _ a2.v
    have he := rnd_add_err a1.nonneg a2.nonneg hrc hrw a3
    rw [abs_le] at he
    have hsum : 0 ≤ (ws.map Rnd.val).sum := List.sum_nonneg (by
      intro x hx
      obtain ⟨y, hy, rfl⟩ := List.mem_map.mp hx
      exact (h2 y hy).nonneg)
    have hcw := add_nonneg a1.nonneg a2.nonneg
    refine ⟨a1, ?_, ?_, ?_⟩
    · intro x hx
      rcases List.mem_cons.mp hx with rfl | hx
      · exact a2
      · exact h2 x hx
    · refine le_trans ?_ h3
      rw [List.length_cons, pow_succ, mul_assoc, List.map_cons, List.sum_cons]
      refine mul_le_mul_of_nonneg_left ?_ (pow_nonneg (by linarith) _)
      have : 0 ≤ uro * (ws.map Rnd.val).sum := mul_nonneg uro_pos.le hsum
      nlinarith
    · refine le_trans h4 ?_
      rw [List.length_cons, pow_succ, mul_assoc, List.map_cons, List.sum_cons]
      refine mul_le_mul_of_nonneg_left ?_ (pow_nonneg (by linarith [uro_pos]) _)
      have : 0 ≤ uro * (ws.map Rnd.val).sum := mul_nonneg uro_pos.le hsum
      nlinarith

/-- the rounded sum of non-negative numbers, if it is finite -/
theorem sumF_acc (hR : R.rnd = B64.rnd) (ws : List (Rnd R)) (hne : ws ≠ [])
    (hws : ∀ w ∈ ws, XR.le (.fin 0) w.v = true ∨ w.v = .nan) (S : ℝ) (h : (sumF ws).v = .fin S) :
    (∀ w ∈ ws, w.FinNonneg) ∧
      (1 - uro) ^ (ws.length - 1) * (ws.map Rnd.val).sum ≤ S ∧ S ≤ (1 + uro) ^ (ws.length - 1) * (ws.map Rnd.val).sum := by
  cases ws with
  | nil => exact absurd rfl hne
  | cons w ws =>
    have hz : (FOps.add (FOps.zero : Rnd R) w).v = w.v := by
      show R.rndX (XR.add (.fin 0) w.v) = w.v
      cases hw : w.v with
      | fin x => simp only [XR.add, zero_add, Rounding.rndX]; exact w.rep x hw
      | nan => rfl
      | pinf => rfl
      | ninf => rfl
    have hw := hws w (List.mem_cons_self ..)
    have := foldl_add_acc hR ws (FOps.add FOps.zero w) (by rw [hz]; exact hw) (fun x hx => hws x (List.mem_cons_of_mem _ hx)) S h
    have hv : (FOps.add (FOps.zero : Rnd R) w).val = w.val := by unfold Rnd.val; rw [hz]
    rw [hv] at this
    obtain ⟨⟨x, h1, h0⟩, h2, h3, h4⟩ := this
    refine ⟨?_, by simpa using h3, by simpa using h4⟩
    intro y hy
    rcases List.mem_cons.mp hy with rfl | hy
    · exact ⟨x, hz ▸ h1, h0⟩
    · exact h2 y hy

theorem rndX_div_fin (a b : Rnd R) (x y : ℝ) (ha : a.v = .fin x) (hb : b.v = .fin y) (hy : y ≠ 0) :
    (FOps.div a b).v = R.rnd (x / y) := by
  show R.rndX (XR.div a.v b.v) = _
  rw [ha, hb]
  have : XR.div (.fin x) (.fin y) = .fin (x / y) := XR.div_fin x y hy
  rw [this]
  rfl

/-- real inequality: shares of a total that is known up to `k` roundings -/
theorem shares_sum (u e : ℝ) (hu : 0 < u) (he : 0 ≤ e) (k : ℕ) (T S P : ℝ) (n : ℝ) (hS : 0 < S)
    (h1 : (1 - u) ^ k * T ≤ S) (h2 : S ≤ (1 + u) ^ k * T) (hk : (k : ℝ) * u ≤ 1 / 4) (hP : |P - T / S| ≤ u * (T / S) + n * e)
    (hne : n * e ≤ u / 4) (hu4 : u ≤ 1 / 4) : |P - 1| ≤ 2 * (k + 1) * u := by
  have hb : 1 - (k : ℝ) * u ≤ (1 - u) ^ k := by
    have := one_add_mul_le_pow (a := -u) (by linarith) k
    have e1 : (1 : ℝ) + k * -u = 1 - k * u := by ring
    have e2 : (1 : ℝ) + -u = 1 - u := by ring
    rwa [e1, e2] at this
  have hp1 : (0 : ℝ) < (1 + u) ^ k := pow_pos (by linarith) k
  have hT : 0 < T := by
    by_contra hn
    push Not at hn
    have := mul_nonpos_of_nonneg_of_nonpos hp1.le hn
    linarith
  have hlow : (1 - u) ^ k ≤ T / S := by
    rw [le_div_iff₀ hS]
    calc (1 - u) ^ k * S ≤ (1 - u) ^ k * ((1 + u) ^ k * T) := mul_le_mul_of_nonneg_left h2 (pow_nonneg (by linarith) k)
      _ = (1 - u ^ 2) ^ k * T := by rw [← mul_assoc, ← mul_pow]; congr 2; ring
      _ ≤ 1 * T := by
        refine mul_le_mul_of_nonneg_right (pow_le_one₀ ?_ ?_) hT.le <;> nlinarith
      _ = T := one_mul T
  have hk0 : (0 : ℝ) ≤ k * u := mul_nonneg (Nat.cast_nonneg k) hu.le
  have hup : T / S * (1 - k * u) ≤ 1 := by
    have : T / S * (1 - u) ^ k ≤ 1 := by
      rw [div_mul_eq_mul_div, div_le_one hS, mul_comm]; exact h1
    refine le_trans (mul_le_mul_of_nonneg_left hb (div_nonneg hT.le hS.le)) this
  have hq : T / S ≤ 1 + 4 / 3 * (k * u) := by
    by_contra hn
    push Not at hn
    nlinarith
  have hlow' := hb.trans hlow
  rw [abs_le] at hP ⊢
  constructor
  · nlinarith
  · nlinarith

end Cheval
