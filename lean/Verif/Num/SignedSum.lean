import Verif.Num.SumError

/-!
# Rounding errors of sums of numbers of either sign
-/
namespace Cheval
open B64
variable {R : Rounding}

namespace B64

/-- representable numbers are multiples of the smallest subnormal number -/
theorem rep_int_multiple {x : ℝ} (h : rnd x = .fin x) : ∃ n : ℤ, x = n * 2 ^ (-1074 : ℤ) := by
  by_cases hx : 0 ≤ x
  · obtain ⟨n, hn⟩ := rep_multiple x hx (rnd_fin hx h)
    exact ⟨n, by exact_mod_cast hn⟩
  · have hx' : 0 ≤ -x := by linarith
    have : rpos (-x) = -x := by
      unfold rnd at h
      rw [if_neg hx] at h
      split_ifs at h
      simp only [XR.fin.injEq] at h
      linarith
    obtain ⟨n, hn⟩ := rep_multiple (-x) hx' this
    exact ⟨-n, by push_cast; linarith⟩

/-- rounding a number of either sign that is a multiple of the smallest subnormal number -/
theorem rnd_multiple_err {x y : ℝ} (n : ℤ) (hn : x = n * 2 ^ (-1074 : ℤ)) (h : rnd x = .fin y) : |y - x| ≤ uro * |x| := by
  have key : ∀ (z : ℝ) (k : ℤ), 0 ≤ z → z = k * 2 ^ (-1074 : ℤ) → |rpos z - z| ≤ uro * z := by
    intro z k hz hk
    by_cases hb : (2 : ℝ) ^ (-1022 : ℤ) ≤ z
    · exact rpos_rel z hb
    · have hs : z < (2 : ℝ) ^ (-1022 : ℤ) := not_le.mp hb
      have e : rpos z = z := by
        rcases lt_or_eq_of_le hz with h0 | h0
        · have hq := qexp_small z h0 (hs.trans_le (zpow_le_zpow_right₀ (by norm_num) (by norm_num)))
          exact rpos_exact z k (by rw [hq]; exact hk)
        · rw [← h0, rpos_zero]
      rw [e]
      simp only [sub_self, abs_zero]
      exact mul_nonneg uro_pos.le hz
  by_cases hx : 0 ≤ x
  · rw [abs_of_nonneg hx, ← rnd_fin hx h]
    exact key x n hx hn
  · have hx' : 0 ≤ -x := by linarith
    have hy : y = -rpos (-x) := by
      unfold rnd at h
      rw [if_neg hx] at h
      split_ifs at h
      simp only [XR.fin.injEq] at h
      exact h.symm
    have := key (-x) (-n) hx' (by push_cast; linarith)
    rw [hy, abs_of_neg (not_le.mp hx)]
    rw [show -rpos (-x) - x = -(rpos (-x) - -x) by ring, abs_neg]
    exact this

/-- the error of one addition of doubles, of either sign -/
theorem rnd_sum_err {a b y : ℝ} (ra : rnd a = .fin a) (rb : rnd b = .fin b) (h : rnd (a + b) = .fin y) :
    |y - (a + b)| ≤ uro * |a + b| := by
  obtain ⟨n, hn⟩ := rep_int_multiple ra
  obtain ⟨m, hm⟩ := rep_int_multiple rb
  exact rnd_multiple_err (n + m) (by push_cast; rw [add_mul, ← hn, ← hm]) h

end B64

/-- if a sum is finite, both terms are -/
theorem add_fin {a b : Rnd R} {y : ℝ} (h : (FOps.add a b).v = .fin y) :
    a.v = .fin a.val ∧ b.v = .fin b.val ∧ R.rnd (a.val + b.val) = .fin y := by
  have h' : R.rndX (XR.add a.v b.v) = .fin y := h
  cases ha : a.v with
  | nan => rw [ha] at h'; simp [XR.add, Rounding.rndX] at h'
  | ninf => rw [ha] at h'; cases hb : b.v <;> rw [hb] at h' <;> simp [XR.add, Rounding.rndX] at h'
  | pinf => rw [ha] at h'; cases hb : b.v <;> rw [hb] at h' <;> simp [XR.add, Rounding.rndX] at h'
  | fin x =>
    cases hb : b.v with
    | nan => rw [ha, hb] at h'; simp [XR.add, Rounding.rndX] at h'
    | ninf => rw [ha, hb] at h'; simp [XR.add, Rounding.rndX] at h'
    | pinf => rw [ha, hb] at h'; simp [XR.add, Rounding.rndX] at h'
    | fin z =>
      rw [ha, hb] at h'
      rw [Rnd.val_fin ha, Rnd.val_fin hb]
      exact ⟨rfl, rfl, h'⟩

/-- the error of adding up doubles of either sign one by one, if the result is finite -/
theorem foldl_add_err (hR : R.rnd = B64.rnd) : ∀ (ws : List (Rnd R)) (c : Rnd R) (S : ℝ), (ws.foldl FOps.add c).v = .fin S →
    c.v = .fin c.val ∧ (∀ w ∈ ws, w.v = .fin w.val) ∧
      |S - (c.val + (ws.map Rnd.val).sum)| ≤ ((1 + uro) ^ ws.length - 1) * (|c.val| + (ws.map fun w => |w.val|).sum)
  | [], c, S, h => by
    rw [List.foldl_nil] at h
    refine ⟨by rw [Rnd.val_fin h, h], by simp, ?_⟩
    simp [Rnd.val_fin h]
  | w :: ws, c, S, h => by
    rw [List.foldl_cons] at h
    obtain ⟨h1, h2, h3⟩ := foldl_add_err hR ws (FOps.add c w) S h
    obtain ⟨a1, a2, a3⟩ := add_fin h1
    refine ⟨a1, fun x hx => ?_, ?_⟩
    · rcases List.mem_cons.mp hx with rfl | hx
      · exact a2
      · exact h2 x hx
    · rw [hR] at a3
      have he := rnd_sum_err (by rw [← hR]; exact c.rep _ a1) (by rw [← hR]; exact w.rep _ a2) a3
      set d := (FOps.add c w).val with hd
      rw [List.map_cons, List.sum_cons, List.map_cons, List.sum_cons, List.length_cons, pow_succ]
      have hB : 0 ≤ (ws.map fun w => |w.val|).sum := List.sum_nonneg (by
        intro x hx
        obtain ⟨y, -, rfl⟩ := List.mem_map.mp hx
        exact abs_nonneg _)
      have hp : 1 ≤ (1 + uro) ^ ws.length := one_le_pow₀ (by linarith [uro_pos])
      generalize (1 + uro) ^ ws.length = P at h3 hp
      generalize (ws.map fun w => |w.val|).sum = B at h3 hB
      generalize (ws.map Rnd.val).sum = T at h3
      have hA := abs_add_le c.val w.val
      have hu := uro_pos
      have h4 : uro * |c.val + w.val| ≤ uro * (|c.val| + |w.val|) := mul_le_mul_of_nonneg_left hA hu.le
      have h5 : |d| ≤ (1 + uro) * (|c.val| + |w.val|) := by
        have : |d| ≤ |d - (c.val + w.val)| + |c.val + w.val| := by
          have := abs_add_le (d - (c.val + w.val)) (c.val + w.val)
          rwa [sub_add_cancel] at this
        linarith
      have h6 : (P - 1) * (|d| + B) ≤ (P - 1) * ((1 + uro) * (|c.val| + |w.val|) + B) :=
        mul_le_mul_of_nonneg_left (by linarith) (by linarith)
      have h7 : |S - (c.val + (w.val + T))| ≤ |S - (d + T)| + |d - (c.val + w.val)| := by
        have := abs_add_le (S - (d + T)) (d - (c.val + w.val))
        rwa [show S - (d + T) + (d - (c.val + w.val)) = S - (c.val + (w.val + T)) by ring] at this
      have h8 : 0 ≤ P * uro * B := mul_nonneg (mul_nonneg (by linarith) hu.le) hB
      nlinarith

/-- `(1 + u)^n - 1 <= 2 n u` for `n` up to `2^51` -/
theorem pow_uro_le {n : ℕ} (hn : n ≤ 2 ^ 51) : (1 + uro) ^ n - 1 ≤ n / 2 ^ 52 := by
  have hu := uro_pos
  have hb : ∀ k : ℕ, k ≤ 2 ^ 51 → (1 + uro) ^ k ≤ 1 + 2 * k * uro := by
    intro k
    induction k with
    | zero => intro _; simp
    | succ k ih =>
      intro hk
      have h1 := ih (by omega)
      have hk' : (k : ℝ) ≤ 2 ^ 51 := by exact_mod_cast (by omega : k ≤ 2 ^ 51)
      rw [pow_succ]
      have h2 : (1 + uro) ^ k * (1 + uro) ≤ (1 + 2 * k * uro) * (1 + uro) := mul_le_mul_of_nonneg_right h1 (by linarith)
      have h3 : 2 * (k : ℝ) * uro ≤ 1 / 2 := by
        unfold uro
        rw [show 2 * (k : ℝ) * (1 / 2 ^ 53) = k / 2 ^ 52 by ring, div_le_iff₀ (by positivity)]
        linarith
      push_cast
      nlinarith
  have := hb n hn
  have e : (n : ℝ) / 2 ^ 52 = 2 * n * uro := by unfold uro; ring
  rw [e]
  linarith

/-- the error of a sum of doubles -/
theorem foldl_add_close (hR : R.rnd = B64.rnd) (ws : List (Rnd R)) (hn : ws.length ≤ 2 ^ 51) (c : Rnd R) (S : ℝ) (h : (ws.foldl FOps.add c).v = .fin S) :
    |S - (c.val + (ws.map Rnd.val).sum)| ≤ ws.length / 2 ^ 52 * (|c.val| + (ws.map fun w => |w.val|).sum) := by
  refine (foldl_add_err hR ws c S h).2.2.trans (mul_le_mul_of_nonneg_right (pow_uro_le hn) ?_)
  refine add_nonneg (abs_nonneg _) (List.sum_nonneg ?_)
  intro x hx
  obtain ⟨y, -, rfl⟩ := List.mem_map.mp hx
  exact abs_nonneg _

end Cheval
