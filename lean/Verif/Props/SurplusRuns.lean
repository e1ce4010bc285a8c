import Verif.Props.LawRunCases
import Verif.Props.Surplus
import Mathlib.Analysis.Convex.SpecificFunctions.Basic
import Mathlib.Analysis.Convex.Jensen

/-!
# C82 for whole calls of `run_stochastic`: the change of the composite utility
-/
set_option linter.unusedSectionVars false
namespace Cheval
open FOps Spec

variable {U U' R : Type} [DecidableEq U] [DecidableEq U'] [Inhabited R]

/-- how much the utility of a choice differs; 0 if it is unavailable both times -/
noncomputable def utilityGain (v w : Util) : ℝ := w.getD 0 - v.getD 0

/-- the logarithm of a sum of exponentials grows at least by the gains weighted with the probabilities before -/
theorem gain_ge (n : Nat) (v w : Nat → Util) (hnone : ∀ j < n, v j = none ↔ w j = none) (hfeas : ∃ j < n, v j ≠ none) :
    ∑ k ∈ Finset.range n, expw (v k) / (∑ j ∈ Finset.range n, expw (v j)) * utilityGain (v k) (w k) ≤
      Real.log (∑ j ∈ Finset.range n, expw (w j)) - Real.log (∑ j ∈ Finset.range n, expw (v j)) := by
  have hpos : ∀ v : Nat → Util, (∃ j < n, v j ≠ none) → 0 < ∑ j ∈ Finset.range n, expw (v j) := by
    rintro v ⟨j, hj, hne⟩
    refine Finset.sum_pos' (fun _ _ => expw_nonneg _) ⟨j, Finset.mem_range.mpr hj, ?_⟩
    exact lt_of_le_of_ne (expw_nonneg _) fun h0 => hne ((expw_eq_zero _).mp h0.symm)
  have hZ := hpos v hfeas
  have hZ' := hpos w (by
    obtain ⟨j, hj, hne⟩ := hfeas
    exact ⟨j, hj, fun hw => hne ((hnone j hj).mpr hw)⟩)
  have hsum : ∑ k ∈ Finset.range n, expw (v k) / (∑ j ∈ Finset.range n, expw (v j)) = 1 := by
    rw [← Finset.sum_div, div_self hZ.ne']
  have hj := convexOn_exp.map_sum_le (t := Finset.range n) (w := fun k => expw (v k) / (∑ j ∈ Finset.range n, expw (v j)))
    (p := fun k => utilityGain (v k) (w k)) (fun _ _ => div_nonneg (expw_nonneg _) hZ.le) hsum (fun _ _ => Set.mem_univ _)
  simp only [smul_eq_mul] at hj
  have hr : ∑ k ∈ Finset.range n, expw (v k) / (∑ j ∈ Finset.range n, expw (v j)) * Real.exp (utilityGain (v k) (w k)) =
      (∑ j ∈ Finset.range n, expw (w j)) / ∑ j ∈ Finset.range n, expw (v j) := by
    rw [Finset.sum_div]
    refine Finset.sum_congr rfl fun k hk => ?_
    rw [div_mul_eq_mul_div]
    congr 1
    have := hnone k (Finset.mem_range.mp hk)
    cases hv : v k with
    | none => rw [this.mp hv]; simp [expw]
    | some x =>
      cases hw : w k with
      | none => rw [this.mpr hw] at hv; cases hv
      | some y => simp only [expw, utilityGain, Option.getD_some, ← Real.exp_add]; congr 1; ring
  rw [hr] at hj
  rw [← Real.log_div hZ'.ne' hZ.ne']
  have := Real.log_le_log (Real.exp_pos _) hj
  rwa [Real.log_exp] at this

section two
variable {ops : List (TreeOp XR)} {s s' : Setting XR R} {m : CModel U XR} {m' : CModel U' XR} {scaled check scaled' check' : Bool} {n n' : Nat}
  {W W' : Nat → Nat → Util} {fr fr' nls nls' : Frame XR} {ls ls' : Nat → XR}

/-- **C82 (run_stochastic, one level)** Between two decision units with the same available choices, of one call or of two, the composite utility
(the logarithm of the logsum run_stochastic reports) grows at least by the gains in utility weighted with the probabilities of the first unit and at most by
the gains weighted with those of the second. -/
theorem C82_run_gain (h : Returned ops s m scaled check n W fr ls nls) (h' : Returned ops s' m' scaled' check' n' W' fr' ls' nls')
    (hd : (expected ops).depth ≤ 1) (i i' : Nat) (hi : i < n) (hi' : i' < n')
    (hnone : ∀ j < fr.cols.length, W i j = none ↔ W' i' j = none) (hfeas : ∃ j < fr.cols.length, W i j ≠ none) :
    ∃ z z' : ℝ, ls i = .fin z ∧ ls' i' = .fin z' ∧ 0 < z ∧ 0 < z' ∧
      ∑ k ∈ Finset.range fr.cols.length, realOf (fr.val i k) * utilityGain (W i k) (W' i' k) ≤ Real.log z' - Real.log z ∧
      Real.log z' - Real.log z ≤ ∑ k ∈ Finset.range fr.cols.length, realOf (fr'.val i' k) * utilityGain (W i k) (W' i' k) := by
  have hw := same_width h h' hd
  have hfeas' : ∃ j < fr.cols.length, W' i' j ≠ none := by
    obtain ⟨j, hj, hne⟩ := hfeas
    exact ⟨j, hj, fun hw => hne ((hnone j hj).mpr hw)⟩
  obtain ⟨-, -, e⟩ := returned_flat h hd
  obtain ⟨-, -, e'⟩ := returned_flat h' hd
  rw [hw] at e'
  obtain ⟨e1, e2⟩ := (e i hi).2 hfeas
  obtain ⟨e1', e2'⟩ := (e' i' hi').2 hfeas'
  have hpos : ∀ v : Nat → Util, (∃ j < fr.cols.length, v j ≠ none) → 0 < ∑ j ∈ Finset.range fr.cols.length, expw (v j) := by
    rintro v ⟨j, hj, hne⟩
    refine Finset.sum_pos' (fun _ _ => expw_nonneg _) ⟨j, Finset.mem_range.mpr hj, ?_⟩
    exact lt_of_le_of_ne (expw_nonneg _) fun h0 => hne ((expw_eq_zero _).mp h0.symm)
  refine ⟨_, _, e1, e1', hpos _ hfeas, hpos _ hfeas', ?_, ?_⟩
  · refine le_trans (le_of_eq ?_) (gain_ge fr.cols.length (W i) (W' i') hnone hfeas)
    exact Finset.sum_congr rfl fun k hk => by rw [(e2 k (Finset.mem_range.mp hk)).1]; rfl
  · have hg := gain_ge fr.cols.length (W' i') (W i) (fun j hj => (hnone j hj).symm) hfeas'
    have hflip : ∑ k ∈ Finset.range fr.cols.length, realOf (fr'.val i' k) * utilityGain (W i k) (W' i' k) =
        -∑ k ∈ Finset.range fr.cols.length, expw (W' i' k) / (∑ j ∈ Finset.range fr.cols.length, expw (W' i' j)) *
          utilityGain (W' i' k) (W i k) := by
      rw [← Finset.sum_neg_distrib]
      refine Finset.sum_congr rfl fun k hk => ?_
      rw [(e2' k (Finset.mem_range.mp hk)).1]
      show _ / _ * (_ - _) = -(_ / _ * (_ - _))
      ring
    rw [hflip]
    linarith
/-- the logsum of a unit, available choices or none -/
theorem returned_flat_logsum (h : Returned ops s m scaled check n W fr ls nls) (hd : (expected ops).depth ≤ 1) (i : Nat) (hi : i < n) :
    ls i = .fin (∑ j ∈ Finset.range fr.cols.length, expw (W i j)) := by
  obtain ⟨-, -, e⟩ := returned_flat h hd
  by_cases hf : ∃ j < fr.cols.length, W i j ≠ none
  · exact ((e i hi).2 hf).1
  · have hf : ∀ j < fr.cols.length, W i j = none := fun j hj => by_contra fun hh => hf ⟨j, hj, hh⟩
    rw [((e i hi).1 hf).1, Finset.sum_eq_zero fun j hj => (expw_eq_zero _).mpr (hf j (Finset.mem_range.mp hj))]

/-- **C82 (run_stochastic, one level, monotone)** If the utilities of the second unit are those of the first, some of them raised or made available, its logsum
is not smaller. -/
theorem C82_run_flat_monotone (h : Returned ops s m scaled check n W fr ls nls) (h' : Returned ops s' m' scaled' check' n' W' fr' ls' nls')
    (hd : (expected ops).depth ≤ 1) (i i' : Nat) (hi : i < n) (hi' : i' < n')
    (hraise : ∀ j < fr.cols.length, ∀ x, W i j = some x → ∃ y, W' i' j = some y ∧ x ≤ y) :
    ∃ z z' : ℝ, ls i = .fin z ∧ ls' i' = .fin z' ∧ 0 ≤ z ∧ z ≤ z' := by
  have hw := same_width h h' hd
  refine ⟨_, _, returned_flat_logsum h hd i hi, returned_flat_logsum h' hd i' hi', Finset.sum_nonneg fun _ _ => expw_nonneg _, ?_⟩
  rw [hw]
  refine Finset.sum_le_sum fun j hj => ?_
  cases hx : W i j with
  | none => exact expw_nonneg _
  | some x =>
    obtain ⟨y, hy, hxy⟩ := hraise j (Finset.mem_range.mp hj) x hx
    rw [hy]
    exact Real.exp_le_exp.mpr hxy

/-- **C82 (run_stochastic, one level, common constant)** If all utilities of the second unit are higher by `c`, so is its composite utility. -/
theorem C82_run_flat_translation (h : Returned ops s m scaled check n W fr ls nls) (h' : Returned ops s' m' scaled' check' n' W' fr' ls' nls')
    (hd : (expected ops).depth ≤ 1) (i i' : Nat) (hi : i < n) (hi' : i' < n') (c : ℝ)
    (hshift : ∀ j < fr.cols.length, W' i' j = (W i j).map (· + c)) (hfeas : ∃ j < fr.cols.length, W i j ≠ none) :
    ∃ z z' : ℝ, ls i = .fin z ∧ ls' i' = .fin z' ∧ 0 < z ∧ 0 < z' ∧ Real.log z' = Real.log z + c := by
  have hw := same_width h h' hd
  have hpos : 0 < ∑ j ∈ Finset.range fr.cols.length, expw (W i j) := by
    obtain ⟨j, hj, hne⟩ := hfeas
    exact Finset.sum_pos' (fun _ _ => expw_nonneg _) ⟨j, Finset.mem_range.mpr hj, lt_of_le_of_ne (expw_nonneg _) fun h0 => hne ((expw_eq_zero _).mp h0.symm)⟩
  have hz : ∑ j ∈ Finset.range fr'.cols.length, expw (W' i' j) = Real.exp c * ∑ j ∈ Finset.range fr.cols.length, expw (W i j) := by
    rw [hw, Finset.mul_sum]
    refine Finset.sum_congr rfl fun j hj => ?_
    rw [hshift j (Finset.mem_range.mp hj)]
    cases W i j with
    | none => simp [expw]
    | some x => simp [expw, Real.exp_add, mul_comm]
  refine ⟨_, _, returned_flat_logsum h hd i hi, returned_flat_logsum h' hd i' hi', hpos, ?_, ?_⟩
  · rw [hz]; exact mul_pos (Real.exp_pos c) hpos
  · rw [hz, Real.log_mul (Real.exp_pos c).ne' hpos.ne', Real.log_exp, add_comm]
end two

/-- C82_run_flat_monotone and C82_run_flat_translation: A becomes available; B and C get 3 more -/
example (env : PyEnv) (M : Arith XR) (a b c : ℝ) :
    ∃ fr ls nls fr' ls' nls' fr'' ls'' nls'',
      Returned threeOps (emSetting M) (byPath threeOps fun p => if p = [['A']] then none else if p = [['B']] then some b else some c) true true 1
        (fun _ => abc fun p => if p = [['A']] then none else if p = [['B']] then some b else some c) fr ls nls ∧
      Returned threeOps (emSetting M) (byPath threeOps fun p => if p = [['A']] then some a else if p = [['B']] then some b else some c) true true 1
        (fun _ => abc fun p => if p = [['A']] then some a else if p = [['B']] then some b else some c) fr' ls' nls' ∧
      Returned threeOps (emSetting M) (byPath threeOps fun p => if p = [['A']] then none else if p = [['B']] then some (b + 3) else some (c + 3)) true true 1
        (fun _ => abc fun p => if p = [['A']] then none else if p = [['B']] then some (b + 3) else some (c + 3)) fr'' ls'' nls'' ∧
      ∃ z z' z'' : ℝ, ls 0 = .fin z ∧ ls' 0 = .fin z' ∧ ls'' 0 = .fin z'' ∧ z ≤ z' ∧ Real.log z'' = Real.log z + 3 := by
  have hne : ([['B']] : List Name) ≠ [['A']] := by decide
  have hne' : ([['C']] : List Name) ≠ [['A']] := by decide
  have hne'' : ([['C']] : List Name) ≠ [['B']] := by decide
  obtain ⟨fr, ls, nls, h, hl⟩ := three_returned env M (fun p => if p = [['A']] then none else if p = [['B']] then some b else some c) true (.inl (by simp [hne]))
  obtain ⟨fr', ls', nls', h', hl'⟩ := three_returned env M
    (fun p => if p = [['A']] then some a else if p = [['B']] then some b else some c) true (.inl (by simp [hne]))
  obtain ⟨fr'', ls'', nls'', h'', hl''⟩ := three_returned env M
    (fun p => if p = [['A']] then none else if p = [['B']] then some (b + 3) else some (c + 3)) true (.inl (by simp [hne]))
  obtain ⟨a0, a1, a2⟩ := abc_get fun p => if p = [['A']] then none else if p = [['B']] then some b else some c
  obtain ⟨b0, b1, b2⟩ := abc_get fun p => if p = [['A']] then some a else if p = [['B']] then some b else some c
  obtain ⟨c0, c1, c2⟩ := abc_get fun p => if p = [['A']] then none else if p = [['B']] then some (b + 3) else some (c + 3)
  simp only [hne, hne', hne'', if_false, if_true] at a0 a1 a2 b0 b1 b2 c0 c1 c2
  obtain ⟨z, z', e, e', -, g⟩ := C82_run_flat_monotone h h' threeOps_depth 0 0 (by norm_num) (by norm_num) (fun j hj x hx => by
    match j, hj with
    | 0, _ => rw [a0] at hx; rw [b0]; exact ⟨_, rfl, by cases hx; exact le_refl _⟩
    | 1, _ => rw [a1] at hx; cases hx
    | 2, _ => rw [a2] at hx; rw [b2]; exact ⟨_, rfl, by cases hx; exact le_refl _⟩
    | j + 3, hj => omega)
  obtain ⟨z0, z'', e0, e'', -, -, g'⟩ := C82_run_flat_translation h h'' threeOps_depth 0 0 (by norm_num) (by norm_num) 3 (fun j hj => by
    match j, hj with
    | 0, _ => rw [a0, c0]; rfl
    | 1, _ => rw [a1, c1]; rfl
    | 2, _ => rw [a2, c2]; rfl
    | j + 3, hj => omega) ⟨0, by omega, by rw [a0]; simp⟩
  rw [e] at e0
  cases e0
  exact ⟨fr, ls, nls, fr', ls', nls', fr'', ls'', nls'', h, h', h'', z, z', z'', e, e', e'', g, g'⟩

/-- C82_run_gain: A is unavailable; the utility of B rises from b to b', that of C from c to c' -/
example (env : PyEnv) (M : Arith XR) (b c b' c' : ℝ) :
    ∃ fr ls nls fr' ls' nls',
      Returned threeOps (emSetting M) (byPath threeOps fun p => if p = [['A']] then none else if p = [['B']] then some b else some c) true true 1
        (fun _ => abc fun p => if p = [['A']] then none else if p = [['B']] then some b else some c) fr ls nls ∧
      Returned threeOps (emSetting M) (byPath threeOps fun p => if p = [['A']] then none else if p = [['B']] then some b' else some c') true true 1
        (fun _ => abc fun p => if p = [['A']] then none else if p = [['B']] then some b' else some c') fr' ls' nls' ∧
      ∃ z z' : ℝ, ls 0 = .fin z ∧ ls' 0 = .fin z' ∧
        realOf (fr.val 0 0) * (b' - b) + realOf (fr.val 0 2) * (c' - c) ≤ Real.log z' - Real.log z ∧
        Real.log z' - Real.log z ≤ realOf (fr'.val 0 0) * (b' - b) + realOf (fr'.val 0 2) * (c' - c) := by
  have hne : ([['B']] : List Name) ≠ [['A']] := by decide
  have hne' : ([['C']] : List Name) ≠ [['A']] := by decide
  have hne'' : ([['C']] : List Name) ≠ [['B']] := by decide
  obtain ⟨fr, ls, nls, h, hl⟩ := three_returned env M (fun p => if p = [['A']] then none else if p = [['B']] then some b else some c) true (.inl (by simp [hne]))
  obtain ⟨fr', ls', nls', h', hl'⟩ := three_returned env M
    (fun p => if p = [['A']] then none else if p = [['B']] then some b' else some c') true (.inl (by simp [hne]))
  obtain ⟨a0, a1, a2⟩ := abc_get fun p => if p = [['A']] then none else if p = [['B']] then some b else some c
  obtain ⟨b0, b1, b2⟩ := abc_get fun p => if p = [['A']] then none else if p = [['B']] then some b' else some c'
  simp only [hne, hne', hne'', if_false, if_true] at a0 a1 a2 b0 b1 b2
  obtain ⟨z, z', e, e', -, -, g1, g2⟩ := C82_run_gain h h' threeOps_depth 0 0 (by norm_num) (by norm_num)
    (fun j hj => by
      match j, hj with
      | 0, _ => simp [a0, b0]
      | 1, _ => simp [a1, b1]
      | 2, _ => simp [a2, b2]
      | j + 3, hj => omega)
    ⟨0, by omega, by simp [a0]⟩
  refine ⟨fr, ls, nls, fr', ls', nls', h, h', z, z', e, e', ?_, ?_⟩
  · rw [hl] at g1
    simpa [Finset.sum_range_succ, a0, a1, a2, b0, b1, b2, utilityGain] using g1
  · rw [hl] at g2
    simpa [Finset.sum_range_succ, a0, a1, a2, b0, b1, b2, utilityGain] using g2

end Cheval
