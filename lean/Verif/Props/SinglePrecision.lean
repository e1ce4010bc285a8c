import Verif.Props.LargeRuns
import Verif.Props.Sensitivity

/-!
# C76: accuracy of models of precision 4 without nests

Their exponentials are computed in single precision (`np.exp` of a float32 in `multinomial_probabilities`, core.py:133-157), everything after
that in double precision.
-/
namespace Cheval
open FOps B64 B32 Spec
variable {U Q V : Type}

/-- the single precision exponential: relative error `2^-24`, or absolute error `2^-150` -/
theorem exp_err_32 (u : F32) (h : (FOps.exp u).FinNonneg) :
    |(FOps.exp u).val - exactWeight u| ≤ 1 / 2 ^ 24 * exactWeight u + 1 / 2 ^ 150 := by
  have hv : Rnd.expV R32 u.v = .fin (FOps.exp u).val := h.v
  unfold exactWeight
  cases hu : u.v with
  | fin x =>
    rw [hu] at hv
    have hv : B32.rnd32 (Real.exp x) = .fin (FOps.exp u).val := hv
    unfold B32.rnd32 at hv
    split at hv
    · cases hv
    · have e : B32.rpos32 (Real.exp x) = (FOps.exp u).val := by simpa using hv
      rw [← e]
      exact B32.rpos32_abs _ (Real.exp_pos x)
  | ninf =>
    rw [hu] at hv
    simp only [Rnd.expV, XR.fin.injEq] at hv
    rw [← hv]
    norm_num
  | pinf => rw [hu] at hv; cases hv
  | nan => rw [hu] at hv; cases hv

theorem exp_40 : (1 : ℝ) / 2 ^ 58 ≤ Real.exp (-40) := by
  have h : Real.exp 40 ≤ 2 ^ 58 := exp_le_pow (n := 40) (by norm_num) (by norm_num)
  rw [Real.exp_neg, one_div]
  exact inv_anti₀ (Real.exp_pos _) h

/-- **C76 (one row)** A model of precision 4 without nests: if some utility is at least -40 and the logsum does not overflow, every
probability differs from `exp(u_i) / sum of exp(u_j)` by at most `3 * 2^-24 + n * 2^-52`, for `n <= 2^30` choices. -/
theorem C76_accuracy (us : List F32) (check : Bool) (ps : List F32) (ls : F32) (terms : List F32)
    (h : multinomial us check = .ok (ps, ls, terms)) (S : ℝ) (hS : ls.v = .fin S) (hpos : 0 < S) (hn : us.length ≤ 2 ^ 30)
    (hbig : ∃ u ∈ us, ∃ x : ℝ, u.v = .fin x ∧ -40 ≤ x) (i : Nat) (hi : i < us.length) (hi' : i < ps.length) :
    |ps[i].val - exactWeight us[i] / (us.map exactWeight).sum| ≤ 3 * (1 / 2 ^ 24) + us.length * (1 / 2 ^ 52) := by
  obtain ⟨hne, rfl, h1, h2, h3, h4⟩ := multinomial_rounded rnd_R32 us check ps ls terms h S hS hpos
  have hmem : us[i] ∈ us := List.getElem_mem hi
  have hle : ∀ u ∈ us, exactWeight u ≤ (us.map exactWeight).sum := by
    intro u hu
    exact List.single_le_sum (by
      intro x hx
      obtain ⟨v, _, rfl⟩ := List.mem_map.mp hx
      exact exactWeight_nonneg v) _ (List.mem_map_of_mem hu)
  have hW : (1 : ℝ) / 2 ^ 58 ≤ (us.map exactWeight).sum := by
    obtain ⟨u, hu, x, hx, hx0⟩ := hbig
    refine le_trans ?_ (hle u hu)
    unfold exactWeight
    rw [hx]
    exact exp_40.trans (Real.exp_le_exp.mpr hx0)
  have hW0 : 0 < (us.map exactWeight).sum := lt_of_lt_of_le (by positivity) hW
  have hnR : (us.length : ℝ) ≤ 2 ^ 30 := by exact_mod_cast hn
  have hlen : (1 : ℝ) ≤ us.length := by
    have : 1 ≤ us.length := by omega
    exact_mod_cast this
  have hκ : (us.length : ℝ) * (1 / 2 ^ 150) ≤ 1 / 2 ^ 62 * (us.map exactWeight).sum := by
    calc (us.length : ℝ) * (1 / 2 ^ 150) ≤ 2 ^ 30 * (1 / 2 ^ 150) := mul_le_mul_of_nonneg_right hnR (by positivity)
      _ ≤ 1 / 2 ^ 62 * (1 / 2 ^ 58) := by norm_num
      _ ≤ _ := mul_le_mul_of_nonneg_left hW (by positivity)
  have hT := sum_abs_le us (fun u => (FOps.exp u).val) exactWeight _ fun u hu => exp_err_32 u (h1 u hu)
  have e2 : (us.map fun u => 1 / 2 ^ 24 * exactWeight u + (1 : ℝ) / 2 ^ 150).sum
      = 1 / 2 ^ 24 * (us.map exactWeight).sum + us.length * (1 / 2 ^ 150) := by
    rw [List.sum_map_add, List.sum_map_mul_left]; simp
  rw [e2] at hT
  have hk : ((us.length - 1 : ℕ) : ℝ) + 1 = us.length := by
    have : us.length - 1 + 1 = us.length := by omega
    exact_mod_cast this
  have hk8 : ((us.length - 1 : ℕ) : ℝ) * uro ≤ 1 / 8 := by
    have : ((us.length - 1 : ℕ) : ℝ) ≤ 2 ^ 30 := by linarith
    calc _ ≤ 2 ^ 30 * uro := mul_le_mul_of_nonneg_right this uro_pos.le
      _ ≤ 1 / 8 := by unfold uro; norm_num
  have he := exp_err_32 us[i] (h1 _ hmem)
  have hp := (h4 _ hmem).2
  have heta : eta ≤ 1 / 2 ^ 62 := by
    unfold eta
    calc (2 : ℝ) ^ (-1075 : ℤ) ≤ 2 ^ (-62 : ℤ) := zpow_le_zpow_right₀ (by norm_num) (by norm_num)
      _ = _ := by rw [zpow_neg]; norm_num
  have key := share_acc uro (1 / 2 ^ 24) (1 / 2 ^ 62) uro_pos (by positivity) (by positivity) (us.length - 1) _ S (us.map exactWeight).sum
    (FOps.exp us[i]).val (exactWeight us[i]) (FOps.div (FOps.exp us[i]) ls).val hpos hW0 h2 h3 hk8 (h1 _ hmem).nonneg
    (exactWeight_nonneg _) (hle _ hmem) (hT.trans (by linarith))
    (he.trans (by
      have : (1 : ℝ) * (1 / 2 ^ 150) ≤ us.length * (1 / 2 ^ 150) := mul_le_mul_of_nonneg_right hlen (by positivity)
      linarith))
    (hp.trans (by linarith)) (by norm_num) (by unfold uro; norm_num) (by unfold uro; norm_num)
  rw [hk] at key
  rw [List.getElem_map]
  refine key.trans (le_of_eq ?_)
  unfold uro
  norm_num
  ring

/-- **C76 (in range)** If every utility of the row is -inf or at most 88, and one is at least -40, the probabilities are computed, and they
have this accuracy. -/
theorem C76_in_range (us : List F32) (hn : us.length ≤ 2 ^ 30) (hus : ∀ u ∈ us, u.v = .ninf ∨ ∃ x : ℝ, u.v = .fin x ∧ x ≤ 88)
    (hbig : ∃ u ∈ us, ∃ x : ℝ, u.v = .fin x ∧ -40 ≤ x) (check : Bool) :
    ∃ ps ls terms, multinomial us check = .ok (ps, ls, terms) ∧ ps.length = us.length ∧ ∀ i (h : i < us.length) (h' : i < ps.length),
      |ps[i].val - exactWeight us[i] / (us.map exactWeight).sum| ≤ 3 * (1 / 2 ^ 24) + us.length * (1 / 2 ^ 52) := by
  obtain ⟨ps, ls, t, S, e, hl, hS, hlen, -⟩ := C75_in_range_single_partial us (hn.trans (by norm_num)) hus (by
    obtain ⟨u, hu, x, hx, h⟩ := hbig
    exact ⟨u, hu, x, hx, by linarith⟩) check
  exact ⟨ps, ls, t, e, hlen, fun i h h' => C76_accuracy us check ps ls t e S hl hS hn hbig i h h'⟩

theorem unitRow_weights {R : Rounding} (u : Tab (Rnd R)) (i : Nat) :
    ((unitRow u i).map exactWeight).sum = ∑ k ∈ Finset.range u.cols, exactWeight (u.val i k) := by
  rw [unitRow, List.map_map, Finset.sum_range, ← List.sum_ofFn]
  congr 1
  apply List.ext_getElem <;> simp

/-- **C76 (run_stochastic)** A model of precision 4 without nests: when run_stochastic returns, then for every decision unit whose utilities
are -inf or at most 88, and one at least -40, the probability in the column of each choice differs from `exp(u_j) / sum of exp(u_k)` by at
most `3 * 2^-24 + n * 2^-52`. -/
theorem C76_run (ops : List (TreeOp F32)) (hc : CleanRun Choices.empty ops) (hd : (expected ops).depth ≤ 1)
    (hn : (expected ops).live.length ≤ 2 ^ 30) (s : Setting F32 Q) (m m' : CModel U F32) (hm : m.tree = after ops)
    (group : Option Nat) (threads : Int) (clear scaled check : Bool) (u : Tab F32) (hu : m.runUtilities s.K group clear = (m', .ok u))
    (fr : Frame F32) (ls : Nat → F32) (nls : Frame F32)
    (h : RunStochastic s m group threads clear scaled check (m', .ok (fr, ls, nls))) (i : Nat) (hi : i < u.rows)
    (hus : ∀ j < u.cols, (u.val i j).v = .ninf ∨ ∃ x : ℝ, (u.val i j).v = .fin x ∧ x ≤ 88)
    (hbig : ∃ j < u.cols, ∃ x : ℝ, (u.val i j).v = .fin x ∧ -40 ≤ x) :
    choices m.tree = .ok fr.cols ∧ fr.cols.length = u.cols ∧
    ∀ j < u.cols, |(fr.val i j).val - exactWeight (u.val i j) / ∑ k ∈ Finset.range u.cols, exactWeight (u.val i k)|
      ≤ 3 * (1 / 2 ^ 24) + u.cols * (1 / 2 ^ 52) := by
  obtain ⟨hcols, mem, hrow⟩ := stochastic_calc hc hm hu h
  obtain ⟨p, t, hp, hval, hfr⟩ := hrow i hi
  obtain ⟨h1, h2, h3⟩ := hfr hd
  rw [rowCalc_flat hd] at hp
  obtain ⟨ps, l, t', e, hlen, hacc⟩ := C76_in_range (unitRow u i) (by rw [unitRow_length, hcols]; exact hn) (by
    intro x hx
    obtain ⟨j, hj, rfl⟩ := mem_unitRow hx
    exact hus j hj) (by
    obtain ⟨j, hj, x, e, hx⟩ := hbig
    exact ⟨_, unitRow_mem hj, x, e, hx⟩) check
  rw [hp] at e
  simp only [Except.ok.injEq, Prod.mk.injEq] at e
  obtain ⟨rfl, rfl, -⟩ := e
  rw [unitRow_length] at hlen
  refine ⟨h1, h2, fun j hj => ?_⟩
  have hg : (unitRow u i)[j]'(by rw [unitRow_length]; exact hj) = u.val i j := by simp [unitRow]
  have := hacc j (by rw [unitRow_length]; exact hj) (by omega)
  rw [hg, unitRow_weights, unitRow_length] at this
  rw [h3, hval j (by omega)]
  exact this

/-- the utility held in a cell -/
noncomputable def cellUtil {R : Rounding} (u : Rnd R) : Util := match u.v with | .fin x => some x | _ => none

theorem expw_cellUtil {R : Rounding} (u : Rnd R) : expw (cellUtil u) = exactWeight u := by
  unfold cellUtil exactWeight
  cases u.v <;> rfl

/-- **C76 (rounding the utilities as well)** If in addition the stored utilities differ from the exact ones, `w`, by at most `δ <= 1/4`
(rounding to single precision makes `δ = 2^-24 * B` for utilities up to `B` in size), the probabilities differ from those of the exact
utilities by at most `4 δ + 3 * 2^-24 + n * 2^-52`. -/
theorem C76_stored (ops : List (TreeOp F32)) (hc : CleanRun Choices.empty ops) (hd : (expected ops).depth ≤ 1)
    (hn : (expected ops).live.length ≤ 2 ^ 30) (s : Setting F32 Q) (m m' : CModel U F32) (hm : m.tree = after ops)
    (group : Option Nat) (threads : Int) (clear scaled check : Bool) (u : Tab F32) (hu : m.runUtilities s.K group clear = (m', .ok u))
    (fr : Frame F32) (ls : Nat → F32) (nls : Frame F32)
    (h : RunStochastic s m group threads clear scaled check (m', .ok (fr, ls, nls))) (i : Nat) (hi : i < u.rows)
    (hus : ∀ j < u.cols, (u.val i j).v = .ninf ∨ ∃ x : ℝ, (u.val i j).v = .fin x ∧ x ≤ 88)
    (hbig : ∃ j < u.cols, ∃ x : ℝ, (u.val i j).v = .fin x ∧ -40 ≤ x) (w : Nat → Util) (δ : ℝ) (hδ : 0 ≤ δ) (hδ4 : δ ≤ 1 / 4)
    (hw : ∀ j < u.cols, Near δ (w j) (cellUtil (u.val i j))) :
    ∀ j < u.cols, |(fr.val i j).val - expw (w j) / ∑ k ∈ Finset.range u.cols, expw (w k)| ≤ 4 * δ + 3 * (1 / 2 ^ 24) + u.cols * (1 / 2 ^ 52) := by
  intro j hj
  have h1 := (C76_run ops hc hd hn s m m' hm group threads clear scaled check u hu fr ls nls h i hi hus hbig).2.2 j hj
  have h2 := C74_sensitivity_flat hδ hδ4 hw j hj
  simp only [expw_cellUtil] at h2
  rw [abs_le] at *
  constructor <;> linarith [h1.1, h1.2, h2.1, h2.2]

/-! ### A concrete row -/

/-- C76_accuracy, C76_in_range: utilities 2, 0, -inf; the exact probabilities are `e^2 / (e^2 + 1)`, `1 / (e^2 + 1)`, 0 -/
example : ∃ ps ls terms, multinomial [whole (R := R32) rfl 2 (by norm_num), FOps.zero, FOps.negInf] true = .ok (ps, ls, terms) ∧
    ∃ h : 0 < ps.length, |(ps[0]).val - Real.exp 2 / (Real.exp 2 + (1 + 0))| ≤ 3 * (1 / 2 ^ 24) + 3 * (1 / 2 ^ 52) := by
  obtain ⟨ps, ls, t, h, hl, hacc⟩ := C76_in_range [whole (R := R32) rfl 2 (by norm_num), FOps.zero, FOps.negInf] (by norm_num) (by
      intro u hu
      simp only [List.mem_cons, List.not_mem_nil, or_false] at hu
      rcases hu with rfl | rfl | rfl
      · exact Or.inr ⟨_, rfl, by norm_num⟩
      · exact Or.inr ⟨0, rfl, by norm_num⟩
      · exact Or.inl rfl) ⟨_, List.mem_cons_self .., _, rfl, by norm_num⟩ true
  have hl3 : ps.length = 3 := hl
  refine ⟨ps, ls, t, h, by omega, ?_⟩
  have := hacc 0 (by simp) (by omega)
  have e1 : exactWeight (whole (R := R32) rfl 2 (by norm_num)) = Real.exp 2 := by simp [exactWeight, whole]
  have e2 : exactWeight (FOps.zero : F32) = 1 := by
    show Real.exp 0 = 1; exact Real.exp_zero
  have e3 : exactWeight (FOps.negInf : F32) = 0 := rfl
  simpa [e1, e2, e3] using this

/-- C76_run, C76_stored: a call for a model with the utilities 2, 0, -inf, and exact utilities 1/1000 away from them -/
example (K : Kernel F32) (g : Rng F32) (lr : LegacyRandom Nat) : ∃ (m m' : CModel Nat F32) (fr : Frame F32) (ls : Nat → F32) (nls : Frame F32),
    RunStochastic ⟨K, g, lr, 0, 4⟩ m none 2 true true true (m', .ok (fr, ls, nls)) ∧ ∀ i < 2,
      |(fr.val i 0).val - expw (some (2 + 1 / 1000)) / ∑ k ∈ Finset.range 3, expw ([some (2 + 1 / 1000), some 0, none].getD k none)|
        ≤ 4 * (1 / 1000) + 3 * (1 / 2 ^ 24) + 3 * (1 / 2 ^ 52) := by
  let w : Nat → F32 := fun j => if j = 0 then whole (R := R32) rfl 2 (by norm_num) else if j = 1 then FOps.zero else FOps.negInf
  have hw0 : (w 0).v = .fin 2 := by simp [w, whole]
  have hw1 : (w 1).v = .fin 0 := rfl
  have hw2 : (w 2).v = .ninf := rfl
  have hw : ∀ j, FOps.isNan (w j) = false := by
    intro j
    show XR.isNan (w j).v = false
    simp only [w]
    split
    · rfl
    · split <;> rfl
  obtain ⟨ps, l, t, h, hl, hacc⟩ := C76_in_range [w 0, w 1, w 2] (by norm_num) (by
      intro u hu
      simp only [List.mem_cons, List.not_mem_nil, or_false] at hu
      rcases hu with rfl | rfl | rfl
      · exact Or.inr ⟨_, hw0, by norm_num⟩
      · exact Or.inr ⟨_, hw1, by norm_num⟩
      · exact Or.inl hw2) ⟨_, List.mem_cons_self .., _, hw0, by norm_num⟩ true
  obtain ⟨m', u, fr, ls, nls, hru, h1, h2, h3, hst⟩ := bg_stochastic w hw true ps l t h K g lr
  refine ⟨bgModel w, m', fr, ls, nls, hst, fun i hi => ?_⟩
  have hc2 : ∀ j < 3, j = 0 ∨ j = 1 ∨ j = 2 := by omega
  have := C76_stored (rgOps R32) rgOps_clean bg_flat (by rw [rgOps_expected]; norm_num) _ (bgModel w) m' rfl none 2 true true true u hru fr ls nls hst i
    (by omega) (by
      intro j hj
      rw [h3 i j hi (by omega)]
      rcases hc2 j (by omega) with rfl | rfl | rfl
      · exact Or.inr ⟨_, hw0, by norm_num⟩
      · exact Or.inr ⟨_, hw1, by norm_num⟩
      · exact Or.inl hw2) ⟨0, by omega, 2, by rw [h3 i 0 hi (by norm_num)]; exact hw0, by norm_num⟩
    (fun k => [some (2 + 1 / 1000), some 0, none].getD k none) (1 / 1000) (by norm_num) (by norm_num) (by
      intro j hj
      rw [h3 i j hi (by omega)]
      unfold cellUtil
      rcases hc2 j (by omega) with rfl | rfl | rfl
      · rw [hw0]; show |_ - _| ≤ _; norm_num [abs_le]
      · rw [hw1]; show |_ - _| ≤ _; norm_num
      · rw [hw2]; trivial) 0 (by omega)
  rw [h2] at this
  exact_mod_cast this

end Cheval
