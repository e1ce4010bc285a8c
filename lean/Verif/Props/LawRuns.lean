import Verif.Props.WholeRuns

/-!
# C05–C11 for whole calls: what run_stochastic and run_discrete return, or raise, for any utilities that are finite or -inf

Every schedule of the parallel loop; decision units without an available choice included. Exact arithmetic.
-/
namespace Cheval
open FOps Spec
variable {U U' R V : Type}

/-! ## models without nests -/
section flat
variable (ops : List (TreeOp XR)) (hc : CleanRun Choices.empty ops) (hd : (expected ops).depth ≤ 1)
include hc hd

/-- **C06 (run_stochastic)** On a model without nests, with utilities that are finite or -inf: with check_infeasible the call raises
UtilityBoundsError if some decision unit has no available choice. Otherwise it returns; a unit without available choice gets probability 0
for every choice and logsum 0, every other unit the same probabilities, logsum and logsum terms whatever the flag. -/
theorem C06_run (s : Setting XR R) (m m' : CModel U XR) (hm : m.tree = after ops) (group : Option Nat) (threads : Int)
    (clear scaled check : Bool) (u : Tab XR) (hu : m.runUtilities s.K group clear = (m', .ok u)) (h1 : 1 ≤ threads)
    (h2 : threads ≤ s.maxThreads) (W : Nat → Nat → Util) (hW : ∀ i < u.rows, ∀ j < u.cols, u.val i j = util (W i j))
    (out : CModel U XR × Except Err (Frame XR × (Nat → XR) × Frame XR)) (h : RunStochastic s m group threads clear scaled check out) :
    ((check = true ∧ ∃ i < u.rows, ∀ j < u.cols, W i j = none) → out = (m', .error .utilityBounds)) ∧
    (¬ (check = true ∧ ∃ i < u.rows, ∀ j < u.cols, W i j = none) →
      ∃ fr ls nls, out = (m', .ok (fr, ls, nls)) ∧ choices m.tree = .ok fr.cols ∧ choices m.tree = .ok nls.cols ∧ fr.cols.length = u.cols ∧
        ∀ i < u.rows, ((∀ j < u.cols, W i j = none) → ls i = .fin 0 ∧ ∀ k < u.cols, fr.val i k = .fin 0) ∧
          ((∃ j < u.cols, W i j ≠ none) → ls i = .fin (∑ j ∈ Finset.range u.cols, expw (W i j)) ∧ ∀ k < u.cols,
            fr.val i k = .fin (expw (W i k) / ∑ j ∈ Finset.range u.cols, expw (W i j)) ∧ nls.val i k = .fin (expw (W i k)))) := by
  obtain ⟨hv, _, ht, _, _, labels, hl1, hl2⟩ := runUtilities_ok hu
  have hvt := validateTree_of_validate hv
  rw [hm] at hvt hl1
  have hr := rel_after ops hc
  have hne := live_ne_of_valid hr hvt
  have hch := choices_eq hr hvt
  unfold RunStochastic at h
  simp only [hu] at h
  rw [if_neg (by omega)] at h
  obtain ⟨res, hst, rfl⟩ := h
  have hrow : u.toRows = ((List.range u.rows).map fun i => (List.range u.cols).map (W i)).map fun w => w.map util := by
    unfold Tab.toRows
    rw [List.map_map]
    refine List.map_congr_left fun i hi => ?_
    simp only [Function.comp, List.map_map]
    exact List.map_congr_left fun j hj => hW i (List.mem_range.mp hi) j (List.mem_range.mp hj)
  have hget : ∀ i (hi : i < u.rows), (((List.range u.rows).map fun i => (List.range u.cols).map (W i)).map fun w => w.map util)[i]'(by
      simpa using hi) = ((List.range u.cols).map (W i)).map util := by intro i hi; simp
  have hnone : ∀ i, (∀ x ∈ (List.range u.cols).map (W i), x = none) ↔ ∀ j < u.cols, W i j = none := by
    intro i; simp
  have hsome : ∀ i, (∃ x ∈ (List.range u.cols).map (W i), x ≠ none) ↔ ∃ j < u.cols, W i j ≠ none := by
    intro i; simp
  rw [ht, hm, hrow] at hst
  unfold StochasticStage at hst
  rw [hr.depth_eq hne] at hst
  simp only [if_neg (not_lt.mpr hd)] at hst
  obtain ⟨res', hw, hout⟩ := hst
  rcases C12_multinomial_probabilities _ _ _ hw with ⟨mem, rfl, hrows⟩ | ⟨v, hv2, e, he, rfl⟩
  · refine ⟨?_, fun _ => ?_⟩
    · rintro ⟨rfl, i, hi, hall⟩
      exfalso
      obtain ⟨p, ls, terms, hmn, -⟩ := hrows i (by simpa using hi)
      simp only [hget i hi, (C06_check _).mpr ((hnone i).mpr hall)] at hmn
      cases hmn
    · rw [hch] at hout
      simp only at hout
      refine ⟨_, _, _, by rw [hout], by rw [hm, hch], by rw [hm, hch], by
        rw [hch] at hl1
        cases hl1; exact hl2.symm, fun i hi => ⟨fun hall => ?_, fun hex => ?_⟩⟩
      · obtain ⟨p, ls, terms, hmn, e1, e2, -⟩ := hrows i (by simpa using hi)
        cases check with
        | true =>
          simp only [hget i hi, (C06_check _).mpr ((hnone i).mpr hall)] at hmn
          cases hmn
        | false =>
          simp only [hget i hi, C06_nocheck _ ((hnone i).mpr hall)] at hmn
          cases hmn
          refine ⟨by simp only [readNum, e2], fun k hk => ?_⟩
          have := e1 k (by simpa using hk)
          simp only [readNum, this]
          simp
      · obtain ⟨p, ls, terms, hmn, e1, e2, e3⟩ := hrows i (by simpa using hi)
        simp only [hget i hi, C05_formula _ check ((hsome i).mpr hex)] at hmn
        cases hmn
        have hsum : (((List.range u.cols).map (W i)).map expw).sum = ∑ j ∈ Finset.range u.cols, expw (W i j) := by
          simp only [List.map_map, Function.comp_def]
          rw [← List.sum_toFinset _ List.nodup_range, List.toFinset_range]
        rw [hsum] at e1 e2
        refine ⟨by simp only [readNum, e2], fun k hk => ⟨?_, ?_⟩⟩
        · have := e1 k (by simpa using hk)
          simp only [readNum, this]
          simp
        · have := e3 k (by simpa using hk)
          simp only [readNum, this]
          simp
  · have hall : check = true ∧ e = .utilityBounds ∧ ∃ i < u.rows, ∀ j < u.cols, W i j = none := by
      obtain ⟨w, hw1, rfl⟩ := List.mem_map.mp hv2
      obtain ⟨i, hi, rfl⟩ := List.mem_map.mp hw1
      by_cases hx : ∃ j < u.cols, W i j ≠ none
      · simp only [C05_formula _ check ((hsome i).mpr hx)] at he
        cases he
      · push Not at hx
        cases check with
        | true =>
          simp only [(C06_check _).mpr ((hnone i).mpr hx)] at he
          cases he
          exact ⟨rfl, rfl, i, List.mem_range.mp hi, hx⟩
        | false =>
          simp only [C06_nocheck _ ((hnone i).mpr hx)] at he
          cases he
    obtain ⟨hc1, rfl, hi⟩ := hall
    simp only at hout
    exact ⟨fun _ => by rw [hout], fun hn => absurd ⟨hc1, hi⟩ hn⟩

end flat

/-- A call of run_stochastic on a model with the choices of `ops` that returned `fr` (probabilities), `ls` (logsums) and `nls` (logsum
terms); the utilities of its `n` decision units are `W`, finite or -inf. -/
structure Returned (ops : List (TreeOp XR)) (s : Setting XR R) (m : CModel U XR) (scaled check : Bool) (n : Nat) (W : Nat → Nat → Util)
    (fr : Frame XR) (ls : Nat → XR) (nls : Frame XR) : Prop where
  clean : CleanRun Choices.empty ops
  tree : m.tree = after ops
  call : ∃ m' u group threads clear, m.runUtilities s.K group clear = (m', .ok u) ∧
    RunStochastic s m group threads clear scaled check (m', .ok (fr, ls, nls)) ∧ u.rows = n ∧
    ∀ i < u.rows, ∀ j < u.cols, u.val i j = util (W i j)

section laws
variable {ops : List (TreeOp XR)} {s : Setting XR R} {m : CModel U XR} {scaled check : Bool} {n : Nat} {W : Nat → Nat → Util} {fr : Frame XR}
  {ls : Nat → XR} {nls : Frame XR}

theorem threads_of_ok {F : Type} [FOps F] {s : Setting F R} {m m' : CModel U F} {group : Option Nat} {threads : Int} {clear scaled check : Bool}
    {r : Frame F × (Nat → F) × Frame F} (h : RunStochastic s m group threads clear scaled check (m', .ok r)) :
    1 ≤ threads ∧ threads ≤ s.maxThreads := by
  unfold RunStochastic at h
  rcases hu : m.runUtilities s.K group clear with ⟨m1, _ | u⟩
  · rw [hu] at h; cases h
  · rw [hu] at h
    simp only at h
    split at h
    · cases h
    · constructor <;> omega

/-- what a returned call holds, row by row -/
theorem returned_flat (h : Returned ops s m scaled check n W fr ls nls) (hd : (expected ops).depth ≤ 1) : choices m.tree = .ok fr.cols ∧
    choices m.tree = .ok nls.cols ∧ ∀ i < n,
      ((∀ j < fr.cols.length, W i j = none) → ls i = .fin 0 ∧ ∀ k < fr.cols.length, fr.val i k = .fin 0) ∧
      ((∃ j < fr.cols.length, W i j ≠ none) → ls i = .fin (∑ j ∈ Finset.range fr.cols.length, expw (W i j)) ∧ ∀ k < fr.cols.length,
        fr.val i k = .fin (expw (W i k) / ∑ j ∈ Finset.range fr.cols.length, expw (W i j)) ∧ nls.val i k = .fin (expw (W i k))) := by
  obtain ⟨m', u, group, threads, clear, hu, hrun, rfl, hW⟩ := h.call
  obtain ⟨h1, h2⟩ := threads_of_ok hrun
  obtain ⟨ha, hb⟩ := C06_run ops h.clean hd s m m' h.tree group threads clear scaled check u hu h1 h2 W hW _ hrun
  by_cases hx : check = true ∧ ∃ i < u.rows, ∀ j < u.cols, W i j = none
  · cases ha hx
  · obtain ⟨fr', ls', nls', he, e1, e2, e3, e4⟩ := hb hx
    cases he
    rw [e3]
    exact ⟨e1, e2, e4⟩

/-- **C05 (run_stochastic)** Whenever run_stochastic returns for a model without nests, every decision unit with an available choice has the
probabilities exp(u_k) / Σ exp(u_j) under the labels of the choices: in [0,1], with sum exactly 1, 0 exactly for utility -inf; the logsum
is Σ exp(u_j) and the logsum terms are exp(u_k). -/
theorem C05_run (h : Returned ops s m scaled check n W fr ls nls) (hd : (expected ops).depth ≤ 1) (i : Nat) (hi : i < n)
    (hfeas : ∃ j < fr.cols.length, W i j ≠ none) :
    choices m.tree = .ok fr.cols ∧ choices m.tree = .ok nls.cols ∧ ls i = .fin (∑ j ∈ Finset.range fr.cols.length, expw (W i j)) ∧
    (∀ k < fr.cols.length, fr.val i k = .fin (expw (W i k) / ∑ j ∈ Finset.range fr.cols.length, expw (W i j)) ∧
      nls.val i k = .fin (expw (W i k)) ∧ 0 ≤ realOf (fr.val i k) ∧ realOf (fr.val i k) ≤ 1 ∧ (fr.val i k = .fin 0 ↔ W i k = none)) ∧
    ∑ k ∈ Finset.range fr.cols.length, realOf (fr.val i k) = 1 := by
  obtain ⟨e1, e2, e3⟩ := returned_flat h hd
  obtain ⟨e4, e5⟩ := (e3 i hi).2 hfeas
  have hpos : 0 < ∑ j ∈ Finset.range fr.cols.length, expw (W i j) := by
    obtain ⟨j, hj, hne⟩ := hfeas
    refine Finset.sum_pos' (fun _ _ => expw_nonneg _) ⟨j, Finset.mem_range.mpr hj, ?_⟩
    cases hw : W i j with
    | none => exact absurd hw hne
    | some x => exact Real.exp_pos x
  have hz : ∀ w : Util, expw w = 0 ↔ w = none := by
    intro w
    cases w with
    | none => simp [expw]
    | some x => simp [expw, (Real.exp_pos x).ne']
  refine ⟨e1, e2, e4, fun k hk => ⟨(e5 k hk).1, (e5 k hk).2, ?_, ?_, ?_⟩, ?_⟩
  · rw [(e5 k hk).1]
    exact div_nonneg (expw_nonneg _) hpos.le
  · rw [(e5 k hk).1]
    exact (div_le_one hpos).mpr (Finset.single_le_sum (f := fun j => expw (W i j)) (fun _ _ => expw_nonneg _) (Finset.mem_range.mpr hk))
  · rw [(e5 k hk).1, XR.fin.injEq, div_eq_zero_iff, or_iff_left hpos.ne', hz]
  · rw [Finset.sum_congr rfl (g := fun k => expw (W i k) / ∑ j ∈ Finset.range fr.cols.length, expw (W i j)), ← Finset.sum_div, div_self hpos.ne']
    intro k hk
    rw [(e5 k (Finset.mem_range.mp hk)).1]; rfl

/-- **C06 (returned rows)** Whenever run_stochastic returns for a model without nests, a decision unit without available choice has probability
0 everywhere and logsum 0 (which with check_infeasible cannot be the case for any unit). -/
theorem C06_returned (h : Returned ops s m scaled check n W fr ls nls) (hd : (expected ops).depth ≤ 1) (i : Nat) (hi : i < n)
    (hno : ∀ j < fr.cols.length, W i j = none) : check = false ∧ ls i = .fin 0 ∧ ∀ k < fr.cols.length, fr.val i k = .fin 0 := by
  obtain ⟨e1, e2, e3⟩ := returned_flat h hd
  refine ⟨?_, (e3 i hi).1 hno⟩
  obtain ⟨m', u, group, threads, clear, hu, hrun, rfl, hW⟩ := h.call
  obtain ⟨h1, h2⟩ := threads_of_ok hrun
  obtain ⟨ha, hb⟩ := C06_run ops h.clean hd s m m' h.tree group threads clear scaled check u hu h1 h2 W hW _ hrun
  by_contra hcheck
  by_cases hx : check = true ∧ ∃ i < u.rows, ∀ j < u.cols, W i j = none
  · cases ha hx
  · obtain ⟨fr', ls', nls', he, -, -, e3', -⟩ := hb hx
    cases he
    exact hx ⟨by simpa using hcheck, i, hi, e3' ▸ hno⟩

section two
variable {s' : Setting XR R} {m' : CModel U' XR} {scaled' check' : Bool} {n' : Nat} {W' : Nat → Nat → Util} {fr' : Frame XR}
  {ls' : Nat → XR} {nls' : Frame XR}

theorem same_width (h : Returned ops s m scaled check n W fr ls nls) (h' : Returned ops s' m' scaled' check' n' W' fr' ls' nls')
    (hd : (expected ops).depth ≤ 1) : fr'.cols = fr.cols := by
  have e := (returned_flat h hd).1
  have e' := (returned_flat h' hd).1
  rw [h.tree] at e
  rw [h'.tree, e] at e'
  exact (Except.ok.inj e').symm

/-- **C07 (translation, run_stochastic)** If the utilities of a decision unit of one call are those of a unit of the same or another call plus
the same constant for every choice, the two have the same probabilities. -/
theorem C07_run_translation (h : Returned ops s m scaled check n W fr ls nls) (h' : Returned ops s' m' scaled' check' n' W' fr' ls' nls')
    (hd : (expected ops).depth ≤ 1) (i i' : Nat) (hi : i < n) (hi' : i' < n') (c : ℝ)
    (hadd : ∀ j < fr.cols.length, W' i' j = (W i j).map (· + c)) : ∀ k < fr.cols.length, fr'.val i' k = fr.val i k := by
  have hw := same_width h h' hd
  obtain ⟨-, -, e⟩ := returned_flat h hd
  obtain ⟨-, -, e'⟩ := returned_flat h' hd
  rw [hw] at e'
  have hexp : ∀ j < fr.cols.length, expw (W' i' j) = Real.exp c * expw (W i j) := by
    intro j hj
    rw [hadd j hj]
    cases W i j with
    | none => simp [expw]
    | some x => simp [expw, Real.exp_add, mul_comm]
  intro k hk
  by_cases hx : ∃ j < fr.cols.length, W i j ≠ none
  · have hx' : ∃ j < fr.cols.length, W' i' j ≠ none := by
      obtain ⟨j, hj, hne⟩ := hx
      refine ⟨j, hj, ?_⟩
      rw [hadd j hj]
      simpa using hne
    rw [(((e i hi).2 hx).2 k hk).1, (((e' i' hi').2 hx').2 k hk).1, hexp k hk,
      Finset.sum_congr rfl (fun j hj => hexp j (Finset.mem_range.mp hj)), ← Finset.mul_sum, mul_div_mul_left _ _ (Real.exp_pos c).ne']
  · push Not at hx
    rw [((e i hi).1 hx).2 k hk, ((e' i' hi').1 (fun j hj => by rw [hadd j hj, hx j hj]; rfl)).2 k hk]

/-- **C07 (odds, run_stochastic)** The odds of two available choices of a decision unit are exp(u_k - u_l), whatever the other utilities are -/
theorem C07_run_odds (h : Returned ops s m scaled check n W fr ls nls) (hd : (expected ops).depth ≤ 1) (i : Nat) (hi : i < n) (k l : Nat)
    (hk : k < fr.cols.length) (hl : l < fr.cols.length) (x y : ℝ) (hx : W i k = some x) (hy : W i l = some y) :
    0 < realOf (fr.val i l) ∧ realOf (fr.val i k) / realOf (fr.val i l) = Real.exp (x - y) := by
  have hfeas : ∃ j < fr.cols.length, W i j ≠ none := ⟨k, hk, by simp [hx]⟩
  obtain ⟨-, -, -, e, -⟩ := C05_run h hd i hi hfeas
  have hpos : 0 < ∑ j ∈ Finset.range fr.cols.length, expw (W i j) :=
    Finset.sum_pos' (fun _ _ => expw_nonneg _) ⟨k, Finset.mem_range.mpr hk, by rw [hx]; exact Real.exp_pos x⟩
  rw [(e k hk).1, (e l hl).1, hx, hy]
  refine ⟨div_pos (Real.exp_pos y) hpos, ?_⟩
  show Real.exp x / _ / (Real.exp y / _) = _
  rw [div_div_div_cancel_right₀ hpos.ne', Real.exp_sub]

/-- **C07 (monotonicity, run_stochastic)** If the utilities of a decision unit of one call differ from those of a unit of the same or another
call in one choice only, which has a higher one (or was unavailable), that choice does not have a lower probability and no other choice a
higher one. -/
theorem C07_run_monotone (h : Returned ops s m scaled check n W fr ls nls) (h' : Returned ops s' m' scaled' check' n' W' fr' ls' nls')
    (hd : (expected ops).depth ≤ 1) (i i' : Nat) (hi : i < n) (hi' : i' < n') (k : Nat) (hk : k < fr.cols.length) (y : ℝ)
    (hy : W' i' k = some y) (hup : ∀ x, W i k = some x → x ≤ y) (hsame : ∀ j < fr.cols.length, j ≠ k → W' i' j = W i j)
    (hfeas : ∃ j < fr.cols.length, W i j ≠ none) :
    realOf (fr.val i k) ≤ realOf (fr'.val i' k) ∧ ∀ j < fr.cols.length, j ≠ k → realOf (fr'.val i' j) ≤ realOf (fr.val i j) := by
  have hw := same_width h h' hd
  obtain ⟨-, -, -, e, -⟩ := C05_run h hd i hi hfeas
  obtain ⟨-, -, -, e', -⟩ := C05_run h' hd i' hi' ⟨k, by rw [hw]; exact hk, by simp [hy]⟩
  rw [hw] at e'
  have hsplit : ∀ w : Nat → Util, ∑ j ∈ Finset.range fr.cols.length, expw (w j) =
      expw (w k) + ∑ j ∈ (Finset.range fr.cols.length).erase k, expw (w j) := fun w =>
    (Finset.add_sum_erase _ (fun j => expw (w j)) (Finset.mem_range.mpr hk)).symm
  have hrest : ∑ j ∈ (Finset.range fr.cols.length).erase k, expw (W' i' j) = ∑ j ∈ (Finset.range fr.cols.length).erase k, expw (W i j) :=
    Finset.sum_congr rfl fun j hj => by
      rw [hsame j (Finset.mem_range.mp (Finset.mem_of_mem_erase hj)) (Finset.ne_of_mem_erase hj)]
  have hle : expw (W i k) ≤ expw (W' i' k) := by
    rw [hy]
    cases hx : W i k with
    | none => exact (Real.exp_pos y).le
    | some x => exact Real.exp_le_exp.mpr (hup x hx)
  have hr0 : 0 ≤ ∑ j ∈ (Finset.range fr.cols.length).erase k, expw (W i j) := Finset.sum_nonneg fun _ _ => expw_nonneg _
  have hp : 0 < expw (W i k) + ∑ j ∈ (Finset.range fr.cols.length).erase k, expw (W i j) := by
    rw [← hsplit (W i)]
    obtain ⟨j, hj, hne⟩ := hfeas
    refine Finset.sum_pos' (fun _ _ => expw_nonneg _) ⟨j, Finset.mem_range.mpr hj, ?_⟩
    cases hx : W i j with
    | none => exact absurd hx hne
    | some x => exact Real.exp_pos x
  constructor
  · rw [(e k hk).1, (e' k hk).1, hsplit (W i), hsplit (W' i'), hrest]
    show _ / _ ≤ _ / _
    rw [div_le_div_iff₀ hp (by linarith)]
    nlinarith [expw_nonneg (W i k)]
  · intro j hj hjk
    rw [(e j hj).1, (e' j hj).1, hsplit (W i), hsplit (W' i'), hrest, hsame j hj hjk]
    show _ / _ ≤ _ / _
    exact div_le_div_of_nonneg_left (expw_nonneg _) hp (by linarith)

end two
end laws

/-! ## models with nests -/
section nested
variable (ops : List (TreeOp XR)) (hc : CleanRun Choices.empty ops) (hd : 1 < (expected ops).depth)
include hc hd

open Classical in
/-- a call of run_stochastic, in terms of the calculation for each row -/
theorem nested_outcome (s : Setting XR R) (m m' : CModel U XR) (hm : m.tree = after ops) (group : Option Nat) (threads : Int)
    (clear scaled check : Bool) (u : Tab XR) (hu : m.runUtilities s.K group clear = (m', .ok u)) (h1 : 1 ≤ threads)
    (h2 : threads ≤ s.maxThreads) (W : Nat → Nat → Util) (hW : ∀ i < u.rows, ∀ j < u.cols, u.val i j = util (W i j))
    (out : CModel U XR × Except Err (Frame XR × (Nat → XR) × Frame XR)) (h : RunStochastic s m group threads clear scaled check out) :
    (∃ i < u.rows, ∃ e, nested (row (expected ops).live.length (W i)) (flatUpto (expected ops) (expected ops).live.length) scaled check =
      .error e ∧ out = (m', .error e)) ∨
    (∃ fr ls nls, out = (m', .ok (fr, ls, nls)) ∧ elementalChoices m.tree = .ok fr.cols ∧ choices m.tree = .ok nls.cols ∧
      ∀ i < u.rows, ∃ p t, nested (row (expected ops).live.length (W i)) (flatUpto (expected ops) (expected ops).live.length) scaled check =
        .ok (p, ls i, t) ∧ (∀ k (hk : k < t.length), nls.val i k = t[k]) ∧
        ∀ q : Nat → XR, p = arr (expected ops).live.length q →
          (∀ j (_ : j < fr.cols.length), ∃ k, ∃ _ : k < (expected ops).live.length,
            fr.cols[j] = pad (expected ops).depth (expected ops).live[k].path ∧ (expected ops).tree.Leaf k ∧ fr.val i j = q k) ∧
          ∀ P : Nat → ℝ, (∀ k < (expected ops).live.length, (expected ops).tree.Leaf k → q k = .fin (P k)) →
            ∑ j ∈ Finset.range fr.cols.length, realOf (fr.val i j) =
              ∑ k ∈ (Finset.range (expected ops).live.length).filter (fun k => (expected ops).tree.Leaf k), P k) := by
  obtain ⟨hv, _, ht, _, _, labels, hl1, hl2⟩ := runUtilities_ok hu
  have hvt := validateTree_of_validate hv
  rw [hm] at hvt hl1
  have hr := rel_after ops hc
  have hne := live_ne_of_valid hr hvt
  have hch := choices_eq hr hvt
  have hel := elemental_eq hr hvt
  have hcols : u.cols = (expected ops).live.length := by
    rw [hch] at hl1
    cases hl1; simpa using hl2
  unfold RunStochastic at h
  simp only [hu] at h
  rw [if_neg (by omega)] at h
  obtain ⟨res, hst, rfl⟩ := h
  rw [ht, hm, toRows_eq hcols hW] at hst
  unfold StochasticStage at hst
  rw [hr.depth_eq hne] at hst
  simp only [if_pos hd] at hst
  rw [hr.flatten_eq hd] at hst
  obtain ⟨res', hw, hout⟩ := hst
  have hget : ∀ i (hi : i < u.rows), ((List.range u.rows).map fun i => row (expected ops).live.length (W i))[i]'(by simpa using hi) =
      row (expected ops).live.length (W i) := by intro i hi; simp
  rcases C12_nested_probabilities _ _ _ _ _ hw with ⟨mem, rfl, hrows⟩ | ⟨v, hv2, e, he, rfl⟩
  swap
  · obtain ⟨i, hi, rfl⟩ := List.mem_map.mp hv2
    simp only at hout
    exact .inl ⟨i, List.mem_range.mp hi, e, he, by rw [hout]⟩
  right
  rw [hel, hch] at hout
  simp only at hout
  rw [keep_eq hr hne] at hout
  have hlab := keep_labels hr hne
  generalize hkeep : (List.range (expected ops).live.length).filter (fun j => decide ((expected ops).tree.Leaf j)) = keep
    at hout hlab
  have hkm : ∀ j (hj : j < keep.length), keep[j] < (expected ops).live.length ∧ (expected ops).tree.Leaf keep[j] := by
    intro j hj
    have hmem := List.getElem_mem hj
    simp only [← hkeep, List.mem_filter, List.mem_range, decide_eq_true_eq] at hmem
    simpa only [← hkeep] using hmem
  refine ⟨_, _, _, by rw [hout], by rw [hm, hel]; simp only; rw [hlab], by rw [hm, hch], fun i hi => ?_⟩
  obtain ⟨p, ls, terms, hrow, e1, e2, e3⟩ := hrows i (by simpa using hi)
  simp only [hget i hi] at hrow
  refine ⟨p, terms, by rw [hrow]; simp only [readNum, e2], ?_, ?_⟩
  · intro k hk
    have := e3 k (by simpa using hk)
    simp only [readNum, this]
    simp
  · rintro q rfl
    have hread : ∀ k < (expected ops).live.length, readNum mem (aRes, i, k) = q k := by
      intro k hk
      have := e1 k (by simpa [arr] using hk)
      simp only [readNum, this]
      simp [arr]
    refine ⟨?_, ?_⟩
    · intro j hj
      simp only [List.length_map] at hj
      obtain ⟨hk, hl⟩ := hkm j hj
      refine ⟨keep[j], hk, by simp [hk], hl, ?_⟩
      have : keep.getD j 0 = keep[j] := by simp [hj]
      simp only [this]
      exact hread _ hk
    · intro P hP
      simp only [List.length_map]
      have e := sum_range_filter (expected ops).live.length (fun j => decide ((expected ops).tree.Leaf j)) P
      simp only [decide_eq_true_eq] at e
      rw [← e, hkeep, Finset.sum_range, ← List.sum_ofFn]
      congr 1
      apply List.ext_getElem
      · simp
      · intro j hj1 hj2
        have hj : j < keep.length := by simpa using hj1
        simp [hread _ (hkm j hj).1, hP _ (hkm j hj).1 (hkm j hj).2, realOf]

/-- the choices that decision unit `i` can reach: elemental choices none of whose utilities, nor those of the nests around it, is -inf -/
def Spec.Reaches (ops : List (TreeOp XR)) (w : Nat → Util) : Prop :=
  ∃ l < (expected ops).live.length, (expected ops).tree.Leaf l ∧ (expected ops).tree.Open w l

open Classical in
/-- **C10 (run_stochastic)** On a nested model, with utilities that are finite or -inf: with check_infeasible the call raises
UtilityBoundsError if some decision unit can reach no elemental choice. Otherwise it returns; such a unit gets probability 0 for every
choice and logsum 0; every other unit gets the textbook probabilities (with sum 1), logsum and logsum terms whatever the flag, and an
elemental choice has positive probability exactly if neither its utility nor that of a nest around it is -inf. -/
theorem C10_run (s : Setting XR R) (m m' : CModel U XR) (hm : m.tree = after ops) (group : Option Nat) (threads : Int)
    (clear scaled check : Bool) (u : Tab XR) (hu : m.runUtilities s.K group clear = (m', .ok u)) (h1 : 1 ≤ threads)
    (h2 : threads ≤ s.maxThreads) (W : Nat → Nat → Util) (hW : ∀ i < u.rows, ∀ j < u.cols, u.val i j = util (W i j))
    (out : CModel U XR × Except Err (Frame XR × (Nat → XR) × Frame XR)) (h : RunStochastic s m group threads clear scaled check out) :
    ((check = true ∧ ∃ i < u.rows, ¬ Reaches ops (W i)) → out = (m', .error .utilityBounds)) ∧
    (¬ (check = true ∧ ∃ i < u.rows, ¬ Reaches ops (W i)) →
      ∃ fr ls nls, out = (m', .ok (fr, ls, nls)) ∧ elementalChoices m.tree = .ok fr.cols ∧ choices m.tree = .ok nls.cols ∧
        ∀ i < u.rows, (¬ Reaches ops (W i) → ls i = .fin 0 ∧ ∀ j < fr.cols.length, fr.val i j = .fin 0) ∧
          (Reaches ops (W i) → ∃ T P, (expected ops).tree.IsNestedLogit scaled (W i) T P ∧
            (∀ j (_ : j < fr.cols.length), ∃ k, ∃ _ : k < (expected ops).live.length,
              fr.cols[j] = pad (expected ops).depth (expected ops).live[k].path ∧ (expected ops).tree.Leaf k ∧ fr.val i j = .fin (P k) ∧
              0 ≤ P k ∧ P k ≤ 1 ∧ (0 < P k ↔ (expected ops).tree.Open (W i) k)) ∧
            (∀ k < (expected ops).live.length, nls.val i k = .fin (T k)) ∧ ls i = .fin (∑ k ∈ (expected ops).tree.tops, T k) ∧
            ∑ j ∈ Finset.range fr.cols.length, realOf (fr.val i j) = 1)) := by
  have hr := rel_after ops hc
  have hne : (expected ops).live ≠ [] := by
    obtain ⟨hv, -⟩ := runUtilities_ok hu
    have hvt := validateTree_of_validate hv
    rw [hm] at hvt
    exact live_ne_of_valid hr hvt
  have wf := flat_wf hr hne
  have hs := flat_scales hr
  have hbad : ∀ i, ¬ Reaches ops (W i) →
      nested (row (expected ops).live.length (W i)) (flatUpto (expected ops) (expected ops).live.length) scaled true = .error .utilityBounds := by
    intro i hn
    have := (C10_infeasible_iff wf hs scaled (W i)).mpr (by rw [flat_spec]; exact hn)
    exact this
  have hzero : ∀ i, ¬ Reaches ops (W i) → ∃ terms,
      nested (row (expected ops).live.length (W i)) (flatUpto (expected ops) (expected ops).live.length) scaled false =
        .ok (arr (expected ops).live.length (fun _ => .fin 0), .fin 0, terms) := by
    intro i hn
    exact C10_nocheck_zero wf hs scaled (W i) (by rw [flat_spec]; exact hn)
  have hgood : ∀ i, Reaches ops (W i) → ∃ T P, (expected ops).tree.IsNestedLogit scaled (W i) T P ∧
      nested (row (expected ops).live.length (W i)) (flatUpto (expected ops) (expected ops).live.length) scaled check = .ok
        (arr (expected ops).live.length (fun i => .fin (if (expected ops).tree.Leaf i then P i else 0)),
         .fin (∑ i ∈ (expected ops).tree.tops, T i), arr (expected ops).live.length (fun i => .fin (T i))) ∧
      (∀ k < (expected ops).live.length, (expected ops).tree.Leaf k → 0 ≤ P k ∧ P k ≤ 1) ∧
      ∑ i ∈ (Finset.range (expected ops).live.length).filter (fun i => (expected ops).tree.Leaf i), P i = 1 := by
    intro i hf
    obtain ⟨fl, T, P, hfl, _, hspec, heq, hb, hsum⟩ := C16_probabilities ops hc hd scaled check (W i) hf
    rw [hr.flatten_eq hd] at hfl
    cases hfl
    exact ⟨T, P, hspec, heq, hb, hsum⟩
  rcases nested_outcome ops hc hd s m m' hm group threads clear scaled check u hu h1 h2 W hW out h with
    ⟨i, hi, e, he, rfl⟩ | ⟨fr, ls, nls, rfl, e1, e2, e3⟩
  · have hn : ¬ Reaches ops (W i) := by
      intro hf
      obtain ⟨T, P, -, heq, -⟩ := hgood i hf
      rw [heq] at he; cases he
    cases check with
    | false =>
      obtain ⟨t, ht⟩ := hzero i hn
      rw [ht] at he; cases he
    | true =>
      rw [hbad i hn] at he
      cases he
      exact ⟨fun _ => rfl, fun hx => absurd ⟨rfl, i, hi, hn⟩ hx⟩
  · have hcheck : ∀ i < u.rows, ¬ Reaches ops (W i) → check = false := by
      intro i hi hn
      obtain ⟨p, t, hp, -⟩ := e3 i hi
      cases check with
      | false => rfl
      | true => rw [hbad i hn] at hp; cases hp
    refine ⟨?_, fun _ => ⟨fr, ls, nls, rfl, e1, e2, fun i hi => ⟨fun hn => ?_, fun hf => ?_⟩⟩⟩
    · rintro ⟨rfl, i, hi, hn⟩
      cases hcheck i hi hn
    · obtain ⟨p, t, hp, -, hq⟩ := e3 i hi
      have := hcheck i hi hn
      subst this
      obtain ⟨t', ht'⟩ := hzero i hn
      rw [ht'] at hp
      simp only [Except.ok.injEq, Prod.mk.injEq] at hp
      obtain ⟨hp1, hp2, -⟩ := hp
      refine ⟨hp2.symm, fun j hj => ?_⟩
      obtain ⟨k, hk, -, -, hval⟩ := (hq _ hp1.symm).1 j hj
      exact hval
    · obtain ⟨p, t, hp, hn1, hq⟩ := e3 i hi
      obtain ⟨T, P, hspec, heq, hb, hsum⟩ := hgood i hf
      have hp0 := hp
      rw [heq] at hp
      simp only [Except.ok.injEq, Prod.mk.injEq] at hp
      obtain ⟨hp1, hp2, rfl⟩ := hp
      obtain ⟨hcol, hs2⟩ := hq _ hp1.symm
      refine ⟨T, P, hspec, fun j hj => ?_, ?_, hp2.symm, ?_⟩
      · obtain ⟨k, hk, h3, h4, h5⟩ := hcol j hj
        rw [if_pos h4] at h5
        refine ⟨k, hk, h3, h4, h5, (hb k hk h4).1, (hb k hk h4).2, ?_⟩
        have hz := (C10_zero_iff wf hs scaled check (W i) (fun i => if (expected ops).tree.Leaf i then P i else 0) _ _ heq k hk
          (by rw [flat_spec]; exact h4)).1
        rw [flat_spec, if_pos h4] at hz
        exact hz
      · intro k hk
        rw [hn1 k (by simpa [arr] using hk)]
        simp [arr]
      · rw [hs2 P (fun k _ hl => by rw [if_pos hl]), hsum]

open Classical in
/-- **C11 (run_stochastic)** If all logsum scales are 1 and the utilities of the nests are 0, every decision unit with an available elemental
choice has the multinomial probabilities over the elemental choices, and their logsum. -/
theorem C11_run (hone : ∀ r ∈ (expected ops).live, r.scale = one) (s : Setting XR R) (m m' : CModel U XR) (hm : m.tree = after ops)
    (group : Option Nat) (threads : Int)
    (clear scaled check : Bool) (u : Tab XR) (hu : m.runUtilities s.K group clear = (m', .ok u)) (h1 : 1 ≤ threads)
    (h2 : threads ≤ s.maxThreads) (W : Nat → Nat → Util) (hW : ∀ i < u.rows, ∀ j < u.cols, u.val i j = util (W i j))
    (hnest : ∀ i < u.rows, ∀ k < (expected ops).live.length, ¬ (expected ops).tree.Leaf k → W i k = some 0)
    (hfeas : ∀ i < u.rows, ∃ l < (expected ops).live.length, (expected ops).tree.Leaf l ∧ W i l ≠ none)
    (out : CModel U XR × Except Err (Frame XR × (Nat → XR) × Frame XR)) (h : RunStochastic s m group threads clear scaled check out) :
    ∃ fr ls nls, out = (m', .ok (fr, ls, nls)) ∧ elementalChoices m.tree = .ok fr.cols ∧
      ∀ i < u.rows, ∃ total : ℝ,
        total = ∑ k ∈ (Finset.range (expected ops).live.length).filter (fun k => (expected ops).tree.Leaf k), expw (W i k) ∧ ls i = .fin total ∧
        ∀ j (_ : j < fr.cols.length), ∃ k, ∃ _ : k < (expected ops).live.length,
          fr.cols[j] = pad (expected ops).depth (expected ops).live[k].path ∧ (expected ops).tree.Leaf k ∧
          fr.val i j = .fin (expw (W i k) / total) := by
  have hr := rel_after ops hc
  have hne : (expected ops).live ≠ [] := by
    obtain ⟨hv, -⟩ := runUtilities_ok hu
    have hvt := validateTree_of_validate hv
    rw [hm] at hvt
    exact live_ne_of_valid hr hvt
  have wf := flat_wf hr hne
  have hs := flat_scales hr
  have hθ : (expected ops).tree.θ = fun _ => 1 := by
    funext k
    simp only [Choices.tree]
    cases hk : (expected ops).live[k]? with
    | none => rfl
    | some r =>
      have := hone r (List.mem_of_getElem? hk)
      simp [this, realOf, one]
  have hsp := flat_spec (expected ops)
  rw [hθ] at hs hsp
  have hrow := fun i (hi : i < u.rows) => C11_collapse wf hs scaled check (W i)
    (by rw [hsp]; exact hnest i hi) (by rw [hsp]; exact hfeas i hi)
  simp only [hsp] at hrow
  rcases nested_outcome ops hc hd s m m' hm group threads clear scaled check u hu h1 h2 W hW out h with
    ⟨i, hi, e, he, rfl⟩ | ⟨fr, ls, nls, rfl, e1, e2, e3⟩
  · obtain ⟨t, ht⟩ := hrow i hi
    have ht' : nested (row (expected ops).live.length (W i)) (flatUpto (expected ops) (expected ops).live.length) scaled check = _ := ht
    rw [he] at ht'; cases ht'
  · refine ⟨fr, ls, nls, rfl, e1, fun i hi => ⟨_, rfl, ?_⟩⟩
    obtain ⟨p, t, hp, -, hq⟩ := e3 i hi
    obtain ⟨t', ht⟩ := hrow i hi
    have ht' : nested (row (expected ops).live.length (W i)) (flatUpto (expected ops) (expected ops).live.length) scaled check = _ := ht
    rw [hp] at ht'
    simp only [Except.ok.injEq, Prod.mk.injEq] at ht'
    obtain ⟨hp1, hp2, -⟩ := ht'
    refine ⟨hp2, fun j hj => ?_⟩
    obtain ⟨k, hk, h3, h4, h5⟩ := (hq _ hp1).1 j hj
    rw [if_pos h4] at h5
    exact ⟨k, hk, h3, h4, h5⟩

open Classical in
/-- **C10 (unavailable nests do not compete, run_stochastic)** If no elemental choice in the nest `d` can be reached, neither by unit `i` of one
call nor by unit `i'` of the same or another call, and their utilities agree outside the nest, both have the same probabilities. -/
theorem C10_run_independent {s s' : Setting XR R} {m : CModel U XR} {m' : CModel U' XR} {scaled check : Bool} {n n' : Nat}
    {W W' : Nat → Nat → Util} {fr fr' : Frame XR} {ls ls' : Nat → XR} {nls nls' : Frame XR}
    (h : Returned ops s m scaled check n W fr ls nls) (h' : Returned ops s' m' scaled check n' W' fr' ls' nls')
    (i i' : Nat) (hi : i < n) (hi' : i' < n') (d : Nat) (hdl : d < (expected ops).live.length)
    (hsame : ∀ k < (expected ops).live.length, ¬ (expected ops).tree.Above d k → W i k = W' i' k)
    (hdead : ∀ l < (expected ops).live.length, (expected ops).tree.Leaf l → (expected ops).tree.Above d l → ¬ (expected ops).tree.Open (W i) l)
    (hdead' : ∀ l < (expected ops).live.length, (expected ops).tree.Leaf l → (expected ops).tree.Above d l →
      ¬ (expected ops).tree.Open (W' i') l) :
    fr'.cols = fr.cols ∧ ∀ j < fr.cols.length, fr'.val i' j = fr.val i j := by
  obtain ⟨m1, u, group, threads, clear, hu, hrun, rfl, hW⟩ := h.call
  obtain ⟨m1', u', group', threads', clear', hu', hrun', rfl, hW'⟩ := h'.call
  obtain ⟨h1, h2⟩ := threads_of_ok hrun
  obtain ⟨h1', h2'⟩ := threads_of_ok hrun'
  have hr := rel_after ops hc
  obtain ⟨hv, -, -, -, -, -⟩ := runUtilities_ok hu
  have hvt := validateTree_of_validate hv
  rw [h.tree] at hvt
  have hne := live_ne_of_valid hr hvt
  have wf := flat_wf hr hne
  have hs := flat_scales hr
  have hnd := labels_nodup hr
  rcases nested_outcome ops hc hd s m m1 h.tree group threads clear scaled check u hu h1 h2 W hW _ hrun with
    ⟨_, _, _, _, he⟩ | ⟨_, _, _, he, e1, e2, e3⟩
  · cases he
  cases he
  rcases nested_outcome ops hc hd s' m' m1' h'.tree group' threads' clear' scaled check u' hu' h1' h2' W' hW' _ hrun' with
    ⟨_, _, _, _, he⟩ | ⟨_, _, _, he, e1', e2', e3'⟩
  · cases he
  cases he
  obtain ⟨p, t, hp, -, hq⟩ := e3 i hi
  obtain ⟨p', t', hp', -, hq'⟩ := e3' i' hi'
  have hind := C10_independent wf hs scaled check (W i) (W' i') d hdl (by rw [flat_spec]; exact hsame) (by rw [flat_spec]; exact hdead)
    (by rw [flat_spec]; exact hdead')
  have hpp : p = p' := by
    have e : (nested (row (expected ops).live.length (W i)) (flatUpto (expected ops) (expected ops).live.length) scaled check).map (·.1) =
      (nested (row (expected ops).live.length (W' i')) (flatUpto (expected ops) (expected ops).live.length) scaled check).map (·.1) := hind
    rw [hp, hp'] at e
    exact Except.ok.inj e
  subst hpp
  obtain ⟨q, rfl⟩ : ∃ q, p = arr (expected ops).live.length q := by
    by_cases hf : Reaches ops (W i)
    · obtain ⟨fl, T, P, hfl, _, _, heq, -⟩ := C16_probabilities ops hc hd scaled check (W i) hf
      rw [hr.flatten_eq hd] at hfl
      cases hfl
      rw [hp] at heq
      simp only [Except.ok.injEq, Prod.mk.injEq] at heq
      exact ⟨_, heq.1⟩
    · cases check with
      | true =>
        have : nested (row (expected ops).live.length (W i)) (flatUpto (expected ops) (expected ops).live.length) scaled true = _ :=
          (C10_infeasible_iff wf hs scaled (W i)).mpr (by rw [flat_spec]; exact hf)
        rw [hp] at this; cases this
      | false =>
        obtain ⟨tt, htt⟩ := C10_nocheck_zero wf hs scaled (W i) (by rw [flat_spec]; exact hf)
        have htt : nested (row (expected ops).live.length (W i)) (flatUpto (expected ops) (expected ops).live.length) scaled false = _ := htt
        rw [hp] at htt
        simp only [Except.ok.injEq, Prod.mk.injEq] at htt
        exact ⟨_, htt.1⟩
  have hcols : fr'.cols = fr.cols := by
    rw [h.tree] at e1
    rw [h'.tree, e1] at e1'
    exact (Except.ok.inj e1').symm
  refine ⟨hcols, fun j hj => ?_⟩
  obtain ⟨k, hk, a1, -, a2⟩ := (hq q rfl).1 j hj
  obtain ⟨k', hk', b1, -, b2⟩ := (hq' q rfl).1 j (by rw [hcols]; exact hj)
  have hkk : k = k' := by
    have e : (expected ops).live.map (fun r => pad (expected ops).depth r.path) |>.Nodup := hnd
    have hx : ((expected ops).live.map fun r => pad (expected ops).depth r.path)[k]'(by simpa using hk) =
        ((expected ops).live.map fun r => pad (expected ops).depth r.path)[k']'(by simpa using hk') := by
      rw [List.getElem_map, List.getElem_map, ← a1, ← b1]
      simp only [hcols]
    exact (List.Nodup.getElem_inj_iff hnd).mp hx
  rw [a2, b2, hkk]

end nested

/-! ## run_discrete -/

/-- if some row has no probabilities, the worker raises, whatever the schedule -/
theorem sample_rows_bad (f : List XR → Except Err (List XR × XR × List XR)) (g : Rng XR) (hg : g.InUnit)
    (one' : List XR → XR → Except Err (Int × XR)) (multi : List XR → Int → Except Err (List Nat × XR)) (n : Nat) (seed : Int) (e : Err)
    (h1 : ∀ u r, one' u r = (f u).map fun o => (sampleOnce o.1 r, o.2.1))
    (h2 : ∀ u t, multi u t = (f u).bind fun o => (sampleMulti g o.1 n t (some n)).map fun ks => (ks, o.2.1))
    (rows : List (List XR))
    (hrow : ∀ i (hi : i < rows.length), f rows[i] = .error e ∨ ∃ (ps : List ℝ) (L : XR) (t : List XR), f rows[i] = .ok (ps.map .fin, L, t) ∧
      (∀ p ∈ ps, 0 ≤ p) ∧ ps.sum = 1)
    (hbad : ∃ i, ∃ hi : i < rows.length, f rows[i] = .error e)
    (out : Except Err (Mem XR)) (h : SampleOutcome one' multi g rows n seed out) : out = .error e := by
  rcases h with ⟨mem, rfl, hm⟩ | ⟨i, hi, e', rfl, he⟩
  · exfalso
    obtain ⟨i, hi, hb⟩ := hbad
    obtain ⟨ha, hb'⟩ := hm i hi
    rcases Nat.lt_or_ge 1 n with hn1 | hn1
    · obtain ⟨ks, ls, hk, -⟩ := hb' hn1
      rw [h2, hb] at hk; cases hk
    · obtain ⟨k, ls, hk, -⟩ := ha hn1
      rw [h1, hb] at hk; cases hk
  · rcases hrow i hi with hb | ⟨ps, L, t, hok, hnn, hsum⟩
    · rcases he with ⟨_, he⟩ | ⟨_, he⟩
      · rw [h1, hb] at he; cases he; rfl
      · rw [h2, hb] at he; cases he; rfl
    · exfalso
      rcases he with ⟨_, he⟩ | ⟨_, he⟩
      · rw [h1, hok] at he; cases he
      · have hne : ps.map XR.fin ≠ [] := by
          intro hcon
          rw [List.map_eq_nil_iff] at hcon
          rw [hcon] at hsum; simp at hsum
        obtain ⟨ks, hks, -⟩ := C02_multi_draw g (ps.map XR.fin) n (g.randint seed i) (some n) (.inr rfl) hne (by
          intro p hp
          obtain ⟨x, hx, rfl⟩ := List.mem_map.mp hp
          show XR.le (.fin 0) (.fin x) = true
          simpa [XR.le] using hnn x hx) (fun c _ => (hg _ c).1)
        rw [h2, hok] at he
        simp only [Except.bind, hks] at he
        cases he

/-- **C06 (run_discrete)** On a model without nests, with utilities that are finite or -inf, a call of run_discrete raises
UtilityBoundsError if some decision unit has no available choice, whatever the schedule, the number of draws and the form of the results;
and if every unit has one, it returns. -/
theorem C06_run_discrete (ops : List (TreeOp XR)) (hc : CleanRun Choices.empty ops) (hd : (expected ops).depth ≤ 1)
    (s : Setting XR R) (hg : s.rng.InUnit) (m m' : CModel U XR) (hm : m.tree = after ops) (a : DiscreteArgs R V)
    (hseed : ∀ e, a.seed ≠ .bad e) (hn : 1 ≤ a.nDraws) (u : Tab XR)
    (hu : m.runUtilities s.K none a.clear = (m', .ok u)) (h1 : 1 ≤ a.nThreads)
    (h2 : a.nThreads ≤ s.maxThreads) (W : Nat → Nat → Util) (hW : ∀ i < u.rows, ∀ j < u.cols, u.val i j = util (W i j))
    (out : CModel U XR × SeedArg R × Except Err (ResObj V × (Nat → XR))) (h : RunDiscrete s m a out) :
    ((∃ i < u.rows, ∀ j < u.cols, W i j = none) → out.1 = m' ∧ out.2.2 = .error .utilityBounds) ∧
    ((∀ i < u.rows, ∃ j < u.cols, W i j ≠ none) → a.astype = .category → ∃ r, out.1 = m' ∧ out.2.2 = .ok r) := by
  refine ⟨fun hbad => ?_, fun hfeas ha => ?_⟩
  swap
  · obtain ⟨seed', r, ls, ch, rfl, -⟩ := C20_run_discrete_flat ops hc hd s hg m m' hm a ha hseed hn u hu h1 h2 W hW hfeas out h
    exact ⟨_, rfl, rfl⟩
  obtain ⟨hv, _, ht, _, _, labels, hl1, hl2⟩ := runUtilities_ok hu
  have hvt := validateTree_of_validate hv
  rw [hm] at hvt
  have hr := rel_after ops hc
  have hne := live_ne_of_valid hr hvt
  obtain ⟨seed', k, hrs⟩ : ∃ seed' k, resolveSeed s.legacy s.fresh a.seed = (seed', .ok k) := by
    cases hs : a.seed with
    | bad e => exact absurd hs (hseed e)
    | none => exact ⟨_, _, rfl⟩
    | state r => exact ⟨_, _, rfl⟩
    | number k => exact ⟨_, _, rfl⟩
  unfold RunDiscrete at h
  simp only [hv, hrs, hu] at h
  rw [if_neg (by omega), if_neg (by omega)] at h
  obtain ⟨res, hst, ho⟩ := h
  have hrow : u.toRows = ((List.range u.rows).map fun i => (List.range u.cols).map (W i)).map fun w => w.map util := by
    unfold Tab.toRows
    rw [List.map_map]
    refine List.map_congr_left fun i hi => ?_
    simp only [Function.comp, List.map_map]
    exact List.map_congr_left fun j hj => hW i (List.mem_range.mp hi) j (List.mem_range.mp hj)
  rw [ht, hm, hrow] at hst
  unfold DiscreteStage at hst
  simp only at hst
  rw [hr.depth_eq hne] at hst
  simp only [if_neg (not_lt.mpr hd)] at hst
  obtain ⟨res', hw, hout⟩ := hst
  have hget : ∀ i (hi : i < u.rows), (((List.range u.rows).map fun i => (List.range u.cols).map (W i)).map fun w => w.map util)[i]'(by
      simpa using hi) = ((List.range u.cols).map (W i)).map util := by intro i hi; simp
  have hres := sample_rows_bad (fun u => multinomial u true) s.rng hg _ _ a.nDraws.toNat k .utilityBounds
    (by intro u r; unfold multinomialSample; cases multinomial u true <;> rfl)
    (by
      intro u t; unfold multinomialMultisample
      cases multinomial u true with
      | error e => rfl
      | ok o => simp only [bind, Except.bind]; cases sampleMulti s.rng o.1 a.nDraws.toNat t (some a.nDraws.toNat) <;> rfl)
    _ (by
      intro i hi
      have hi' : i < u.rows := by simpa using hi
      simp only [hget i hi']
      by_cases hx : ∃ x ∈ (List.range u.cols).map (W i), x ≠ none
      · obtain ⟨ps, L, t, e1, -, e2, e3, -⟩ := C05_distribution _ true hx
        exact .inr ⟨ps, L, t, e1, fun p hp => (e3 p hp).1, e2⟩
      · push Not at hx
        exact .inl ((C06_check _).mpr hx)) (by
      obtain ⟨i, hi, hall⟩ := hbad
      refine ⟨i, by simpa using hi, ?_⟩
      simp only [hget i hi]
      exact (C06_check _).mpr (by simpa using hall)) _ (C12_multinomial_sample _ _ _ _ _ hw)
  subst hres
  simp only at hout
  subst hout
  simp only at ho
  subst ho
  exact ⟨rfl, rfl⟩

open Classical in
/-- **C10 (run_discrete)** On a nested model, with utilities that are finite or -inf, a call of run_discrete raises UtilityBoundsError if some
decision unit can reach no elemental choice, and returns if every unit can reach one. -/
theorem C10_run_discrete (ops : List (TreeOp XR)) (hc : CleanRun Choices.empty ops) (hd : 1 < (expected ops).depth)
    (s : Setting XR R) (hg : s.rng.InUnit) (m m' : CModel U XR) (hm : m.tree = after ops) (a : DiscreteArgs R V)
    (hseed : ∀ e, a.seed ≠ .bad e) (hn : 1 ≤ a.nDraws) (u : Tab XR)
    (hu : m.runUtilities s.K none a.clear = (m', .ok u)) (h1 : 1 ≤ a.nThreads)
    (h2 : a.nThreads ≤ s.maxThreads) (W : Nat → Nat → Util) (hW : ∀ i < u.rows, ∀ j < u.cols, u.val i j = util (W i j))
    (out : CModel U XR × SeedArg R × Except Err (ResObj V × (Nat → XR))) (h : RunDiscrete s m a out) :
    ((∃ i < u.rows, ¬ Reaches ops (W i)) → out.1 = m' ∧ out.2.2 = .error .utilityBounds) ∧
    ((∀ i < u.rows, Reaches ops (W i)) → a.astype = .category → ∃ r, out.1 = m' ∧ out.2.2 = .ok r) := by
  refine ⟨fun hbad => ?_, fun hfeas ha => ?_⟩
  swap
  · obtain ⟨seed', r, ls, ch, rfl, -⟩ := C20_run_discrete_nested ops hc hd s hg m m' hm a ha hseed hn u hu h1 h2 W hW hfeas out h
    exact ⟨_, rfl, rfl⟩
  obtain ⟨hv, _, ht, _, _, labels, hl1, hl2⟩ := runUtilities_ok hu
  have hvt := validateTree_of_validate hv
  rw [hm] at hvt hl1
  have hr := rel_after ops hc
  have hne := live_ne_of_valid hr hvt
  have hcols : u.cols = (expected ops).live.length := by
    rw [choices_eq hr hvt] at hl1
    cases hl1; simpa using hl2
  have wf := flat_wf hr hne
  have hs := flat_scales hr
  obtain ⟨seed', k, hrs⟩ : ∃ seed' k, resolveSeed s.legacy s.fresh a.seed = (seed', .ok k) := by
    cases hs : a.seed with
    | bad e => exact absurd hs (hseed e)
    | none => exact ⟨_, _, rfl⟩
    | state r => exact ⟨_, _, rfl⟩
    | number k => exact ⟨_, _, rfl⟩
  unfold RunDiscrete at h
  simp only [hv, hrs, hu] at h
  rw [if_neg (by omega), if_neg (by omega)] at h
  obtain ⟨res, hst, ho⟩ := h
  rw [ht, hm, toRows_eq hcols hW] at hst
  unfold DiscreteStage at hst
  simp only at hst
  rw [hr.depth_eq hne] at hst
  simp only [if_pos hd] at hst
  rw [hr.flatten_eq hd] at hst
  obtain ⟨res', hw, hout⟩ := hst
  have hget : ∀ i (hi : i < u.rows), ((List.range u.rows).map fun i => row (expected ops).live.length (W i))[i]'(by simpa using hi) =
      row (expected ops).live.length (W i) := by intro i hi; simp
  have hb : ∀ i, ¬ Reaches ops (W i) →
      nested (row (expected ops).live.length (W i)) (flatUpto (expected ops) (expected ops).live.length) a.scale true = .error .utilityBounds :=
    fun i hn => (C10_infeasible_iff wf hs a.scale (W i)).mpr (by rw [flat_spec]; exact hn)
  have hres := sample_rows_bad (fun u => nested u (flatUpto (expected ops) (expected ops).live.length) a.scale true) s.rng hg _ _
    a.nDraws.toNat k .utilityBounds
    (by intro u r; unfold nestedSample; cases nested u _ a.scale true <;> rfl)
    (by
      intro u t; unfold nestedMultisample
      cases nested u _ a.scale true with
      | error e => rfl
      | ok o => simp only [bind, Except.bind]; cases sampleMulti s.rng o.1 a.nDraws.toNat t (some a.nDraws.toNat) <;> rfl)
    _ (by
      intro i hi
      have hi' : i < u.rows := by simpa using hi
      simp only [hget i hi']
      by_cases hx : Reaches ops (W i)
      · obtain ⟨fl, T, P, hfl, _, _, heq, hbd, hsum⟩ := C16_probabilities ops hc hd a.scale true (W i) hx
        rw [hr.flatten_eq hd] at hfl
        cases hfl
        refine .inr ⟨(List.range (expected ops).live.length).map fun k => if (expected ops).tree.Leaf k then P k else 0,
          .fin (∑ i ∈ (expected ops).tree.tops, T i), arr (expected ops).live.length fun i => .fin (T i), ?_, ?_, ?_⟩
        · rw [heq]; simp only [List.map_map]; rfl
        · intro p hp
          obtain ⟨k, hk, rfl⟩ := List.mem_map.mp hp
          split
          · exact (hbd k (List.mem_range.mp hk) ‹_›).1
          · exact le_refl _
        · rw [← hsum, ← List.sum_toFinset _ List.nodup_range, List.toFinset_range, Finset.sum_filter]
      · exact .inl (hb i hx)) (by
      obtain ⟨i, hi, hno⟩ := hbad
      refine ⟨i, by simpa using hi, ?_⟩
      simp only [hget i hi]
      exact hb i hno) _ (C12_nested_sample _ _ _ _ _ _ _ hw)
  subst hres
  simp only at hout
  subst hout
  simp only at ho
  subst ho
  exact ⟨rfl, rfl⟩

end Cheval
