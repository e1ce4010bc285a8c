import Verif.Props.RoundedRuns
import Verif.Props.NestedAccuracy

/-!
# C58, C72 for whole calls of run_stochastic, in double precision
-/
namespace Cheval
open FOps B64 Spec
variable {U Q : Type} {R : Rounding}

open Classical in
/-- the textbook tree of these choices: scales as stored in double precision, 1 for choices without children -/
noncomputable def Spec.Choices.treeR (s : Choices (Rnd R)) : Tree where
  n := s.live.length
  parent i := match s.live[i]? with
    | none => none
    | some r => if r.path.length ≤ 1 then none else some ((s.live.map (·.path)).idxOf r.path.dropLast)
  θ i := match s.live[i]? with
    | none => 1
    | some r => if ∃ c ∈ s.live, IsChild r c then r.scale.val else 1

theorem flat_treeR (s : Choices (Rnd R)) : (flatUpto s s.live.length).tree s.treeR.θ = s.treeR := by
  unfold Flat.tree Choices.treeR
  congr 1
  funext i
  simp only [flatUpto]
  by_cases hi : i < s.live.length
  · simp only [hi, if_true, List.getElem?_eq_getElem hi]
    by_cases hl : s.live[i].path.length ≤ 1
    · simp [hl]
    · simp only [if_neg hl, posOf]
      rw [if_neg (by omega)]
      rfl
  · simp [hi]

private theorem foldl_max_bound {α : Type} (l : List α) (f : α → Nat) (a b : Nat) (ha : a ≤ b) (h : ∀ x ∈ l, f x ≤ b) :
    l.foldl (fun m x => max m (f x)) a ≤ b := by
  induction l generalizing a with
  | nil => exact ha
  | cons x l ih =>
    rw [List.foldl_cons]
    exact ih _ (max_le ha (h x (by simp))) (fun y hy => h y (by simp [hy]))

theorem flat_maxLevel (s : Choices (Rnd R)) (hd : 1 ≤ s.depth) : (flatUpto s s.live.length).maxLevel + 1 ≤ s.depth := by
  have : (flatUpto s s.live.length).maxLevel ≤ s.depth - 1 := by
    unfold Flat.maxLevel
    refine foldl_max_bound _ _ _ _ (Nat.zero_le _) fun i hi => ?_
    have hi' : i < s.live.length := List.mem_range.mp hi
    simp only [flatUpto, hi', if_true, List.getElem?_eq_getElem hi']
    have := s.le_depth (List.getElem_mem hi')
    omega
  omega

theorem flat_scaleR {st : TreeSt (Rnd R)} {s : Choices (Rnd R)} (h : TreeRel st s) (i : Nat) (hi : i < s.live.length) :
    ((flatUpto s s.live.length).scale i).v = .fin (s.treeR.θ i) ∧ 0 < s.treeR.θ i ∧ s.treeR.θ i ≤ 1 := by
  classical
  simp only [flatUpto, hi, if_true, Choices.treeR, List.getElem?_eq_getElem hi]
  by_cases hc : ∃ c ∈ s.live, IsChild s.live[i] c
  · obtain ⟨h0, h1⟩ := h.scale_ok _ (List.getElem_mem hi)
    have h0 : XR.lt (.fin 0) (s.live[i]).scale.v = true := h0
    have h1 : XR.le (s.live[i]).scale.v (.fin 1) = true := h1
    rw [if_pos hc, if_pos hc]
    cases hv : (s.live[i]).scale.v with
    | nan => rw [hv] at h0; cases h0
    | ninf => rw [hv] at h0; cases h0
    | pinf => rw [hv] at h1; cases h1
    | fin x =>
      rw [hv] at h0 h1
      rw [Rnd.val_fin hv]
      exact ⟨rfl, by simpa [XR.lt] using h0, by simpa [XR.le] using h1⟩
  · rw [if_neg hc, if_neg hc]; exact ⟨rfl, one_pos, le_refl _⟩

open Classical in
/-- **C72 (run_stochastic)** In double precision, `exp` and `log` having relative error at most `ε <= 1/1000`: a call of run_stochastic on a
model with `n` choices (nests included) on `d` levels returns. For every decision unit whose utilities are finite or `-inf`, with exact
logsum terms of the available choices between `exp(-M)` and `exp(M)`, and whose returned logsum is finite: the probability under the
label of each elemental choice differs from the textbook nested logit probability of that choice by at most
`d (4Δ + (4n+5) 2^-53)`, if `d ((M+40) ε + (3M+2n+50) 2^-53) <= σ Δ`, `Δ <= 1/5`, `σ` being the smallest scale applied. -/
theorem C72_run (hR : R.rnd = B64.rnd) {ε : ℝ} (hε : 0 ≤ ε) (hε1 : ε ≤ 1 / 1000) (hexp : ExpAcc R ε) (hlog : LogAcc R ε)
    (ops : List (TreeOp (Rnd R))) (hc : CleanRun Choices.empty ops) (hd : 1 < (expected ops).depth)
    (hn : (expected ops).live.length ≤ 2 ^ 48) (s : Setting (Rnd R) Q) (m m' : CModel U (Rnd R)) (hm : m.tree = after ops)
    (group : Option Nat) (threads : Int) (clear scaled check : Bool) (u : Tab (Rnd R)) (hu : m.runUtilities s.K group clear = (m', .ok u))
    (fr : Frame (Rnd R)) (ls : Nat → Rnd R) (nls : Frame (Rnd R))
    (h : RunStochastic s m group threads clear scaled check (m', .ok (fr, ls, nls))) :
    elementalChoices m.tree = .ok fr.cols ∧
    ∀ i < u.rows, ∀ (W : Nat → Util) (T P : Nat → ℝ) (S σ M Δ : ℝ), (∀ j < u.cols, (u.val i j).v = util (W j)) →
      (expected ops).treeR.IsNestedLogit scaled W T P → (ls i).v = .fin S → 0 < σ →
      (∀ k < (expected ops).live.length, σ ≤ (expected ops).treeR.θp scaled k) → 0 ≤ M → M ≤ 600 →
      (∀ k < (expected ops).live.length, T k = 0 ∨ |Real.log (T k)| ≤ M) → Δ ≤ 1 / 5 →
      (expected ops).depth * ((M + 40) * ε + (3 * M + 2 * (expected ops).live.length + 50) * (1 / 2 ^ 53)) ≤ σ * Δ →
      ∀ j (_ : j < fr.cols.length), ∃ k, ∃ _ : k < (expected ops).live.length,
        fr.cols[j] = pad (expected ops).depth (expected ops).live[k].path ∧ (expected ops).treeR.Leaf k ∧
        |(fr.val i j).val - P k| ≤ (expected ops).depth * (4 * Δ + (4 * (expected ops).live.length + 5) * (1 / 2 ^ 53)) := by
  unfold RunStochastic at h
  rw [hu] at h
  obtain ⟨hv, _, ht, _, -, labels, hl1, hl2⟩ := runUtilities_ok hu
  simp only at h
  split at h
  · cases h
  obtain ⟨res, hst, he⟩ := h
  obtain ⟨-, rfl⟩ := Prod.mk.inj he
  have hvt := validateTree_of_validate hv
  rw [hm] at hvt hl1
  have hr := rel_after ops hc
  have hne := live_ne_of_valid hr hvt
  have hch := choices_eq hr hvt
  have hel := elemental_eq hr hvt
  have hwf := flat_wf hr hne
  have hcols : u.cols = (expected ops).live.length := by
    rw [hch] at hl1
    cases hl1; simpa using hl2
  rw [ht, hm] at hst
  unfold StochasticStage at hst
  rw [hr.depth_eq hne] at hst
  simp only [if_pos hd] at hst
  rw [hr.flatten_eq hd] at hst
  obtain ⟨res, hw, hout⟩ := hst
  rcases C12_nested_probabilities _ _ _ _ _ hw with ⟨mem, rfl, hrow⟩ | ⟨_, _, _, _, rfl⟩
  swap
  · rw [hch, hel] at hout; cases hout
  rw [hch, hel] at hout
  simp only [Except.ok.injEq, Prod.mk.injEq] at hout
  rw [keep_general hr] at hout
  obtain ⟨rfl, rfl, -⟩ := hout
  refine ⟨by rw [hm, hel, keep_labels_general hne], ?_⟩
  intro i hi W T P S σ M Δ hW hspec hS hσ hσ' hM0 hM hTM hΔ hsmall
  have hir : i < u.toRows.length := by unfold Tab.toRows; simpa using hi
  obtain ⟨p, lsv, terms, hmn, h1, h2, -⟩ := hrow i hir
  simp only [readNum_eq h2] at hS
  set fl := flatUpto (expected ops) (expected ops).live.length with hfl
  have htr : fl.tree (expected ops).treeR.θ = (expected ops).treeR := flat_treeR _
  have D : NestedData fl (expected ops).treeR.θ scaled (u.toRows[i]'hir) W σ := by
    refine ⟨fun k hk => flat_scaleR hr k hk, ?_, ?_⟩
    · intro k hk
      have hk : k < u.cols := by rw [hcols]; exact hk
      have : (u.toRows[i]'hir).getD k zero = u.val i k := by
        have e : u.toRows[i]'hir = (List.range u.cols).map fun j => u.val i j := by simp [Tab.toRows]
        rw [e]; simp [hk]
      rw [this]; exact hW k hk
    · rw [htr]; exact fun k hk => hσ' k hk
  have hlev : ((fl.maxLevel : ℕ) : ℝ) + 1 ≤ (expected ops).depth := by
    exact_mod_cast flat_maxLevel (expected ops) (by omega)
  have hn0 : (0 : ℝ) ≤ (expected ops).live.length := Nat.cast_nonneg _
  have hκ : 0 ≤ (M + 40) * ε + (3 * M + 2 * (expected ops).live.length + 50) * (1 / 2 ^ 53) := by positivity
  have hΔ0 : 0 ≤ Δ := by
    have h1 : 0 ≤ σ * Δ := (mul_nonneg (by linarith [(Nat.cast_nonneg fl.maxLevel : (0:ℝ) ≤ _)]) hκ).trans hsmall
    exact nonneg_of_mul_nonneg_right h1 hσ
  obtain ⟨hacc, -⟩ := C72_accuracy hR hε hε1 hexp hlog hwf D hσ hn (by rw [htr]; exact hspec) hM0 hM hTM hΔ
    ((mul_le_mul_of_nonneg_right hlev hκ).trans hsmall) check p lsv terms hmn S hS
  have hplen : p.length = (expected ops).live.length := by
    have hmn : nested (u.toRows[i]'hir) fl scaled check = .ok (p, lsv, terms) := hmn
    rw [nested_eq hwf] at hmn
    simp only at hmn
    split at hmn
    · cases hmn
    simp only [Except.ok.injEq, Prod.mk.injEq] at hmn
    rw [← hmn.1]; simp [arr, hfl, flatUpto]
  have hval : ∀ j (hj : j < p.length), readNum mem (aRes, i, j) = p[j] := by
    intro j hj
    have := h1 j (by simpa using hj)
    rw [List.getElem_map] at this
    exact readNum_eq this
  intro j hj
  simp only [List.length_map] at hj
  set keep := (List.range (expected ops).live.length).filter (keptB (expected ops)) with hkeep
  have hmem := List.getElem_mem hj
  have hk1 : keep[j] < (expected ops).live.length := List.mem_range.mp (List.mem_of_mem_filter hmem)
  have hk2 : keptB (expected ops) keep[j] = true := (List.mem_filter.mp hmem).2
  have hgd : keep.getD j 0 = keep[j] := by simp [hj]
  have hleaf : (expected ops).treeR.Leaf keep[j] := by
    rw [← htr]
    have hb : fl.bottom keep[j] = true := by
      simp only [keptB, List.getElem?_eq_getElem hk1] at hk2
      simp only [hfl, flatUpto, hk1, if_true, List.getElem?_eq_getElem hk1]
      simpa using hk2
    exact (tree_leaf hwf hk1).mpr hb
  refine ⟨keep[j], hk1, ?_, hleaf, ?_⟩
  · rw [List.getElem_map]
    simp only [List.getD_eq_getElem?_getD, List.getElem?_map]
    rw [List.getElem?_eq_getElem hk1]
    rfl
  · show |(readNum mem (aRes, i, keep.getD j 0)).val - P keep[j]| ≤ _
    rw [hgd, hval _ (by rw [hplen]; exact hk1)]
    refine ((hacc keep[j] (by rw [hplen]; exact hk1)).1 (by rw [htr]; exact hleaf)).trans ?_
    exact mul_le_mul_of_nonneg_right hlev (by positivity)

/-- **C58 (run_stochastic)** In double precision, `exp` having relative error at most `ε <= 1/100`: when run_stochastic on a model of `n`
choices without nests returns, then for every decision unit with a utility of at least -620 whose logsum is finite and positive the
probability in the column of each choice differs from `exp(u_j) / sum of exp(u_k)` by at most `3 ε + n * 2^-52`. -/
theorem C58_run (hR : R.rnd = B64.rnd) {ε : ℝ} (hε : 0 ≤ ε) (hε1 : ε ≤ 1 / 100) (hexp : ExpAcc R ε)
    (ops : List (TreeOp (Rnd R))) (hc : CleanRun Choices.empty ops) (hd : (expected ops).depth ≤ 1)
    (hn : (expected ops).live.length ≤ 2 ^ 50) (s : Setting (Rnd R) Q) (m m' : CModel U (Rnd R)) (hm : m.tree = after ops)
    (group : Option Nat) (threads : Int) (clear scaled check : Bool) (u : Tab (Rnd R)) (hu : m.runUtilities s.K group clear = (m', .ok u))
    (fr : Frame (Rnd R)) (ls : Nat → Rnd R) (nls : Frame (Rnd R))
    (h : RunStochastic s m group threads clear scaled check (m', .ok (fr, ls, nls))) :
    choices m.tree = .ok fr.cols ∧ fr.cols.length = u.cols ∧
    ∀ i < u.rows, ∀ S : ℝ, (ls i).v = .fin S → 0 < S → (∃ j < u.cols, ∃ x : ℝ, (u.val i j).v = .fin x ∧ -620 ≤ x) →
      ∀ j < u.cols, |(fr.val i j).val - exactWeight (u.val i j) / ∑ k ∈ Finset.range u.cols, exactWeight (u.val i k)| ≤ 3 * ε + u.cols * (1 / 2 ^ 52) := by
  unfold RunStochastic at h
  rw [hu] at h
  obtain ⟨hv, _, ht, _, -, labels, hl1, hl2⟩ := runUtilities_ok hu
  simp only at h
  split at h
  · cases h
  obtain ⟨res, hst, he⟩ := h
  obtain ⟨-, rfl⟩ := Prod.mk.inj he
  have hvt := validateTree_of_validate hv
  rw [hm] at hvt hl1
  have hr := rel_after ops hc
  have hne := live_ne_of_valid hr hvt
  have hch := choices_eq hr hvt
  have hcols : u.cols = (expected ops).live.length := by
    rw [hch] at hl1
    cases hl1; simpa using hl2
  rw [ht, hm] at hst
  unfold StochasticStage at hst
  rw [hr.depth_eq hne] at hst
  simp only [if_neg (not_lt.mpr hd)] at hst
  obtain ⟨res, hw, hout⟩ := hst
  rcases C12_multinomial_probabilities _ _ _ hw with ⟨mem, rfl, hrow⟩ | ⟨_, _, _, _, rfl⟩
  swap
  · rw [hch] at hout; cases hout
  rw [hch] at hout
  simp only [Except.ok.injEq, Prod.mk.injEq] at hout
  obtain ⟨rfl, rfl, -⟩ := hout
  refine ⟨by rw [hm]; exact hch, by simp [hcols], ?_⟩
  intro i hi S hS hpos hbig j hj
  have hir : i < u.toRows.length := by unfold Tab.toRows; simpa using hi
  obtain ⟨p, lsv, terms, hmn, h1, h2, -⟩ := hrow i hir
  have hrw : u.toRows[i]'hir = (List.range u.cols).map fun j => u.val i j := by simp [Tab.toRows]
  simp only [readNum_eq h2] at hS
  have hmn : multinomial (u.toRows[i]'hir) check = .ok (p, lsv, terms) := hmn
  rw [hrw] at hmn
  have hlen : p.length = u.cols := by
    obtain ⟨-, rfl, -⟩ := multinomial_rounded hR _ check p lsv terms hmn S hS hpos
    simp
  have := C58_accuracy hR ε hε hε1 hexp _ check p lsv terms hmn S hS hpos (by simpa [hcols] using hn) (by
    obtain ⟨k, hk, x, hx, h0⟩ := hbig
    exact ⟨_, List.mem_map_of_mem (List.mem_range.mpr hk), x, hx, h0⟩) j (by simpa using hj) (by omega)
  have hval : readNum mem (aRes, i, j) = p[j]'(by omega) := by
    have := h1 j (by simp; omega)
    rw [List.getElem_map] at this
    exact readNum_eq this
  show |(readNum mem (aRes, i, j)).val - _| ≤ _
  rw [hval]
  have hsum : (((List.range u.cols).map fun j => u.val i j).map exactWeight).sum = ∑ k ∈ Finset.range u.cols, exactWeight (u.val i k) := by
    rw [List.map_map, Finset.sum_range, ← List.sum_ofFn]
    congr 1
    apply List.ext_getElem <;> simp
  rw [hsum] at this
  simpa using this

/-! ### Concrete calls -/

theorem rr_treeR : (expected rrOps).treeR = nestEx.tree fun _ => (1 : ℝ) := by
  have e : (expected rrOps).treeR.θ = fun _ => (1 : ℝ) := by
    funext i
    rw [rrOps_expected]
    have h1 : (FOps.one : F64).val = 1 := rfl
    rcases i with _ | _ | _ | _ | i <;> simp [Choices.treeR, h1]
  rw [← flat_treeR, rrOps_flat, e]

/-- the hypotheses of C72 for a call of run_stochastic are met: the exact probabilities are 1/2, 1/2 and 0 -/
example (K : Kernel F64) (g : Rng F64) (l : LegacyRandom Nat) : ∃ m' fr ls nls,
    RunStochastic ⟨K, g, l, 0, 4⟩ rrModel none 2 true true true (m', .ok (fr, ls, nls)) ∧
    fr.cols = [[['A'], ['x']], [['B'], ['.']], [['A'], ['y']]] ∧
    ∀ i < 2, |(fr.val i 0).val - 1 / 2| ≤ 1 / 2 ^ 40 ∧ |(fr.val i 1).val - 1 / 2| ≤ 1 / 2 ^ 40 ∧ |(fr.val i 2).val| ≤ 1 / 2 ^ 40 := by
  obtain ⟨m', u, fr, ls, nls, hru, hrows, ho, hl⟩ := rr_call K g l
  have hr := rel_after rrOps rrOps_clean
  have hd : 1 < (expected rrOps).depth := by rw [rrOps_expected]; simp [Choices.depth]
  have hdep : (expected rrOps).depth = 2 := by rw [rrOps_expected]; simp [Choices.depth]
  have hlen : (expected rrOps).live.length = 4 := by rw [rrOps_expected]; rfl
  obtain ⟨h1, h2⟩ := C72_run (R := R64) rfl (ε := 1 / 2 ^ 53) (by positivity) (by norm_num) expAcc_R64 logAcc_R64 rrOps rrOps_clean hd
    (by rw [hlen]; norm_num) _ rrModel m' rfl _ _ _ _ _ u hru fr ls nls ho
  have hcols : fr.cols = [[['A'], ['x']], [['B'], ['.']], [['A'], ['y']]] := by
    have : elementalChoices (after rrOps) = .ok fr.cols := h1
    rw [elemental_eq hr rrOps_valid, rrOps_expected] at this
    rw [← Except.ok.inj this]
    simp [IsChild, Choices.depth, pad, List.filter_cons]
  refine ⟨m', fr, ls, nls, ho, hcols, fun i hi => ?_⟩
  have hur : u.rows = 2 := by
    have := congrArg List.length hrows
    simpa [Tab.toRows] using this
  have huv : (List.range u.cols).map (fun j => u.val i j) = [FOps.zero, FOps.zero, FOps.zero, FOps.negInf] := by
    have hir : i < u.toRows.length := by rw [hrows]; exact hi
    have e : u.toRows[i]'hir = (List.range u.cols).map fun j => u.val i j := by simp [Tab.toRows]
    rw [← e]
    have : i = 0 ∨ i = 1 := by omega
    simp only [hrows]
    rcases this with rfl | rfl <;> rfl
  have huc : u.cols = 4 := by
    have := congrArg List.length huv
    simpa using this
  rw [huc] at huv
  have hdata := nestEx_data
  have hw : ∀ j < u.cols, (u.val i j).v = util (nxU j) := by
    intro j hj
    rw [huc] at hj
    rw [← hdata.util j hj, ← huv]
    simp [hj]
  rw [rr_treeR] at h2
  have h3 := h2 i (by omega) nxU nxT nxP 2 1 0 (2 * (40 * (1 / 2 ^ 53) + (2 * 4 + 50) * (1 / 2 ^ 53))) hw nestEx_spec (hl i hi) one_pos
    (fun k hk => hdata.applied k (by rw [hlen] at hk; exact hk)) (le_refl _) (by norm_num) (by
      intro k hk
      by_cases h3 : k = 3
      · left; simp [nxT, h3]
      · right; simp [nxT, h3]) (by norm_num) (by rw [hlen, hdep]; norm_num)
  have hB : ((2 : ℕ) : ℝ) * (4 * (2 * (40 * (1 / 2 ^ 53) + (2 * 4 + 50) * (1 / 2 ^ 53))) + (4 * ((4 : ℕ) : ℝ) + 5) * (1 / 2 ^ 53)) ≤ 1 / 2 ^ 40 := by norm_num
  have hpick : ∀ j (hj : j < 3) (k : Nat), k < 4 → fr.cols[j]'(by rw [hcols]; exact hj) = pad 2 ((expected rrOps).live.map (·.path))[k]! →
      |(fr.val i j).val - nxP k| ≤ 1 / 2 ^ 40 := by
    intro j hj k hk he
    obtain ⟨k', hk', e1, -, e3⟩ := h3 j (by rw [hcols]; exact hj)
    rw [he, hdep] at e1
    rw [hlen, hdep] at e3
    have : k' = k := by
      have e4 : (expected rrOps).live[k'].path = ((expected rrOps).live.map (·.path))[k']! := by simp [hk']
      rw [e4, rrOps_expected] at e1
      have hk' : k' < 4 := by rw [← hlen]; exact hk'
      clear h2 h3 e3 he hB ho h1 hl hru hrows
      interval_cases k <;> interval_cases k' <;> first | rfl | (simp [pad] at e1)
    subst this
    exact e3.trans hB
  refine ⟨?_, ?_, ?_⟩
  · have := hpick 0 (by norm_num) 1 (by norm_num) (by rw [rrOps_expected]; simp [hcols, pad])
    simpa [nxP] using this
  · have := hpick 1 (by norm_num) 2 (by norm_num) (by rw [rrOps_expected]; simp [hcols, pad])
    simpa [nxP] using this
  · have := hpick 2 (by norm_num) 3 (by norm_num) (by rw [rrOps_expected]; simp [hcols, pad])
    simpa [nxP] using this

/-- the hypotheses of C58 for a call of run_stochastic are met: utilities `0, 0, -inf` -/
example (K : Kernel F64) (g : Rng F64) (l : LegacyRandom Nat) : ∃ m' fr ls nls,
    RunStochastic ⟨K, g, l, 0, 4⟩ rfModel none 2 true true true (m', .ok (fr, ls, nls)) ∧
    ∀ i < 2, |(fr.val i 0).val - 1 / 2| ≤ 1 / 2 ^ 49 := by
  obtain ⟨m', u, fr, ls, nls, hru, hrows, ho, hl⟩ := rf_call K g l
  have hd : (expected rfOps).depth ≤ 1 := by rw [rfOps_expected]; simp [Choices.depth]
  obtain ⟨h1, h1', h2⟩ := C58_run (R := R64) rfl (ε := 1 / 2 ^ 53) (by positivity) (by norm_num) expAcc_R64 rfOps rfOps_clean hd
    (by rw [rfOps_expected]; norm_num) _ rfModel m' rfl _ _ _ _ _ u hru fr ls nls ho
  refine ⟨m', fr, ls, nls, ho, fun i hi => ?_⟩
  have hur : u.rows = 2 := by
    have := congrArg List.length hrows
    simpa [Tab.toRows] using this
  have huv : (List.range u.cols).map (fun j => u.val i j) = [FOps.zero, FOps.zero, FOps.negInf] := by
    have hir : i < u.toRows.length := by rw [hrows]; exact hi
    have e : u.toRows[i]'hir = (List.range u.cols).map fun j => u.val i j := by simp [Tab.toRows]
    rw [← e]
    have : i = 0 ∨ i = 1 := by omega
    simp only [hrows]
    rcases this with rfl | rfl <;> rfl
  have huc : u.cols = 3 := by
    have := congrArg List.length huv
    simpa using this
  rw [huc] at h2 huv
  simp only [List.range_succ, List.range_zero, List.nil_append, List.cons_append, List.map_cons, List.map_nil, List.cons.injEq, and_true] at huv
  obtain ⟨v0, v1, v2⟩ := huv
  have := h2 i (by omega) 2 (hl i hi) (by norm_num) ⟨0, by norm_num, 0, by rw [v0]; rfl, by norm_num⟩ 0 (by norm_num)
  have w0 : exactWeight (FOps.zero : F64) = 1 := by show Real.exp 0 = 1; exact Real.exp_zero
  have w2 : exactWeight (FOps.negInf : F64) = 0 := rfl
  simp only [Finset.sum_range_succ, Finset.sum_range_zero, v0, v1, v2, w0, w2] at this
  have e : (1 : ℝ) / (0 + 1 + 1 + 0) = 1 / 2 := by norm_num
  rw [e] at this
  refine this.trans ?_
  norm_num

end Cheval
