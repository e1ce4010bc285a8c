import Verif.Props.SubsetExamples
import Verif.Props.StaleUtilities

/-!
# C41: subsets of a model that has kept utilities for decision units in another order
-/
set_option linter.unusedSectionVars false
namespace Cheval
open FOps Spec
variable {U F : Type} [DecidableEq U] [FOps F]

/-- **C41 (stored utilities)** `copy_subset` takes the stored utilities by the labels of the decision units: exactly the rows whose label
the mask is true for, in the order of the stored table - also if that is not the order of the decision units. -/
theorem C41_stored (m m' : CModel U F) (ix0 : List U) (t : Tab F) (hca : m.cached = some (ix0, t)) (ix : List U) (hnd : ix.Nodup)
    (mask : List Bool) (h : m.copySubset ix mask = .ok m') :
    ∃ (ps : List Nat) (ix' : List U) (t' : Tab F), m'.cached = some (ix', t') ∧ ps.Pairwise (· < ·) ∧
      (∀ p : Nat, p ∈ ps ↔ ∃ (u : U) (q : Nat), ix0[p]? = some u ∧ ix[q]? = some u ∧ mask[q]? = some true) ∧
      ix' = ps.filterMap (fun p => ix0[p]?) ∧ t'.rows = ps.length ∧ t'.cols = t.cols ∧
      ∀ i (_ : i < ps.length) j, t'.val i j = t.val ps[i] j := by
  have hlen : mask.length = ix.length := by
    obtain ⟨-, hlen, -⟩ := copySubset_ok h
    exact hlen
  have htm : ∃ t', takeMasked (ix0, t) ix mask = .ok t' ∧ m'.cached = some t' := by
    unfold CModel.copySubset at h
    split at h
    · cases h
    · split at h
      · cases h
      · split at h
        · cases h
        · rw [hca] at h
          simp only at h
          split at h
          · cases h
          · rename_i t' ht
            cases h
            exact ⟨t', ht, rfl⟩
  obtain ⟨t', ht, hc⟩ := htm
  have main : ∀ mk : List Bool, t' = takeRows (ix0, t) (maskPositions mk) →
      (∀ p : Nat, mk[p]? = some true ↔ ∃ (u : U) (q : Nat), ix0[p]? = some u ∧ ix[q]? = some u ∧ mask[q]? = some true) →
      ∃ (ps : List Nat) (ix' : List U) (t' : Tab F), m'.cached = some (ix', t') ∧ ps.Pairwise (· < ·) ∧
      (∀ p : Nat, p ∈ ps ↔ ∃ (u : U) (q : Nat), ix0[p]? = some u ∧ ix[q]? = some u ∧ mask[q]? = some true) ∧
      ix' = ps.filterMap (fun p => ix0[p]?) ∧ t'.rows = ps.length ∧ t'.cols = t.cols ∧
      ∀ i (_ : i < ps.length) j, t'.val i j = t.val ps[i] j := by
    rintro mk rfl hmk
    have hs := maskPositions_selects mk
    refine ⟨maskPositions mk, _, _, hc, hs.sorted, fun p => (hs.chosen p).trans (hmk p), rfl, rfl, rfl, ?_⟩
    intro i hi j
    simp [takeRows, hi]
  unfold takeMasked at ht
  split at ht
  · rename_i he
    simp only at he
    subst he
    refine main mask (Except.ok.inj ht).symm fun p => ?_
    constructor
    · intro hp
      have hlt : p < ix0.length := by
        rw [← hlen]; exact (List.getElem?_eq_some_iff.mp hp).1
      exact ⟨ix0[p], p, List.getElem?_eq_getElem hlt, List.getElem?_eq_getElem hlt, hp⟩
    · rintro ⟨u, q, h1, h2, h3⟩
      obtain ⟨hp, e1⟩ := List.getElem?_eq_some_iff.mp h1
      obtain ⟨hq, e2⟩ := List.getElem?_eq_some_iff.mp h2
      have : p = q := (List.Nodup.getElem_inj_iff hnd).mp (e1.trans e2.symm)
      rw [this]; exact h3
  · split at ht
    · rename_i hcond
      refine main _ (Except.ok.inj ht).symm fun p => ?_
      rw [List.getElem?_map]
      constructor
      · intro hp
        obtain ⟨u, hu, hm⟩ := Option.map_eq_some_iff.mp hp
        have hmem := hcond.2 u (List.mem_of_getElem? hu)
        have hlt := List.idxOf_lt_length_iff.mpr hmem
        refine ⟨u, ix.idxOf u, hu, by simp [hlt], ?_⟩
        have hl2 : ix.idxOf u < mask.length := by omega
        rw [List.getD_eq_getElem?_getD, List.getElem?_eq_getElem hl2] at hm
        rw [List.getElem?_eq_getElem hl2]; simpa using hm
      · rintro ⟨u, q, h1, h2, h3⟩
        refine Option.map_eq_some_iff.mpr ⟨u, h1, ?_⟩
        obtain ⟨hq, e2⟩ := List.getElem?_eq_some_iff.mp h2
        have : ix.idxOf u = q := by rw [← e2]; exact hnd.idxOf_getElem q hq
        rw [this, List.getD_eq_getElem?_getD, h3]; rfl
    · cases ht

/-! ## subsets of a model whose decision units have been reordered after a run -/

noncomputable def ssModel (env : PyEnv) (us : List Nat) (ix : List Nat) (u : Tab XR) : CModel Nat XR :=
  { emModel env with cached := some (ix, u), scope := [], exprs := ExprGroup.empty, units := some us }

theorem ss_run (env : PyEnv) (K : Kernel XR) (us ix : List Nat) (u : Tab XR) (h1 : u.rows = us.length) (h2 : u.cols = 4)
    (hnan : ∀ i j, i < us.length → j < 4 → isNan (u.val i j) = false) :
    ∃ m3 w, (ssModel env us ix u).runUtilities K none false = (m3, .ok w) ∧ ∀ i j, i < us.length → j < 4 → w.val i j = u.val i j := by
  have hcons : Consistent (ssModel env us ix u) emPaths 2 us := by
    refine ⟨rfl, (em_consistent env).choices, ?_, ?_⟩
    · intro e he; simp [ssModel] at he
    · intro ix' u' h
      simp only [ssModel, Option.some.injEq, Prod.mk.injEq] at h
      obtain ⟨-, rfl⟩ := h
      exact ⟨h1, h2⟩
  have hcont : (ssModel env us ix u).container none = .ok ⟨[], [], []⟩ := by
    simp [CModel.container, ssModel, ExprGroup.empty, ExprGroup.itersimple, ExprGroup.iterchained, ExprGroup.all]
  have hval : (ssModel env us ix u).validate true true true true none = .ok () := by
    have ht : (ssModel env us ix u).tree = after exampleOps := rfl
    have hs : (ssModel env us ix u).scope = [] := rfl
    have hu : (ssModel env us ix u).units = some us := rfl
    simp [CModel.validate, ht, exampleOps_valid, hs, hcont, CModel.decisionUnits, hu, checkSymbols, bind, Except.bind]
  obtain ⟨ix', w, g1, g2, g3, -, -, g6⟩ := run_sound K hcons (Held.empty env emPy) hcont hval (srcs := []) .nil
    (by intro y hy; cases hy) (by intro i j _ _; rfl) false
  have hcell : ∀ i j, i < us.length → j < 4 → w.val i j = u.val i j := fun i j hi hj => Option.some.inj (g3 i j hi hj)
  have hn : hasNan w = false := by
    rw [Bool.eq_false_iff]
    intro hn
    obtain ⟨i, j, hi, hj, hx⟩ := (hasNan_iff w).mp hn
    rw [g1] at hi
    rw [g2] at hj
    rw [hcell i j hi hj, hnan i j hi hj] at hx
    cases hx
  rw [hn] at g6
  exact ⟨_, w, g6, hcell⟩

/-- **C41 (violated after the decision units are reordered)** The example model is run for the units 7 and 8 (utilities 100 and 200 for the
choice B); the units become 8 and 7, data and expressions are removed. A run of the model now gives 100 to unit 8, because it goes by
position (C34). The subset with unit 8 alone gives it 200, because `copy_subset` goes by label: selecting a unit before the run and after
it are not the same. -/
theorem C41_reordered_refuted (env : PyEnv) (M : Arith XR) : ∃ (m ms m1 ms1 : CModel Nat XR) (w ws : Tab XR),
    m = modelRun (emKernel M) env emPy (emModel env) [.run none false, .setUnits [8, 7], .clearScope, .expr .clear] ∧
    m.runUtilities (emKernel M) none false = (m1, .ok w) ∧
    m.copySubset [8, 7] [true, false] = .ok ms ∧ ms.units = some [8] ∧
    ms.runUtilities (emKernel M) none false = (ms1, .ok ws) ∧
    w.val 0 0 = .fin 100 ∧ ws.val 0 0 = .fin 200 := by
  obtain ⟨u, h1, h2, h3, h4⟩ := em_run_state env M false
  have hstate : modelRun (emKernel M) env emPy (emModel env) [.run none false, .setUnits [8, 7], .clearScope, .expr .clear] =
      ssModel env [8, 7] [7, 8] u := by
    show modelRun _ _ _ ((emModel env).runUtilities (emKernel M) none false).1 [.setUnits [8, 7], .clearScope, .expr .clear] = _
    rw [h1]
    simp only [modelRun, List.foldl_cons, List.foldl_nil, modelStep, CModel.setUnits, CModel.clearScope, groupStep, ExprGroup.clear, ssModel]
  obtain ⟨m1, w, hw, hwc⟩ := ss_run env (emKernel M) [8, 7] [7, 8] u h2 h3 (by
    intro i j hi hj
    rw [h4 i j hi hj]; rfl)
  have hcopy : ∃ t', (ssModel env [8, 7] [7, 8] u).copySubset [8, 7] [true, false] = .ok (ssModel env [8] [8] t') := by
    have hmp : maskPositions [true, false] = [0] := by decide
    have hmp2 : maskPositions [false, true] = [1] := by decide
    have hm2 : (([7, 8] : List Nat).map fun u => ([true, false] : List Bool).getD (([8, 7] : List Nat).idxOf u) false) = [false, true] := by decide
    refine ⟨⟨1, 4, fun i j => u.val (([1] : List Nat).getD i 0) j⟩, ?_⟩
    simp [CModel.copySubset, ssModel, copyScope, hmp, takeMasked, hm2, hmp2, takeRows, h3, ExprGroup.copy, ExprGroup.empty]
    rfl
  obtain ⟨t', hcopy⟩ := hcopy
  obtain ⟨ps, ix', t2, e1, e2, e3, e4, e5, e6, e7⟩ := C41_stored _ _ [7, 8] u rfl [8, 7] (by decide) [true, false] hcopy
  have hmem : ∀ p, p ∈ ps ↔ p = 1 := by
    intro p
    rw [e3 p]
    constructor
    · rintro ⟨x, q, a1, a2, a3⟩
      have hq : q = 0 := by
        obtain ⟨hq, e⟩ := List.getElem?_eq_some_iff.mp a3
        simp only [List.length_cons, List.length_nil] at hq
        interval_cases q
        · rfl
        · simp at e
      subst hq
      have hx : x = 8 := by simpa using a2.symm
      subst hx
      obtain ⟨hp, e⟩ := List.getElem?_eq_some_iff.mp a1
      simp only [List.length_cons, List.length_nil] at hp
      interval_cases p
      · simp at e
      · rfl
    · rintro rfl
      exact ⟨8, 0, rfl, rfl, rfl⟩
  have hps : ps = [1] := by
    match ps, e2, hmem with
    | [], _, hm => exact absurd ((hm 1).mpr rfl) (by simp)
    | [a], _, hm => rw [(hm a).mp (by simp)]
    | a :: b :: l, hs, hm =>
      have ha := (hm a).mp (by simp)
      have hb := (hm b).mp (by simp)
      have := (List.pairwise_cons.mp hs).1 b (by simp)
      omega
  subst hps
  have ht : t2 = t' := by
    simp only [ssModel, Option.some.injEq, Prod.mk.injEq] at e1
    exact e1.2.symm
  subst ht
  have hv : ∀ j, j < 4 → t2.val 0 j = .fin (200 + if j = 2 then 2 else 0) := by
    intro j hj
    rw [e7 0 (by decide) j]
    show u.val 1 j = _
    rw [h4 1 j (by decide) hj]; norm_num
  obtain ⟨ms1, ws, hws, hwsc⟩ := ss_run env (emKernel M) [8] [8] t2 e5 (e6.trans h3) (by
    intro i j hi hj
    have : i = 0 := by simpa using hi
    subst this
    rw [hv j hj]; rfl)
  refine ⟨_, _, m1, ms1, w, ws, hstate.symm, hw, hcopy, rfl, hws, ?_, ?_⟩
  · rw [hwc 0 0 (by decide) (by decide), h4 0 0 (by decide) (by decide)]; norm_num
  · rw [hwsc 0 0 (by decide) (by decide), hv 0 (by decide)]; norm_num

end Cheval
