import Verif.Props.RoundedNested
import Verif.Props.WholeRuns

/-!
# C57, C60 for whole calls of run_stochastic, in double precision
-/
namespace Cheval
open FOps B64 Spec
variable {U Q : Type} {R : Rounding}

theorem readNum_eq {F : Type} [FOps F] {mem : Mem F} {c} {x : F} (h : mem c = .num x) : readNum mem c = x := by
  unfold readNum; rw [h]

/-- **C57 (run_stochastic)** In double precision: whenever run_stochastic on a model without nests returns, the columns are the choices,
and for every decision unit whose logsum is a finite positive number the probabilities are in [0,1] and sum to 1 within `n * 2^-52`, for
`n` choices. No condition on the utilities. -/
theorem C57_run (hR : R.rnd = B64.rnd) (ops : List (TreeOp (Rnd R))) (hc : CleanRun Choices.empty ops) (hd : (expected ops).depth ≤ 1)
    (hn : (expected ops).live.length ≤ 2 ^ 50) (s : Setting (Rnd R) Q) (m m' : CModel U (Rnd R)) (hm : m.tree = after ops)
    (units : List U) (hu : m.units = some units) (group : Option Nat) (threads : Int) (clear scaled check : Bool)
    (fr : Frame (Rnd R)) (ls : Nat → Rnd R) (nls : Frame (Rnd R))
    (h : RunStochastic s m group threads clear scaled check (m', .ok (fr, ls, nls))) :
    choices m.tree = .ok fr.cols ∧ ∀ i < units.length, ∀ S : ℝ, (ls i).v = .fin S → 0 < S →
      (∀ j < fr.cols.length, ∃ x : ℝ, (fr.val i j).v = .fin x ∧ 0 ≤ x ∧ x ≤ 1) ∧
      |∑ j ∈ Finset.range fr.cols.length, (fr.val i j).val - 1| ≤ fr.cols.length * (1 / 2 ^ 52) := by
  unfold RunStochastic at h
  rcases hru : m.runUtilities s.K group clear with ⟨m2, r⟩
  rw [hru] at h
  cases r with
  | error e => cases h
  | ok u =>
    obtain ⟨hv, _, ht, _, hrows, labels, hl1, hl2⟩ := runUtilities_ok hru
    simp only at h
    split at h
    · cases h
    obtain ⟨res, hst, he⟩ := h
    obtain ⟨rfl, rfl⟩ := Prod.mk.inj he
    have hvt := validateTree_of_validate hv
    rw [hm] at hvt hl1
    have hr := rel_after ops hc
    have hne := live_ne_of_valid hr hvt
    have hch := choices_eq hr hvt
    have hcols : u.cols = (expected ops).live.length := by
      rw [hch] at hl1
      cases hl1; simpa using hl2
    rw [ht, hm] at hst
    unfold StochasticStage at hst
    rw [hr.depth_eq hne] at hst
    simp only [if_neg (not_lt.mpr hd)] at hst
    obtain ⟨res, hw, hout⟩ := hst
    rcases C12_multinomial_probabilities _ _ _ hw with ⟨mem, rfl, hrow⟩ | ⟨_, _, _, _, rfl⟩
    swap
    · rw [hch] at hout; cases hout
    rw [hch] at hout
    simp only [Except.ok.injEq, Prod.mk.injEq] at hout
    obtain ⟨rfl, rfl, -⟩ := hout
    refine ⟨by rw [hm]; exact hch, ?_⟩
    intro i hi S hS hpos
    have hir : i < u.toRows.length := by
      unfold Tab.toRows; simp [hrows units hu, hi]
    obtain ⟨p, ls, terms, hmn, h1, h2, -⟩ := hrow i hir
    have hrl : (u.toRows[i]).length = (expected ops).live.length := by
      unfold Tab.toRows; simp [hcols]
    simp only [readNum_eq h2] at hS
    obtain ⟨g1, g2, g3⟩ := C57_sum hR _ check p ls terms hmn S hS hpos (by rw [hrl]; exact hn)
    rw [hrl] at g1 g3
    have hval : ∀ j (hj : j < p.length), readNum mem (aRes, i, j) = p[j] := by
      intro j hj
      have := h1 j (by simpa using hj)
      rw [List.getElem_map] at this
      exact readNum_eq this
    simp only [List.length_map]
    obtain ⟨hunit⟩ : Nonempty (∀ q ∈ p, FOps.le q (FOps.one : Rnd R) = true) := by
      obtain ⟨-, rfl, w1, -, -, -⟩ := multinomial_rounded hR _ check p ls terms hmn S hS hpos
      refine ⟨fun q hq => ?_⟩
      obtain ⟨w, hw, rfl⟩ := List.mem_map.mp hq
      have hnn : ∀ x ∈ (u.toRows[i]).map FOps.exp, FOps.le (FOps.zero : Rnd R) x = true := by
        intro x hx
        obtain ⟨y, hy, rfl⟩ := List.mem_map.mp hx
        exact FinNonneg.le_zero (w1 y hy)
      have hls : sumF ((u.toRows[i]).map FOps.exp) = ls := by
        have hmn' : multinomial (u.toRows[i]) check = _ := hmn
        rw [multinomial_eq] at hmn'
        split at hmn'
        · split at hmn'
          · cases hmn'
          · simp only [Except.ok.injEq, Prod.mk.injEq] at hmn'; exact hmn'.2.1
        · simp only [Except.ok.injEq, Prod.mk.injEq] at hmn'; exact hmn'.2.1
      exact (FLaws.div_unit (FOps.exp w) ls (hnn _ (List.mem_map_of_mem hw))
        (by rw [← hls]; exact le_foldl_add_of_mem _ _ (FLaws.le_refl _ FLaws.zero_notNan) hnn _ (List.mem_map_of_mem hw))
        (by show XR.lt (.fin 0) ls.v = true; rw [hS]; simpa [XR.lt] using hpos)
        (by show XR.lt ls.v .pinf = true; rw [hS]; rfl)).2
    refine ⟨?_, ?_⟩
    · intro j hj
      have hj' : j < p.length := by omega
      rw [hval j hj']
      obtain ⟨x, hx, h0⟩ := g2 _ (List.getElem_mem hj')
      refine ⟨x, hx, h0, ?_⟩
      have : XR.le (p[j]).v (.fin 1) = true := hunit _ (List.getElem_mem hj')
      rw [hx] at this
      simpa [XR.le] using this
    · have e : ∑ j ∈ Finset.range (expected ops).live.length, (readNum mem (aRes, i, j)).val = (p.map Rnd.val).sum := by
        rw [← g1, Finset.sum_range, ← List.sum_ofFn]
        congr 1
        apply List.ext_getElem
        · simp
        · intro j hj1 hj2
          simp only [List.getElem_ofFn, List.getElem_map]
          rw [hval j (by simpa using hj1)]
      rw [e]; exact g3

open Classical in
/-- position `j` holds a choice without children -/
noncomputable def keptB {F : Type} (s : Choices F) (j : Nat) : Bool :=
  match s.live[j]? with
  | none => false
  | some r => decide (¬ ∃ c ∈ s.live, IsChild r c)

open Classical in
/-- the kept positions are the choices without children -/
theorem keep_general {F : Type} [FOps F] {st : TreeSt F} {s : Choices F} (h : TreeRel st s) :
    keepPositions (s.live.map fun r => pad s.depth r.path)
      ((s.live.filter fun r => decide (¬ ∃ c ∈ s.live, IsChild r c)).map fun r => pad s.depth r.path) =
    (List.range s.live.length).filter (keptB s) := by
  unfold keepPositions
  rw [List.length_map]
  apply List.filter_congr
  intro j hj
  have hj' : j < s.live.length := List.mem_range.mp hj
  have hg : (s.live.map fun r => pad s.depth r.path).getD j [] = pad s.depth s.live[j].path := by simp [hj']
  rw [hg]
  unfold keptB
  simp only [List.getElem?_eq_getElem hj']
  rw [decide_eq_decide, List.mem_map]
  constructor
  · rintro ⟨r, hr, e⟩
    obtain ⟨hr1, hr2⟩ := List.mem_filter.mp hr
    have hlive : s.live.Nodup := List.Nodup.of_map _ h.live_nodup
    have : r = s.live[j] := (List.nodup_map_iff_inj_on hlive).mp (labels_nodup h) r hr1 _ (List.getElem_mem hj') e
    subst this
    exact of_decide_eq_true hr2
  · intro hno
    exact ⟨_, List.mem_filter.mpr ⟨List.getElem_mem hj', decide_eq_true hno⟩, rfl⟩

open Classical in
theorem keep_labels_general {F : Type} [FOps F] {s : Choices F} (hne : s.live ≠ []) :
    ((List.range s.live.length).filter (keptB s)).map
      (fun j => (s.live.map fun r => pad s.depth r.path).getD j []) =
    (s.live.filter fun r => decide (¬ ∃ c ∈ s.live, IsChild r c)).map fun r => pad s.depth r.path := by
  obtain ⟨d, hd⟩ := List.exists_mem_of_ne_nil _ hne
  have e : s.live = (List.range s.live.length).map (fun j => s.live.getD j d) := by
    apply List.ext_getElem
    · simp
    · intro i h1 h2; simp [h1]
  have e2 : (s.live.filter fun r => decide (¬ ∃ c ∈ s.live, IsChild r c)) =
      ((List.range s.live.length).filter (keptB s)).map
        (fun j => s.live.getD j d) := by
    conv_lhs => arg 2; rw [e]
    rw [List.filter_map]
    congr 1
    apply List.filter_congr
    intro j hj
    have hj' : j < s.live.length := List.mem_range.mp hj
    simp only [Function.comp]
    simp [keptB, hj']
  rw [e2, List.map_map]
  apply List.map_congr_left
  intro j hj
  have hj' : j < s.live.length := List.mem_range.mp (List.mem_of_mem_filter hj)
  simp [hj']

/-- nests get probability 0 -/
theorem nested_parent_zero {F : Type} [FOps F] {t : Flat F} (h : t.WF) (us : List F) (scaled check : Bool) (p : List F) (ls : F) (terms : List F)
    (hr : nested us t scaled check = .ok (p, ls, terms)) (j : Nat) (hj : j < p.length) (hex : ∃ k < t.n, t.parent k = (j : Int)) :
    p[j] = FOps.zero := by
  rw [nested_eq h] at hr
  simp only at hr
  split at hr
  · cases hr
  simp only [Except.ok.injEq, Prod.mk.injEq] at hr
  obtain ⟨rfl, -, -⟩ := hr
  simp only [arr, List.getElem_map, List.getElem_range]
  rw [if_pos hex]

theorem flat_pos_scales {st : TreeSt (Rnd R)} {s : Choices (Rnd R)} (h : TreeRel st s) : PosScales (flatUpto s s.live.length) := by
  classical
  intro i hi
  have hi' : i < s.live.length := hi
  simp only [flatUpto, hi', if_true, List.getElem?_eq_getElem hi']
  by_cases hc : ∃ c ∈ s.live, IsChild s.live[i] c
  · obtain ⟨h0, h1⟩ := h.scale_ok _ (List.getElem_mem hi')
    have h0 : XR.lt (.fin 0) (s.live[i]).scale.v = true := h0
    have h1 : XR.le (s.live[i]).scale.v (.fin 1) = true := h1
    rw [if_pos hc]
    cases hv : (s.live[i]).scale.v with
    | nan => rw [hv] at h0; cases h0
    | ninf => rw [hv] at h0; cases h0
    | pinf => rw [hv] at h1; cases h1
    | fin x => rw [hv] at h0; exact ⟨x, rfl, by simpa [XR.lt] using h0⟩
  · rw [if_neg hc]; exact ⟨1, rfl, one_pos⟩

open Classical in
/-- **C60 (run_stochastic)** In double precision: whenever run_stochastic on a model with nests returns, the columns are the elemental
choices, and for every decision unit whose logsum is a finite positive number the probabilities are in [0,1] and sum to 1 within
`n * 2^-51`, `n` being the number of all choices, nests included. No condition on the utilities or on the logsums of the nests. -/
theorem C60_run (hR : R.rnd = B64.rnd) (ops : List (TreeOp (Rnd R))) (hc : CleanRun Choices.empty ops) (hd : 1 < (expected ops).depth)
    (hn : (expected ops).live.length ≤ 2 ^ 50) (s : Setting (Rnd R) Q) (m m' : CModel U (Rnd R)) (hm : m.tree = after ops)
    (units : List U) (hu : m.units = some units) (group : Option Nat) (threads : Int) (clear scaled check : Bool)
    (fr : Frame (Rnd R)) (ls : Nat → Rnd R) (nls : Frame (Rnd R))
    (h : RunStochastic s m group threads clear scaled check (m', .ok (fr, ls, nls))) :
    elementalChoices m.tree = .ok fr.cols ∧ ∀ i < units.length, ∀ S : ℝ, (ls i).v = .fin S → 0 < S →
      (∀ j < fr.cols.length, ∃ x : ℝ, (fr.val i j).v = .fin x ∧ 0 ≤ x ∧ x ≤ 1) ∧
      |∑ j ∈ Finset.range fr.cols.length, (fr.val i j).val - 1| ≤ (expected ops).live.length * (1 / 2 ^ 51) := by
  unfold RunStochastic at h
  rcases hru : m.runUtilities s.K group clear with ⟨m2, r⟩
  rw [hru] at h
  cases r with
  | error e => cases h
  | ok u =>
    obtain ⟨hv, _, ht, _, hrows, labels, hl1, hl2⟩ := runUtilities_ok hru
    simp only at h
    split at h
    · cases h
    obtain ⟨res, hst, he⟩ := h
    obtain ⟨rfl, rfl⟩ := Prod.mk.inj he
    have hvt := validateTree_of_validate hv
    rw [hm] at hvt hl1
    have hr := rel_after ops hc
    have hne := live_ne_of_valid hr hvt
    have hch := choices_eq hr hvt
    have hel := elemental_eq hr hvt
    have hwf := flat_wf hr hne
    rw [ht, hm] at hst
    unfold StochasticStage at hst
    rw [hr.depth_eq hne] at hst
    simp only [if_pos hd] at hst
    rw [hr.flatten_eq hd] at hst
    obtain ⟨res, hw, hout⟩ := hst
    rcases C12_nested_probabilities _ _ _ _ _ hw with ⟨mem, rfl, hrow⟩ | ⟨_, _, _, _, rfl⟩
    swap
    · rw [hch, hel] at hout; cases hout
    rw [hch, hel] at hout
    simp only [Except.ok.injEq, Prod.mk.injEq] at hout
    rw [keep_general hr] at hout
    obtain ⟨rfl, rfl, -⟩ := hout
    refine ⟨by rw [hm, hel, keep_labels_general hne], ?_⟩
    intro i hi S hS hpos
    have hir : i < u.toRows.length := by
      unfold Tab.toRows; simp [hrows units hu, hi]
    obtain ⟨p, ls, terms, hmn, h1, h2, -⟩ := hrow i hir
    simp only [readNum_eq h2] at hS
    obtain ⟨g1, g2, g3⟩ := C60_sum hR _ hwf (flat_pos_scales hr) _ scaled check p ls terms hmn S hS hpos hn
    have g1 : p.length = (expected ops).live.length := g1
    have hval : ∀ j (hj : j < p.length), readNum mem (aRes, i, j) = p[j] := by
      intro j hj
      have := h1 j (by simpa using hj)
      rw [List.getElem_map] at this
      exact readNum_eq this
    simp only [List.length_map]
    set keep := (List.range (expected ops).live.length).filter (keptB (expected ops)) with hkeep
    have hkm : ∀ j (hj : j < keep.length), keep[j] < p.length := by
      intro j hj
      have := List.mem_of_mem_filter (List.getElem_mem hj)
      rw [g1]; exact List.mem_range.mp this
    have hgd : ∀ j (hj : j < keep.length), keep.getD j 0 = keep[j] := by intro j hj; simp [hj]
    refine ⟨?_, ?_⟩
    · intro j hj
      rw [hgd j hj, hval _ (hkm j hj)]
      exact g2 _ (List.getElem_mem _)
    · -- positions that are not kept hold 0
      have hz : ∀ j (hj : j < p.length), keptB (expected ops) j = false → (p[j]).val = 0 := by
        intro j hj hkb
        have hj' : j < (expected ops).live.length := by omega
        have hchild : ∃ c ∈ (expected ops).live, IsChild (expected ops).live[j] c := by
          simp only [keptB, List.getElem?_eq_getElem hj'] at hkb
          simpa using hkb
        have hb : (flatUpto (expected ops) (expected ops).live.length).bottom j = false := by
          simp only [flatUpto, hj', if_true, List.getElem?_eq_getElem hj']
          rw [if_pos hchild]
        have hex : ∃ k < (flatUpto (expected ops) (expected ops).live.length).n,
            (flatUpto (expected ops) (expected ops).live.length).parent k = (j : Int) := by
          by_contra hno
          push Not at hno
          have := (hwf.bottom j hj').mpr hno
          rw [hb] at this
          cases this
        rw [nested_parent_zero hwf _ _ _ _ _ _ hmn j hj hex]; rfl
      have e : ∑ j ∈ Finset.range keep.length, (readNum mem (aRes, i, keep.getD j 0)).val = (p.map Rnd.val).sum := by
        have e1 : ∑ j ∈ Finset.range keep.length, (readNum mem (aRes, i, keep.getD j 0)).val
            = (keep.map fun k => (readNum mem (aRes, i, k)).val).sum := by
          rw [Finset.sum_range, ← List.sum_ofFn]
          congr 1
          apply List.ext_getElem
          · simp
          · intro j hj1 hj2
            simp only [List.getElem_ofFn, List.getElem_map]
            rw [hgd j (by simpa using hj1)]
        have e2 : (p.map Rnd.val).sum = ∑ j ∈ Finset.range (expected ops).live.length, (readNum mem (aRes, i, j)).val := by
          rw [← g1, Finset.sum_range, ← List.sum_ofFn]
          congr 1
          apply List.ext_getElem
          · simp
          · intro j hj1 hj2
            simp only [List.getElem_ofFn, List.getElem_map]
            rw [hval j (by simpa using hj1)]
        rw [e1, e2, hkeep, sum_range_filter]
        apply Finset.sum_subset (Finset.filter_subset _ _)
        intro j hj hnot
        have hj' := Finset.mem_range.mp hj
        have hkb : keptB (expected ops) j = false := by
          by_contra hcon
          exact hnot (Finset.mem_filter.mpr ⟨hj, by simpa using hcon⟩)
        rw [hval j (by omega)]
        exact hz j (by omega) hkb
      rw [e]; exact g3

/-! ### A concrete call -/

/-- the nest A, its choice x, the choice B, the choice y of A -/
noncomputable def rrOps : List (TreeOp F64) :=
  [.addTop ['A'] FOps.one, .addChild 0 ['x'] FOps.one, .addTop ['B'] FOps.one, .addChild 0 ['y'] FOps.one]

theorem rrOps_expected : expected rrOps =
    ⟨[[['A']], [['A'], ['x']], [['B']], [['A'], ['y']]],
     [⟨0, [['A']], FOps.one⟩, ⟨1, [['A'], ['x']], FOps.one⟩, ⟨2, [['B']], FOps.one⟩, ⟨3, [['A'], ['y']], FOps.one⟩]⟩ := by
  have h1 : FOps.lt (FOps.zero : F64) FOps.one = true := by show XR.lt (.fin 0) (.fin 1) = true; simp [XR.lt]
  have h2 : FOps.le (FOps.one : F64) FOps.one = true := by show XR.le (.fin 1) (.fin 1) = true; simp [XR.le]
  simp [rrOps, expected, Choices.run, Choices.step, Choices.add, Choices.empty, Legal, h1, h2]

theorem rrOps_clean : CleanRun Choices.empty rrOps := by
  have h1 : FOps.lt (FOps.zero : F64) FOps.one = true := by show XR.lt (.fin 0) (.fin 1) = true; simp [XR.lt]
  have h2 : FOps.le (FOps.one : F64) FOps.one = true := by show XR.le (.fin 1) (.fin 1) = true; simp [XR.le]
  simp [rrOps, CleanRun, Clean, CleanAdd, Choices.step, Choices.add, Choices.empty, Legal, h1, h2]

theorem rrOps_valid : validateTree (after rrOps) = .ok () := by
  rw [(C19_validate rrOps rrOps_clean).1, rrOps_expected]
  simp [Choices.kids, IsChild, List.filter_cons]

theorem rrOps_flat : flatUpto (expected rrOps) (expected rrOps).live.length = nestEx := by
  rw [rrOps_expected]
  unfold flatUpto nestEx
  simp only [Flat.mk.injEq]
  refine ⟨rfl, ?_, ?_, ?_, ?_⟩ <;> funext i <;>
    · rcases i with _ | _ | _ | _ | i <;> simp [IsChild, posOf]

/-- units 7 and 8, utilities `0, 0, 0, -inf` computed before -/
noncomputable def rrModel : CModel Nat F64 :=
  ⟨after rrOps, ExprGroup.empty, [], some [7, 8], some ([7, 8], ⟨2, 4, fun _ j => if j = 3 then FOps.negInf else FOps.zero⟩), 8⟩

theorem rr_run (K : Kernel F64) : ∃ m' u, rrModel.runUtilities K none true = (m', .ok u) ∧ m'.tree = after rrOps ∧
    u.toRows = [[FOps.zero, FOps.zero, FOps.zero, FOps.negInf], [FOps.zero, FOps.zero, FOps.zero, FOps.negInf]] := by
  have hcont : rrModel.container none = .ok ⟨[], [], []⟩ := by
    simp [CModel.container, rrModel, ExprGroup.empty, ExprGroup.itersimple, ExprGroup.iterchained, ExprGroup.all]
  have hv : rrModel.validate true true true true none = .ok () := by
    have ht : rrModel.tree = after rrOps := rfl
    have hs : rrModel.scope = [] := rfl
    have hu : rrModel.units = some [7, 8] := rfl
    simp [CModel.validate, ht, rrOps_valid, hs, hcont, CModel.decisionUnits, hu, checkSymbols, bind, Except.bind]
  have hcon : Consistent rrModel [[['A']], [['A'], ['x']], [['B']], [['A'], ['y']]] 2 [7, 8] := by
    refine ⟨rfl, ?_, by intro e he; simp [rrModel] at he, ?_⟩
    · obtain ⟨labels, h1, h2⟩ := labelled_after rrOps rrOps_clean rrOps_valid
      refine ⟨labels, h1, ?_⟩
      rw [rrOps_expected] at h2
      simpa [Choices.depth] using h2
    · intro ix u h
      simp only [rrModel, Option.some.injEq, Prod.mk.injEq] at h
      obtain ⟨rfl, rfl⟩ := h
      exact ⟨rfl, rfl⟩
  let env : PyEnv := ⟨false, fun _ => false, id, .utilities⟩
  obtain ⟨ix, u, h1, h2, h3, -, -, h5⟩ := run_sound K hcon (Held.empty env emPy) hcont hv (srcs := []) .nil
    (by intro y hy; cases hy) (by intro i j _ _; rfl) true
  have hval : ∀ i j, i < 2 → j < 4 → u.val i j = if j = 3 then FOps.negInf else FOps.zero := by
    intro i j hi hj
    exact Option.some.inj (h3 i j hi hj)
  rw [if_neg] at h5
  swap
  · rw [hasNan_iff]
    rintro ⟨i, j, hi, hj, h⟩
    rw [h1] at hi; rw [h2] at hj
    rw [hval i j hi hj] at h
    split at h <;> cases h
  refine ⟨_, u, h5, rfl, ?_⟩
  unfold Tab.toRows
  have e1 : u.rows = 2 := h1
  have e2 : u.cols = 4 := h2
  rw [e1, e2]
  simp [List.range_succ, hval]

/-- run_stochastic on this model returns, with the logsums 2 -/
theorem rr_call (K : Kernel F64) (g : Rng F64) (l : LegacyRandom Nat) : ∃ m' u fr ls nls,
    rrModel.runUtilities K none true = (m', .ok u) ∧
    u.toRows = [[FOps.zero, FOps.zero, FOps.zero, FOps.negInf], [FOps.zero, FOps.zero, FOps.zero, FOps.negInf]] ∧
    RunStochastic ⟨K, g, l, 0, 4⟩ rrModel none 2 true true true (m', .ok (fr, ls, nls)) ∧ ∀ i < 2, (ls i).v = .fin 2 := by
  obtain ⟨m', u, hru, htree, hrows⟩ := rr_run K
  obtain ⟨ps, ls, terms, hn, hls, -⟩ := nestEx_run
  have hr := rel_after rrOps rrOps_clean
  have hd : 1 < (expected rrOps).depth := by rw [rrOps_expected]; simp [Choices.depth]
  have hne := live_ne_of_valid hr rrOps_valid
  obtain ⟨mem, hmem⟩ := ParLoop.exists_ok (n := u.toRows.length) (init := zeroMem)
    (body := probBody (fun u => nested u nestEx true true) u.toRows) (by
      rw [hrows]
      intro i hi
      have : i = 0 ∨ i = 1 := by simp at hi; omega
      rcases this with rfl | rfl <;> exact ⟨_, by simp [probBody, hn, bind, Except.bind]; rfl⟩)
  have hout : ∃ out, RunStochastic ⟨K, g, l, 0, 4⟩ rrModel none 2 true true true (m', .ok out) ∧
      ∀ i < 2, out.2.1 i = ls := by
    have hch := choices_eq hr rrOps_valid
    have hel := elemental_eq hr rrOps_valid
    obtain ⟨fr, nls, hst⟩ : ∃ fr nls, StochasticStage m'.tree u.toRows true true (.ok (fr, fun i => readNum mem (aLs, i, 0), nls)) := by
      unfold StochasticStage
      rw [htree, hr.depth_eq hne]
      simp only [if_pos hd]
      rw [hr.flatten_eq hd]
      rw [hch, hel, rrOps_flat]
      exact ⟨_, _, _, hmem, rfl⟩
    refine ⟨(fr, fun i => readNum mem (aLs, i, 0), nls), ?_, ?_⟩
    · unfold RunStochastic
      simp only [hru]
      rw [if_neg (by omega)]
      exact ⟨_, hst, rfl⟩
    · rcases C12_nested_probabilities _ _ _ _ _ hmem with ⟨mem', he, hrow⟩ | ⟨_, _, _, _, he⟩
      swap
      · cases he
      cases he
      intro i hi
      obtain ⟨p, ls', t', hmn, -, h2, -⟩ := hrow i (by rw [hrows]; exact hi)
      have : u.toRows[i]'(by rw [hrows]; exact hi) = [FOps.zero, FOps.zero, FOps.zero, FOps.negInf] := by
        have : i = 0 ∨ i = 1 := by omega
        simp only [hrows]
        rcases this with rfl | rfl <;> rfl
      have hmn : nested (u.toRows[i]'(by rw [hrows]; exact hi)) nestEx true true = _ := hmn
      rw [this, hn] at hmn
      cases hmn
      exact readNum_eq h2
  obtain ⟨⟨fr, ls', nls⟩, ho, hl⟩ := hout
  exact ⟨m', u, fr, ls', nls, hru, hrows, ho, fun i hi => by rw [show ls' i = ls from hl i hi]; exact hls⟩

/-- C60 for a call of run_stochastic: the call returns, the logsums are 2 -/
example (K : Kernel F64) (g : Rng F64) (l : LegacyRandom Nat) : ∃ m' fr ls nls,
    RunStochastic ⟨K, g, l, 0, 4⟩ rrModel none 2 true true true (m', .ok (fr, ls, nls)) ∧
    fr.cols = [[['A'], ['x']], [['B'], ['.']], [['A'], ['y']]] ∧
    ∀ i < 2, |∑ j ∈ Finset.range fr.cols.length, (fr.val i j).val - 1| ≤ 4 * (1 / 2 ^ 51) := by
  obtain ⟨m', u, fr, ls', nls, hru, hrows, ho, hl⟩ := rr_call K g l
  have hr := rel_after rrOps rrOps_clean
  have hd : 1 < (expected rrOps).depth := by rw [rrOps_expected]; simp [Choices.depth]
  obtain ⟨h1, h2⟩ := C60_run (R := R64) rfl rrOps rrOps_clean hd (by rw [rrOps_expected]; norm_num) _ rrModel m' rfl [7, 8] rfl _ _ _ _ _
    fr ls' nls ho
  refine ⟨_, _, _, _, ho, ?_, ?_⟩
  · have : elementalChoices (after rrOps) = .ok fr.cols := h1
    rw [elemental_eq hr rrOps_valid, rrOps_expected] at this
    rw [← Except.ok.inj this]
    simp [IsChild, Choices.depth, pad, List.filter_cons]
  · intro i hi
    have := (h2 i hi 2 (hl i hi) (by norm_num)).2
    rw [rrOps_expected] at this
    simpa using this

/-! ### A concrete call without nests -/

noncomputable def rfOps : List (TreeOp F64) := [.addTop ['A'] FOps.one, .addTop ['B'] FOps.one, .addTop ['C'] FOps.one]

theorem rfOps_expected : expected rfOps = ⟨[[['A']], [['B']], [['C']]], [⟨0, [['A']], FOps.one⟩, ⟨1, [['B']], FOps.one⟩, ⟨2, [['C']], FOps.one⟩]⟩ := by
  have h1 : FOps.lt (FOps.zero : F64) FOps.one = true := by show XR.lt (.fin 0) (.fin 1) = true; simp [XR.lt]
  have h2 : FOps.le (FOps.one : F64) FOps.one = true := by show XR.le (.fin 1) (.fin 1) = true; simp [XR.le]
  simp [rfOps, expected, Choices.run, Choices.step, Choices.add, Choices.empty, Legal, h1, h2]

theorem rfOps_clean : CleanRun Choices.empty rfOps := by
  have h1 : FOps.lt (FOps.zero : F64) FOps.one = true := by show XR.lt (.fin 0) (.fin 1) = true; simp [XR.lt]
  have h2 : FOps.le (FOps.one : F64) FOps.one = true := by show XR.le (.fin 1) (.fin 1) = true; simp [XR.le]
  simp [rfOps, CleanRun, Clean, CleanAdd, Choices.step, Choices.add, Choices.empty, Legal, h1, h2]

theorem rfOps_valid : validateTree (after rfOps) = .ok () := by
  rw [(C19_validate rfOps rfOps_clean).1, rfOps_expected]
  simp [Choices.kids, IsChild, List.filter_cons]

/-- units 7 and 8, utilities `0, 0, -inf` computed before -/
noncomputable def rfModel : CModel Nat F64 :=
  ⟨after rfOps, ExprGroup.empty, [], some [7, 8], some ([7, 8], ⟨2, 3, fun _ j => if j = 2 then FOps.negInf else FOps.zero⟩), 8⟩

theorem rf_run (K : Kernel F64) : ∃ m' u, rfModel.runUtilities K none true = (m', .ok u) ∧ m'.tree = after rfOps ∧
    u.toRows = [[FOps.zero, FOps.zero, FOps.negInf], [FOps.zero, FOps.zero, FOps.negInf]] := by
  have hcont : rfModel.container none = .ok ⟨[], [], []⟩ := by
    simp [CModel.container, rfModel, ExprGroup.empty, ExprGroup.itersimple, ExprGroup.iterchained, ExprGroup.all]
  have hv : rfModel.validate true true true true none = .ok () := by
    have ht : rfModel.tree = after rfOps := rfl
    have hs : rfModel.scope = [] := rfl
    have hu : rfModel.units = some [7, 8] := rfl
    simp [CModel.validate, ht, rfOps_valid, hs, hcont, CModel.decisionUnits, hu, checkSymbols, bind, Except.bind]
  have hcon : Consistent rfModel [[['A']], [['B']], [['C']]] 1 [7, 8] := by
    refine ⟨rfl, ?_, by intro e he; simp [rfModel] at he, ?_⟩
    · obtain ⟨labels, h1, h2⟩ := labelled_after rfOps rfOps_clean rfOps_valid
      refine ⟨labels, h1, ?_⟩
      rw [rfOps_expected] at h2
      simpa [Choices.depth] using h2
    · intro ix u h
      simp only [rfModel, Option.some.injEq, Prod.mk.injEq] at h
      obtain ⟨rfl, rfl⟩ := h
      exact ⟨rfl, rfl⟩
  let env : PyEnv := ⟨false, fun _ => false, id, .utilities⟩
  obtain ⟨ix, u, h1, h2, h3, -, -, h5⟩ := run_sound K hcon (Held.empty env emPy) hcont hv (srcs := []) .nil
    (by intro y hy; cases hy) (by intro i j _ _; rfl) true
  have hval : ∀ i j, i < 2 → j < 3 → u.val i j = if j = 2 then FOps.negInf else FOps.zero := by
    intro i j hi hj
    exact Option.some.inj (h3 i j hi hj)
  rw [if_neg] at h5
  swap
  · rw [hasNan_iff]
    rintro ⟨i, j, hi, hj, h⟩
    rw [h1] at hi; rw [h2] at hj
    rw [hval i j hi hj] at h
    split at h <;> cases h
  refine ⟨_, u, h5, rfl, ?_⟩
  unfold Tab.toRows
  have e1 : u.rows = 2 := h1
  have e2 : u.cols = 3 := h2
  rw [e1, e2]
  simp [List.range_succ, hval]

/-- run_stochastic on this model returns, with the logsums 2 -/
theorem rf_call (K : Kernel F64) (g : Rng F64) (l : LegacyRandom Nat) : ∃ m' u fr ls nls,
    rfModel.runUtilities K none true = (m', .ok u) ∧
    u.toRows = [[FOps.zero, FOps.zero, FOps.negInf], [FOps.zero, FOps.zero, FOps.negInf]] ∧
    RunStochastic ⟨K, g, l, 0, 4⟩ rfModel none 2 true true true (m', .ok (fr, ls, nls)) ∧ ∀ i < 2, (ls i).v = .fin 2 := by
  obtain ⟨m', u, hru, htree, hrows⟩ := rf_run K
  have hs := f64_sum_example
  have hn := multinomial_eq ([FOps.zero, FOps.zero, FOps.negInf] : List F64) true
  rw [if_neg (by show ¬ XR.le _ _ = true; rw [hs]; norm_num [XR.le, FOps.zero])] at hn
  have hr := rel_after rfOps rfOps_clean
  have hd : (expected rfOps).depth ≤ 1 := by rw [rfOps_expected]; simp [Choices.depth]
  have hne := live_ne_of_valid hr rfOps_valid
  obtain ⟨mem, hmem⟩ := ParLoop.exists_ok (n := u.toRows.length) (init := zeroMem)
    (body := probBody (fun u => multinomial u true) u.toRows) (by
      rw [hrows]
      intro i hi
      have : i = 0 ∨ i = 1 := by simp at hi; omega
      rcases this with rfl | rfl <;> exact ⟨_, by simp only [probBody, List.getD_cons_zero, List.getD_cons_succ, hn, bind, Except.bind]; rfl⟩)
  have hch := choices_eq hr rfOps_valid
  obtain ⟨fr, nls, hst⟩ : ∃ fr nls, StochasticStage m'.tree u.toRows true true (.ok (fr, fun i => readNum mem (aLs, i, 0), nls)) := by
    unfold StochasticStage
    rw [htree, hr.depth_eq hne]
    simp only [if_neg (not_lt.mpr hd)]
    rw [hch]
    exact ⟨_, _, _, hmem, rfl⟩
  have ho : RunStochastic ⟨K, g, l, 0, 4⟩ rfModel none 2 true true true (m', .ok (fr, fun i => readNum mem (aLs, i, 0), nls)) := by
    unfold RunStochastic
    simp only [hru]
    rw [if_neg (by omega)]
    exact ⟨_, hst, rfl⟩
  refine ⟨m', u, fr, _, nls, hru, hrows, ho, fun i hi => ?_⟩
  rcases C12_multinomial_probabilities _ _ _ hmem with ⟨mem', he, hrow⟩ | ⟨_, _, _, _, he⟩
  swap
  · cases he
  cases he
  obtain ⟨p, ls', t', hmn, -, h2, -⟩ := hrow i (by rw [hrows]; exact hi)
  have : u.toRows[i]'(by rw [hrows]; exact hi) = [FOps.zero, FOps.zero, FOps.negInf] := by
    have : i = 0 ∨ i = 1 := by omega
    simp only [hrows]
    rcases this with rfl | rfl <;> rfl
  have hmn : multinomial (u.toRows[i]'(by rw [hrows]; exact hi)) true = _ := hmn
  rw [this, hn] at hmn
  cases hmn
  rw [readNum_eq h2]
  exact hs

/-- C57 for a call of run_stochastic: the call returns, the logsums are 2 -/
example (K : Kernel F64) (g : Rng F64) (l : LegacyRandom Nat) : ∃ m' fr ls nls,
    RunStochastic ⟨K, g, l, 0, 4⟩ rfModel none 2 true true true (m', .ok (fr, ls, nls)) ∧
    fr.cols = [[['A']], [['B']], [['C']]] ∧
    ∀ i < 2, |∑ j ∈ Finset.range fr.cols.length, (fr.val i j).val - 1| ≤ 3 * (1 / 2 ^ 52) := by
  obtain ⟨m', u, fr, ls, nls, hru, hrows, ho, hl⟩ := rf_call K g l
  have hr := rel_after rfOps rfOps_clean
  have hd : (expected rfOps).depth ≤ 1 := by rw [rfOps_expected]; simp [Choices.depth]
  have hch := choices_eq hr rfOps_valid
  obtain ⟨h1, h2⟩ := C57_run (R := R64) rfl rfOps rfOps_clean hd (by rw [rfOps_expected]; norm_num) _ rfModel m' rfl [7, 8] rfl _ _ _ _ _
    _ _ _ ho
  have h1 : choices (after rfOps) = .ok fr.cols := h1
  rw [hch, rfOps_expected] at h1
  have hcols : fr.cols = [[['A']], [['B']], [['C']]] := by
    rw [← Except.ok.inj h1]
    simp [Choices.depth, pad]
  refine ⟨_, _, _, _, ho, hcols, ?_⟩
  intro i hi
  have := (h2 i hi 2 (hl i hi) (by norm_num)).2
  · rw [hcols] at this ⊢
    simpa using this

end Cheval
