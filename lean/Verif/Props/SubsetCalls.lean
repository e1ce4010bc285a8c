import Verif.Props.FitHistory
import Verif.Props.LawRunCases
import Verif.Props.Cases2

/-!
# C32, C41: a model prepared by calls, and a subset of it
-/
namespace Cheval
open FOps Spec

/-- choices A and B, units 7 and 8 -/
noncomputable def scBuild : List (ModelOp Nat XR) := [.addChoice ['A'] one, .addChoice ['B'] one, .setUnits [7, 8]]

/-- a vector of the units, an assignment to a name that does not exist, and an expression in group 1 -/
noncomputable def scOps : List (ModelOp Nat XR) :=
  [.declare exX (.vector false none), .assign exX (.array1 2 fun i => .num (.fin (100 * (i + 1)))), .assign exT (.number (.fin 1)),
   .expr (.append exX (some 1))]

noncomputable def scModel (K : Kernel XR) (env : PyEnv) : CModel Nat XR :=
  modelRun K env emPy (modelRun K env emPy (newModel Nat XR 8) scBuild) scOps

theorem sc_state (K : Kernel XR) (env : PyEnv) : scModel K env =
    ⟨after abOps, ⟨[], [exX], [], [(1, ⟨[exX], [], [emExpr1]⟩)]⟩, [(exX, .vector false (some emVector))], some [7, 8], none, 8⟩ := by
  have h1 : isNanName exX = false := by decide
  have h2 : splitFilter exX = .ok (exX, none) := by decide
  have h4 : emPy exX = .ok (.name exX) := rfl
  have e1 : parse env emPy exX [] [] = (([exX], []), .ok emExpr1) := by
    simp [parse, h2, h4, visit, visitName, h1, setAdd, emExpr1]
  have hr : exX ∉ reserved := by decide
  have hne : exX ≠ exT := by decide
  have hv : shapeVector false 2 (fun i => Val.num (XR.fin (100 * (i + 1)))) = emVector := rfl
  simp [scModel, modelRun, modelStep, scBuild, scOps, newModel, CModel.addChoice, CModel.setUnits, CModel.declare, hr, CModel.assign, dictSet, dictGet,
    Sym.empty, Sym.assign, CModel.labels, CModel.decisionUnits, Except.map, bind, Except.bind, groupStep, ExprGroup.append, ExprGroup.empty, e1,
    setUnion, setAdd, SubGroup.append, hne, hv]
  exact ⟨rfl, by simp [emExpr1, setAdd], by simp [emExpr1]⟩

theorem ab_clean : CleanRun Choices.empty abOps := by
  simp [abOps, CleanRun, Clean, CleanAdd, Choices.step, Choices.add, Choices.empty, Legal, lt, le, zero, one, XR.lt, XR.le]

theorem ab_expected : expected abOps = ⟨[[['A']], [['B']]], [⟨0, [['A']], one⟩, ⟨1, [['B']], one⟩]⟩ := by
  simp [abOps, expected, Choices.run, Choices.step, Choices.add, Choices.empty, Legal, lt, le, zero, one, XR.lt, XR.le]

theorem ab_valid : validateTree (after abOps) = .ok () := by
  rw [(C19_validate abOps ab_clean).1, ab_expected]
  simp [Choices.kids, IsChild, List.filter_cons]

/-- its run: every choice of the first unit has utility 100, of the second 200 -/
theorem sc_run (env : PyEnv) (M : Arith XR) : ∃ m' u, (scModel (emKernel M) env).runUtilities (emKernel M) (some 1) false = (m', .ok u) ∧
    u.rows = 2 ∧ u.cols = 2 ∧ ∀ i < u.rows, ∀ j < u.cols, u.val i j = util (some (100 * (i + 1))) := by
  have hst := sc_state (emKernel M) env
  have hcons : Consistent (scModel (emKernel M) env) [[['A']], [['B']]] 1 [7, 8] := by
    rw [hst]
    refine ⟨rfl, ?_, ?_, by intro ix u h; cases h⟩
    · obtain ⟨labels, h1, h2⟩ := labelled_after abOps ab_clean ab_valid
      rw [ab_expected] at h2
      exact ⟨labels, h1, by simpa [Choices.depth] using h2⟩
    · intro e he
      obtain rfl := List.mem_singleton.mp he
      exact ⟨rfl, rfl⟩
  have hc : (scModel (emKernel M) env).container (some 1) = .ok ⟨[exX], [], [emExpr1]⟩ := by rw [hst]; rfl
  have hv : (scModel (emKernel M) env).validate true true true true (some 1) = .ok () := by
    rw [hst]
    have hr : exX ∉ reserved := by decide
    simp [CModel.validate, ab_valid, CModel.container, ExprGroup.getGroup, Except.map, checkSymbols, hr, dictGet, Sym.filled, CModel.decisionUnits,
      bind, Except.bind]
  have hheld : Held env emPy (scModel (emKernel M) env).exprs := by
    unfold scModel
    exact held_modelRun _ (held_modelRun _ (m := newModel Nat XR 8) (Held.empty env emPy) scBuild) scOps
  have hscope : (scModel (emKernel M) env).scope = [(exX, .vector false (some emVector))] := by rw [hst]
  have hcach : (scModel (emKernel M) env).cached = none := by rw [hst]
  have hready : Ready env (scModel (emKernel M) env).scope [[['A']], [['B']]] 1 (.name exX, none) emExpr1 := by
    have h1 : isNanName exX = false := by decide
    refine ⟨⟨rfl, [], [], ⟨[exX], [], [], [], [exX]⟩, ?_, rfl, rfl, rfl⟩, by simp [Plain, PlainOver], by simp, by intro a ha; simp [emExpr1] at ha, ?_, ?_, ?_⟩
    · simp [visit, visitName, h1, freshParser, setAdd, emExpr1]
    · intro y hy
      simp only [emExpr1, List.mem_singleton] at hy
      subst hy
      refine ⟨?_, ?_⟩ <;> rintro ⟨t, ht⟩ <;> simp [subPrefix, dictPrefix, exX] at ht
    · intro t ls sub ch h; simp [emExpr1] at h
    · intro e he; simp [emExpr1] at he
  have htot : ∀ i j (_ : i < 2) (hj : j < 2), cellTotal (emKernel M) (scModel (emKernel M) env).scope ([[['A']], [['B']]] : List (List Name))[j] i j
      [(.name exX, none)] (startAt (scModel (emKernel M) env) i j) = some (.fin (100 * (i + 1))) := by
    intro i j hi hj
    have h1 : isNanName exX = false := by decide
    have a1 : exX ≠ nanStr := by decide
    have a2 : exX ≠ outStr := by decide
    have a3 : exX ≠ negInfStr := by decide
    have hs : startAt (scModel (emKernel M) env) i j = zero := by simp only [startAt, hcach]
    rw [hs, hscope]
    simp only [cellTotal, List.foldlM_cons, List.foldlM_nil, cellStep, filterMeans, if_true, den, h1, Bool.false_eq_true, if_false]
    have hv : (cellEnv (emKernel M) [(exX, .vector false (some emVector))] ([[['A']], [['B']]] : List (List Name))[j] zero i j).sym exX =
        some (.num (.fin (100 * (i + 1)))) := by
      simp [cellEnv, a1, a2, a3, dictGet, symAt, emVector]
    rw [hv]
    simp [emKernel, add, zero, XR.add]
  obtain ⟨ix, w, g1, g2, g3, -, -, g6⟩ := run_sound (emKernel M) hcons hheld hc hv (srcs := [(.name exX, none)]) (.cons hready .nil)
    (by
      intro y hy o ma al t h
      rw [List.mem_singleton] at hy
      subst hy
      rw [hscope] at h
      simp [dictGet] at h) (by intro i j hi hj; rw [htot i j hi hj]; rfl) false
  have hcell : ∀ i < w.rows, ∀ j < w.cols, w.val i j = util (some (100 * (i + 1))) := by
    intro i hi j hj
    have h := g3 i j (by rw [← g1]; exact hi) (by rw [← g2]; exact hj)
    rw [htot i j (by rw [g1] at hi; exact hi) (by rw [g2] at hj; exact hj)] at h
    exact Option.some.inj h
  have hn : hasNan w = false := by
    rw [Bool.eq_false_iff]
    intro hn
    obtain ⟨i, j, hi, hj, hx⟩ := (hasNan_iff w).mp hn
    rw [hcell i hi j hj] at hx
    simp [util, isNan, XR.isNan] at hx
  rw [hn] at g6
  exact ⟨_, w, g6, by simpa using g1, by simpa using g2, hcell⟩

/-- C32_history, C41_calls: the second unit alone has the logsum it has in the whole model, exp 200 + exp 200 -/
example (env : PyEnv) (M : Arith XR) : ∃ m' m1 fr ls nls m1' fr' ls' nls',
    (scModel (emKernel M) env).copySubset [7, 8] [false, true] = .ok m' ∧ m'.units = some [8] ∧
    RunStochastic (emSetting M) (scModel (emKernel M) env) (some 1) 2 false true true (m1, .ok (fr, ls, nls)) ∧
    RunStochastic (emSetting M) m' (some 1) 2 false true true (m1', .ok (fr', ls', nls')) ∧
    ls 0 = .fin (2 * Real.exp 100) ∧ ls 1 = .fin (2 * Real.exp 200) ∧ ls' 0 = .fin (2 * Real.exp 200) := by
  have hst := sc_state (emKernel M) env
  have hcopy : ∃ m', (scModel (emKernel M) env).copySubset [7, 8] [false, true] = .ok m' := by
    rw [hst]
    unfold CModel.copySubset
    simp [copyScope, Sym.copy, Arr.take, emVector, bind, Except.bind, pure, Except.pure, Except.map]
  obtain ⟨m', hm'⟩ := hcopy
  obtain ⟨m₁, u, hu, hr, hcl, hval⟩ := sc_run env M
  obtain ⟨out, ho⟩ := C12_run_stochastic_total (emSetting M) (scModel (emKernel M) env) (some 1) 2 false true true
  obtain ⟨out', ho'⟩ := C12_run_stochastic_total (emSetting M) m' (some 1) 2 false true true
  obtain ⟨fr, ls, nls, e, -, -, -, h⟩ := (C06_run abOps ab_clean (by rw [ab_expected]; simp [Choices.depth]) (emSetting M) (scModel (emKernel M) env) m₁
    (by rw [hst]) (some 1) 2 false true true u hu (by norm_num) (by simp [emSetting]) (fun i _ => some (100 * (i + 1))) hval out ho).2 (by
      rintro ⟨-, i, hi, h⟩
      cases h 0 (by omega))
  subst e
  have hls : ∀ i < 2, ls i = .fin (2 * Real.exp (100 * (i + 1))) := by
    intro i hi
    rw [((h i (by omega)).2 ⟨0, by omega, by simp⟩).1, hcl]
    simp [expw, two_mul, Finset.sum_range_succ]
  obtain ⟨ps, m1', fr', ls', nls', hsel, hu', -, rfl, -, -, hv⟩ := C41_calls (emSetting M) (env := env) (py := emPy) [7, 8] [false, true] 8
    scBuild scOps rfl (labels := [[['A']], [['B']]]) ab_choices rfl rfl (by
      intro op hop
      simp only [scOps, List.mem_cons, List.not_mem_nil, or_false] at hop
      rcases hop with rfl | rfl | rfl | rfl <;> exact ⟨trivial, trivial⟩) rfl hm' 1 2 false true true _ fr nls ls ho out' ho'
  have hps1 : ps = [1] := by
    have h := hsel.chosen
    have hm : ∀ p, p ∈ ps ↔ p = 1 := by
      intro p
      rw [h p]
      rcases p with _ | _ | p <;> simp
    have hnd : ps.Nodup := hsel.sorted.imp (fun h => Nat.ne_of_lt h)
    exact List.perm_singleton.mp ((List.perm_ext_iff_of_nodup hnd (by simp)).mpr (by simpa using hm))
  subst hps1
  refine ⟨m', m₁, fr, ls, nls, m1', fr', ls', nls', hm', hu', ho, ho', ?_, ?_, ?_⟩
  · have := hls 0 (by norm_num); norm_num at this; exact this
  · have := hls 1 (by norm_num); norm_num at this; exact this
  · rw [(hv 0 (by simp)).1]
    have := hls 1 (by norm_num); norm_num at this; exact this

end Cheval
