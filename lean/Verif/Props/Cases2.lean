import Verif.Props.SubsetExamples
import Verif.Props.AssignDefects
import Verif.Props.Unchecked
import Verif.Props.RoundedNested
import Verif.Props.WholeRuns

/-!
# Concrete cases: subsets, reachable models, rounded draws
-/
namespace Cheval
open FOps Spec B64

/-- the example model runs, and gives a table of probabilities -/
theorem em_stochastic (env : PyEnv) (M : Arith XR) : ∃ m1 fr ls nls,
    RunStochastic (emSetting M) (emModel env) none 2 false true true (m1, .ok (fr, ls, nls)) ∧
    ∀ i < 2, ∑ j ∈ Finset.range fr.cols.length, realOf (fr.val i j) = 1 := by
  obtain ⟨u, h1, h2, h3, h4⟩ := em_run_state env M false
  obtain ⟨out, ho⟩ := C12_run_stochastic_total (emSetting M) (emModel env) none 2 false true true
  have hW : ∀ i < u.rows, ∀ j < u.cols, u.val i j = util (some (100 * (i + 1) + if j = 2 then 2 else 0) : Util) := by
    intro i hi j hj
    rw [h4 i j (by omega) (by omega)]; rfl
  obtain ⟨fr, ls, nls, rfl, -, -, h5⟩ := C20_run_stochastic_nested exampleOps exampleOps_clean exampleOps_depth (emSetting M) (emModel env) _ rfl none 2 false
    true true u h1 (by norm_num) (by simp [emSetting]) (fun i j => some (100 * (i + 1) + if j = 2 then 2 else 0)) hW (by
      intro i hi
      refine ⟨0, ?_, ?_, ?_⟩
      · rw [exampleOps_expected]; simp
      · rw [flat_leaf (rel_after _ exampleOps_clean) (by rw [exampleOps_expected]; simp) 0 (by rw [exampleOps_expected]; simp)]
        simp only [exampleOps_expected]
        simp [IsChild]
      · refine .top 0 ?_ (by simp)
        rw [exampleOps_expected]
        simp [Choices.tree]) out ho
  refine ⟨_, fr, ls, nls, ho, fun i hi => ?_⟩
  obtain ⟨T, P, -, -, -, -, h6⟩ := h5 i (by omega)
  exact h6

/-- C41_accepted: the probabilities of the second decision unit, computed alone -/
example (env : PyEnv) (M : Arith XR) : ∃ m' m1 fr ls nls m1' fr' ls' nls', (emModel env).copySubset [7, 8] [false, true] = .ok m' ∧
    RunStochastic (emSetting M) (emModel env) none 2 false true true (m1, .ok (fr, ls, nls)) ∧
    RunStochastic (emSetting M) m' none 2 false true true (m1', .ok (fr', ls', nls')) ∧ ∀ j, fr'.val 0 j = fr.val 1 j := by
  have hcopy : ∃ m', (emModel env).copySubset [7, 8] [false, true] = .ok m' := by
    have hs : (emModel env).scope = emScope := rfl
    have hu : (emModel env).units = some [7, 8] := rfl
    have hc : (emModel env).cached = none := rfl
    unfold CModel.copySubset
    simp [hs, hu, hc, copyScope, emScope, Sym.copy, Arr.take, emVector, emTable, bind, Except.bind, pure, Except.pure, Except.map]
  obtain ⟨m', hm'⟩ := hcopy
  have hcons := em_consistent env
  obtain ⟨labels, hl, hlab⟩ := hcons.choices
  have hlen : labels.length = 4 := by rw [hlab.labels]; rfl
  obtain ⟨m1, fr, ls, nls, hr, -⟩ := em_stochastic env M
  obtain ⟨out, ho⟩ := C12_run_stochastic_total (emSetting M) m' none 2 false true true
  have hnr : NoneRejected env emPy ExprGroup.empty emOps := by
    have h1 : isNanName exX = false := by decide
    have h2 : splitFilter exX = .ok (exX, none) := by decide
    have h3 : splitFilter emText2 = .ok (exT, some emFilter) := by decide
    have h4 : emPy exX = .ok (.name exX) := rfl
    have h5 : emPy exT = .ok (.attr (.name exT) exA) := rfl
    have e1 : parse env emPy exX [] [] = (([exX], []), .ok emExpr1) := by
      simp [parse, h2, h4, visit, visitName, h1, setAdd, emExpr1]
    have hne : exT ≠ exX := by decide
    have e2 : parse env emPy emText2 [exX] [] = (([exX], [exT]), .ok emExpr2) := by
      simp [parse, h3, h5, visit, visitAttr, nameOfAttr, addChain, hne, setAdd, emExpr2, dictGet, dictSet, subName]
    have e3 : setUnion [exX] emExpr1.symbols = [exX] := by simp [setUnion, emExpr1, setAdd]
    have e4 : setUnion [] (emExpr1.chains.map (·.1)) = [] := by simp [setUnion, emExpr1]
    simp only [NoneRejected, emOps, groupStep, ExprGroup.append, ExprGroup.empty, e1, e3, e4, e2]
    simp
  obtain ⟨ps, m1', fr', ls', nls', hsel, -, -, rfl, -, -, hv⟩ := C41_accepted (emSetting M) (env := env) (py := emPy) [7, 8] [false, true] labels emOps (emModel env) m' rfl hnr hm' hl
    (by rw [hlen]; exact hcons.fits) (by intro t ht; cases ht) 2 false true true m1 fr nls ls hr out ho
  have hps1 : ps = [1] := by
    have h := hsel.chosen
    have hm : ∀ p, p ∈ ps ↔ p = 1 := by
      intro p
      rw [h p]
      rcases p with _ | _ | p <;> simp
    have hnd : ps.Nodup := hsel.sorted.imp (fun h => Nat.ne_of_lt h)
    exact List.perm_singleton.mp ((List.perm_ext_iff_of_nodup hnd (by simp)).mpr (by simpa using hm))
  subst hps1
  exact ⟨m', m1, fr, ls, nls, m1', fr', ls', nls', hm', hr, ho, fun j => ((hv 0 (by simp)).2 j).1⟩

/-! ## a model made by calls on a new one -/

noncomputable def rmOps : List (ModelOp Nat XR) :=
  [.addChoice ['A'] one, .addChoice ['B'] one, .setUnits [7, 8], .declare exX (.number none), .assign exX (.number (.fin 1)), .expr (.append exX none)]

theorem rm_state (K : Kernel XR) (env : PyEnv) : modelRun K env emPy (newModel Nat XR 8) rmOps =
    ⟨after abOps, ⟨[emExpr1], [exX], [], []⟩, [(exX, .number (some (.fin 1)))], some [7, 8], none, 8⟩ := by
  have h1 : isNanName exX = false := by decide
  have h2 : splitFilter exX = .ok (exX, none) := by decide
  have h4 : emPy exX = .ok (.name exX) := rfl
  have e1 : parse env emPy exX [] [] = (([exX], []), .ok emExpr1) := by
    simp [parse, h2, h4, visit, visitName, h1, setAdd, emExpr1]
  have hr : exX ∉ reserved := by decide
  simp [modelRun, modelStep, rmOps, newModel, CModel.addChoice, CModel.setUnits, CModel.declare, hr, CModel.assign, dictSet, dictGet, Sym.empty, Sym.assign, groupStep,
    ExprGroup.append, ExprGroup.empty, e1, setUnion, setAdd, emExpr1]
  rfl

/-- C30_reachable: this model is accepted by `validate`, so its only expression has its symbol -/
example (K : Kernel XR) (env : PyEnv) : ∃ s, dictGet (modelRun K env emPy (newModel Nat XR 8) rmOps).scope exX = some s ∧ s.filled = true := by
  have hst := rm_state K env
  have hc : (modelRun K env emPy (newModel Nat XR 8) rmOps).container none = .ok ⟨[exX], [], [emExpr1]⟩ := by
    rw [hst]; rfl
  have hv : (modelRun K env emPy (newModel Nat XR 8) rmOps).validate true true true true none = .ok () := by
    rw [hst]
    have h := ab_choices
    unfold choices at h
    cases hv : validateTree (after abOps) with
    | error e => rw [hv] at h; cases h
    | ok _ =>
      have hr : exX ∉ reserved := by decide
      simp [CModel.validate, hv, CModel.container, ExprGroup.itersimple, ExprGroup.iterchained, ExprGroup.all, checkSymbols, hr, dictGet, Sym.filled, CModel.decisionUnits, bind, Except.bind, pure, Except.pure]
  obtain ⟨h1, -⟩ := C30_reachable K env emPy 8 rmOps none _ hc hv (by
    rw [hst]
    intro n o ma al t h
    have := dictGet_mem h
    simp at this)
  exact h1 emExpr1 (by simp) exX (.inl (by simp [emExpr1])) (by decide)

/-! ## rounded draws -/

/-- C60_draws: in the nested example, node 2 (computed probability close to 1/2) -/
example : ∃ (ps : List F64) (ls : F64) (terms : List F64),
    nested [FOps.zero, FOps.zero, FOps.zero, FOps.negInf] nestEx true true = .ok (ps, ls, terms) ∧
    ∀ (i : Nat) (h : i < ps.length), |drawShare (R := R64) rfl ps i - ps[i].val| ≤ 14 * (1 / 2 ^ 52) := by
  obtain ⟨ps, ls, terms, h1, h2, -⟩ := nestEx_run
  refine ⟨ps, ls, terms, h1, fun i hi => ?_⟩
  have := C60_draws (R := R64) rfl nestEx nestEx_wf (fun i _ => ⟨1, rfl, one_pos⟩) _ _ _ ps ls terms h1 2 h2 (by norm_num) (by simp [nestEx]) i hi
  refine this.trans (le_of_eq ?_)
  rw [show nestEx.n = 4 from rfl]
  norm_num

end Cheval
