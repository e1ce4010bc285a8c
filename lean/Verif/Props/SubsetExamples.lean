import Verif.Props.SubsetRuns

/-!
# C41: a concrete case, and a model whose copy fails
-/
namespace Cheval
open FOps Spec

theorem stochasticStage_exists {F : Type} [FOps F] (st : TreeSt F) (rows : List (List F)) (sc check : Bool) :
    ∃ out, StochasticStage st rows sc check out := by
  unfold StochasticStage
  cases depth st with
  | error e => exact ⟨_, rfl⟩
  | ok d =>
    simp only
    split
    · cases flatten st with
      | error e => exact ⟨_, rfl⟩
      | ok fl =>
        obtain ⟨r, hr⟩ : ∃ r, WorkerNestedProb rows fl sc check r := parLoop_exists _ _ _
        cases r with
        | error e => exact ⟨_, _, hr, rfl⟩
        | ok m =>
          cases hel : elementalChoices st with
          | error e => exact ⟨_, _, hr, rfl⟩
          | ok el =>
            cases hch : choices st with
            | error e => exact ⟨_, _, hr, rfl⟩
            | ok ch => exact ⟨_, _, hr, rfl⟩
    · obtain ⟨r, hr⟩ : ∃ r, WorkerMnlProb rows check r := parLoop_exists _ _ _
      cases r with
      | error e => exact ⟨_, _, hr, rfl⟩
      | ok m =>
        cases hch : choices st with
        | error e => exact ⟨_, _, hr, rfl⟩
        | ok ch => exact ⟨_, _, hr, rfl⟩

/-- every call of `run_stochastic` ends, with a result or an exception -/
theorem C12_run_stochastic_total {U F R : Type} [FOps F] (s : Setting F R) (m : CModel U F) (g : Option Nat) (threads : Int) (clear scale check : Bool) :
    ∃ out, RunStochastic s m g threads clear scale check out := by
  unfold RunStochastic
  rcases m.runUtilities s.K g clear with ⟨m', r⟩
  cases r with
  | error e => exact ⟨_, rfl⟩
  | ok u =>
    simp only
    split
    · exact ⟨_, rfl⟩
    · obtain ⟨res, h⟩ := stochasticStage_exists m'.tree u.toRows scale check
      exact ⟨_, res, h, rfl⟩

/-- the hypotheses of the C41 theorems are met: the example model restricted to its second decision unit -/
example (env : PyEnv) (M : Arith XR) : ∃ m' m1' u', (emModel env).copySubset [7, 8] [false, true] = .ok m' ∧ m'.units = some [8] ∧
    m'.runUtilities (emKernel M) none false = (m1', .ok u') ∧ u'.rows = 1 ∧
    ∀ j < 4, u'.val 0 j = .fin (200 + if j = 2 then 2 else 0) := by
  obtain ⟨u, h1, h2, h3, h4⟩ := em_run_state env M false
  have hcons := em_consistent env
  obtain ⟨labels, hl, hlab⟩ := hcons.choices
  have hcopy : ∃ m', (emModel env).copySubset [7, 8] [false, true] = .ok m' := by
    have hs : (emModel env).scope = emScope := rfl
    have hu : (emModel env).units = some [7, 8] := rfl
    have hc : (emModel env).cached = none := rfl
    unfold CModel.copySubset
    simp [hs, hu, hc, copyScope, emScope, Sym.copy, Arr.take, emVector, emTable, bind, Except.bind, pure, Except.pure, Except.map]
  obtain ⟨m', hm'⟩ := hcopy
  have hlen : labels.length = 4 := by rw [hlab.labels]; rfl
  obtain ⟨ps, m1', u', hsel, hun, hps, hrun, hr1, hr, hcl, hval⟩ := C41_utilities (emKernel M) (emModel env) m' (em_held env) [7, 8] [false, true] hm'
    labels hl (by rw [hlen]; exact hcons.fits) (by intro t ht; cases ht) none _ (em_container env) (by
      intro x hx id hid
      simp only [List.mem_cons, List.not_mem_nil, or_false] at hx
      rcases hx with rfl | rfl
      · simp only [emExpr1, freeNames, List.mem_singleton] at hid
        subst hid
        exact fun _ => .inr (.inl ⟨emExpr1, by simp, by simp [emExpr1]⟩)
      · simp only [emExpr2, freeNames, List.mem_singleton] at hid
        subst hid
        exact fun _ => .inr (.inr (.inl ⟨(exT, [(subName exT 0, ⟨[exA], none⟩)]), by simp [emExpr2], by simp⟩))) false _ u h1
  have hps1 : ps = [1] := by
    have h := hsel.chosen
    have hm : ∀ p, p ∈ ps ↔ p = 1 := by
      intro p
      rw [h p]
      rcases p with _ | _ | p <;> simp
    have hnd : ps.Nodup := hsel.sorted.imp (fun h => Nat.ne_of_lt h)
    exact List.perm_singleton.mp ((List.perm_ext_iff_of_nodup hnd (by simp)).mpr (by simpa using hm))
  subst hps1
  refine ⟨m', m1', u', hm', by simpa using hun, hrun, by simpa using hr, fun j hj => ?_⟩
  have := hval 0 (by simp) j
  rw [this]
  rw [show ([1] : List Nat)[0] = 1 from rfl, h4 1 j (by omega) hj]
  norm_num

/-! ## a model whose copy fails

`x + (+x)` is rejected after the name `x` has been recorded (C24), `-x` is accepted without recording `x` (C22): the model
finds `x`, its copy, whose symbols are recomputed from its expressions, does not. -/

def lfRejected : Str := ['x', '+', '+', 'x']
def lfMinus : Str := ['-', 'x']
def lfPy : PyParser := fun t =>
  if t = lfRejected then .ok (.bin .add (.name exX) (.unary .pos (.name exX)))
  else if t = lfMinus then .ok (.unary .neg (.name exX)) else .error .syntaxErr

def lfOps : List GroupOp := [.append lfRejected none, .append lfMinus none]

theorem lf_exprs (env : PyEnv) : groupRun env lfPy ExprGroup.empty lfOps =
    ⟨[⟨lfMinus, .unary .neg (.name exX), [], [], none, []⟩], [exX], [], []⟩ := by
  have h1 : isNanName exX = false := by decide
  have h2 : splitFilter lfRejected = .ok (lfRejected, none) := by decide
  have h3 : splitFilter lfMinus = .ok (lfMinus, none) := by decide
  have h4 : lfPy lfRejected = .ok (.bin .add (.name exX) (.unary .pos (.name exX))) := rfl
  have h5 : lfPy lfMinus = .ok (.unary .neg (.name exX)) := rfl
  have e1 : parse env lfPy lfRejected [] [] = (([exX], []), .error .notImplemented) := by
    simp [parse, h2, h4, visit, visitName, h1, setAdd, andThen]
  have e2 : parse env lfPy lfMinus [exX] [] = (([exX], []), .ok ⟨lfMinus, .unary .neg (.name exX), [], [], none, []⟩) := by
    simp [parse, h3, h5, visit]
  simp only [groupRun, lfOps, List.foldl_cons, List.foldl_nil, groupStep, ExprGroup.append, ExprGroup.empty, e1, e2]
  simp [setUnion]

noncomputable def lfScope : List (Str × Sym XR) := [(exX, .number (some (.fin 1)))]

noncomputable def lfModel (env : PyEnv) : CModel Nat XR :=
  ⟨after exampleOps, groupRun env lfPy ExprGroup.empty lfOps, lfScope, some [7, 8], none, 8⟩

/-- an arithmetic with negation -/
noncomputable def lfArith (M : Arith XR) : Arith XR := { M with neg := fun v => some v }

/-- **C41 (violated)** A model, made by the calls above, that runs, while `copy_subset` of it (with a mask that selects everything, and
likewise `copy`) does not run: it looks up `x` in vain. -/
theorem C41_leftover_refuted (env : PyEnv) (M : Arith XR) :
    ∃ m', (lfModel env).copySubset [7, 8] [true, true] = .ok m' ∧
      (∃ m1 u, (lfModel env).runUtilities (emKernel (lfArith M)) none false = (m1, .ok u)) ∧
      ∃ m1' e, m'.runUtilities (emKernel (lfArith M)) none false = (m1', .error e) := by
  have ht : (lfModel env).tree = after exampleOps := rfl
  have hs : (lfModel env).scope = lfScope := rfl
  have hu : (lfModel env).units = some [7, 8] := rfl
  have hca : (lfModel env).cached = none := rfl
  have hx : exX ∉ reserved := by decide
  have hx1 : ¬ nanStr = exX := by decide
  have hx2 : ¬ outStr = exX := by decide
  have hx3 : ¬ negInfStr = exX := by decide
  obtain ⟨labels, hl, hlab⟩ := (em_consistent env).choices
  have hl : choices (after exampleOps : TreeSt XR) = .ok labels := hl
  have hlen : labels.length = 4 := by rw [hlab.labels]; rfl
  have hcopy : (lfModel env).copySubset [7, 8] [true, true] = .ok ⟨after exampleOps, (lfModel env).exprs.copy, lfScope, some [7, 8], none, 8⟩ := by
    unfold CModel.copySubset
    simp [hs, hu, hca, ht, copyScope, lfScope, Sym.copy, bind, Except.bind, pure, Except.pure, Except.map, maskPositions, lfModel, List.range_succ]
  have hcont : (lfModel env).container none = .ok ⟨[exX], [], [⟨lfMinus, .unary .neg (.name exX), [], [], none, []⟩]⟩ := by
    simp [CModel.container, lfModel, lf_exprs, ExprGroup.itersimple, ExprGroup.iterchained, ExprGroup.all]
  have hcont' : CModel.container (⟨after exampleOps, (lfModel env).exprs.copy, lfScope, some [7, 8], none, 8⟩ : CModel Nat XR) none =
      .ok ⟨[], [], [⟨lfMinus, .unary .neg (.name exX), [], [], none, []⟩]⟩ := by
    simp [CModel.container, lfModel, lf_exprs, ExprGroup.itersimple, ExprGroup.iterchained, ExprGroup.all, ExprGroup.copy, setUnion]
  refine ⟨_, hcopy, ?_, ?_⟩
  · unfold CModel.runUtilities
    have hv : (lfModel env).validate true true true true none = .ok () := by
      simp [CModel.validate, ht, exampleOps_valid, hs, hcont, CModel.decisionUnits, hu, checkSymbols, hx, lfScope, dictGet, Sym.filled, bind, Except.bind]
    have hv2 : (lfModel env).validate true true false false none = .ok () := by
      simp [CModel.validate, ht, exampleOps_valid, CModel.decisionUnits, hu, bind, Except.bind]
    rw [hv, hcont]
    have hsy : symLocals lfScope [exX] = .ok [(exX, .scalar (.num (.fin 1)))] := by
      simp [symLocals, hx, lfScope, dictGet, Sym.get, Except.map, pure, Except.pure, bind, Except.bind]
    have hcell : ∀ u i j, newCell (emKernel (lfArith M)) (.unary .neg (.name exX))
        (reservedLocals (emKernel (lfArith M)) u ++ [(exX, .scalar (.num (.fin 1)))]) u none i j = some (add (u.val i j) (.fin 1)) := by
      intro u i j
      simp [newCell, ne, reservedLocals, dictGet, hx1, hx2, hx3, Local.at, emKernel, lfArith]
    have hev : ∀ u : Tab XR, evalExpr (emKernel (lfArith M)) lfScope labels [(exX, .scalar (.num (.fin 1)))] u
        ⟨lfMinus, .unary .neg (.name exX), [], [], none, []⟩ =
        .ok ⟨u.rows, u.cols, fun i j => if i < u.rows ∧ j < u.cols then add (u.val i j) (.fin 1) else u.val i j⟩ := by
      intro u
      simp only [evalExpr, columnMask, addDicts, addChains, List.foldlM_nil, bind, Except.bind, pure, Except.pure, kernelEval]
      rw [if_neg (by simp [badColumn, badOut])]
      simp only [hcell]
      simp [applies]
    unfold CModel.evaluate CModel.partialUtilities
    simp only [hu, ht, hl, hv2, CModel.decisionUnits, hca, hs, hsy, evalLoop, hev]
    rw [if_neg, if_neg]
    · exact ⟨_, _, rfl⟩
    · simp
    · rw [hasNan_iff]
      rintro ⟨i, j, hi, hj, h⟩
      simp only [List.length_cons, List.length_nil] at hi hj h
      simp [hi, hj] at h
  · unfold CModel.runUtilities
    have hv : CModel.validate (⟨after exampleOps, (lfModel env).exprs.copy, lfScope, some [7, 8], none, 8⟩ : CModel Nat XR) true true true true none = .ok () := by
      simp [CModel.validate, exampleOps_valid, hcont', CModel.decisionUnits, checkSymbols, bind, Except.bind]
    have hv2 : CModel.validate (⟨after exampleOps, (lfModel env).exprs.copy, lfScope, some [7, 8], none, 8⟩ : CModel Nat XR) true true false false none = .ok () := by
      simp [CModel.validate, exampleOps_valid, CModel.decisionUnits, bind, Except.bind]
    rw [hv, hcont']
    have hsy : symLocals lfScope [] = .ok [] := rfl
    have hcell : ∀ u i j, newCell (emKernel (lfArith M)) (.unary .neg (.name exX))
        (reservedLocals (emKernel (lfArith M)) u ++ []) u none i j = none := by
      intro u i j
      simp [newCell, ne, reservedLocals, dictGet, hx1, hx2, hx3]
    have hev : ∀ u : Tab XR, u.rows = 2 → u.cols = 4 → evalExpr (emKernel (lfArith M)) lfScope labels [] u
        ⟨lfMinus, .unary .neg (.name exX), [], [], none, []⟩ = .error .value := by
      intro u h1 h2
      simp only [evalExpr, columnMask, addDicts, addChains, List.foldlM_nil, bind, Except.bind, pure, Except.pure, kernelEval]
      rw [if_neg (by simp [badColumn, badOut])]
      simp only [hcell, h1, h2]
      rw [if_neg (by simp [applies, List.range_succ])]
    unfold CModel.evaluate CModel.partialUtilities
    simp only [hl, hv2, CModel.decisionUnits, hsy, evalLoop]
    rw [hev _ rfl hlen]
    exact ⟨_, _, rfl⟩

end Cheval
