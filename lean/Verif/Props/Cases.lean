import Verif.Props.TreeHistory
import Verif.Props.TreeReplace
import Verif.Props.WholeRuns
import Verif.Props.NanUtil
import Verif.Props.Runs
import Verif.Props.Scope
import Verif.Props.PrevalScope
import Verif.Props.AssignDefects

/-!
# Concrete cases of the theorems on choice trees, scopes, runs and assignments

Each example applies a theorem of another file to a concrete model or history, which shows that its hypotheses can be met.
-/
namespace Cheval
open Spec FOps

/-! ## Choice trees -/

/-- C15_successful: the history B, A, A.x, A.y -/
example : ∃ d, depth (after exampleOps) = .ok d ∧
    choices (after exampleOps) = .ok (([[['B']], [['A']], [['A'], ['x']], [['A'], ['y']]] : List (List Name)).map (pad d)) := by
  have hm : (expected exampleOps).made = [[['B']], [['A']], [['A'], ['x']], [['A'], ['y']]] := by rw [exampleOps_expected]
  have h2 : (0 : ℝ) < 2⁻¹ ∧ (2⁻¹ : ℝ) ≤ 1 := by norm_num
  obtain ⟨d, h1, _, _, h4, _⟩ := C15_successful exampleOps (by
      simp [exampleOps, AllAccepted, Accepted, Choices.step, Choices.add, Choices.empty, Legal, lt, le, zero, one, XR.lt, XR.le, h2])
    (by rw [hm]; decide) exampleOps_valid
  rw [hm] at h4
  exact ⟨d, h1, h4⟩

/-- C16_flatten: the tree of the history B, A, A.x, A.y -/
example : ∃ fl, flatten (after exampleOps) = .ok fl ∧ fl.n = 4 ∧ fl.parent 0 = -1 ∧ fl.parent 2 = 1 ∧ fl.parent 3 = 1 ∧
    fl.level 3 = 1 := by
  obtain ⟨fl, h1, _, h3, h4⟩ := C16_flatten exampleOps exampleOps_clean exampleOps_depth
  have hlen : (expected exampleOps).live.length = 4 := by rw [exampleOps_expected]; rfl
  refine ⟨fl, h1, h3.trans hlen, (h4 0 (by omega)).1 ?_, ((h4 2 (by omega)).2.1 1 (by omega)).mpr ?_,
    ((h4 3 (by omega)).2.1 1 (by omega)).mpr ?_, ((h4 3 (by omega)).2.2.1).trans ?_⟩
  all_goals simp [exampleOps_expected, IsChild]

/-- C16_flat_model: two choices without nests -/
example : flatten (after ([.addTop ['B'] one, .addTop ['A'] one] : List (TreeOp XR))) = .error .assertion := by
  refine C16_flat_model _ ?_ ?_ ?_
  all_goals simp [CleanRun, Clean, CleanAdd, expected, Choices.run, Choices.step, Choices.add, Choices.empty, Choices.depth, Legal, lt, le,
    zero, one, XR.lt, XR.le]

/-- C15_any_history, C18_only_illegal: re-adding the nest A orphans A.x, the labels are unique nevertheless; an illegal scale
is rejected -/
example : ∃ (ids : List Nat) (d : Nat), choices (after
      ([.addTop ['A'] one, .addChild 0 ['x'] one, .addTop ['A'] one, .addTop ['B'] one] : List (TreeOp XR))) =
      .ok (ids.map fun i => pad d (([[['A']], [['A'], ['x']], [['A']], [['B']]] : List (List Name)).getD i [])) ∧
    (ids.map fun i => pad d (([[['A']], [['A'], ['x']], [['A']], [['B']]] : List (List Name)).getD i [])).Nodup := by
  have hst : after ([.addTop ['A'] one, .addChild 0 ['x'] one, .addTop ['A'] one, .addTop ['B'] one] : List (TreeOp XR)) =
      ⟨[⟨['A'], none, one, 1, [(['x'], 1)]⟩, ⟨['x'], some 0, one, 2, []⟩, ⟨['A'], none, one, 1, []⟩, ⟨['B'], none, one, 1, []⟩],
       [(['A', '.', 'x'], 1), (['A'], 2), (['B'], 3)], [2, 3]⟩ := by
    have np : ∀ (nd : Node XR) (l : List (Node XR)), nd.parent = none → nodePath (nd :: l) 0 = [nd.name] := by
      intro nd l h
      rw [nodePath]; simp [h]
    simp [after, treeRun, treeStep, addTop, addChild, createNode, finishCreate, nodeLegal, lt, le, zero, one, XR.lt, XR.le, TreeSt.empty,
      dictGet, dictSet, dictDel, expectedName, fullName, joinDots, newLevel, np, List.intercalate]
  have hm : (expected ([.addTop ['A'] one, .addChild 0 ['x'] one, .addTop ['A'] one, .addTop ['B'] one] : List (TreeOp XR))).made =
      [[['A']], [['A'], ['x']], [['A']], [['B']]] := by
    simp [expected, Choices.run, Choices.step, Choices.add, Choices.empty, Legal, lt, le, zero, one, XR.lt, XR.le]
  obtain ⟨ids, d, _, _, _, h4, h5⟩ := C15_any_history
    ([.addTop ['A'] one, .addChild 0 ['x'] one, .addTop ['A'] one, .addTop ['B'] one] : List (TreeOp XR))
    (by simp [KnownHandles, Choices.step, Choices.add, Choices.empty, Legal, lt, le, zero, one, XR.lt, XR.le])
    (by rw [hst]; simp [validateTree, nChildren])
    (by rw [hst]; simp)
  rw [hm] at h4 h5
  exact ⟨ids, d, h4, h5⟩

example : (treeStep (after exampleOps) (.setScale 1 zero)).2 = .error .assertion := by
  have h : ∃ e, (treeStep (after exampleOps) (.setScale 1 zero)).2 = .error e := by
    simp [treeStep, setScale, lt, zero, XR.lt]
  obtain ⟨e, he⟩ := h
  have := C18_only_illegal exampleOps (.setScale 1 zero) exampleOps_clean (by rw [exampleOps_expected]; simp [Clean]) e he
  rw [he, this.1]

/-! ## Scopes -/

/-- C30_validate: a model whose scope lacks `x` is refused -/
example (env : PyEnv) : ({ emModel env with scope := [(exT, .table true [] true (some emTable))] } : CModel Nat XR).validate
    true true true true none = .error .modelNotReady := by
  refine (C30_validate ({ emModel env with scope := [(exT, .table true [] true (some emTable))] } : CModel Nat XR) none
    ⟨[exX], [exT, exT], [emExpr1, emExpr2]⟩ exampleOps_valid [7, 8] rfl (em_container env)).trans (if_neg ?_)
  intro h
  obtain ⟨s, hs, _⟩ := h exX (.inl (by simp)) (by decide)
  simp [dictGet, show ¬ exT = exX by decide] at hs

private theorem em_tables (er : Err) (her : er ≠ .attribute) (env : PyEnv) : TablesNever er (emModel env).scope := by
  intro n o ma al t h
  have hs : (emModel env).scope = emScope := rfl
  rw [hs] at h
  have ht : t = emTable := by
    simp only [dictGet, emScope, List.find?_cons, List.find?_nil] at h
    split at h
    · simp at h
    · split at h
      · simp only [Option.map_some, Option.some.injEq, Sym.table.injEq] at h; exact h.2.2.2.symm
      · simp at h
  subst ht
  refine ⟨fun a h => ?_, fun p f h => ?_⟩
  · simp only [emTable] at h
    split at h
    · cases h
    · cases h; exact her rfl
  · simp only [emTable] at h
    cases h; exact her rfl

/-- C30_sound on the example model -/
example (env : PyEnv) (M : Arith XR) :
    ((emModel env).evaluate (emKernel M) ⟨[exX], [exT, exT], [emExpr1, emExpr2]⟩).2 ≠ .error .modelNotReady :=
  (C30_sound (emKernel M) (emModel env) (em_held env) none _ (em_container env) (em_valid env)
    (em_tables _ (by decide) env)).2.2

/-! ## Runs -/

/-- C37_success on the example model; C37_error and C37_iff on the model with a NaN in `x` -/
example (env : PyEnv) (M : Arith XR) : ∃ u : Tab XR, ((emModel env).runUtilities (emKernel M) none false).2 = .ok u ∧
    ∀ i j, i < u.rows → j < u.cols → isNan (u.val i j) = false := by
  obtain ⟨u, h, _⟩ := em_run_state env M false
  exact ⟨u, by rw [h], (C37_success _ _ _ none false u h).1⟩

example (env : PyEnv) (M : Arith XR) : ((badModel env).runUtilities (emKernel M) none false).2 = .error .utilityBounds ∧
    Poisoned ((badModel env).runUtilities (emKernel M) none false).1 := by
  have h := (C37_iff (emKernel M) (bad_consistent env) (em_held env) (bad_container env) (bad_valid env) (srcs := emSrcs)
    (.cons (bad_ready1 env) (.cons (bad_ready2 env) .nil))
    (by
      intro y hy o ma al t h
      rw [List.mem_singleton] at hy
      subst hy
      have hs : (badModel env).scope = badScope := rfl
      rw [hs, bad_getx] at h
      cases h)
    (by
      intro i j hi hj
      obtain ⟨v, hv, _⟩ := bad_total M i j hi hj
      exact Option.isSome_iff_exists.mpr ⟨v, hv⟩) false).1.mpr (by
      obtain ⟨v, hv, hn⟩ := bad_total M 0 0 (by omega) (by decide)
      exact ⟨0, 0, by decide, by decide, v, hv, by rw [hn rfl]; rfl⟩)
  refine ⟨h, C37_error (emKernel M) (badModel env) _ ?_ none false (Prod.ext rfl h)⟩
  intro n o ma al t h
  have hs : (badModel env).scope = badScope := rfl
  rw [hs] at h
  have ht : t = emTable := by
    simp only [dictGet, badScope, List.find?_cons, List.find?_nil] at h
    split at h
    · simp at h
    · split at h
      · simp only [Option.map_some, Option.some.injEq, Sym.table.injEq] at h; exact h.2.2.2.symm
      · simp at h
  subst ht
  refine ⟨fun a h => ?_, fun p f h => ?_⟩
  · simp only [emTable] at h
    split at h <;> cases h
  · simp only [emTable] at h
    cases h

/-- C36_second_run on the example model: the second run starts from the first one's utilities -/
example (env : PyEnv) (M : Arith XR) : ∃ m1 u1 ix u2, (emModel env).runUtilities (emKernel M) none false = (m1, .ok u1) ∧
    (m1.runUtilities (emKernel M) none false).1.cached = some (ix, u2) ∧
    some (u2.val 1 2) = cellTotal (emKernel M) emScope [['A'], ['x']] 1 2 emSrcs (u1.val 1 2) := by
  obtain ⟨u1, h1, _, _, hv1⟩ := em_run_state env M false
  obtain ⟨ix, u2, h2, h3, _⟩ := C36_second_run (emKernel M) (em_consistent env) (em_held env) (em_container env) (em_valid env)
    (srcs := emSrcs) (.cons (em_ready1 env) (.cons (em_ready2 env) .nil)) (em_noTable env) h1
    (by intro i j _ hj; exact Option.isSome_iff_exists.mpr ⟨_, em_total M i j hj 0⟩)
    (by
      intro i j hi hj
      rw [hv1 i j hi hj]
      exact Option.isSome_iff_exists.mpr ⟨_, em_total M i j hj _⟩)
  exact ⟨_, u1, ix, u2, h1, h2, h3 1 2 (by decide) (by decide)⟩

/-- the same expressions in the other order: `t.a @ A.x` ungrouped, `x` in a group -/
private theorem em_exprs' (env : PyEnv) : groupRun env emPy ExprGroup.empty [.append emText2 none, .append exX (some 1)] =
    ⟨[emExpr2], [exX], [exT], [(1, ⟨[exX], [], [emExpr1]⟩)]⟩ := by
  have h1 : isNanName exX = false := by decide
  have h2 : splitFilter exX = .ok (exX, none) := by decide
  have h3 : splitFilter emText2 = .ok (exT, some emFilter) := by decide
  have h4 : emPy exX = .ok (.name exX) := rfl
  have h5 : emPy exT = .ok (.attr (.name exT) exA) := rfl
  have hne : exX ≠ exT := by decide
  have e1 : parse env emPy exX [] [exT] = (([exX], [exT]), .ok emExpr1) := by
    simp [parse, h2, h4, visit, visitName, h1, setAdd, emExpr1, hne]
  have e2 : parse env emPy emText2 [] [] = (([], [exT]), .ok emExpr2) := by
    simp [parse, h3, h5, visit, visitAttr, nameOfAttr, addChain, setAdd, emExpr2, dictGet, dictSet, subName]
  simp only [groupRun, List.foldl_cons, List.foldl_nil, groupStep, ExprGroup.append, ExprGroup.empty, e2]
  have e3 : setUnion [] emExpr2.symbols = [] := by simp [setUnion, emExpr2]
  have e4 : setUnion [exT] (emExpr2.chains.map (·.1)) = [exT] := by simp [setUnion, emExpr2, setAdd]
  simp only [e3, e4, e1]
  simp [dictSet, dictGet, SubGroup.append, setUnion, setAdd, emExpr1]

private noncomputable def emModel' (env : PyEnv) : CModel Nat XR :=
  ⟨after exampleOps, groupRun env emPy ExprGroup.empty [.append emText2 none, .append exX (some 1)], emScope, some [7, 8], none, 8⟩

private theorem em_container' (env : PyEnv) : (emModel' env).container none = .ok ⟨[exX, exX], [exT], [emExpr2, emExpr1]⟩ := by
  simp [CModel.container, emModel', em_exprs', ExprGroup.itersimple, ExprGroup.iterchained, ExprGroup.all]

/-- C35_order: both orders give the same utilities -/
example (env : PyEnv) (M : Arith XR) : ∃ ix u ix' u', ((emModel env).runUtilities (emKernel M) none false).1.cached = some (ix, u) ∧
      ((emModel' env).runUtilities (emKernel M) none false).1.cached = some (ix', u') ∧
      ∀ i j, i < u.rows → j < u.cols → u.val i j = u'.val i j := by
  have hv : (emModel' env).validate true true true true none = .ok () := by
    refine (C30_validate (emModel' env) none _ exampleOps_valid [7, 8] rfl (em_container' env)).trans (if_pos ?_)
    intro x hx _
    have hs : (emModel' env).scope = emScope := rfl
    rw [hs]
    simp only [List.mem_cons, List.not_mem_nil, or_false, or_self] at hx
    rcases hx with rfl | rfl
    · exact ⟨_, em_getx, rfl⟩
    · exact ⟨_, em_get, rfl⟩
  obtain ⟨ix, u, ix', u', h1, h2, _, _, h3, _⟩ := C35_order (emKernel M) (em_orderFree M) (em_consistent env)
    (m' := emModel' env) rfl (em_held env) ((Held.empty env emPy).run _) (em_container env) (em_container' env) (em_valid env) hv
    (srcs := emSrcs) (srcs' := emSrcs.reverse) (.cons (em_ready1 env) (.cons (em_ready2 env) .nil))
    (.cons (em_ready2 env) (.cons (em_ready1 env) .nil)) (em_noTable env)
    (fun y hy => em_noTable env y (by simpa using hy)) (List.reverse_perm _).symm em_outFree
    (by intro i j _ hj; exact Option.isSome_iff_exists.mpr ⟨_, em_total M i j hj 0⟩) false
  exact ⟨ix, u, ix', u', h1, h2, h3⟩

/-! ## Assignments -/

/-- C32_rejected, C32_array: an array of the wrong length is refused without effect, one of length 2 is taken by position -/
example (env : PyEnv) (f : Nat → Val XR) : (emModel env).assign exX (.array1 3 f) = (emModel env, .error .assertion) ∧
    ∃ s, dictGet ((emModel env).assign exX (.array1 2 f)).1.scope exX = some s ∧ symAt 1 3 s = some (f 1) := by
  have hl : (emModel env).labels false = .ok [Lab.unit 7, Lab.unit 8] := labels_units (m := emModel env) (u := [7, 8]) rfl
  have h3 := (C32_array (emModel env) exX false _ em_getx _ hl 3 f).2.1 (by decide)
  obtain ⟨s, h1, h2⟩ := (C32_array (emModel env) exX false _ em_getx _ hl 2 f).2.2.2 rfl
  refine ⟨Prod.ext (C32_rejected _ exX (.array1 3 f) _ _ (Prod.ext rfl h3)) h3, s, h1, h2 1 3⟩

/-- C32_number: a scalar symbol -/
example (env : PyEnv) : ∃ s, dictGet (({ emModel env with scope := [(exX, .number none)] } : CModel Nat XR).assign exX
      (.number (.fin 5))).1.scope exX = some s ∧ symAt 0 3 s = some (.num (.fin 5)) :=
  (C32_number ({ emModel env with scope := [(exX, .number none)] } : CModel Nat XR) exX none (by simp [dictGet])
    (.number (XR.fin 5))).2 _ 0 3 rfl

/-! ## `run_discrete` -/

/-- C53_total, C53_reproducible, C53_rejected: no draws -/
example (env : PyEnv) (M : Arith XR) (V : Type) (out : CModel Nat XR × SeedArg Nat × Except Err (ResObj V × (Nat → XR)))
    (h : RunDiscrete (emSetting M) (emModel env) ⟨.number 5, 0, .category, true, 2, true, true⟩ out) :
    out.1 = emModel env ∧ out.2.2 = .error .value :=
  let r := C53_rejected _ _ _ out h (by norm_num)
  ⟨r.1, r.2.2 (em_valid env) (by intro e h; cases h)⟩

example (env : PyEnv) (M : Arith XR) (V : Type) : ∃ out,
    RunDiscrete (emSetting M) (emModel env) (⟨.number 5, 0, .category, true, 2, true, true⟩ : DiscreteArgs Nat V) out :=
  C53_total _ _ _

/-- C53_threads_checked_late: no threads -/
example (env : PyEnv) (M : Arith XR) (V : Type) (out : CModel Nat XR × SeedArg Nat × Except Err (ResObj V × (Nat → XR)))
    (h : RunDiscrete (emSetting M) (emModel env) ⟨.number 5, 1, .category, true, 0, false, true⟩ out) :
    out.2.2 = .error .value ∧ out.1.cached ≠ none := by
  obtain ⟨u, hu, _⟩ := em_run_state env M false
  obtain ⟨rfl, ix, hx⟩ := C53_threads_checked_late (emSetting M) (emModel env) _ ⟨.number 5, 1, .category, true, 0, false, true⟩ u 5
    (.number 5) (em_valid env) rfl (by norm_num) hu (.inl (by norm_num)) out h
  exact ⟨rfl, by simp⟩

/-- C53_threads_stochastic: five threads, four are available -/
example (env : PyEnv) (M : Arith XR) (out : CModel Nat XR × Except Err (Frame XR × (Nat → XR) × Frame XR))
    (h : RunStochastic (emSetting M) (emModel env) none 5 false true true out) : out.2 = .error .value := by
  obtain ⟨u, hu, _⟩ := em_run_state env M false
  rw [(C53_threads_stochastic (emSetting M) (emModel env) _ none 5 false true true u hu out h).1 (.inr (by show (4 : Int) < 5; norm_num))]

end Cheval
