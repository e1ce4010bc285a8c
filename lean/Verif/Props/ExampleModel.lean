import Verif.Props.Utilities
import Verif.Props.Results

/-!
# A concrete model meeting the hypotheses of C27, C30, C35-C41

Choices B, A, A.x, A.y; decision units 7 and 8; a vector `x` over the units; a table `t` over the choices with column `a`;
expressions `x` and, in group 1, `t.a @ A.x`.
-/
namespace Cheval
open Spec FOps

/-- `ast.parse` of the two texts -/
def emPy : PyParser := fun t =>
  if t = exX then .ok (.name exX) else if t = exT then .ok (.attr (.name exT) exA) else .error .syntaxErr

def emFilter : Str := ['A', '.', 'x']
def emText2 : Str := ['t', '@', 'A', '.', 'x']

def emExpr1 : Expression := ⟨exX, .name exX, [], [], none, [exX]⟩
def emExpr2 : Expression := ⟨emText2, .name (subName exT 0), [(exT, [(subName exT 0, ⟨[exA], none⟩)])], [], some emFilter, []⟩

def emOps : List GroupOp := [.append exX none, .append emText2 (some 1)]

theorem em_exprs (env : PyEnv) : groupRun env emPy ExprGroup.empty emOps =
    ⟨[emExpr1], [exX], [exT], [(1, ⟨[], [exT], [emExpr2]⟩)]⟩ := by
  have h1 : isNanName exX = false := by decide
  have h2 : splitFilter exX = .ok (exX, none) := by decide
  have h3 : splitFilter emText2 = .ok (exT, some emFilter) := by decide
  have h4 : emPy exX = .ok (.name exX) := rfl
  have h5 : emPy exT = .ok (.attr (.name exT) exA) := rfl
  have e1 : parse env emPy exX [] [] = (([exX], []), .ok emExpr1) := by
    simp [parse, h2, h4, visit, visitName, h1, setAdd, emExpr1]
  have hne : exT ≠ exX := by decide
  have e2 : parse env emPy emText2 [exX] [] = (([exX], [exT]), .ok emExpr2) := by
    simp [parse, h3, h5, visit, visitAttr, nameOfAttr, addChain, hne, setAdd, emExpr2, dictGet, dictSet, subName]
  simp only [groupRun, emOps, List.foldl_cons, List.foldl_nil, groupStep, ExprGroup.append, ExprGroup.empty, e1]
  have e3 : setUnion [exX] emExpr1.symbols = [exX] := by simp [setUnion, emExpr1, setAdd]
  have e4 : setUnion [] (emExpr1.chains.map (·.1)) = [] := by simp [setUnion, emExpr1]
  simp only [e3, e4, e2]
  simp [dictSet, dictGet, SubGroup.append, setUnion, setAdd, emExpr2]

/-- the column `a`: 0, 1, 2, 3 for the four choices -/
noncomputable def emTable : TableData XR :=
  ⟨4, false, [exA], fun n => if n = exA then .ok fun j => .num (.fin j) else .error .attribute, fun _ _ => .error .attribute⟩

/-- `x`: 100, 200 for the two units -/
noncomputable def emVector : Arr XR := ⟨2, 1, fun i _ => .num (.fin (100 * (i + 1)))⟩

noncomputable def emScope : List (Str × Sym XR) :=
  [(exX, .vector false (some emVector)), (exT, .table true [] true (some emTable))]

noncomputable def emModel (env : PyEnv) : CModel Nat XR :=
  ⟨after exampleOps, groupRun env emPy ExprGroup.empty emOps, emScope, some [7, 8], none, 8⟩

def emPaths : List (List Name) := [[['B']], [['A']], [['A'], ['x']], [['A'], ['y']]]

theorem em_consistent (env : PyEnv) : Consistent (emModel env) emPaths 2 [7, 8] := by
  refine ⟨rfl, ?_, ?_, by intro ix u h; cases h⟩
  · obtain ⟨labels, h1, h2⟩ := labelled_after exampleOps exampleOps_clean exampleOps_valid
    refine ⟨labels, h1, ?_⟩
    rw [exampleOps_expected] at h2
    simpa [Choices.depth, emPaths] using h2
  · intro e he
    simp only [emModel, emScope, List.mem_cons, List.not_mem_nil, or_false] at he
    rcases he with rfl | rfl
    · exact ⟨rfl, rfl⟩
    · exact rfl

/-- the sources of the two expressions -/
def emSrcs : List Source := [(.name exX, none), (.attr (.name exT) exA, some emFilter)]

theorem em_get : dictGet emScope exT = some (.table true [] true (some emTable)) := by
  simp [dictGet, emScope, show ¬ exX = exT by decide]

theorem em_getx : dictGet emScope exX = some (.vector false (some emVector)) := by
  simp [dictGet, emScope]

theorem em_lookup : lookupCol emScope exT [exA] none = some (true, fun j => .num (.fin j)) := by
  simp [lookupCol, em_get, emTable]

theorem em_ready1 (env : PyEnv) : Ready env emScope emPaths 2 (.name exX, none) emExpr1 := by
  have h1 : isNanName exX = false := by decide
  refine ⟨⟨rfl, [], [], ⟨[exX], [], [], [], [exX]⟩, ?_, rfl, rfl, rfl⟩, by simp [Plain, PlainOver], by simp, by intro a ha; simp [emExpr1] at ha, ?_, ?_, ?_⟩
  · simp [visit, visitName, h1, freshParser, setAdd, emExpr1]
  · intro y hy
    simp only [emExpr1, List.mem_singleton] at hy
    subst hy
    refine ⟨?_, ?_⟩ <;> rintro ⟨t, ht⟩ <;> simp [subPrefix, dictPrefix, exX] at ht
  · intro t ls sub ch h; simp [emExpr1] at h
  · intro e he; simp [emExpr1] at he

theorem em_ready2 (env : PyEnv) : Ready env emScope emPaths 2 (.attr (.name exT) exA, some emFilter) emExpr2 := by
  refine ⟨⟨rfl, [], [], ⟨[], [exT], [(exT, [(subName exT 0, ⟨[exA], none⟩)])], [], []⟩, ?_, rfl, rfl, rfl⟩, by simp [Plain, PlainOver], ?_, ?_, ?_, ?_, ?_⟩
  · simp [visit, visitAttr, nameOfAttr, addChain, freshParser, setAdd, emExpr2, dictGet, dictSet, subName]
  · intro f hf
    cases hf
    exact ⟨[['A'], ['x']], by decide, by decide⟩
  · intro a ha d hd _ hc
    simp only [emExpr2, List.map_cons, List.map_nil, List.mem_singleton] at ha hc
    subst ha
    simp [hd] at hc
  · intro y hy; simp [emExpr2] at hy
  · intro t ls sub ch h1 h2
    simp only [emExpr2, List.mem_singleton, Prod.mk.injEq] at h1
    obtain ⟨rfl, rfl⟩ := h1
    simp only [List.mem_singleton, Prod.mk.injEq] at h2
    obtain ⟨rfl, rfl⟩ := h2
    exact ⟨by simp [em_lookup], by simp⟩
  · intro e he; simp [emExpr2] at he

theorem em_container (env : PyEnv) : (emModel env).container none = .ok ⟨[exX], [exT, exT], [emExpr1, emExpr2]⟩ := by
  simp [CModel.container, emModel, em_exprs, ExprGroup.itersimple, ExprGroup.iterchained, ExprGroup.all]

theorem em_container1 (env : PyEnv) : (emModel env).container (some 1) = .ok ⟨[], [exT], [emExpr2]⟩ := by
  simp [CModel.container, emModel, em_exprs, ExprGroup.getGroup, dictGet, Except.map]

theorem em_valid (env : PyEnv) : (emModel env).validate true true true true none = .ok () := by
  have h1 : exX ∉ reserved := by decide
  have h2 : exT ∉ reserved := by decide
  have ht : (emModel env).tree = after exampleOps := rfl
  have hs : (emModel env).scope = emScope := rfl
  have hu : (emModel env).units = some [7, 8] := rfl
  simp [CModel.validate, ht, exampleOps_valid, hs, em_container, CModel.decisionUnits, hu, checkSymbols, h1, h2, em_get, em_getx,
    Sym.filled, bind, Except.bind]

theorem em_valid1 (env : PyEnv) : (emModel env).validate true true true true (some 1) = .ok () := by
  have h2 : exT ∉ reserved := by decide
  have ht : (emModel env).tree = after exampleOps := rfl
  have hs : (emModel env).scope = emScope := rfl
  have hu : (emModel env).units = some [7, 8] := rfl
  simp [CModel.validate, ht, exampleOps_valid, hs, em_container1, CModel.decisionUnits, hu, checkSymbols, h2, em_get,
    Sym.filled, bind, Except.bind]

theorem em_held (env : PyEnv) : Held env emPy (emModel env).exprs := (Held.empty env emPy).run emOps

theorem em_noTable (env : PyEnv) : ∀ y ∈ [exX], ∀ o ma al t, dictGet (emModel env).scope y ≠ some (.table o ma al t) := by
  intro y hy o ma al t h
  rw [List.mem_singleton] at hy
  subst hy
  have hs : (emModel env).scope = emScope := rfl
  rw [hs, em_getx] at h
  cases h

/-- a kernel that adds -/
noncomputable def emKernel (M : Arith XR) : Kernel XR := { M with acc := fun a v => match v with
  | .num x => some (add a x)
  | _ => none }

theorem em_orderFree (M : Arith XR) : OrderFree (emKernel M) := C35_exact_order_free _ fun _ _ => rfl

theorem em_outFree : ∀ x ∈ emSrcs, ¬ Mentions outStr x.1 := by
  intro x hx
  simp only [emSrcs, List.mem_cons, List.not_mem_nil, or_false] at hx
  rcases hx with rfl | rfl
  · simp [Mentions]; decide
  · simp [Mentions]

theorem em_symx (M : Arith XR) (p : List Name) (cur : XR) (i j : Nat) :
    (cellEnv (emKernel M) emScope p cur i j).sym exX = some (.num (.fin (100 * (i + 1)))) := by
  have h1 : exX ≠ nanStr := by decide
  have h2 : exX ≠ outStr := by decide
  have h3 : exX ≠ negInfStr := by decide
  simp [cellEnv, h1, h2, h3, em_getx, symAt, emVector]

/-- the utilities: 100 or 200, and 2 more for choice A.x -/
theorem em_total (M : Arith XR) (i j : Nat) (hj : j < emPaths.length) (start : ℝ) :
    cellTotal (emKernel M) emScope emPaths[j] i j emSrcs (.fin start) =
      some (.fin (start + 100 * (i + 1) + if j = 2 then 2 else 0)) := by
  have hx : isNanName exX = false := by decide
  have s1 : cellStep (emKernel M) emScope emPaths[j] i j (.fin start) (.name exX, none) = some (.fin (start + 100 * (i + 1))) := by
    simp only [cellStep, filterMeans, if_true, den, hx, em_symx, Bool.false_eq_true, if_false]
    simp [emKernel]
  have s2 : ∀ cur : ℝ, cellStep (emKernel M) emScope emPaths[j] i j (.fin cur) (.attr (.name exT) exA, some emFilter) =
      some (.fin (cur + if j = 2 then 2 else 0)) := by
    intro cur
    have hd : den (emKernel M).toArith (cellEnv (emKernel M) emScope emPaths[j] (.fin cur) i j) (.attr (.name exT) exA) = some (.num (.fin j)) := by
      simp [den, dotted, cellEnv, em_lookup]
    by_cases h2 : j = 2
    · subst h2
      have : filterMeans emPaths[2] (some emFilter) = true := by clear s1 hd; revert hj; decide
      have ha : ∀ x, (emKernel M).acc (.fin cur) (.num x) = some (add (.fin cur) x) := fun _ => rfl
      simp only [cellStep, this, if_true, hd, Option.bind_some, ha]
      simp
    · have hf : filterMeans emPaths[j] (some emFilter) = false := by
        have : j < 4 := hj
        have h4 : j = 0 ∨ j = 1 ∨ j = 3 := by omega
        clear s1 hd; revert hj; rcases h4 with rfl | rfl | rfl <;> decide
      simp [cellStep, hf, h2]
  have : cellTotal (emKernel M) emScope emPaths[j] i j emSrcs (.fin start) =
      (cellStep (emKernel M) emScope emPaths[j] i j (.fin start) (.name exX, none)).bind fun b =>
      (cellStep (emKernel M) emScope emPaths[j] i j b (.attr (.name exT) exA, some emFilter)) := by
    simp [cellTotal, emSrcs, List.foldlM, bind, pure]
  rw [this, s1, Option.bind_some, s2]

/-- the hypotheses of `C35_sum` hold for this model, whose run gives these utilities -/
theorem em_run (env : PyEnv) (M : Arith XR) (clear : Bool) : ∃ u : Tab XR, ((emModel env).runUtilities (emKernel M) none clear).2 = .ok u ∧
    u.rows = 2 ∧ u.cols = 4 ∧ ∀ i j, i < 2 → j < 4 → u.val i j = .fin (100 * (i + 1) + if j = 2 then 2 else 0) := by
  obtain ⟨u, h1, h2, h3, h4, _⟩ := C35_sum (emKernel M) (em_consistent env) (em_held env) (em_container env) (em_valid env) (srcs := emSrcs)
    (.cons (em_ready1 env) (.cons (em_ready2 env) .nil)) (em_noTable env)
    (by intro i j _ hj; exact Option.isSome_iff_exists.mpr ⟨_, em_total M i j hj 0⟩) clear
  have hv : ∀ i j, i < 2 → j < 4 → u.val i j = .fin (100 * (i + 1) + if j = 2 then 2 else 0) := by
    intro i j hi hj
    have := h3 i j hi hj
    have h0 : startAt (emModel env) i j = .fin 0 := rfl
    have hs : (emModel env).scope = emScope := rfl
    rw [h0, hs, em_total M i j hj 0] at this
    rw [Option.some.inj this]
    simp
  refine ⟨u, ?_, h1, h2, hv⟩
  rw [h4, if_neg]
  rintro ⟨i, j, hi, hj, h⟩
  rw [hv i j hi hj] at h
  simp at h

/-- the same, with the state after the run -/
theorem em_run_state (env : PyEnv) (M : Arith XR) (clear : Bool) : ∃ u : Tab XR,
    (emModel env).runUtilities (emKernel M) none clear =
      ({ emModel env with cached := some ([7, 8], u), scope := if clear then [] else emScope }, .ok u) ∧
    u.rows = 2 ∧ u.cols = 4 ∧ ∀ i j, i < 2 → j < 4 → u.val i j = .fin (100 * (i + 1) + if j = 2 then 2 else 0) := by
  obtain ⟨ix, u, h1, h2, h3, h4, _, h5⟩ := run_sound (emKernel M) (em_consistent env) (em_held env) (em_container env) (em_valid env)
    (srcs := emSrcs) (.cons (em_ready1 env) (.cons (em_ready2 env) .nil)) (em_noTable env)
    (by intro i j _ hj; exact Option.isSome_iff_exists.mpr ⟨_, em_total M i j hj 0⟩) clear
  have hv : ∀ i j, i < 2 → j < 4 → u.val i j = .fin (100 * (i + 1) + if j = 2 then 2 else 0) := by
    intro i j hi hj
    have := h3 i j hi hj
    have h0 : startAt (emModel env) i j = .fin 0 := rfl
    have hs : (emModel env).scope = emScope := rfl
    rw [h0, hs, em_total M i j hj 0] at this
    rw [Option.some.inj this]
    simp
  have hix := h4 rfl
  subst hix
  refine ⟨u, ?_, h1, h2, hv⟩
  rw [h5, if_neg]
  · rfl
  · rw [hasNan_iff]
    rintro ⟨i, j, hi, hj, h⟩
    rw [h1] at hi; rw [h2] at hj
    rw [hv i j hi hj] at h
    simp at h

end Cheval
