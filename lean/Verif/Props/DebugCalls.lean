import Verif.Core.DebugCalls
import Verif.Core.ModelHistory
import Verif.Props.Debug
import Verif.Props.AssignDefects

/-!
# C68: `debug_id` in `preval` and in copies
-/
namespace Cheval
open Spec FOps
variable {U F : Type} [DecidableEq U] [FOps F]

theorem preval_split (K : Kernel F) (m : CModel U F) (k : Nat) (drop cleanup : Bool) :
    m.preval K k drop cleanup = match m.validate true true true true (some k), m.exprs.getGroup k with
      | .error e, _ => (m, .error e)
      | .ok _, .error e => (m, .error e)
      | .ok _, .ok sg =>
        match m.evaluate K ⟨sg.simple, sg.chained, sg.exprs⟩ with
        | (m, .error e) => (m, .error e)
        | (m, .ok u) => m.prevalEnd k sg u drop cleanup := rfl

theorem container_some (m : CModel U F) (k : Nat) :
    m.container (some k) = (m.exprs.getGroup k).map fun g => ⟨g.simple, g.chained, g.exprs⟩ := rfl

/-- the debugging table of `preval` is that of a run of the group -/
theorem preval_results {truthy : U → Bool} (K : Kernel F) (d : DModel U F) (k : Nat) (drop cleanup clear : Bool) :
    (d.preval truthy K k drop cleanup).1.results = (d.runUtilities truthy K (some k) clear).1.results := by
  unfold DModel.preval DModel.runUtilities
  rw [container_some]
  cases d.base.validate true true true true (some k) with
  | error e => rfl
  | ok _ =>
    cases d.base.exprs.getGroup k with
    | error e => rfl
    | ok sg =>
      simp only [Except.map]
      rcases d.evaluate truthy K ⟨sg.simple, sg.chained, sg.exprs⟩ with ⟨d', e | u⟩
      · rfl
      · cases clear <;> rfl

/-- **C68 (preval)** Under the hypotheses of C68_debug_partial for the expressions of a group: after `preval` of the group, `debug_results` has
one row per expression of the group, in order and labelled with its text, and row `k` shows the utilities of the unit after the first `k + 1`
of them. -/
theorem C68_preval {truthy : U → Bool} (K : Kernel F) {env : PyEnv} {py : PyParser} {d : DModel U F} {paths : List (List Name)}
    {depth : Nat} {units : List U} (hm : Consistent d.base paths depth units) (hheld : Held env py d.base.exprs) {g : Nat}
    {c : Container} (hc : d.base.container (some g) = .ok c) (hv : d.base.validate true true true true (some g) = .ok ()) {srcs : List Source}
    (hready : List.Forall₂ (Ready env d.base.scope paths depth) srcs c.exprs)
    (htab : ∀ y ∈ c.simple, ∀ o ma al t, dictGet d.base.scope y ≠ some (.table o ma al t))
    (hval : ∀ i j (_ : i < units.length) (hj : j < paths.length),
      (cellTotal K d.base.scope paths[j] i j srcs (startAt d.base i j)).isSome)
    (drop cleanup : Bool) {id : U} (hd : d.debugId = some id) (ht : truthy id = true) {p : Nat} (hp : units[p]? = some id)
    (hone : ∀ q, units[q]? = some id → q = p) :
    ∃ t : DebugTab F, (d.preval truthy K g drop cleanup).1.results = some t ∧ t.index = c.exprs.map (·.raw) ∧
      choices d.base.tree = .ok t.cols ∧ t.rows.length = c.exprs.length ∧ (∀ r ∈ t.rows, r.length = paths.length) ∧
      ∀ k j (_ : k < c.exprs.length) (hj : j < paths.length),
        t.rows[k]?.bind (·[j]?) = cellTotal K d.base.scope paths[j] p j (srcs.take (k + 1)) (startAt d.base p j) := by
  obtain ⟨t, h1, h⟩ := C68_debug_partial K hm hheld hc hv hready htab hval false hd ht hp hone
  exact ⟨t, by rw [preval_results K d g drop cleanup false]; exact h1, h⟩

/-- **C68 (preval)** Debugging changes nothing else: `preval` of a model with a `debug_id` naming one decision unit has the same outcome and
leaves the same model as without. -/
theorem C68_preval_transparent {truthy : U → Bool} (K : Kernel F) {d : DModel U F} {units : List U} (hu : d.base.units = some units) {id : U}
    (hd : d.debugId = some id) (ht : truthy id = true) {p : Nat} (hp : units[p]? = some id) (hone : ∀ q, units[q]? = some id → q = p)
    {labels : List (List Name)} (hlab : choices d.base.tree = .ok labels)
    (hsize : ∀ ix u, d.base.cached = some (ix, u) → u.rows = units.length ∧ u.cols = labels.length) (g : Nat) (drop cleanup : Bool) :
    (d.preval truthy K g drop cleanup).1.base = (d.base.preval K g drop cleanup).1 ∧
    (d.preval truthy K g drop cleanup).2 = (d.base.preval K g drop cleanup).2 := by
  rw [preval_split]
  unfold DModel.preval
  cases d.base.validate true true true true (some g) with
  | error e => exact ⟨rfl, rfl⟩
  | ok _ =>
    cases d.base.exprs.getGroup g with
    | error e => exact ⟨rfl, rfl⟩
    | ok sg =>
      obtain ⟨h1, h2, -, -⟩ := debug_evaluate_on (truthy := truthy) K ⟨sg.simple, sg.chained, sg.exprs⟩ hu hd ht hp hone hlab hsize
      simp only
      rcases hx : d.evaluate truthy K ⟨sg.simple, sg.chained, sg.exprs⟩ with ⟨d', r⟩
      rcases hy : d.base.evaluate K ⟨sg.simple, sg.chained, sg.exprs⟩ with ⟨m', r'⟩
      rw [hx, hy] at h1 h2
      simp only at h1 h2
      subst h1 h2
      cases r with
      | error e => exact ⟨rfl, rfl⟩
      | ok u => exact ⟨rfl, rfl⟩

/-- **C68 (copies), the part that fails** A copy takes over `debug_id` but no results. A copy_subset that leaves out the debugged unit therefore
cannot be run or pre-evaluated: every call that passes validation raises KeyError, for whatever group, and changes nothing. -/
theorem C68_subset_refuted {truthy : U → Bool} (K : Kernel F) {d d' : DModel U F} {units : List U} (hu : d.base.units = some units) {id : U}
    (hd : d.debugId = some id) (ht : truthy id = true) {labels : List (List Name)} (hlab : choices d.base.tree = .ok labels)
    {mask : List Bool} (hs : d.copySubset units mask = .ok d') (hout : ∀ i : Nat, mask[i]? = some true → units[i]? ≠ some id) :
    d'.debugId = some id ∧ d'.results = none ∧
    (∀ g clear, d'.base.validate true true true true g = .ok () → d'.runUtilities truthy K g clear = (d', .error .key)) ∧
    (∀ g drop cleanup, d'.base.validate true true true true (some g) = .ok () → d'.preval truthy K g drop cleanup = (d', .error .key)) := by
  unfold DModel.copySubset at hs
  cases hc : d.base.copySubset units mask with
  | error e => rw [hc] at hs; cases hs
  | ok m =>
    rw [hc] at hs
    simp only [Except.map, Except.ok.injEq] at hs
    subst hs
    obtain ⟨-, -, scope, cached, -, -, rfl⟩ := copySubset_ok hc
    have hid : id ∉ (maskPositions mask).filterMap fun i => units[i]? := by
      intro h
      obtain ⟨i, hi, h⟩ := List.mem_filterMap.mp h
      simp only [maskPositions, List.mem_filter, List.mem_range] at hi
      refine hout i ?_ h
      rw [List.getElem?_eq_getElem hi.1]
      have := hi.2
      rw [List.getD_eq_getElem?_getD, List.getElem?_eq_getElem hi.1] at this
      simpa using this
    have hrun : ∀ g clear, CModel.validate (F := F) ⟨d.base.tree, d.base.exprs.copy, scope, some ((maskPositions mask).filterMap fun i => units[i]?),
        cached, d.base.precision⟩ true true true true g = .ok () → _ := fun g clear h =>
      C68_unknown (truthy := truthy) K (d := ⟨⟨d.base.tree, d.base.exprs.copy, scope, some ((maskPositions mask).filterMap fun i => units[i]?), cached,
        d.base.precision⟩, d.debugId, none⟩) rfl hd ht hid (g := g) clear h hlab
    refine ⟨hd, rfl, hrun, fun g drop cleanup h => ?_⟩
    have h1 := hrun (some g) false h
    unfold DModel.runUtilities at h1
    rw [container_some] at h1
    unfold DModel.preval
    simp only [h] at h1 ⊢
    cases hg : d.base.exprs.copy.getGroup g with
    | error e =>
      rw [hg] at h1
      simp only [Except.map, Prod.mk.injEq, Except.error.injEq, true_and] at h1
      simp [h1]
    | ok sg =>
      rw [hg] at h1
      simp only [Except.map] at h1 ⊢
      rcases hx : DModel.evaluate truthy K (⟨⟨d.base.tree, d.base.exprs.copy, scope, some ((maskPositions mask).filterMap fun i => units[i]?), cached,
        d.base.precision⟩, d.debugId, none⟩ : DModel U F) ⟨sg.simple, sg.chained, sg.exprs⟩ with ⟨d', e | u⟩
      · rw [hx] at h1
        simp only [Prod.mk.injEq] at h1
        have h2 : e = Err.key := by injection h1.2
        simp [h1.1, h2]
      · rw [hx] at h1
        simp at h1

/-! ## concrete cases -/

/-- the second expression of the example alone -/
theorem em_total2 (M : Arith XR) (i j : Nat) (hj : j < emPaths.length) (cur : ℝ) :
    cellTotal (emKernel M) emScope emPaths[j] i j [(.attr (.name exT) exA, some emFilter)] (.fin cur) =
      some (.fin (cur + if j = 2 then 2 else 0)) := by
  have h := em_total M i j hj (cur - 100 * (i + 1))
  have hx : isNanName exX = false := by decide
  have s1 : cellStep (emKernel M) emScope emPaths[j] i j (.fin (cur - 100 * (i + 1))) (.name exX, none) = some (.fin cur) := by
    simp only [cellStep, filterMeans, if_true, den, hx, em_symx, Bool.false_eq_true, if_false]
    simp [emKernel]
  unfold cellTotal at h ⊢
  rw [emSrcs, List.foldlM_cons, s1] at h
  simpa using h

/-- the second unit of the example model, in `preval` of group 1 (`t.a @ A.x`): one row, 2 for A.x and 0 otherwise -/
example (env : PyEnv) (M : Arith XR) (drop cleanup : Bool) : ∃ t : DebugTab XR,
    ((⟨emModel env, some 8, none⟩ : DModel Nat XR).preval numTruth (emKernel M) 1 drop cleanup).1.results = some t ∧
    t.index = [emText2] ∧ t.rows.length = 1 ∧ ∀ j < 4, t.rows[0]?.bind (·[j]?) = some (.fin (if j = 2 then 2 else 0)) := by
  have hs : (emModel env).scope = emScope := rfl
  have h0 : ∀ i j, startAt (emModel env) i j = .fin 0 := fun _ _ => rfl
  obtain ⟨t, h1, h2, -, h4, -, h6⟩ := C68_preval (truthy := numTruth) (emKernel M) (d := ⟨emModel env, some 8, none⟩) (em_consistent env)
    (em_held env) (em_container1 env) (em_valid1 env) (srcs := [(.attr (.name exT) exA, some emFilter)]) (.cons (em_ready2 env) .nil)
    (by intro y hy; cases hy) (by intro i j _ hj; simp only [hs, h0, em_total2]; rfl) drop cleanup rfl (by decide) (p := 1) rfl (by
      intro q hq
      match q, hq with
      | 1, _ => rfl
      | 0, h => cases h
      | q + 2, h => simp at h)
  refine ⟨t, h1, h2, h4, fun j hj => ?_⟩
  rw [h6 0 j (by simp) hj]
  simp only [hs, h0, List.take_succ_cons, List.take_zero]
  rw [em_total2 M 1 j hj, zero_add]

/-- the example model with debug_id 7, restricted to unit 8: no run and no `preval` succeeds any more -/
example (env : PyEnv) (M : Arith XR) : ∃ d' : DModel Nat XR,
    (⟨emModel env, some 7, none⟩ : DModel Nat XR).copySubset [7, 8] [false, true] = .ok d' ∧ d'.base.units = some [8] ∧
    d'.base.validate true true true true none = .ok () ∧
    (∀ clear, d'.runUtilities numTruth (emKernel M) none clear = (d', .error .key)) ∧
    ∀ drop cleanup, d'.preval numTruth (emKernel M) 1 drop cleanup = (d', .error .key) := by
  have hcopy : ∃ m', (emModel env).copySubset [7, 8] [false, true] = .ok m' ∧ m'.units = some [8] ∧
      m'.validate true true true true none = .ok () ∧ m'.validate true true true true (some 1) = .ok () := by
    have hs : (emModel env).scope = emScope := rfl
    have hu : (emModel env).units = some [7, 8] := rfl
    have hc : (emModel env).cached = none := rfl
    have h1 : exX ∉ reserved := by decide
    have h2 : exT ∉ reserved := by decide
    have ht : (emModel env).tree = after exampleOps := rfl
    have hx : (emModel env).exprs = groupRun env emPy ExprGroup.empty emOps := rfl
    have hne : exX ≠ exT := by decide
    have hr : SubGroup.rebuild ⟨[], [exT], [emExpr2]⟩ = ⟨[], [exT], [emExpr2]⟩ := rfl
    have hr1 : setUnion [] emExpr1.symbols = [exX] := by decide
    have hr2 : emExpr1.chains = [] := rfl
    have hr3 : setUnion [] ([] : List Str) = [] := rfl
    unfold CModel.copySubset
    simp [hr, hr1, hr2, hr3, hs, hu, hc, copyScope, emScope, Sym.copy, Arr.take, emVector, emTable, bind, Except.bind, pure, Except.pure, Except.map, maskPositions,
      List.range_succ, CModel.validate, ht, exampleOps_valid, CModel.container, ExprGroup.copy, hx, em_exprs, ExprGroup.itersimple, ExprGroup.iterchained,
      ExprGroup.all, ExprGroup.getGroup, CModel.decisionUnits, checkSymbols, h1, h2, dictGet, Sym.filled, hne, hne.symm]
  obtain ⟨m', hm, hu, hv, hv1⟩ := hcopy
  have hd : (⟨emModel env, some 7, none⟩ : DModel Nat XR).copySubset [7, 8] [false, true] = .ok ⟨m', some 7, none⟩ := by
    simp [DModel.copySubset, hm, Except.map]
  obtain ⟨-, -, h3, h4⟩ := C68_subset_refuted (truthy := numTruth) (emKernel M) rfl rfl (by decide) (em_choices env) hd (by
    intro i hi
    match i, hi with
    | 1, _ => simp
    | 0, h => cases h
    | i + 2, h => simp at h)
  exact ⟨_, hd, hu, hv, fun clear => h3 none clear hv, fun drop cleanup => h4 1 drop cleanup hv1⟩

end Cheval
