import Verif.Props.NanUtil
import Verif.Props.AssignDefects
import Verif.Core.Rows

/-!
# C34: what becomes of utilities kept for other decision units
-/
set_option linter.unusedSectionVars false
namespace Cheval
open FOps Spec
variable {U F : Type} [DecidableEq U] [FOps F]

/-- calls that do not evaluate anything and do not add or copy models or top-level choices: what is done between two runs to give the
model new data -/
def Preparation : ModelOp U F → Prop
  | .setUnits _ | .declare _ _ | .assign _ _ | .clearScope | .expr _ | .setExpressions _ | .setExpressionsText _ | .setPrecision _
  | .setScale _ _ | .addNested _ _ _ => True
  | _ => False

theorem preparation_keeps (K : Kernel F) (env : PyEnv) (py : PyParser) {op : ModelOp U F} (h : Preparation op) (m : CModel U F) :
    (modelStep K env py m op).cached = m.cached := by
  cases op <;> simp only [Preparation] at h <;> simp only [modelStep]
  case setUnits u => rfl
  case declare n s => simp only [CModel.declare]; split <;> rfl
  case assign n d =>
    simp only [CModel.assign]
    split
    · rfl
    · split <;> rfl
  case clearScope => rfl
  case addNested a n s => rfl
  case setScale a v => rfl
  case setExpressions t => rfl
  case setExpressionsText t => rfl
  case setPrecision i => simp only [CModel.setPrecision]; split <;> rfl

theorem preparations_keep (K : Kernel F) (env : PyEnv) (py : PyParser) (ops : List (ModelOp U F)) (h : ∀ op ∈ ops, Preparation op)
    (m : CModel U F) : (modelRun K env py m ops).cached = m.cached := by
  induction ops generalizing m with
  | nil => rfl
  | cons op ops ih =>
    show (modelRun K env py (modelStep K env py m op) ops).cached = _
    rw [ih (fun o ho => h o (by simp [ho])), preparation_keeps K env py (h op (by simp))]

/-- **C34 (violated: what happens, same number of units)** Let a model have utilities `t` from an earlier run. However it is prepared
for new decision units (new units, declarations, data, expressions, scales, nested choices), its next run adds the values of the
expressions to the OLD utilities, by position: cell `(i, j)` starts from `t i j` and not from zero. -/
theorem C34_stale (K : Kernel F) {env : PyEnv} {py : PyParser} {m0 : CModel U F} {ix0 : List U} {t : Tab F} (h0 : m0.cached = some (ix0, t))
    {ops : List (ModelOp U F)} (hops : ∀ op ∈ ops, Preparation op) {m : CModel U F} (hmr : m = modelRun K env py m0 ops)
    {paths : List (List Name)} {depth : Nat} {units : List U}
    (hm : Consistent m paths depth units) (hheld : Held env py m.exprs) {g : Option Nat} {c : Container} (hc : m.container g = .ok c)
    (hv : m.validate true true true true g = .ok ()) {srcs : List Source}
    (hready : List.Forall₂ (Ready env m.scope paths depth) srcs c.exprs)
    (htab : ∀ y ∈ c.simple, ∀ o ma al t, dictGet m.scope y ≠ some (.table o ma al t))
    (hval : ∀ i j (_ : i < units.length) (hj : j < paths.length), (cellTotal K m.scope paths[j] i j srcs (t.val i j)).isSome) (clear : Bool)
    {m' : CModel U F} {u : Tab F} (hr : m.runUtilities K g clear = (m', .ok u)) :
    (∀ i j (_ : i < units.length) (hj : j < paths.length), some (u.val i j) = cellTotal K m.scope paths[j] i j srcs (t.val i j)) ∧
    m'.cached = some (ix0, u) := by
  have hcm : m.cached = some (ix0, t) := by rw [hmr, preparations_keep K env py ops hops, h0]
  have hst : ∀ i j, startAt m i j = t.val i j := fun i j => by simp only [startAt, hcm]
  obtain ⟨ix, u', -, -, h3, -, h5, h6⟩ := run_sound K hm hheld hc hv hready htab (fun i j hi hj => by rw [hst]; exact hval i j hi hj) clear
  rw [h6] at hr
  split at hr
  · cases hr
  · simp only [Prod.mk.injEq, Except.ok.injEq] at hr
    obtain ⟨rfl, rfl⟩ := hr
    refine ⟨fun i j hi hj => by rw [h3 i j hi hj, hst], ?_⟩
    rw [h5 _ _ hcm]

/-- the kept table has `n` rows, and the decision units are not `n` -/
def Mismatched (n : Nat) (m : CModel U F) : Prop :=
  (∃ ix t, m.cached = some (ix, t) ∧ t.rows = n) ∧ ∀ us, m.units = some us → us.length ≠ n

theorem evaluate_mismatched {K : Kernel F} {n : Nat} {m : CModel U F} (hp : Mismatched n m) (c : Container) :
    Mismatched n (m.evaluate K c).1 ∧ ∀ u, (m.evaluate K c).2 ≠ .ok u := by
  obtain ⟨⟨ix, u, hc, hr⟩, hu⟩ := hp
  have hp : Mismatched n m := ⟨⟨ix, u, hc, hr⟩, hu⟩
  unfold CModel.evaluate
  split
  · exact ⟨hp, by simp⟩
  · exact ⟨hp, by simp⟩
  · rename_i units labels hus hl
    have hpu : m.partialUtilities = (m, .ok (ix, u)) ∨ ∃ e, m.partialUtilities = (m, .error e) := by
      unfold CModel.partialUtilities
      split
      · exact .inr ⟨_, rfl⟩
      · exact .inr ⟨_, rfl⟩
      · exact .inr ⟨_, rfl⟩
      · rw [hc]; exact .inl rfl
    rcases hpu with hpu | ⟨e, hpu⟩
    · rw [hpu]
      simp only
      cases symLocals m.scope c.simple with
      | error e => exact ⟨hp, by simp⟩
      | ok syms =>
        simp only
        have hl := (evalLoop_size (K := K) (scope := m.scope) (labels := labels) (syms := syms) c.exprs u).1
        rcases he : evalLoop K m.scope labels syms c.exprs u with ⟨u1, r⟩
        rw [he] at hl
        simp only at hl
        have hm1 : Mismatched n { m with cached := some (ix, u1) } := ⟨⟨ix, u1, rfl, by rw [hl, hr]⟩, hu⟩
        cases r with
        | error e => exact ⟨hm1, by simp⟩
        | ok _ =>
          simp only
          split
          · exact ⟨hm1, by simp⟩
          · rw [if_pos (.inl (by rw [hl, hr]; exact (hu _ hus).symm))]
            exact ⟨hm1, by simp⟩
    · rw [hpu]; exact ⟨hp, by simp⟩

theorem run_mismatched {K : Kernel F} {n : Nat} {m : CModel U F} (hp : Mismatched n m) (g : Option Nat) (clear : Bool) :
    Mismatched n (m.runUtilities K g clear).1 ∧ ∀ u, (m.runUtilities K g clear).2 ≠ .ok u := by
  unfold CModel.runUtilities
  split
  · exact ⟨hp, by simp⟩
  · exact ⟨hp, by simp⟩
  · rename_i c _ _
    obtain ⟨h1, h2⟩ := evaluate_mismatched (K := K) hp c
    rcases he : m.evaluate K c with ⟨m1, r⟩
    rw [he] at h1 h2
    cases r with
    | error e => exact ⟨h1, by simp⟩
    | ok u => exact (h2 u rfl).elim

theorem addPartial_mismatched {n : Nat} {m : CModel U F} (hp : Mismatched n m) {tb : Table U (List Name) F} {rr rc : Bool}
    {out : CModel U F × Except Err Unit} (h : m.AddPartial tb rr rc out) : Mismatched n out.1 := by
  obtain ⟨⟨ix, u, hc, hr⟩, hu⟩ := hp
  have hp : Mismatched n m := ⟨⟨ix, u, hc, hr⟩, hu⟩
  unfold CModel.AddPartial at h
  split at h
  · subst h; exact hp
  · subst h; exact hp
  · split at h
    · subst h; exact hp
    · split at h
      · subst h; exact hp
      · split at h
        · subst h; exact hp
        · have hpu : m.partialUtilities = (m, .ok (ix, u)) ∨ ∃ e, m.partialUtilities = (m, .error e) := by
            unfold CModel.partialUtilities
            split
            · exact .inr ⟨_, rfl⟩
            · exact .inr ⟨_, rfl⟩
            · exact .inr ⟨_, rfl⟩
            · rw [hc]; exact .inl rfl
          rcases hpu with hpu | ⟨e, hpu⟩
          · rw [hpu] at h
            simp only at h
            obtain ⟨r, -, h⟩ := h
            cases r with
            | error e => simp only at h; subst h; exact hp
            | ok mem => simp only at h; subst h; exact ⟨⟨ix, _, rfl, hr⟩, hu⟩
          · rw [hpu] at h
            simp only at h
            subst h; exact hp

theorem step_mismatched {K : Kernel F} (env : PyEnv) (py : PyParser) {n : Nat} {m : CModel U F} (hp : Mismatched n m)
    (op : ModelOp U F) (hop : KeepsTable op) (hu : ∀ us, op = .setUnits us → us.length ≠ n) : Mismatched n (modelStep K env py m op) := by
  cases op with
  | setUnits u => exact ⟨hp.1, fun us h => by cases h; exact hu _ rfl⟩
  | declare n s => simp only [modelStep, CModel.declare]; split <;> exact hp
  | assign n d =>
    simp only [modelStep, CModel.assign]
    split
    · exact hp
    · split <;> exact hp
  | clearScope => exact hp
  | expr op => exact hp
  | addChoice n s => exact hop.elim
  | addNested h n s => exact hp
  | addChoices ns ss => exact hop.elim
  | setScale h v => exact hp
  | setExpressions ts => exact hp
  | setExpressionsText t => exact hp
  | addPartial tb rr rc out =>
    simp only [modelStep]
    split
    · rename_i h; exact addPartial_mismatched hp h
    · exact hp
  | setPrecision i => simp only [modelStep, CModel.setPrecision]; split <;> exact hp
  | run g c => exact (run_mismatched hp g c).1
  | preval k d c =>
    simp only [modelStep, CModel.preval]
    split
    · exact hp
    · exact hp
    · rename_i sg _ _
      obtain ⟨h1, h2⟩ := evaluate_mismatched (K := K) hp ⟨sg.simple, sg.chained, sg.exprs⟩
      rcases he : m.evaluate K ⟨sg.simple, sg.chained, sg.exprs⟩ with ⟨m1, r⟩
      rw [he] at h1 h2
      cases r with
      | error e => exact h1
      | ok u => exact (h2 u rfl).elim
  | copy a b c d e =>
    have he : e = true := hop
    subst he
    simp only [modelStep]
    cases hc : m.copy a b c d true with
    | error er => exact hp
    | ok m' =>
      obtain ⟨sc, _, rfl⟩ := copy_ok hc
      refine ⟨hp.1, fun us h => ?_⟩
      simp only at h
      split at h
      · exact hp.2 us h
      · cases h
  | copySubset ix mask => exact hop.elim

/-- **C34 (violated: what happens, another number of units)** Once a model has utilities for `n` decision units and is given decision units
that are not `n`, no run of any group succeeds any more, whatever is declared, assigned, added or removed in between: until a top-level
choice is added, a copy without utilities or a subset is made, or the number of units is `n` again. -/
theorem C34_stuck (K : Kernel F) (env : PyEnv) (py : PyParser) (m : CModel U F) {ix : List U} {t : Tab F} (hc : m.cached = some (ix, t))
    (us : List U) (hus : us.length ≠ t.rows) (ops : List (ModelOp U F)) (hops : ∀ op ∈ ops, KeepsTable op)
    (hunits : ∀ v, ModelOp.setUnits v ∈ ops → v.length ≠ t.rows) (g : Option Nat) (clear : Bool) (u : Tab F) :
    ((modelRun K env py (m.setUnits us) ops).runUtilities K g clear).2 ≠ .ok u := by
  have h0 : Mismatched t.rows (m.setUnits us) := ⟨⟨ix, t, hc, rfl⟩, fun v h => by cases h; exact hus⟩
  have : Mismatched t.rows (modelRun K env py (m.setUnits us) ops) := by
    generalize m.setUnits us = m1 at h0
    clear hc
    induction ops generalizing m1 with
    | nil => exact h0
    | cons op ops ih =>
      refine ih (fun o ho => hops o (by simp [ho])) (fun v hv => hunits v (by simp [hv])) _
        (step_mismatched env py h0 op (hops op (by simp)) fun v hv => hunits v (by simp [hv]))
  exact (run_mismatched this g clear).2 u

/-- C34_stuck: the example model after a run for the units 7 and 8, given three units and new data -/
example (env : PyEnv) (M : Arith XR) (g : Option Nat) (w : Tab XR) :
    ((modelRun (emKernel M) env emPy (emModel env) [.run none false, .setUnits [1, 2, 3], .declare exX (.number none), .assign exX (.number (.fin 1))]).runUtilities
      (emKernel M) g false).2 ≠ .ok w := by
  obtain ⟨u, h1, h2, _, _⟩ := em_run_state env M false
  have hstep : modelRun (emKernel M) env emPy (emModel env) [.run none false, .setUnits [1, 2, 3], .declare exX (.number none), .assign exX (.number (.fin 1))] =
      modelRun (emKernel M) env emPy (((emModel env).runUtilities (emKernel M) none false).1.setUnits [1, 2, 3])
        [.declare exX (.number none), .assign exX (.number (.fin 1))] := rfl
  rw [hstep]
  refine C34_stuck (emKernel M) env emPy _ (ix := [7, 8]) (t := u) (by rw [h1]) _ (by rw [h2]; decide) _ ?_ ?_ g false w
  · intro op hop
    simp only [List.mem_cons, List.not_mem_nil, or_false] at hop
    rcases hop with rfl | rfl <;> trivial
  · intro v hv
    simp at hv

/-! ## the example model, prepared for the units 1 and 2 with one expression `x` -/

def stIndex : List (Lab Nat) := [.unit 1, .unit 2]

noncomputable def stOps : List (ModelOp Nat XR) :=
  [.setUnits [1, 2], .assign exX (.series stIndex (.ok goodVector)), .expr .clear, .expr (.append exX none)]

noncomputable def stScope : List (Str × Sym XR) :=
  [(exX, .vector false (some (shapeVector false 2 goodVector))), (exT, .table true [] true none)]

noncomputable def stModel (env : PyEnv) (u : Tab XR) : CModel Nat XR :=
  { emModel env with cached := some ([7, 8], u), scope := stScope, units := some [1, 2], exprs := ⟨[emExpr1], [exX], [], []⟩ }

theorem st_state (K : Kernel XR) (env : PyEnv) (u : Tab XR) :
    modelRun K env emPy { emModel env with cached := some ([7, 8], u), scope := emScope } stOps = stModel env u := by
  have h1 : isNanName exX = false := by decide
  have h2 : splitFilter exX = .ok (exX, none) := by decide
  have h4 : emPy exX = .ok (.name exX) := rfl
  have e1 : parse env emPy exX [] [] = (([exX], []), .ok emExpr1) := by
    simp [parse, h2, h4, visit, visitName, h1, setAdd, emExpr1]
  have hne : ¬ exX = exT := by decide
  have h0 : ExprGroup.empty.simple = [] ∧ ExprGroup.empty.chained = [] := ⟨rfl, rfl⟩
  simp [modelRun, modelStep, stOps, CModel.setUnits, emScope, Sym.empty, CModel.assign, dictGet, Sym.assign, CModel.labels, CModel.decisionUnits,
    Except.map, stIndex, bind, Except.bind, dictSet, groupStep, ExprGroup.clear, ExprGroup.append, setUnion, setAdd, emExpr1, stModel, stScope, hne,
    h0, e1]
  exact ⟨⟨rfl, rfl⟩, Ne.symm hne⟩

theorem st_getx : dictGet stScope exX = some (.vector false (some (shapeVector false 2 goodVector))) := by simp [dictGet, stScope]

theorem st_total (M : Arith XR) (i j : Nat) (hj : j < emPaths.length) (start : ℝ) :
    cellTotal (emKernel M) stScope emPaths[j] i j [(.name exX, none)] (.fin start) = some (.fin (start + 100 * (i + 1))) := by
  have hx : isNanName exX = false := by decide
  have h1 : exX ≠ nanStr := by decide
  have h2 : exX ≠ outStr := by decide
  have h3 : exX ≠ negInfStr := by decide
  have hsym : (cellEnv (emKernel M) stScope emPaths[j] (.fin start) i j).sym exX = some (.num (.fin (100 * (i + 1)))) := by
    simp [cellEnv, h1, h2, h3, st_getx, symAt, shapeVector, goodVector]
  have ha : ∀ x, (emKernel M).acc (.fin start) (.num x) = some (add (.fin start) x) := fun _ => rfl
  have hs : cellStep (emKernel M) stScope emPaths[j] i j (.fin start) (.name exX, none) = some (.fin (start + 100 * (i + 1))) := by
    simp only [cellStep, filterMeans, if_true, den, hx, hsym, Bool.false_eq_true, if_false, Option.bind_some, ha]
    simp
  simp [cellTotal, List.foldlM, hs, pure]

/-- **C34** For example: utilities 100 and 200 (and 102, 202) for the units 7 and 8; the units become 1 and 2, with data 100 and 200 again
and the single expression `x`; the next run returns 200 for unit 1, not 100. -/
theorem C34_doubled_refuted (env : PyEnv) (M : Arith XR) : ∃ m' w,
    (modelRun (emKernel M) env emPy (emModel env) (.run none false :: stOps)).runUtilities (emKernel M) none false = (m', .ok w) ∧
    m'.units = some [1, 2] ∧ (∃ u, m'.cached = some ([7, 8], u)) ∧ w.val 0 0 = .fin 200 ∧
    cellTotal (emKernel M) m'.scope [['B']] 0 0 [(.name exX, none)] zero = some (.fin 100) := by
  obtain ⟨u, h1, h2, h3, h4⟩ := em_run_state env M false
  have hstep : modelRun (emKernel M) env emPy (emModel env) (.run none false :: stOps) = stModel env u := by
    rw [← st_state (emKernel M) env u]
    show modelRun _ _ _ ((emModel env).runUtilities (emKernel M) none false).1 stOps = _
    rw [h1]; rfl
  have hcons : Consistent (stModel env u) emPaths 2 [1, 2] := by
    have h := em_consistent env
    refine ⟨rfl, h.choices, ?_, ?_⟩
    · intro e he
      simp only [stModel, stScope, List.mem_cons, List.not_mem_nil, or_false] at he
      rcases he with rfl | rfl
      · exact ⟨rfl, rfl⟩
      · trivial
    · rintro ix' u' h
      simp only [stModel, Option.some.injEq, Prod.mk.injEq] at h
      obtain ⟨-, rfl⟩ := h
      exact ⟨h2, h3⟩
  have hc : (stModel env u).container none = .ok ⟨[exX], [], [emExpr1]⟩ := by
    simp [CModel.container, stModel, ExprGroup.itersimple, ExprGroup.iterchained, ExprGroup.all]
  have hv : (stModel env u).validate true true true true none = .ok () := by
    have h1 : exX ∉ reserved := by decide
    have ht : (stModel env u).tree = after exampleOps := rfl
    have hs : (stModel env u).scope = stScope := rfl
    have hu : (stModel env u).units = some [1, 2] := rfl
    simp [CModel.validate, ht, exampleOps_valid, hs, hc, CModel.decisionUnits, hu, checkSymbols, h1, st_getx,
      Sym.filled, bind, Except.bind]
  have hheld : Held env emPy (stModel env u).exprs := by
    have h0 : Held env emPy ({ emModel env with cached := some ([7, 8], u), scope := emScope } : CModel Nat XR).exprs := em_held env
    have := held_modelRun (emKernel M) h0 stOps
    rw [st_state] at this
    exact this
  have hready : List.Forall₂ (Ready env (stModel env u).scope emPaths 2) [(.name exX, none)] [emExpr1] := by
    have h := em_ready1 env
    exact .cons ⟨h.parsed, h.plain, h.filter, h.clash, h.internal, fun t ls sub ch h => by simp [emExpr1] at h, h.dicts⟩ .nil
  have htab : ∀ y ∈ [exX], ∀ o ma al t, dictGet (stModel env u).scope y ≠ some (.table o ma al t) := by
    intro y hy o ma al t h
    rw [List.mem_singleton] at hy
    subst hy
    have hs : (stModel env u).scope = stScope := rfl
    rw [hs, st_getx] at h
    cases h
  have hval : ∀ i j (_ : i < 2) (hj : j < emPaths.length),
      (cellTotal (emKernel M) (stModel env u).scope emPaths[j] i j [(.name exX, none)] (u.val i j)).isSome := by
    intro i j hi hj
    rw [h4 i j hi hj]
    exact Option.isSome_iff_exists.mpr ⟨_, st_total M i j hj _⟩
  have hrun : ∃ m' w, (stModel env u).runUtilities (emKernel M) none false = (m', .ok w) ∧ m'.units = some [1, 2] ∧ m'.scope = stScope := by
    obtain ⟨ix, w, e1, e2, e3, -, -, e6⟩ := run_sound (emKernel M) hcons hheld hc hv hready htab hval false
    have hn : hasNan w = false := by
      rw [Bool.eq_false_iff]
      intro hn
      obtain ⟨i, j, hi, hj, hx⟩ := (hasNan_iff w).mp hn
      rw [e1] at hi
      rw [e2] at hj
      have := e3 i j hi hj
      have hst : startAt (stModel env u) i j = u.val i j := rfl
      rw [hst, h4 i j hi hj] at this
      have hs : (stModel env u).scope = stScope := rfl
      rw [hs, st_total M i j hj] at this
      rw [Option.some.inj this] at hx
      simp [isNan, XR.isNan] at hx
    rw [hn] at e6
    exact ⟨_, _, e6, rfl, rfl⟩
  obtain ⟨m', w, hw, hun, hsc⟩ := hrun
  have hops : ∀ op ∈ stOps, Preparation op := by
    intro op hop
    simp only [stOps, List.mem_cons, List.not_mem_nil, or_false] at hop
    rcases hop with rfl | rfl | rfl | rfl <;> trivial
  have key := C34_stale (emKernel M) (m0 := { emModel env with cached := some ([7, 8], u), scope := emScope }) rfl hops
    (st_state (emKernel M) env u).symm hcons hheld hc hv hready htab hval false hw
  refine ⟨m', w, by rw [hstep]; exact hw, hun, ⟨w, key.2⟩, ?_, ?_⟩
  · have := key.1 0 0 (by decide) (by decide)
    rw [h4 0 0 (by decide) (by decide)] at this
    have hs : (stModel env u).scope = stScope := rfl
    rw [hs, st_total M 0 0 (by decide)] at this
    rw [Option.some.inj this]
    norm_num
  · rw [hsc]
    have := st_total M 0 0 (by decide) 0
    simpa [emPaths, zero] using this

end Cheval
