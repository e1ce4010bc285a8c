import Verif.Props.RunDiscrete
import Verif.Props.NanUtil

/-!
# C20 for the whole calls `run_stochastic` and `run_discrete`: from the utilities of a model to labelled results

The utilities are those of C35 (`runUtilities`). Exact arithmetic.
-/
namespace Cheval
open FOps Spec
variable {U R V : Type}

theorem runUtilities_ok {F : Type} [FOps F] {K : Kernel F} {m m' : CModel U F} {g : Option Nat} {clear : Bool} {u : Tab F}
    (h : m.runUtilities K g clear = (m', .ok u)) :
    m.validate true true true true g = .ok () ∧ (∃ ix, m'.cached = some (ix, u)) ∧ m'.tree = m.tree ∧ m'.units = m.units ∧
    (∀ us, m.units = some us → u.rows = us.length) ∧ ∃ labels, choices m.tree = .ok labels ∧ u.cols = labels.length := by
  have hk := runUtilities_keeps K m g clear
  have hca := runUtilities_cached h
  rw [h] at hk
  have ht : m'.tree = m.tree ∧ m'.units = m.units := by
    obtain ⟨t, hk | hk⟩ := hk <;> simp only at hk <;> subst hk <;> exact ⟨rfl, rfl⟩
  unfold CModel.runUtilities at h
  split at h
  · cases h
  · cases h
  · rename_i c hv hc
    rcases he : m.evaluate K c with ⟨m2, r⟩
    rw [he] at h
    cases r with
    | error e => cases h
    | ok u2 =>
      simp only [Prod.mk.injEq, Except.ok.injEq] at h
      obtain ⟨_, rfl⟩ := h
      obtain ⟨_, _, h3, h4⟩ := evaluate_ok he
      exact ⟨hv, hca, ht.1, ht.2, h3, h4⟩

theorem toRows_eq {u : Tab XR} {n : Nat} {W : Nat → Nat → Util} (hc : u.cols = n)
    (hW : ∀ i < u.rows, ∀ j < u.cols, u.val i j = util (W i j)) : u.toRows = (List.range u.rows).map fun i => row n (W i) := by
  subst hc
  unfold Tab.toRows row arr
  refine List.map_congr_left fun i hi => List.map_congr_left fun j hj => ?_
  exact hW i (List.mem_range.mp hi) j (List.mem_range.mp hj)

theorem validateTree_of_validate {F : Type} [FOps F] {m : CModel U F} {g : Option Nat} (h : m.validate true true true true g = .ok ()) :
    validateTree m.tree = .ok () := by
  unfold CModel.validate at h
  simp only [if_true, bind, Except.bind] at h
  split at h
  · cases h
  · rename_i hv; exact hv

/-- the cell of a result for a decision unit and a draw -/
def ResObj.cell : ResObj V → Nat → Nat → ResCell V
  | .series val, i, _ => val i
  | .frame _ val, i, c => val i c

theorem takeAt_nat {len k : Nat} (h : k < len) : takeAt len (k : Int) = some k := by
  unfold takeAt
  rw [if_pos (by omega), if_pos (by simpa using h)]
  simp

section nested
variable (ops : List (TreeOp XR)) (hc : CleanRun Choices.empty ops) (hd : 1 < (expected ops).depth)
include hc hd

open Classical in
/-- **C20 (run_stochastic, nested models)** A call of run_stochastic on a model with the choices of `ops`, whose utilities can be computed
and are finite or -inf with an available elemental choice for every decision unit, returns the textbook nested logit probabilities
under the labels of the elemental choices, summing to 1 for each unit. -/
theorem C20_run_stochastic_nested (s : Setting XR R) (m m' : CModel U XR) (hm : m.tree = after ops) (group : Option Nat) (threads : Int)
    (clear scaled check : Bool) (u : Tab XR) (hu : m.runUtilities s.K group clear = (m', .ok u)) (h1 : 1 ≤ threads)
    (h2 : threads ≤ s.maxThreads) (W : Nat → Nat → Util) (hW : ∀ i < u.rows, ∀ j < u.cols, u.val i j = util (W i j))
    (hfeas : ∀ i < u.rows, ∃ l < (expected ops).live.length, (expected ops).tree.Leaf l ∧ (expected ops).tree.Open (W i) l)
    (out : CModel U XR × Except Err (Frame XR × (Nat → XR) × Frame XR))
    (h : RunStochastic s m group threads clear scaled check out) :
    ∃ fr ls nls, out = (m', .ok (fr, ls, nls)) ∧ elementalChoices m.tree = .ok fr.cols ∧ choices m.tree = .ok nls.cols ∧
      ∀ i < u.rows, ∃ T P, (expected ops).tree.IsNestedLogit scaled (W i) T P ∧
        (∀ j (_ : j < fr.cols.length), ∃ k, ∃ _ : k < (expected ops).live.length,
          fr.cols[j] = pad (expected ops).depth (expected ops).live[k].path ∧ (expected ops).tree.Leaf k ∧ fr.val i j = .fin (P k)) ∧
        (∀ k < (expected ops).live.length, nls.val i k = .fin (T k)) ∧
        ls i = .fin (∑ k ∈ (expected ops).tree.tops, T k) ∧
        ∑ j ∈ Finset.range fr.cols.length, realOf (fr.val i j) = 1 := by
  obtain ⟨hv, _, ht, _, _, labels, hl1, hl2⟩ := runUtilities_ok hu
  have hvt := validateTree_of_validate hv
  rw [hm] at hvt hl1
  have hcols : u.cols = (expected ops).live.length := by
    rw [choices_eq (rel_after ops hc) hvt] at hl1
    cases hl1; simpa using hl2
  unfold RunStochastic at h
  simp only [hu] at h
  rw [if_neg (by omega)] at h
  obtain ⟨res, hst, rfl⟩ := h
  rw [ht, hm, toRows_eq hcols hW] at hst
  obtain ⟨fr, ls, nls, rfl, e1, e2, e3⟩ := C20_stochastic_nested ops hc hd hvt scaled check u.rows W hfeas res hst
  exact ⟨fr, ls, nls, rfl, hm ▸ e1, hm ▸ e2, e3⟩

open Classical in
/-- **C20 (run_discrete, nested models)** Under the same conditions and with at least one draw, run_discrete returns, for every decision
unit and draw, the label of an elemental choice with positive probability. -/
theorem C20_run_discrete_nested (s : Setting XR R) (hg : s.rng.InUnit) (m m' : CModel U XR) (hm : m.tree = after ops) (a : DiscreteArgs R V)
    (ha : a.astype = .category) (hseed : ∀ e, a.seed ≠ .bad e) (hn : 1 ≤ a.nDraws) (u : Tab XR)
    (hu : m.runUtilities s.K none a.clear = (m', .ok u)) (h1 : 1 ≤ a.nThreads)
    (h2 : a.nThreads ≤ s.maxThreads) (W : Nat → Nat → Util) (hW : ∀ i < u.rows, ∀ j < u.cols, u.val i j = util (W i j))
    (hfeas : ∀ i < u.rows, ∃ l < (expected ops).live.length, (expected ops).tree.Leaf l ∧ (expected ops).tree.Open (W i) l)
    (out : CModel U XR × SeedArg R × Except Err (ResObj V × (Nat → XR))) (h : RunDiscrete s m a out) :
    ∃ seed' r ls el, out = (m', seed', .ok (r, ls)) ∧ elementalChoices m.tree = .ok el ∧
      ∀ i < u.rows, ∃ T P, (expected ops).tree.IsNestedLogit a.scale (W i) T P ∧
        ls i = .fin (∑ k ∈ (expected ops).tree.tops, T k) ∧
        ∀ c < a.nDraws.toNat, ∃ k, ∃ _ : k < (expected ops).live.length,
          r.cell i c = .label (pad (expected ops).depth (expected ops).live[k].path) ∧
          pad (expected ops).depth (expected ops).live[k].path ∈ el ∧ (expected ops).tree.Leaf k ∧ 0 < P k := by
  obtain ⟨hv, _, ht, _, _, labels, hl1, hl2⟩ := runUtilities_ok hu
  have hvt := validateTree_of_validate hv
  rw [hm] at hvt hl1
  have hch := choices_eq (rel_after ops hc) hvt
  have hcols : u.cols = (expected ops).live.length := by
    rw [hch] at hl1
    cases hl1; simpa using hl2
  obtain ⟨seed', k, hrs⟩ : ∃ seed' k, resolveSeed s.legacy s.fresh a.seed = (seed', .ok k) := by
    cases hs : a.seed with
    | bad e => exact absurd hs (hseed e)
    | none => exact ⟨_, _, rfl⟩
    | state r => exact ⟨_, _, rfl⟩
    | number k => exact ⟨_, _, rfl⟩
  unfold RunDiscrete at h
  simp only [hv, hrs, hu] at h
  rw [if_neg (by omega), if_neg (by omega)] at h
  obtain ⟨res, hst, ho⟩ := h
  rw [ht, hm, toRows_eq hcols hW] at hst
  obtain ⟨d, el, rfl, e1, e2, e3⟩ := C20_discrete_nested ops hc hd hvt s.rng hg a.scale a.nDraws.toNat (by omega) k u.rows W hfeas res hst
  rw [ht, hm, hch] at ho
  simp only [ha, e1, convertResult] at ho
  have hpos : ∀ i < u.rows, ∀ c < a.nDraws.toNat, ∃ k < (expected ops).live.length, d.pos i c = (k : Int) := by
    intro i hi c hcn
    obtain ⟨T, P, _, _, e⟩ := e3 i hi
    obtain ⟨k, hk, e, _⟩ := e c hcn
    exact ⟨k, hk, e⟩
  rw [if_neg (by
    rintro ⟨i, hi, c, hcn, hnone⟩
    obtain ⟨k, hk, e⟩ := hpos i hi c hcn
    rw [e, takeAt_nat (by simpa using hk)] at hnone
    cases hnone)] at ho
  refine ⟨seed', _, _, el, ho, hm ▸ e2, fun i hi => ?_⟩
  obtain ⟨T, P, e4, e5, e6⟩ := e3 i hi
  refine ⟨T, P, e4, e5, fun c hcn => ?_⟩
  obtain ⟨k, hk, e7, e8, e9⟩ := e6 c hcn
  refine ⟨k, hk, ?_, e9⟩
  split
  · rename_i hsq
    simp only [Bool.and_eq_true, decide_eq_true_eq] at hsq
    have hc0 : c = 0 := by omega
    subst hc0
    simp only [ResObj.cell, e7, takeAt_nat (len := ((expected ops).live.map fun r => pad (expected ops).depth r.path).length) (k := k) (by simpa using hk)]
    simp [hk]
  · simp only [ResObj.cell, e7, takeAt_nat (len := ((expected ops).live.map fun r => pad (expected ops).depth r.path).length) (k := k) (by simpa using hk)]
    simp [hk]

end nested

section flat
variable (ops : List (TreeOp XR)) (hc : CleanRun Choices.empty ops) (hd : (expected ops).depth ≤ 1)
include hc hd

/-- **C20 (run_stochastic, models without nests)** -/
theorem C20_run_stochastic_flat (s : Setting XR R) (m m' : CModel U XR) (hm : m.tree = after ops) (group : Option Nat) (threads : Int)
    (clear scaled check : Bool) (u : Tab XR) (hu : m.runUtilities s.K group clear = (m', .ok u)) (h1 : 1 ≤ threads)
    (h2 : threads ≤ s.maxThreads) (W : Nat → Nat → Util) (hW : ∀ i < u.rows, ∀ j < u.cols, u.val i j = util (W i j))
    (hfeas : ∀ i < u.rows, ∃ j < u.cols, W i j ≠ none)
    (out : CModel U XR × Except Err (Frame XR × (Nat → XR) × Frame XR))
    (h : RunStochastic s m group threads clear scaled check out) :
    ∃ fr ls nls, out = (m', .ok (fr, ls, nls)) ∧ choices m.tree = .ok fr.cols ∧ choices m.tree = .ok nls.cols ∧
      ∀ i < u.rows, ls i = .fin (∑ j ∈ Finset.range u.cols, expw (W i j)) ∧ ∀ k < u.cols,
        fr.val i k = .fin (expw (W i k) / ∑ j ∈ Finset.range u.cols, expw (W i j)) ∧ nls.val i k = .fin (expw (W i k)) := by
  obtain ⟨hv, _, ht, _, _, labels, hl1, hl2⟩ := runUtilities_ok hu
  have hvt := validateTree_of_validate hv
  rw [hm] at hvt hl1
  unfold RunStochastic at h
  simp only [hu] at h
  rw [if_neg (by omega)] at h
  obtain ⟨res, hst, rfl⟩ := h
  have hrow : u.toRows = ((List.range u.rows).map fun i => (List.range u.cols).map (W i)).map fun w => w.map util := by
    unfold Tab.toRows
    rw [List.map_map]
    refine List.map_congr_left fun i hi => ?_
    simp only [Function.comp, List.map_map]
    exact List.map_congr_left fun j hj => hW i (List.mem_range.mp hi) j (List.mem_range.mp hj)
  rw [ht, hm, hrow] at hst
  obtain ⟨fr, ls, nls, rfl, e0, e1, e2, e3⟩ := C20_stochastic_flat ops hc hd hvt scaled check _ (by
    intro w hw
    obtain ⟨i, hi, rfl⟩ := List.mem_map.mp hw
    obtain ⟨j, hj, hne⟩ := hfeas i (List.mem_range.mp hi)
    exact ⟨_, List.mem_map_of_mem (List.mem_range.mpr hj), hne⟩) res hst
  refine ⟨fr, ls, nls, rfl, hm ▸ e1, hm ▸ e2, fun i hi => ?_⟩
  obtain ⟨e4, e5⟩ := e3 i (by simpa using hi)
  have hsum : ((((List.range u.rows).map fun i => (List.range u.cols).map (W i))[i]'(by simpa using hi)).map expw).sum =
      ∑ j ∈ Finset.range u.cols, expw (W i j) := by
    simp only [List.getElem_map, List.getElem_range, List.map_map, Function.comp_def]
    rw [← List.sum_toFinset _ List.nodup_range, List.toFinset_range]
  rw [hsum] at e4 e5
  refine ⟨e4, fun k hk => ?_⟩
  have := e5 k (by simpa using hk)
  simpa using this

/-- **C20 (run_discrete, models without nests)** Every result is the label of a choice whose utility is not -inf. -/
theorem C20_run_discrete_flat (s : Setting XR R) (hg : s.rng.InUnit) (m m' : CModel U XR) (hm : m.tree = after ops) (a : DiscreteArgs R V)
    (ha : a.astype = .category) (hseed : ∀ e, a.seed ≠ .bad e) (hn : 1 ≤ a.nDraws) (u : Tab XR)
    (hu : m.runUtilities s.K none a.clear = (m', .ok u)) (h1 : 1 ≤ a.nThreads)
    (h2 : a.nThreads ≤ s.maxThreads) (W : Nat → Nat → Util) (hW : ∀ i < u.rows, ∀ j < u.cols, u.val i j = util (W i j))
    (hfeas : ∀ i < u.rows, ∃ j < u.cols, W i j ≠ none)
    (out : CModel U XR × SeedArg R × Except Err (ResObj V × (Nat → XR))) (h : RunDiscrete s m a out) :
    ∃ seed' r ls ch, out = (m', seed', .ok (r, ls)) ∧ choices m.tree = .ok ch ∧
      ∀ i < u.rows, ls i = .fin (∑ j ∈ Finset.range u.cols, expw (W i j)) ∧
        ∀ c < a.nDraws.toNat, ∃ k, ∃ _ : k < ch.length, r.cell i c = .label ch[k] ∧ W i k ≠ none := by
  obtain ⟨hv, _, ht, _, _, labels, hl1, hl2⟩ := runUtilities_ok hu
  have hvt := validateTree_of_validate hv
  rw [hm] at hvt hl1
  have hch := choices_eq (rel_after ops hc) hvt
  have hcols : u.cols = (expected ops).live.length := by
    rw [hch] at hl1
    cases hl1; simpa using hl2
  obtain ⟨seed', k, hrs⟩ : ∃ seed' k, resolveSeed s.legacy s.fresh a.seed = (seed', .ok k) := by
    cases hs : a.seed with
    | bad e => exact absurd hs (hseed e)
    | none => exact ⟨_, _, rfl⟩
    | state r => exact ⟨_, _, rfl⟩
    | number k => exact ⟨_, _, rfl⟩
  unfold RunDiscrete at h
  simp only [hv, hrs, hu] at h
  rw [if_neg (by omega), if_neg (by omega)] at h
  obtain ⟨res, hst, ho⟩ := h
  have hrow : u.toRows = ((List.range u.rows).map fun i => (List.range u.cols).map (W i)).map fun w => w.map util := by
    unfold Tab.toRows
    rw [List.map_map]
    refine List.map_congr_left fun i hi => ?_
    simp only [Function.comp, List.map_map]
    exact List.map_congr_left fun j hj => hW i (List.mem_range.mp hi) j (List.mem_range.mp hj)
  rw [ht, hm, hrow] at hst
  obtain ⟨d, ch, rfl, e1, e2, e3, e4⟩ := C20_discrete_flat ops hc hd hvt s.rng hg a.scale a.nDraws.toNat (by omega) k _ (by
    intro w hw
    obtain ⟨i, hi, rfl⟩ := List.mem_map.mp hw
    obtain ⟨j, hj, hne⟩ := hfeas i (List.mem_range.mp hi)
    exact ⟨_, List.mem_map_of_mem (List.mem_range.mpr hj), hne⟩) (by
    intro w hw
    obtain ⟨i, hi, rfl⟩ := List.mem_map.mp hw
    simpa using hcols) res hst
  rw [ht, hm, e2] at ho
  simp only [ha, e1, convertResult] at ho
  have hlen : ∀ i (hi : i < u.rows), i < ((List.range u.rows).map fun i => (List.range u.cols).map (W i)).length := by
    intro i hi; simpa using hi
  rw [if_neg (by
    rintro ⟨i, hi, c, hcn, hnone⟩
    obtain ⟨k, hk, _, e, _⟩ := (e4 i (hlen i hi)).2 c hcn
    rw [e, takeAt_nat hk] at hnone
    cases hnone)] at ho
  refine ⟨seed', _, _, ch, ho, hm ▸ e2, fun i hi => ?_⟩
  obtain ⟨e5, e6⟩ := e4 i (hlen i hi)
  have hsum : ((((List.range u.rows).map fun i => (List.range u.cols).map (W i))[i]'(hlen i hi)).map expw).sum =
      ∑ j ∈ Finset.range u.cols, expw (W i j) := by
    simp only [List.getElem_map, List.getElem_range, List.map_map, Function.comp_def]
    rw [← List.sum_toFinset _ List.nodup_range, List.toFinset_range]
  rw [hsum] at e5
  refine ⟨e5, fun c hcn => ?_⟩
  obtain ⟨k, hk, hk2, e7, _, e9⟩ := e6 c hcn
  refine ⟨k, hk, ?_, by simpa using e9⟩
  split
  · rename_i hsq
    simp only [Bool.and_eq_true, decide_eq_true_eq] at hsq
    have hc0 : c = 0 := by omega
    subst hc0
    simp only [ResObj.cell, e7, takeAt_nat hk]
    simp [hk]
  · simp only [ResObj.cell, e7, takeAt_nat hk]
    simp [hk]

end flat

/-! ### every call ends, and a concrete one -/

theorem parLoop_exists {F : Type} [FOps F] (n : Nat) (body : Nat → Except Err (List (Write F))) (init : Mem F) :
    ∃ out, ParLoop n body init out := by
  by_cases h : ∀ i < n, ∃ ws, body i = .ok ws
  · obtain ⟨m, hm⟩ := ParLoop.exists_ok (init := init) h
    exact ⟨_, hm⟩
  · push Not at h
    obtain ⟨i, hi, h⟩ := h
    cases hb : body i with
    | ok ws => exact absurd hb (h ws)
    | error e => exact ⟨.error e, .inr ⟨i, hi, e, hb, rfl⟩⟩

theorem discreteStage_exists {F : Type} [FOps F] (g : Rng F) (st : TreeSt F) (rows : List (List F)) (n : Nat) (seed : Int) (sc : Bool) :
    ∃ out, DiscreteStage g st rows n seed sc out := by
  have fin : ∀ r : Except Err (Mem F), ∃ o : Except Err (Discrete F), (match r, choices st with
        | .error e, _ => o = .error e
        | .ok _, .error e => o = .error e
        | .ok m, .ok ch => o = .ok ⟨n, fun i c => readIdx m (aRes, i, c), fun i c => takeLabel ch (readIdx m (aRes, i, c)),
          fun i => readNum m (aLs, i, 0)⟩) := by
    intro r
    cases r with
    | error e => exact ⟨_, rfl⟩
    | ok m => cases choices st <;> exact ⟨_, rfl⟩
  have w1 : ∃ r, WorkerMnlSample g rows n seed r := by
    unfold WorkerMnlSample; split <;> exact parLoop_exists _ _ _
  have w2 : ∀ fl, ∃ r, WorkerNestedSample g rows fl n seed sc r := by
    intro fl; unfold WorkerNestedSample; split <;> exact parLoop_exists _ _ _
  unfold DiscreteStage
  simp only
  cases depth st with
  | error e => exact ⟨_, rfl⟩
  | ok d =>
    simp only
    split
    · cases flatten st with
      | error e => exact ⟨_, rfl⟩
      | ok fl =>
        obtain ⟨r, hr⟩ := w2 fl
        obtain ⟨o, ho⟩ := fin r
        exact ⟨o, r, hr, ho⟩
    · obtain ⟨r, hr⟩ := w1
      obtain ⟨o, ho⟩ := fin r
      exact ⟨o, r, hr, ho⟩

/-- **C53** `run_discrete` always ends, with a result or an exception -/
theorem C53_total {F : Type} [FOps F] (s : Setting F R) (m : CModel U F) (a : DiscreteArgs R V) : ∃ out, RunDiscrete s m a out := by
  unfold RunDiscrete
  cases m.validate true true true true none with
  | error e => exact ⟨_, rfl⟩
  | ok _ =>
    rcases resolveSeed s.legacy s.fresh a.seed with ⟨seed', r⟩
    cases r with
    | error e => exact ⟨_, rfl⟩
    | ok k =>
      simp only
      split
      · exact ⟨_, rfl⟩
      · rcases m.runUtilities s.K none a.clear with ⟨m', ru⟩
        cases ru with
        | error e => exact ⟨_, rfl⟩
        | ok u =>
          simp only
          split
          · exact ⟨_, rfl⟩
          · obtain ⟨res, hres⟩ := discreteStage_exists s.rng m'.tree u.toRows a.nDraws.toNat k a.scale
            cases res with
            | error e => exact ⟨_, _, hres, rfl⟩
            | ok d =>
              cases hch : choices m'.tree with
              | error e => exact ⟨_, _, hres, rfl⟩
              | ok ch => exact ⟨_, _, hres, rfl⟩

noncomputable def emSetting (M : Arith XR) : Setting XR Nat where
  K := emKernel M
  rng := ⟨fun _ _ => one, fun _ _ => 0⟩
  legacy := ⟨fun r => (r + 1, 1 + (r : Int) % 9999), fun r => by
    have := Int.emod_nonneg (r : Int) (b := 9999) (by decide)
    have := Int.emod_lt_of_pos (r : Int) (b := 9999) (by decide)
    simp only
    omega⟩
  fresh := 0
  maxThreads := 4

/-- the hypotheses of the theorems on nested models are met: three draws for the example model give a table of labels of elemental
choices -/
example (env : PyEnv) (M : Arith XR) (V : Type) : ∃ m' seed' r ls el,
    RunDiscrete (emSetting M) (emModel env) (⟨.state 5, 3, .category, true, 2, true, true⟩ : DiscreteArgs Nat V) (m', seed', .ok (r, ls)) ∧
    elementalChoices (after exampleOps) = .ok el ∧ ∀ i < 2, ∀ c < 3, ∃ l, r.cell i c = .label l ∧ l ∈ el := by
  obtain ⟨u, h1, h2, h3, h4⟩ := em_run_state env M true
  obtain ⟨out, ho⟩ := C53_total (emSetting M) (emModel env) (⟨.state 5, 3, .category, true, 2, true, true⟩ : DiscreteArgs Nat V)
  have hW : ∀ i < u.rows, ∀ j < u.cols, u.val i j = util (some (100 * (i + 1) + if j = 2 then 2 else 0) : Util) := by
    intro i hi j hj
    rw [h4 i j (by omega) (by omega)]; rfl
  obtain ⟨seed', r, ls, el, rfl, e1, e2⟩ := C20_run_discrete_nested exampleOps exampleOps_clean exampleOps_depth (emSetting M) (by
      intro s k
      simp only [emSetting, le, one, tiny, XR.le, decide_eq_true_eq]
      exact ⟨pow_le_one₀ (by norm_num) (by norm_num), le_refl _⟩)
    (emModel env) _ rfl (⟨.state 5, 3, .category, true, 2, true, true⟩ : DiscreteArgs Nat V) rfl (by intro e h; cases h) (by norm_num)
    u h1 (by norm_num) (by simp [emSetting]) (fun i j => some (100 * (i + 1) + if j = 2 then 2 else 0)) hW (by
      intro i hi
      refine ⟨0, ?_, ?_, ?_⟩
      · rw [exampleOps_expected]; simp
      · rw [flat_leaf (rel_after _ exampleOps_clean) (by rw [exampleOps_expected]; simp) 0 (by rw [exampleOps_expected]; simp)]
        simp only [exampleOps_expected]
        simp [IsChild]
      · refine .top 0 ?_ (by simp)
        rw [exampleOps_expected]
        simp [Choices.tree]) out ho
  refine ⟨_, seed', r, ls, el, ho, e1, fun i hi c hcn => ?_⟩
  obtain ⟨T, P, _, _, e3⟩ := e2 i (by omega)
  obtain ⟨k, hk, e4, e5, _⟩ := e3 c (by simpa using hcn)
  exact ⟨_, e4, e5⟩

end Cheval
