import Verif.Props.NestedOverflow

/-!
# C75 for whole calls on models with nests
-/
set_option linter.unusedSectionVars false
namespace Cheval
open FOps B64 Spec
variable {U Q V : Type}

/-- the model's table as rows of numbers and scales -/
theorem run_nestedData {ops : List (TreeOp F64)} (hc : CleanRun Choices.empty ops) {u : Tab F64} (hcols : u.cols = (expected ops).live.length)
    {i : Nat} {W : Nat → Util} (hW : ∀ j < u.cols, (u.val i j).v = util (W j)) {scaled : Bool} {σ : ℝ}
    (hσ' : ∀ k < (expected ops).live.length, σ ≤ (expected ops).treeR.θp scaled k) :
    NestedData (flatUpto (expected ops) (expected ops).live.length) (expected ops).treeR.θ scaled (unitRow u i) W σ := by
  refine ⟨fun k hk => flat_scaleR (rel_after ops hc) k hk, ?_, ?_⟩
  · intro k hk
    have hk : k < u.cols := by rw [hcols]; exact hk
    have : (unitRow u i).getD k zero = u.val i k := by simp [unitRow, hk]
    rw [this]; exact hW k hk
  · rw [flat_treeR]; exact fun k hk => hσ' k hk

open Classical in
/-- **C75 (in range, run_stochastic, nested)** Double precision with correctly rounded `exp` and `log`, a model with `n` choices (nests
included) on `d` levels, whose applied scales are at least `σ`: when run_stochastic returns, every decision unit whose utilities are `-inf`
or at most `B` in absolute value, `d (B + 34) <= 600 σ` and `d (2n + 2500) <= 2^48 σ`, and that has an elemental choice available together
with all the nests around it, has a finite positive logsum and probabilities in [0,1], which sum to 1 within `n * 2^-51`. Missing: utilities
beyond this range (`C75_nested_overflow_run`). -/
theorem C75_nested_run_partial (ops : List (TreeOp F64)) (hc : CleanRun Choices.empty ops) (hd : 1 < (expected ops).depth)
    (s : Setting F64 Q) (m m' : CModel U F64) (hm : m.tree = after ops)
    (units : List U) (hun : m.units = some units) (group : Option Nat) (threads : Int) (clear scaled check : Bool) (u : Tab F64)
    (hu : m.runUtilities s.K group clear = (m', .ok u)) (fr : Frame F64) (ls : Nat → F64) (nls : Frame F64)
    (h : RunStochastic s m group threads clear scaled check (m', .ok (fr, ls, nls))) (i : Nat) (hi : i < units.length)
    (W : Nat → Util) (hW : ∀ j < u.cols, (u.val i j).v = util (W j)) (σ B : ℝ) (hσ : 0 < σ) (hB : 0 ≤ B)
    (hσ' : ∀ k < (expected ops).live.length, σ ≤ (expected ops).treeR.θp scaled k)
    (hWB : ∀ j < u.cols, ∀ x, W j = some x → |x| ≤ B) (hbig : (expected ops).depth * (B + 34) ≤ 600 * σ)
    (hn : (expected ops).depth * (2 * (expected ops).live.length + 2500) ≤ 2 ^ 48 * σ)
    (hopen : ∃ l < (expected ops).live.length, (expected ops).treeR.Leaf l ∧ (expected ops).treeR.Open W l) :
    elementalChoices m.tree = .ok fr.cols ∧ (∃ S : ℝ, (ls i).v = .fin S ∧ 0 < S) ∧
    (∀ j < fr.cols.length, ∃ x : ℝ, (fr.val i j).v = .fin x ∧ 0 ≤ x ∧ x ≤ 1) ∧
    |∑ j ∈ Finset.range fr.cols.length, (fr.val i j).val - 1| ≤ (expected ops).live.length * (1 / 2 ^ 51) := by
  obtain ⟨hv, _, ht, _, hrows, -⟩ := runUtilities_ok hu
  have hvt := validateTree_of_validate hv
  rw [hm] at hvt
  have hr := rel_after ops hc
  have hne := live_ne_of_valid hr hvt
  have hwf := flat_wf hr hne
  have hiu : i < u.rows := by rw [hrows units hun]; exact hi
  obtain ⟨hcols, mem, hrow⟩ := stochastic_calc hc hm hu h
  obtain ⟨p, t, hp, -, -⟩ := hrow i hiu
  rw [rowCalc_nested hd] at hp
  set fl := flatUpto (expected ops) (expected ops).live.length with hfl
  have htr : fl.tree (expected ops).treeR.θ = (expected ops).treeR := flat_treeR _
  have D := run_nestedData hc hcols hW hσ'
  obtain ⟨T, P, hspec⟩ := tree_model_exists (t := fl) (θ := (expected ops).treeR.θ) hwf (fun k hk => (flat_scaleR hr k hk).2.1) scaled W
  have hlev : ((fl.maxLevel : ℕ) : ℝ) + 1 ≤ (expected ops).depth := by
    exact_mod_cast flat_maxLevel (expected ops) (by omega)
  have hn0 : (0 : ℝ) ≤ (expected ops).live.length := Nat.cast_nonneg _
  obtain ⟨ps, l, t', S, e, hS, hpos, -⟩ := C75_nested_in_range_partial hwf D hσ hspec hB (by
      intro k hk x hx
      exact hWB k (by rw [hcols]; exact hk) x hx)
    ((mul_le_mul_of_nonneg_right hlev (by linarith)).trans hbig)
    ((mul_le_mul_of_nonneg_right hlev (by show (0 : ℝ) ≤ 2 * (expected ops).live.length + 2500; linarith)).trans hn)
    (by rw [htr]; exact hopen) check
  rw [hp] at e
  simp only [Except.ok.injEq, Prod.mk.injEq] at e
  obtain ⟨-, e2, -⟩ := e
  rw [← e2] at hS
  have hd1 : (1 : ℝ) ≤ (expected ops).depth := by exact_mod_cast hd.le
  have hσ1 : σ ≤ 1 := by
    obtain ⟨k, hk, -⟩ := hwf.exists_top
    exact (D.applied k hk).trans (D.parentScale hwf hk).2.2
  have hn50 : (expected ops).live.length ≤ 2 ^ 50 := by
    have h1 : (2 * (expected ops).live.length + 2500 : ℝ) ≤ (expected ops).depth * (2 * (expected ops).live.length + 2500) :=
      le_mul_of_one_le_left (by linarith) hd1
    have h3 : ((expected ops).live.length : ℝ) ≤ (1125899906842624 : ℕ) := by push_cast; norm_num at hn; linarith
    exact_mod_cast h3
  obtain ⟨h1, h2⟩ := C60_run (R := R64) rfl ops hc hd hn50 s m m' hm units hun group threads clear scaled check fr ls nls h
  exact ⟨h1, ⟨S, hS, hpos⟩, h2 i hi S hS hpos⟩

/-- what the overflow theorem needs, from a run -/
theorem run_overflowData {ops : List (TreeOp F64)} (hc : CleanRun Choices.empty ops) {u : Tab F64} (hcols : u.cols = (expected ops).live.length)
    {i : Nat} (hnan : ∀ j < u.cols, (u.val i j).v ≠ .nan)
    (hnest : ∀ j < u.cols, ¬ (expected ops).treeR.Leaf j → ∃ x : ℝ, (u.val i j).v = .fin x) :
    OverflowData (flatUpto (expected ops) (expected ops).live.length) (expected ops).treeR.θ (unitRow u i) := by
  have hget : ∀ k < u.cols, (unitRow u i).getD k zero = u.val i k := by
    intro k hk; simp [unitRow, hk]
  refine ⟨fun k hk => flat_scaleR (rel_after ops hc) k hk, ?_, ?_⟩
  · intro k hk
    have hk : k < u.cols := by rw [hcols]; exact hk
    rw [hget k hk]; exact hnan k hk
  · intro k hk hl
    have hk : k < u.cols := by rw [hcols]; exact hk
    rw [flat_treeR] at hl
    rw [hget k hk]; exact hnest k hk hl

/-- **C75 (overflow, run_stochastic, nested)** Double precision, a model with nests: when run_stochastic returns, every decision unit with
finite utilities of the nests in which some elemental choice has a utility of 710 or more after division by the scale of its nest has the
logsum `+inf`, and no probability of that unit is a positive number: each is 0 or NaN, and NaN for the choices in the same top-level nest. -/
theorem C75_nested_overflow_run (ops : List (TreeOp F64)) (hc : CleanRun Choices.empty ops) (hd : 1 < (expected ops).depth)
    (s : Setting F64 Q) (m m' : CModel U F64) (hm : m.tree = after ops) (group : Option Nat) (threads : Int) (clear scaled check : Bool)
    (u : Tab F64) (hu : m.runUtilities s.K group clear = (m', .ok u)) (fr : Frame F64) (ls : Nat → F64) (nls : Frame F64)
    (h : RunStochastic s m group threads clear scaled check (m', .ok (fr, ls, nls))) (i : Nat) (hi : i < u.rows)
    (hnest : ∀ j < u.cols, ¬ (expected ops).treeR.Leaf j → ∃ x : ℝ, (u.val i j).v = .fin x)
    (l : Nat) (hl : l < u.cols) (hleaf : (expected ops).treeR.Leaf l) (x : ℝ) (hx : (u.val i l).v = .fin x)
    (hover : 710 ≤ x / (expected ops).treeR.θp scaled l) :
    (ls i).v = .pinf ∧ ∃ ch, choices m.tree = .ok ch ∧ ∀ j (hj : j < fr.cols.length), ((fr.val i j).v = .fin 0 ∨ (fr.val i j).v = .nan) ∧
      ∀ k, ch[k]? = some fr.cols[j] → (expected ops).treeR.Leaf k →
        (∃ a, (expected ops).treeR.parent a = none ∧ (expected ops).treeR.Above a l ∧ (expected ops).treeR.Above a k) → (fr.val i j).v = .nan := by
  obtain ⟨hv, _, ht, _, -⟩ := runUtilities_ok hu
  have hvt := validateTree_of_validate hv
  rw [hm] at hvt
  have hr := rel_after ops hc
  have hne := live_ne_of_valid hr hvt
  have hwf := flat_wf hr hne
  obtain ⟨hcols, ch, hch, hchl, hnd, hcol⟩ := stochastic_columns hc hm hu h
  set fl := flatUpto (expected ops) (expected ops).live.length with hfl
  have htr : fl.tree (expected ops).treeR.θ = (expected ops).treeR := flat_treeR _
  have D := run_overflowData hc hcols (i := i) (by
    intro j hj hvn
    have : XR.isNan (u.val i j).v = false := (C37_success s.K m m' group clear u hu).1 i j hi hj
    rw [hvn] at this; cases this) hnest
  have hln : l < fl.n := by rw [← hcols] at hfl; show l < (expected ops).live.length; omega
  obtain ⟨ps, t', e, hlen, hnan, hvoid, -⟩ := C75_nested_overflow hwf D l hln (by rw [htr]; exact hleaf) x
    (by simpa [unitRow, hl] using hx) (by rw [htr]; exact hover) check
  have hlen' : ps.length = u.cols := by rw [hlen, hcols]; rfl
  obtain ⟨-, mem, hrow⟩ := stochastic_calc hc hm hu h
  obtain ⟨p, t, hp, -, -⟩ := hrow i hi
  rw [rowCalc_nested hd, e] at hp
  simp only [Except.ok.injEq, Prod.mk.injEq] at hp
  refine ⟨by rw [← hp.2.1]; rfl, ch, hch, fun j hj => ?_⟩
  obtain ⟨k, hk, hk2⟩ := hcol j hj
  obtain ⟨p', t2, hp', hval⟩ := hk2 i hi
  rw [rowCalc_nested hd, e] at hp'
  simp only [Except.ok.injEq, Prod.mk.injEq] at hp'
  obtain ⟨rfl, -, -⟩ := hp'
  have hkl : k < ps.length := by
    rw [hlen', ← hchl]
    exact (List.getElem?_eq_some_iff.mp hk).1
  rw [hval hkl]
  refine ⟨hvoid k hkl, fun k' hk' hleaf' hab => ?_⟩
  have hkk : k' = k := by
    obtain ⟨h1, e1⟩ := List.getElem?_eq_some_iff.mp hk'
    obtain ⟨h2, e2⟩ := List.getElem?_eq_some_iff.mp hk
    exact (List.Nodup.getElem_inj_iff hnd).mp (e1.trans e2.symm)
  subst hkk
  rw [← htr] at hleaf' hab
  exact hnan k' hkl hleaf' hab

/-- **C75 (overflow, run_discrete, nested)** The same for run_discrete, random numbers not negative: every draw for such a decision unit is
the last choice, whatever its utility. -/
theorem C75_nested_overflow_draws (ops : List (TreeOp F64)) (hc : CleanRun Choices.empty ops) (hd : 1 < (expected ops).depth)
    (s : Setting F64 Q) (hg : ∀ t k, FOps.le FOps.zero (s.rng.uniform t k) = true) (m m' : CModel U F64) (hm : m.tree = after ops)
    (a : DiscreteArgs Q V) (seed' : SeedArg Q) (r : ResObj V) (ls : Nat → F64) (h : RunDiscrete s m a (m', seed', .ok (r, ls)))
    (u : Tab F64) (hu : m.runUtilities s.K none a.clear = (m', .ok u)) (i : Nat) (hi : i < u.rows)
    (hnest : ∀ j < u.cols, ¬ (expected ops).treeR.Leaf j → ∃ x : ℝ, (u.val i j).v = .fin x)
    (l : Nat) (hl : l < u.cols) (hleaf : (expected ops).treeR.Leaf l) (x : ℝ) (hx : (u.val i l).v = .fin x)
    (hover : 710 ≤ x / (expected ops).treeR.θp a.scale l) :
    ∃ ch last, choices m.tree = .ok ch ∧ ch.getLast? = some last ∧ (ls i).v = .pinf ∧
      ∀ c < a.nDraws.toNat, CellFor ch a.astype (r.cell i c) last := by
  obtain ⟨hv, _, ht, _, -⟩ := runUtilities_ok hu
  have hvt := validateTree_of_validate hv
  rw [hm] at hvt
  have hr := rel_after ops hc
  have hne := live_ne_of_valid hr hvt
  have hwf := flat_wf hr hne
  obtain ⟨u', seed, ch, hu', -, hn, hch, hchl, hcols, pos, hcv, hrow⟩ := discrete_calc hc hm h
  rw [hu] at hu'
  simp only [Prod.mk.injEq, Except.ok.injEq, true_and] at hu'
  subst hu'
  obtain ⟨p, t, hp, hdr⟩ := hrow i hi
  rw [rowCalc_nested hd] at hp
  set fl := flatUpto (expected ops) (expected ops).live.length with hfl
  have htr : fl.tree (expected ops).treeR.θ = (expected ops).treeR := flat_treeR _
  have D := run_overflowData hc hcols (i := i) (by
    intro j hj hvn
    have : XR.isNan (u.val i j).v = false := (C37_success s.K m m' none a.clear u hu).1 i j hi hj
    rw [hvn] at this; cases this) hnest
  have hln : l < fl.n := by show l < (expected ops).live.length; omega
  obtain ⟨ps, t', e, hlen, -, -, hdraw⟩ := C75_nested_overflow hwf D l hln (by rw [htr]; exact hleaf) x
    (by simpa [unitRow, hl] using hx) (by rw [htr]; exact hover) true
  have hnc : fl.n = u.cols := by rw [hcols]; rfl
  rw [hp] at e
  simp only [Except.ok.injEq, Prod.mk.injEq] at e
  obtain ⟨rfl, e2, -⟩ := e
  rw [hnc] at hdraw
  have hlast : ∀ c < a.nDraws.toNat, pos i c = ((u.cols - 1 : Nat) : Int) := by
    intro c hcn
    have h1 := hdr c hcn
    have h0 : FOps.le FOps.zero (numberFor s.rng a.nDraws.toNat seed i c) = true := by
      unfold numberFor; split <;> exact hg _ _
    obtain ⟨d1, d2⟩ := hdraw _ h0
    unfold drawnPos at h1
    rw [d1, d2] at h1
    split at h1
    · simp only [Option.some.injEq] at h1; omega
    · simp only [Option.map_some, Option.some.injEq] at h1; omega
  obtain ⟨last, hl⟩ : ∃ l, ch.getLast? = some l := by
    cases hcc : ch.getLast? with
    | none => rw [List.getLast?_eq_none_iff] at hcc; rw [hcc] at hchl; simp at hchl; omega
    | some l => exact ⟨l, rfl⟩
  refine ⟨ch, last, hch, hl, by rw [e2]; rfl, fun c hcn => ?_⟩
  have hk : ch[u.cols - 1]? = some last := by
    rw [List.getLast?_eq_getElem?, hchl] at hl; exact hl
  exact convertResult_cell hcv hi hcn (hlast c hcn) hk

/-! ### Calls that return -/

/-- run_stochastic returns if the calculation succeeds for every row -/
theorem stochastic_returns {F : Type} [FOps F] {ops : List (TreeOp F)} (hc : CleanRun Choices.empty ops) {s : Setting F Q} {m m' : CModel U F}
    (hm : m.tree = after ops) {group : Option Nat} {threads : Int} {clear scaled check : Bool} {u : Tab F}
    (hu : m.runUtilities s.K group clear = (m', .ok u)) (ht1 : 1 ≤ threads) (ht2 : threads ≤ s.maxThreads)
    (hrow : ∀ i < u.rows, ∃ o, rowCalc ops scaled check (unitRow u i) = .ok o) :
    ∃ fr ls nls, RunStochastic s m group threads clear scaled check (m', .ok (fr, ls, nls)) := by
  obtain ⟨hv, _, ht, _, -⟩ := runUtilities_ok hu
  have hvt := validateTree_of_validate hv
  rw [hm] at hvt
  have hr := rel_after ops hc
  have hne := live_ne_of_valid hr hvt
  have htree : m'.tree = after ops := ht.trans hm
  have hch := choices_eq hr hvt
  have hel := elemental_eq hr hvt
  have hloop : ∀ f : List F → Except Err (List F × F × List F), (∀ us, f us = rowCalc ops scaled check us) →
      ∃ mem, ParLoop u.toRows.length (probBody f u.toRows) zeroMem (.ok mem) := by
    intro f hf
    refine ParLoop.exists_ok fun i hi => ?_
    have hir : i < u.rows := by unfold Tab.toRows at hi; simpa using hi
    obtain ⟨o, ho⟩ := hrow i hir
    have : ∃ ws, probBody f u.toRows i = .ok ws := by
      unfold probBody
      rw [show u.toRows.getD i [] = unitRow u i by rw [List.getD_eq_getElem?_getD, List.getElem?_eq_getElem hi, Option.getD_some, toRows_get], hf, ho]
      exact ⟨_, rfl⟩
    exact this
  obtain ⟨fr, ls, nls, hst⟩ : ∃ fr ls nls, StochasticStage m'.tree u.toRows scaled check (.ok (fr, ls, nls)) := by
    unfold StochasticStage
    rw [htree, hr.depth_eq hne]
    by_cases hd : 1 < (expected ops).depth
    · simp only [if_pos hd]
      rw [hr.flatten_eq hd, hch, hel]
      obtain ⟨mem, hmem⟩ := hloop _ fun us => (rowCalc_nested hd scaled check us).symm
      exact ⟨_, _, _, _, hmem, rfl⟩
    · simp only [if_neg hd]
      rw [hch]
      obtain ⟨mem, hmem⟩ := hloop _ fun us => (rowCalc_flat (not_lt.mp hd) scaled check us).symm
      exact ⟨_, _, _, _, hmem, rfl⟩
  refine ⟨fr, ls, nls, ?_⟩
  unfold RunStochastic
  simp only [hu]
  rw [if_neg (by omega)]
  exact ⟨_, hst, rfl⟩

/-- a model without expressions whose utilities were computed before: they are the utilities of the run -/
theorem cached_run {F : Type} [FOps F] {ops : List (TreeOp F)} (hc : CleanRun Choices.empty ops) (hv : validateTree (after ops) = .ok ())
    (units : List U) (u0 : Tab F) (h1 : u0.rows = units.length) (h2 : u0.cols = (expected ops).live.length)
    (hnan : ∀ i < u0.rows, ∀ j < u0.cols, FOps.isNan (u0.val i j) = false) (K : Kernel F) :
    ∃ m' u, (⟨after ops, ExprGroup.empty, [], some units, some (units, u0), 8⟩ : CModel U F).runUtilities K none true = (m', .ok u) ∧
      u.rows = u0.rows ∧ u.cols = u0.cols ∧ ∀ i < u0.rows, ∀ j < u0.cols, u.val i j = u0.val i j := by
  set m : CModel U F := ⟨after ops, ExprGroup.empty, [], some units, some (units, u0), 8⟩ with hm
  have hcont : m.container none = .ok ⟨[], [], []⟩ := by
    simp [CModel.container, hm, ExprGroup.empty, ExprGroup.itersimple, ExprGroup.iterchained, ExprGroup.all]
  have hval : m.validate true true true true none = .ok () := by
    have ht : m.tree = after ops := rfl
    have hs : m.scope = [] := rfl
    have hu : m.units = some units := rfl
    simp [CModel.validate, ht, hv, hs, hcont, CModel.decisionUnits, hu, checkSymbols, bind, Except.bind]
  have hcon : Consistent m ((expected ops).live.map (·.path)) (expected ops).depth units := by
    refine ⟨rfl, labelled_after ops hc hv, by intro e he; simp [hm] at he, ?_⟩
    intro ix u h
    simp only [hm, Option.some.injEq, Prod.mk.injEq] at h
    obtain ⟨rfl, rfl⟩ := h
    exact ⟨h1, by simpa using h2⟩
  let env : PyEnv := ⟨false, fun _ => false, id, .utilities⟩
  obtain ⟨ix, u, g1, g2, g3, -, -, g5⟩ := run_sound K hcon (Held.empty env emPy) hcont hval (srcs := []) .nil
    (by intro y hy; cases hy) (by intro i j _ _; rfl) true
  rw [List.length_map] at g2
  have hcell : ∀ i < u0.rows, ∀ j < u0.cols, u.val i j = u0.val i j := by
    intro i hi j hj
    exact Option.some.inj (g3 i j (by omega) (by rw [List.length_map]; omega))
  rw [if_neg] at g5
  swap
  · rw [hasNan_iff]
    rintro ⟨i, j, hi, hj, h⟩
    rw [hcell i (by omega) j (by omega), hnan i (by omega) j (by omega)] at h
    cases h
  exact ⟨_, u, g5, by omega, by omega, hcell⟩

/-! ### C75 refuted with ordinary utilities: a nest with a small scale -/

/-- 1/128 -/
noncomputable def noScale : F64 := dy 1 (-7) (by norm_num) (by norm_num) (by norm_num)

/-- 8 -/
noncomputable def noEight : F64 := dy 8 0 (by norm_num) (by norm_num) (by norm_num)

/-- the nest A with the scale 1/128, its choice x, the choice B, the choice y of A -/
noncomputable def noOps : List (TreeOp F64) :=
  [.addTop ['A'] noScale, .addChild 0 ['x'] FOps.one, .addTop ['B'] FOps.one, .addChild 0 ['y'] FOps.one]

theorem noOps_ranges : FOps.lt (FOps.zero : F64) FOps.one = true ∧ FOps.le (FOps.one : F64) FOps.one = true ∧
    FOps.lt (FOps.zero : F64) noScale = true ∧ FOps.le noScale (FOps.one : F64) = true := by
  refine ⟨?_, ?_, ?_, ?_⟩
  · show XR.lt (.fin 0) (.fin 1) = true; simp [XR.lt]
  · show XR.le (.fin 1) (.fin 1) = true; simp [XR.le]
  · show XR.lt (.fin 0) (.fin _) = true; simp [XR.lt]
  · show XR.le (.fin _) (.fin 1) = true
    simp only [XR.le, decide_eq_true_eq]; norm_num

theorem noOps_expected : expected noOps =
    ⟨[[['A']], [['A'], ['x']], [['B']], [['A'], ['y']]],
     [⟨0, [['A']], noScale⟩, ⟨1, [['A'], ['x']], FOps.one⟩, ⟨2, [['B']], FOps.one⟩, ⟨3, [['A'], ['y']], FOps.one⟩]⟩ := by
  obtain ⟨h1, h2, h3, h4⟩ := noOps_ranges
  simp [noOps, expected, Choices.run, Choices.step, Choices.add, Choices.empty, Legal, h1, h2, h3, h4]

theorem noOps_clean : CleanRun Choices.empty noOps := by
  obtain ⟨h1, h2, h3, h4⟩ := noOps_ranges
  simp [noOps, CleanRun, Clean, CleanAdd, Choices.step, Choices.add, Choices.empty, Legal, h1, h2, h3, h4]

theorem noOps_valid : validateTree (after noOps) = .ok () := by
  rw [(C19_validate noOps noOps_clean).1, noOps_expected]
  simp [Choices.kids, IsChild, List.filter_cons]

theorem noOps_depth : (expected noOps).depth = 2 := by rw [noOps_expected]; simp [Choices.depth]

theorem noOps_parent (i : Nat) (hi : i < 4) : (expected noOps).treeR.parent i = if i = 1 ∨ i = 3 then some 0 else none := by
  rw [← flat_treeR, noOps_expected]
  interval_cases i <;> simp [Flat.tree, flatUpto, IsChild, posOf]

theorem noOps_n : (expected noOps).treeR.n = 4 := by rw [noOps_expected]; rfl

theorem noOps_θ : (expected noOps).treeR.θ 0 = 1 / 128 := by
  rw [noOps_expected]
  have : noScale.val = 1 / 128 := by show ((1 : ℕ) : ℝ) * 2 ^ (-7 : ℤ) = _; norm_num
  simp [Choices.treeR, this, IsChild]

theorem noOps_children : (expected noOps).treeR.children 0 = {1, 3} := by
  ext i
  unfold Tree.children
  rw [noOps_n]
  simp only [Finset.mem_filter, Finset.mem_range, Finset.mem_insert, Finset.mem_singleton]
  constructor
  · rintro ⟨h1, h2⟩
    rw [noOps_parent i h1] at h2
    by_contra hn
    rw [if_neg hn] at h2; cases h2
  · intro h
    have : i < 4 := by omega
    exact ⟨this, by rw [noOps_parent i this, if_pos h]⟩

theorem noOps_tops : (expected noOps).treeR.tops = {0, 2} := by
  ext i
  unfold Tree.tops
  rw [noOps_n]
  simp only [Finset.mem_filter, Finset.mem_range, Finset.mem_insert, Finset.mem_singleton]
  constructor
  · rintro ⟨h1, h2⟩
    rw [noOps_parent i h1] at h2
    by_contra hn
    rw [if_pos (by omega)] at h2; cases h2
  · intro h
    have : i < 4 := by omega
    exact ⟨this, by rw [noOps_parent i this, if_neg (by omega)]⟩

theorem noOps_leaf (i : Nat) (hi : i ≠ 0) : (expected noOps).treeR.Leaf i := by
  unfold Tree.Leaf Tree.children
  rw [noOps_n, Finset.filter_eq_empty_iff]
  intro j hj
  rw [noOps_parent j (Finset.mem_range.mp hj)]
  split
  · simp only [Option.some.injEq]; exact fun h => hi h.symm
  · simp

/-- units 7 and 8, utilities `0` for the nest A, `8` for x, `0` for B and y, computed before -/
noncomputable def noTab : Tab F64 := ⟨2, 4, fun _ j => if j = 1 then noEight else FOps.zero⟩
noncomputable def noModel : CModel Nat F64 := ⟨after noOps, ExprGroup.empty, [], some [7, 8], some ([7, 8], noTab), 8⟩

/-- the textbook probability of x is above 9/10 -/
theorem no_textbook {T P : Nat → ℝ} (h : (expected noOps).treeR.IsNestedLogit true (fun j => some (if j = 1 then 8 else 0)) T P) : 9 / 10 < P 1 := by
  have hθ1 : (expected noOps).treeR.θp true 1 = 1 / 128 := by
    unfold Tree.θp; rw [noOps_parent 1 (by norm_num)]; simp [noOps_θ]
  have hθ3 : (expected noOps).treeR.θp true 3 = 1 / 128 := by
    unfold Tree.θp; rw [noOps_parent 3 (by norm_num)]; simp [noOps_θ]
  have hθ0 : (expected noOps).treeR.θp true 0 = 1 := by
    unfold Tree.θp; rw [noOps_parent 0 (by norm_num)]; simp
  have hθ2 : (expected noOps).treeR.θp true 2 = 1 := by
    unfold Tree.θp; rw [noOps_parent 2 (by norm_num)]; simp
  have t1 : T 1 = Real.exp 8 ^ 128 := by
    have := h.leaf 1 (by rw [noOps_n]; norm_num) (noOps_leaf 1 (by norm_num))
    simp only [if_true, hθ1] at this
    rw [this, ← Real.exp_nat_mul]; norm_num
  have t3 : T 3 = 1 := by
    have := h.leaf 3 (by rw [noOps_n]; norm_num) (noOps_leaf 3 (by norm_num))
    simpa using this
  have t2 : T 2 = 1 := by
    have := h.leaf 2 (by rw [noOps_n]; norm_num) (noOps_leaf 2 (by norm_num))
    simpa using this
  have hnl : ¬ (expected noOps).treeR.Leaf 0 := by
    unfold Tree.Leaf; rw [noOps_children]; simp
  have hsum : ∑ j ∈ (expected noOps).treeR.children 0, T j = Real.exp 8 ^ 128 + 1 := by
    rw [noOps_children, Finset.sum_pair (by norm_num), t1, t3]
  have h8 : (99 : ℝ) < Real.exp 8 := by
    have h1 : (2.7 : ℝ) < Real.exp 1 := lt_trans (by norm_num) Real.exp_one_gt_d9
    have h2 : Real.exp 8 = Real.exp 1 ^ 8 := by rw [← Real.exp_nat_mul]; norm_num
    rw [h2]
    calc (99 : ℝ) < 2.7 ^ 8 := by norm_num
      _ < _ := pow_lt_pow_left₀ h1 (by norm_num) (by norm_num)
  have h8' : (99 : ℝ) < Real.exp 8 ^ 128 := lt_of_lt_of_le h8 (le_self_pow₀ (by linarith) (by norm_num))
  have t0 : Real.exp 8 ≤ T 0 := by
    have := h.nest 0 (by rw [noOps_n]; norm_num) hnl
    simp only [hsum, hθ0, noOps_θ] at this
    rw [this]
    simp only [show (0 : ℕ) ≠ 1 by norm_num, if_false, zero_div, Real.exp_zero, one_mul, div_one]
    calc Real.exp 8 = (Real.exp 8 ^ 128) ^ ((1 : ℝ) / 128) := by
          rw [← Real.rpow_natCast, ← Real.rpow_mul (Real.exp_pos 8).le]; norm_num
      _ ≤ _ := Real.rpow_le_rpow (by positivity) (by linarith) (by norm_num)
  have p0 : 99 / 100 < P 0 := by
    have := h.top 0 (by rw [noOps_n]; norm_num) (by rw [noOps_parent 0 (by norm_num)]; simp)
    rw [this, noOps_tops, Finset.sum_pair (by norm_num), t2, lt_div_iff₀ (by linarith)]
    linarith
  have p1 := h.child 1 (by rw [noOps_n]; norm_num) 0 (by rw [noOps_parent 1 (by norm_num)]; simp)
  rw [hsum, t1] at p1
  have hq : 99 / 100 < Real.exp 8 ^ 128 / (Real.exp 8 ^ 128 + 1) := by
    rw [lt_div_iff₀ (by linarith)]; linarith
  rw [p1]
  calc (9 / 10 : ℝ) < 99 / 100 * (99 / 100) := by norm_num
    _ < _ := mul_lt_mul'' hq p0 (by norm_num) (by norm_num)

/-- **C75 refuted (nested)** With the nest A = {x, y} of scale 1/128, the choice B and utilities 8 for x and 0 for everything else, the
textbook probability of x is above 9/10. run_stochastic returns without an error, with the logsum `+inf` and NaN for x and y; run_discrete
draws y, the last choice, for every unit and every random number. -/
theorem C75_nested_refuted (K : Kernel F64) (g : Rng F64) (hg : ∀ t k, FOps.le FOps.zero (g.uniform t k) = true) (lr : LegacyRandom Nat) :
    ∃ (m m' : CModel Nat F64) (u : Tab F64), m.tree = after noOps ∧ m.runUtilities K none true = (m', .ok u) ∧ u.rows = 2 ∧ u.cols = 4 ∧
      (∀ i < 2, ∀ j < 4, (u.val i j).v = .fin (if j = 1 then 8 else 0)) ∧
      (∀ T P, (expected noOps).treeR.IsNestedLogit true (fun j => some (if j = 1 then 8 else 0)) T P → 9 / 10 < P 1) ∧
      (∃ fr ls nls, RunStochastic ⟨K, g, lr, 0, 4⟩ m none 2 true true true (m', .ok (fr, ls, nls)) ∧
        fr.cols = [[['A'], ['x']], [['B'], ['.']], [['A'], ['y']]] ∧
        ∀ i < 2, (ls i).v = .pinf ∧ (fr.val i 0).v = .nan ∧ (fr.val i 2).v = .nan) ∧
      ∃ r ls, RunDiscrete ⟨K, g, lr, 0, 4⟩ m (⟨.number 5, 1, .category, true, 2, true, true⟩ : DiscreteArgs Nat Unit) (m', .number 5, .ok (r, ls)) ∧
        ∀ i < 2, r.cell i 0 = .label [['A'], ['y']] := by
  have hr := rel_after noOps noOps_clean
  have hlen : (expected noOps).live.length = 4 := noOps_n
  have hd : 1 < (expected noOps).depth := by rw [noOps_depth]; norm_num
  have hne := live_ne_of_valid hr noOps_valid
  have hwf := flat_wf hr hne
  obtain ⟨m', u, hu, h1, h2, h3⟩ := cached_run noOps_clean noOps_valid [7, 8] noTab rfl hlen.symm (by
    intro i _ j _
    show XR.isNan (if j = 1 then noEight else FOps.zero : F64).v = false
    split <;> rfl) K
  have hcols : u.cols = (expected noOps).live.length := h2.trans hlen.symm
  have hval : ∀ i < 2, ∀ j < 4, (u.val i j).v = .fin (if j = 1 then 8 else 0) := by
    intro i hi j hj
    rw [h3 i hi j hj]
    show (if j = 1 then noEight else FOps.zero : F64).v = _
    split
    · show XR.fin (((8 : ℕ) : ℝ) * 2 ^ (0 : ℤ)) = _; norm_num
    · rfl
  have hur : u.rows = 2 := h1
  have huc : u.cols = 4 := h2
  have hθ1 : (expected noOps).treeR.θp true 1 = 1 / 128 := by
    unfold Tree.θp; rw [noOps_parent 1 (by norm_num)]; simp [noOps_θ]
  have hover : (710 : ℝ) ≤ 8 / (expected noOps).treeR.θp true 1 := by rw [hθ1]; norm_num
  have hcalc : ∀ i < u.rows, ∃ ps terms, rowCalc noOps true true (unitRow u i) = .ok (ps, FOps.posInf, terms) ∧
      ∀ r : F64, FOps.le FOps.zero r = true → sampleOnce ps r = (4 : Int) - 1 := by
    intro i hi
    have hi2 : i < 2 := by omega
    have D := run_overflowData noOps_clean hcols (i := i) (by
      intro j hj; rw [hval i hi2 j (by omega)]; intro h; cases h) (by
      intro j hj _; exact ⟨_, hval i hi2 j (by omega)⟩)
    have hget : (unitRow u i).getD 1 zero = u.val i 1 := by simp [unitRow, huc]
    obtain ⟨ps, terms, e, -, -, -, hs⟩ := C75_nested_overflow hwf D 1 (by show 1 < (expected noOps).live.length; omega)
      (by rw [flat_treeR]; exact noOps_leaf 1 (by norm_num)) 8 (by rw [hget, hval i hi2 1 (by norm_num)]; simp)
      (by rw [flat_treeR]; exact hover) true
    refine ⟨ps, terms, by rw [rowCalc_nested hd]; exact e, fun r hr => ?_⟩
    have := (hs r hr).1
    rw [this]
    show ((expected noOps).live.length : Int) - 1 = _
    rw [hlen]; rfl
  have hnest : ∀ i < 2, ∀ j < u.cols, ¬ (expected noOps).treeR.Leaf j → ∃ x : ℝ, (u.val i j).v = .fin x := by
    intro i hi j hj _; exact ⟨_, hval i hi j (by omega)⟩
  refine ⟨noModel, m', u, rfl, hu, hur, huc, hval, fun T P h => no_textbook h, ?_, ?_⟩
  · obtain ⟨fr, ls, nls, ho⟩ := stochastic_returns (s := (⟨K, g, lr, 0, 4⟩ : Setting F64 Nat)) noOps_clean (m := noModel) rfl hu (by norm_num : (1 : Int) ≤ 2) (by norm_num) (scaled := true) (check := true) (by
      intro i hi
      obtain ⟨ps, terms, e, -⟩ := hcalc i hi
      exact ⟨_, e⟩)
    have hel : elementalChoices noModel.tree = .ok fr.cols := (C60_run (R := R64) rfl noOps noOps_clean hd (by rw [hlen]; norm_num) _ noModel m' rfl [7, 8] rfl none 2 true true true fr ls nls ho).1
    have hcols' : fr.cols = [[['A'], ['x']], [['B'], ['.']], [['A'], ['y']]] := by
      have : elementalChoices (after noOps) = .ok fr.cols := hel
      rw [elemental_eq hr noOps_valid, noOps_expected] at this
      rw [← Except.ok.inj this]
      simp [IsChild, Choices.depth, pad, List.filter_cons]
    refine ⟨fr, ls, nls, ho, hcols', fun i hi => ?_⟩
    obtain ⟨g1, ch, hch, g2⟩ := C75_nested_overflow_run noOps noOps_clean hd _ noModel m' rfl none 2 true true true u hu fr ls nls ho i (by omega)
      (hnest i hi) 1 (by omega) (noOps_leaf 1 (by norm_num)) 8 (by rw [hval i hi 1 (by norm_num)]; simp) hover
    have hch' : ch = [[['A'], ['.']], [['A'], ['x']], [['B'], ['.']], [['A'], ['y']]] := by
      have : choices (after noOps) = .ok ch := hch
      rw [choices_eq hr noOps_valid, noOps_expected] at this
      rw [← Except.ok.inj this]
      simp [Choices.depth, pad]
    have hab : ∀ k, k = 1 ∨ k = 3 → (expected noOps).treeR.Above 0 k := fun k hk =>
      .child k 0 (by rw [noOps_parent k (by omega), if_pos hk]) .self
    have htop : (expected noOps).treeR.parent 0 = none := by rw [noOps_parent 0 (by norm_num)]; simp
    have hl3 : fr.cols.length = 3 := by rw [hcols']; rfl
    refine ⟨g1, (g2 0 (by omega)).2 1 (by simp [hch', hcols']) (noOps_leaf 1 (by norm_num)) ⟨0, htop, hab 1 (by simp), hab 1 (by simp)⟩,
      (g2 2 (by omega)).2 3 (by simp [hch', hcols']) (noOps_leaf 3 (by norm_num)) ⟨0, htop, hab 1 (by simp), hab 3 (by simp)⟩⟩
  · obtain ⟨r, ls, ho⟩ := discrete_returns (s := (⟨K, g, lr, 0, 4⟩ : Setting F64 Nat)) noOps_clean (m := noModel) rfl
      (a := (⟨.number 5, 1, .category, true, 2, true, true⟩ : DiscreteArgs Nat Unit)) rfl hu rfl (by norm_num) (by norm_num) (by norm_num) (by
        intro i hi
        obtain ⟨ps, terms, e, hs⟩ := hcalc i hi
        refine ⟨ps, _, terms, e, fun c _ => ⟨3, by omega, ?_⟩⟩
        unfold drawnPos
        rw [if_pos (by norm_num)]
        unfold numberFor
        rw [if_pos (by norm_num), hs _ (hg _ _)]; rfl)
    refine ⟨r, ls, ho, fun i hi => ?_⟩
    obtain ⟨ch, last, hch, hlast, -, hcell⟩ := C75_nested_overflow_draws noOps noOps_clean hd _ hg noModel m' rfl _ _ r ls ho u hu i (by omega)
      (hnest i hi) 1 (by omega) (noOps_leaf 1 (by norm_num)) 8 (by rw [hval i hi 1 (by norm_num)]; simp) hover
    have hch' : ch = [[['A'], ['.']], [['A'], ['x']], [['B'], ['.']], [['A'], ['y']]] := by
      have : choices (after noOps) = .ok ch := hch
      rw [choices_eq hr noOps_valid, noOps_expected] at this
      rw [← Except.ok.inj this]
      simp [Choices.depth, pad]
    have hl : last = [['A'], ['y']] := by rw [hch'] at hlast; simpa using hlast.symm
    have := hcell 0 (by norm_num)
    rw [hl] at this
    exact this

/-- C75_nested_run_partial: the model of RoundedRuns, scales 1, utilities 0, 0, 0, -inf -/
example (K : Kernel F64) (g : Rng F64) (l : LegacyRandom Nat) : ∃ m' fr ls nls,
    RunStochastic ⟨K, g, l, 0, 4⟩ rrModel none 2 true true true (m', .ok (fr, ls, nls)) ∧
    ∀ i < 2, |∑ j ∈ Finset.range fr.cols.length, (fr.val i j).val - 1| ≤ 4 * (1 / 2 ^ 51) := by
  obtain ⟨m', u, fr, ls, nls, hru, hrows, ho, -⟩ := rr_call K g l
  have hd : 1 < (expected rrOps).depth := by rw [rrOps_expected]; simp [Choices.depth]
  have hdep : (expected rrOps).depth = 2 := by rw [rrOps_expected]; simp [Choices.depth]
  have hlen : (expected rrOps).live.length = 4 := by rw [rrOps_expected]; rfl
  refine ⟨m', fr, ls, nls, ho, fun i hi => ?_⟩
  have hrow : unitRow u i = [FOps.zero, FOps.zero, FOps.zero, FOps.negInf] := by
    have hir : i < u.toRows.length := by rw [hrows]; exact hi
    rw [← toRows_get u i hir]
    have : i = 0 ∨ i = 1 := by omega
    simp only [hrows]
    rcases this with rfl | rfl <;> rfl
  have huc : u.cols = 4 := by rw [← unitRow_length u i, hrow]; rfl
  have hval : ∀ j < u.cols, (u.val i j).v = util (nxU j) := by
    intro j hj
    have e : (unitRow u i).getD j zero = u.val i j := by simp [unitRow, hj]
    rw [← e, hrow]
    have hj : j < 4 := by omega
    interval_cases j <;> rfl
  have := (C75_nested_run_partial rrOps rrOps_clean hd _ rrModel m' rfl [7, 8] rfl none 2 true true true u hru fr ls nls ho i hi nxU hval 1 0
    one_pos (le_refl _) (by
      intro k hk
      rw [rr_treeR]; exact nestEx_data.applied k (by rw [hlen] at hk; exact hk)) (by
      intro j _ x hx
      unfold nxU at hx
      split at hx
      · cases hx
      · simp only [Option.some.injEq] at hx; subst hx; simp) (by rw [hdep]; norm_num) (by rw [hdep, hlen]; norm_num)
    ⟨2, by rw [hlen]; norm_num, by
      rw [rr_treeR]
      refine ⟨(tree_leaf nestEx_wf (by simp [nestEx])).mpr (by simp [nestEx]), .top 2 (by simp [Flat.tree, nestEx]) (by simp [nxU])⟩⟩).2.2.2
  rw [hlen] at this
  exact_mod_cast this

end Cheval
