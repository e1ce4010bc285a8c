import Verif.Props.LargeUtilities
import Verif.Props.RowRuns
import Verif.Props.ZeroProb

/-!
# C75 for whole calls: the size of the utilities
-/
namespace Cheval
open FOps B64 Spec
variable {U Q V : Type} {R : Rounding}

theorem mem_unitRow {F : Type} {u : Tab F} {i : Nat} {x : F} (h : x ∈ unitRow u i) : ∃ j < u.cols, x = u.val i j := by
  obtain ⟨j, hj, rfl⟩ := List.mem_map.mp h
  exact ⟨j, List.mem_range.mp hj, rfl⟩

theorem unitRow_mem {F : Type} {u : Tab F} {i j : Nat} (h : j < u.cols) : u.val i j ∈ unitRow u i :=
  List.mem_map_of_mem (List.mem_range.mpr h)

theorem unitRow_length {F : Type} (u : Tab F) (i : Nat) : (unitRow u i).length = u.cols := by simp [unitRow]

/-- **C75 (in range, run_stochastic)** Double precision, a model without nests: when run_stochastic returns, every decision unit whose
utilities are -inf or at most 650, and one at least -740, has a positive logsum and probabilities in [0,1], and they sum to 1 within
`n * 2^-52`. Missing: larger utilities (`C75_overflow_run`). -/
theorem C75_run_partial (ops : List (TreeOp F64)) (hc : CleanRun Choices.empty ops) (hd : (expected ops).depth ≤ 1)
    (hn : (expected ops).live.length ≤ 2 ^ 50) (s : Setting F64 Q) (m m' : CModel U F64) (hm : m.tree = after ops)
    (group : Option Nat) (threads : Int) (clear scaled check : Bool) (u : Tab F64) (hu : m.runUtilities s.K group clear = (m', .ok u))
    (fr : Frame F64) (ls : Nat → F64) (nls : Frame F64)
    (h : RunStochastic s m group threads clear scaled check (m', .ok (fr, ls, nls))) (i : Nat) (hi : i < u.rows)
    (hus : ∀ j < u.cols, (u.val i j).v = .ninf ∨ ∃ x : ℝ, (u.val i j).v = .fin x ∧ x ≤ 650)
    (hbig : ∃ j < u.cols, ∃ x : ℝ, (u.val i j).v = .fin x ∧ -740 ≤ x) :
    choices m.tree = .ok fr.cols ∧ fr.cols.length = u.cols ∧ (∃ S : ℝ, (ls i).v = .fin S ∧ 0 < S) ∧
    (∀ j < u.cols, ∃ x : ℝ, (fr.val i j).v = .fin x ∧ 0 ≤ x ∧ x ≤ 1) ∧
    |∑ j ∈ Finset.range u.cols, (fr.val i j).val - 1| ≤ u.cols * (1 / 2 ^ 52) := by
  obtain ⟨hcols, mem, hrow⟩ := stochastic_calc hc hm hu h
  obtain ⟨p, t, hp, hval, hfr⟩ := hrow i hi
  obtain ⟨h1, h2, h3⟩ := hfr hd
  rw [rowCalc_flat hd] at hp
  obtain ⟨ps, l, t', S, e, hl, hS, hlen, hin, hsum⟩ := C75_in_range_partial (unitRow u i) (by rw [unitRow_length, hcols]; exact hn) (by
    intro x hx
    obtain ⟨j, hj, rfl⟩ := mem_unitRow hx
    exact hus j hj) (by
    obtain ⟨j, hj, x, e, hx⟩ := hbig
    exact ⟨_, unitRow_mem hj, x, e, hx⟩) check
  rw [hp] at e
  simp only [Except.ok.injEq, Prod.mk.injEq] at e
  obtain ⟨rfl, rfl, -⟩ := e
  rw [unitRow_length] at hlen hsum
  have hv : ∀ j (hj : j < p.length), fr.val i j = p[j] := fun j hj => by rw [h3, hval j hj]
  refine ⟨h1, h2, ⟨S, hl, hS⟩, ?_, ?_⟩
  · intro j hj
    rw [hv j (by omega)]
    exact hin _ (List.getElem_mem _)
  · have e : ∑ j ∈ Finset.range u.cols, (fr.val i j).val = (p.map Rnd.val).sum := by
      rw [← hlen, Finset.sum_range, ← List.sum_ofFn]
      congr 1
      apply List.ext_getElem
      · simp
      · intro j hj1 hj2
        simp only [List.getElem_ofFn, List.getElem_map]
        rw [hv j (by simpa using hj1)]
    rw [e]; exact hsum

/-- **C75 (overflow, run_stochastic)** Double precision, a model without nests: when run_stochastic returns, every decision unit with a
utility of 710 or more has the logsum `+inf`, NaN as the probability of each such choice and 0 for the choices with a utility up to 650. -/
theorem C75_overflow_run (ops : List (TreeOp F64)) (hc : CleanRun Choices.empty ops) (hd : (expected ops).depth ≤ 1)
    (s : Setting F64 Q) (m m' : CModel U F64) (hm : m.tree = after ops)
    (group : Option Nat) (threads : Int) (clear scaled check : Bool) (u : Tab F64) (hu : m.runUtilities s.K group clear = (m', .ok u))
    (fr : Frame F64) (ls : Nat → F64) (nls : Frame F64)
    (h : RunStochastic s m group threads clear scaled check (m', .ok (fr, ls, nls))) (i : Nat) (hi : i < u.rows)
    (hover : ∃ j < u.cols, ∃ x : ℝ, (u.val i j).v = .fin x ∧ 710 ≤ x) :
    choices m.tree = .ok fr.cols ∧ fr.cols.length = u.cols ∧ (ls i).v = .pinf ∧
    (∀ j < u.cols, ∀ x : ℝ, (u.val i j).v = .fin x → 710 ≤ x → (fr.val i j).v = .nan) ∧
    ∀ j < u.cols, ((u.val i j).v = .ninf ∨ ∃ x : ℝ, (u.val i j).v = .fin x ∧ x ≤ 650) → (fr.val i j).v = .fin 0 := by
  obtain ⟨hcols, mem, hrow⟩ := stochastic_calc hc hm hu h
  obtain ⟨p, t, hp, hval, hfr⟩ := hrow i hi
  obtain ⟨h1, h2, h3⟩ := hfr hd
  rw [rowCalc_flat hd] at hp
  obtain ⟨ps, t', e, hlen, hnan, hz, -⟩ := C75_overflow (unitRow u i) (by
    intro x hx
    obtain ⟨j, hj, rfl⟩ := mem_unitRow hx
    intro hv
    have : XR.isNan (u.val i j).v = false := (C37_success s.K m m' group clear u hu).1 i j hi hj
    rw [hv] at this; cases this) (by
    obtain ⟨j, hj, x, e, hx⟩ := hover
    exact ⟨_, unitRow_mem hj, x, e, hx⟩) check
  rw [hp] at e
  simp only [Except.ok.injEq, Prod.mk.injEq] at e
  obtain ⟨rfl, e2, -⟩ := e
  rw [unitRow_length] at hlen
  have hv : ∀ j (hj : j < p.length), fr.val i j = p[j] := fun j hj => by rw [h3, hval j hj]
  have hget : ∀ j (hj : j < (unitRow u i).length), (unitRow u i)[j] = u.val i j := by intro j hj; simp [unitRow]
  refine ⟨h1, h2, by rw [e2]; rfl, ?_, ?_⟩
  · intro j hj x hx hb
    rw [hv j (by omega)]
    exact hnan j (by rw [unitRow_length]; exact hj) (by omega) x (by rw [hget]; exact hx) hb
  · intro j hj hx
    rw [hv j (by omega)]
    exact hz j (by rw [unitRow_length]; exact hj) (by omega) (by rw [hget]; exact hx)

/-- **C75 (overflow, run_discrete)** Double precision, a model without nests, random numbers not negative: when run_discrete returns, every
draw for a decision unit with a utility of 710 or more is the last choice, whatever its utility. -/
theorem C75_overflow_draws (ops : List (TreeOp F64)) (hc : CleanRun Choices.empty ops) (hd : (expected ops).depth ≤ 1)
    (s : Setting F64 Q) (hg : ∀ t k, FOps.le FOps.zero (s.rng.uniform t k) = true) (m m' : CModel U F64) (hm : m.tree = after ops)
    (a : DiscreteArgs Q V) (seed' : SeedArg Q) (r : ResObj V) (ls : Nat → F64) (h : RunDiscrete s m a (m', seed', .ok (r, ls)))
    (u : Tab F64) (hu : m.runUtilities s.K none a.clear = (m', .ok u)) (i : Nat) (hi : i < u.rows)
    (hover : ∃ j < u.cols, ∃ x : ℝ, (u.val i j).v = .fin x ∧ 710 ≤ x) :
    ∃ ch l, choices m.tree = .ok ch ∧ ch.getLast? = some l ∧ (ls i).v = .pinf ∧
      ∀ c < a.nDraws.toNat, CellFor ch a.astype (r.cell i c) l := by
  obtain ⟨u', seed, ch, hu', -, hn, hch, hchl, hcols, pos, hcv, hrow⟩ := discrete_calc hc hm h
  rw [hu] at hu'
  simp only [Prod.mk.injEq, Except.ok.injEq, true_and] at hu'
  subst hu'
  have hpos : 0 < u.cols := by obtain ⟨j, hj, _⟩ := hover; omega
  obtain ⟨p, t, hp, hdr⟩ := hrow i hi
  rw [rowCalc_flat hd] at hp
  obtain ⟨ps, t', e, hlen, -, -, hdraw⟩ := C75_overflow (unitRow u i) (by
    intro x hx
    obtain ⟨j, hj, rfl⟩ := mem_unitRow hx
    intro hv
    have : XR.isNan (u.val i j).v = false := (C37_success s.K m m' none a.clear u hu).1 i j hi hj
    rw [hv] at this; cases this) (by
    obtain ⟨j, hj, x, e, hx⟩ := hover
    exact ⟨_, unitRow_mem hj, x, e, hx⟩) true
  rw [hp] at e
  simp only [Except.ok.injEq, Prod.mk.injEq] at e
  obtain ⟨rfl, e2, -⟩ := e
  rw [unitRow_length] at hlen hdraw
  have hlast : ∀ c < a.nDraws.toNat, pos i c = ((u.cols - 1 : Nat) : Int) := by
    intro c hcn
    have h1 := hdr c hcn
    have h0 : FOps.le FOps.zero (numberFor s.rng a.nDraws.toNat seed i c) = true := by
      unfold numberFor; split <;> exact hg _ _
    obtain ⟨d1, d2⟩ := hdraw _ h0
    unfold drawnPos at h1
    rw [d1, d2] at h1
    split at h1
    · simp only [Option.some.injEq] at h1; omega
    · simp only [Option.map_some, Option.some.injEq] at h1; omega
  obtain ⟨l, hl⟩ : ∃ l, ch.getLast? = some l := by
    cases hcc : ch.getLast? with
    | none => rw [List.getLast?_eq_none_iff] at hcc; rw [hcc] at hchl; simp at hchl; omega
    | some l => exact ⟨l, rfl⟩
  refine ⟨ch, l, hch, hl, by rw [e2]; rfl, fun c hcn => ?_⟩
  have hk : ch[u.cols - 1]? = some l := by
    rw [List.getLast?_eq_getElem?, hchl] at hl; exact hl
  exact convertResult_cell hcv hi hcn (hlast c hcn) hk

/-! ### Concrete calls -/

section concrete

/-- three choices without nests, in any of the arithmetics -/
noncomputable def rgOps (R : Rounding) : List (TreeOp (Rnd R)) := [.addTop ['A'] FOps.one, .addTop ['B'] FOps.one, .addTop ['C'] FOps.one]

theorem rgOps_expected : expected (rgOps R) = ⟨[[['A']], [['B']], [['C']]], [⟨0, [['A']], FOps.one⟩, ⟨1, [['B']], FOps.one⟩, ⟨2, [['C']], FOps.one⟩]⟩ := by
  have h1 : FOps.lt (FOps.zero : Rnd R) FOps.one = true := by show XR.lt (.fin 0) (.fin 1) = true; simp [XR.lt]
  have h2 : FOps.le (FOps.one : Rnd R) FOps.one = true := by show XR.le (.fin 1) (.fin 1) = true; simp [XR.le]
  simp [rgOps, expected, Choices.run, Choices.step, Choices.add, Choices.empty, Legal, h1, h2]

theorem rgOps_clean : CleanRun Choices.empty (rgOps R) := by
  have h1 : FOps.lt (FOps.zero : Rnd R) FOps.one = true := by show XR.lt (.fin 0) (.fin 1) = true; simp [XR.lt]
  have h2 : FOps.le (FOps.one : Rnd R) FOps.one = true := by show XR.le (.fin 1) (.fin 1) = true; simp [XR.le]
  simp [rgOps, CleanRun, Clean, CleanAdd, Choices.step, Choices.add, Choices.empty, Legal, h1, h2]

theorem rgOps_valid : validateTree (after (rgOps R)) = .ok () := by
  rw [(C19_validate (rgOps R) rgOps_clean).1, rgOps_expected]
  simp [Choices.kids, IsChild, List.filter_cons]

/-- units 7 and 8, choices A, B, C, utilities `w 0, w 1, w 2` computed before -/
noncomputable def bgModel (w : Nat → (Rnd R)) : CModel Nat (Rnd R) :=
  ⟨after (rgOps R), ExprGroup.empty, [], some [7, 8], some ([7, 8], ⟨2, 3, fun _ j => w j⟩), 8⟩

theorem bg_run (w : Nat → (Rnd R)) (hw : ∀ j, FOps.isNan (w j) = false) (K : Kernel (Rnd R)) : ∃ m' u, (bgModel w).runUtilities K none true = (m', .ok u) ∧
    m'.tree = after (rgOps R) ∧ u.rows = 2 ∧ u.cols = 3 ∧ ∀ i j, i < 2 → j < 3 → u.val i j = w j := by
  have hcont : (bgModel w).container none = .ok ⟨[], [], []⟩ := by
    simp [CModel.container, bgModel, ExprGroup.empty, ExprGroup.itersimple, ExprGroup.iterchained, ExprGroup.all]
  have hv : (bgModel w).validate true true true true none = .ok () := by
    have ht : (bgModel w).tree = after (rgOps R) := rfl
    have hs : (bgModel w).scope = [] := rfl
    have hu : (bgModel w).units = some [7, 8] := rfl
    simp [CModel.validate, ht, rgOps_valid, hs, hcont, CModel.decisionUnits, hu, checkSymbols, bind, Except.bind]
  have hcon : Consistent (bgModel w) [[['A']], [['B']], [['C']]] 1 [7, 8] := by
    refine ⟨rfl, ?_, by intro e he; simp [bgModel] at he, ?_⟩
    · obtain ⟨labels, h1, h2⟩ := labelled_after (rgOps R) rgOps_clean rgOps_valid
      refine ⟨labels, h1, ?_⟩
      rw [rgOps_expected] at h2
      simpa [Choices.depth] using h2
    · intro ix u h
      simp only [bgModel, Option.some.injEq, Prod.mk.injEq] at h
      obtain ⟨rfl, rfl⟩ := h
      exact ⟨rfl, rfl⟩
  let env : PyEnv := ⟨false, fun _ => false, id, .utilities⟩
  obtain ⟨ix, u, h1, h2, h3, -, -, h5⟩ := run_sound K hcon (Held.empty env emPy) hcont hv (srcs := []) .nil
    (by intro y hy; cases hy) (by intro i j _ _; rfl) true
  have hval : ∀ i j, i < 2 → j < 3 → u.val i j = w j := by
    intro i j hi hj
    exact Option.some.inj (h3 i j hi hj)
  rw [if_neg] at h5
  swap
  · rw [hasNan_iff]
    rintro ⟨i, j, hi, hj, h⟩
    rw [h1] at hi; rw [h2] at hj
    rw [hval i j hi hj, hw] at h
    cases h
  exact ⟨_, u, h5, rfl, h1, h2, hval⟩

theorem bg_flat : (expected (rgOps R)).depth ≤ 1 := by rw [rgOps_expected]; simp [Choices.depth]

theorem bg_choices : choices (after (rgOps R)) = .ok [[['A']], [['B']], [['C']]] := by
  rw [choices_eq (rel_after (rgOps R) rgOps_clean) rgOps_valid, rgOps_expected]
  simp [Choices.depth, pad]

/-- run_stochastic on this model returns if the calculation for one row does -/
theorem bg_stochastic (w : Nat → (Rnd R)) (hw : ∀ j, FOps.isNan (w j) = false) (check : Bool) (p : List (Rnd R)) (l : (Rnd R)) (t : List (Rnd R))
    (hmn : multinomial [w 0, w 1, w 2] check = .ok (p, l, t)) (K : Kernel (Rnd R)) (g : Rng (Rnd R)) (lr : LegacyRandom Nat) : ∃ m' u fr ls nls,
    (bgModel w).runUtilities K none true = (m', .ok u) ∧ u.rows = 2 ∧ u.cols = 3 ∧ (∀ i j, i < 2 → j < 3 → u.val i j = w j) ∧
    RunStochastic ⟨K, g, lr, 0, 4⟩ (bgModel w) none 2 true true check (m', .ok (fr, ls, nls)) := by
  obtain ⟨m', u, hru, htree, h1, h2, h3⟩ := bg_run w hw K
  have hr := rel_after (rgOps R) rgOps_clean
  have hne := live_ne_of_valid hr rgOps_valid
  have hrows : u.toRows = [[w 0, w 1, w 2], [w 0, w 1, w 2]] := by
    unfold Tab.toRows
    rw [h1, h2]
    simp [List.range_succ, h3]
  obtain ⟨mem, hmem⟩ := ParLoop.exists_ok (n := u.toRows.length) (init := zeroMem)
    (body := probBody (fun u => multinomial u check) u.toRows) (by
      rw [hrows]
      intro i hi
      have : i = 0 ∨ i = 1 := by simp at hi; omega
      rcases this with rfl | rfl <;> exact ⟨_, by simp only [probBody, List.getD_cons_zero, List.getD_cons_succ, hmn, bind, Except.bind]; rfl⟩)
  have hch := bg_choices (R := R)
  obtain ⟨fr, nls, hst⟩ : ∃ fr nls, StochasticStage m'.tree u.toRows true check (.ok (fr, fun i => readNum mem (aLs, i, 0), nls)) := by
    unfold StochasticStage
    rw [htree, hr.depth_eq hne]
    simp only [if_neg (not_lt.mpr bg_flat)]
    rw [hch]
    exact ⟨_, _, _, hmem, rfl⟩
  refine ⟨m', u, fr, fun i => readNum mem (aLs, i, 0), nls, hru, h1, h2, h3, ?_⟩
  · unfold RunStochastic
    simp only [hru]
    rw [if_neg (by omega)]
    exact ⟨_, hst, rfl⟩

/-- run_discrete on this model returns if the calculation for one row does and its probabilities can be sampled -/
theorem bg_discrete (w : Nat → (Rnd R)) (hw : ∀ j, FOps.isNan (w j) = false) (p : List (Rnd R)) (l : (Rnd R)) (t : List (Rnd R))
    (hmn : multinomial [w 0, w 1, w 2] true = .ok (p, l, t)) (K : Kernel (Rnd R)) (g : Rng (Rnd R)) (lr : LegacyRandom Nat)
    (hs : ∀ r, ∃ k : Nat, k < 3 ∧ sampleOnce p (g.uniform 5 r) = (k : Int)) : ∃ m' u r ls,
    (bgModel w).runUtilities K none true = (m', .ok u) ∧ u.rows = 2 ∧ u.cols = 3 ∧ (∀ i j, i < 2 → j < 3 → u.val i j = w j) ∧
    RunDiscrete ⟨K, g, lr, 0, 4⟩ (bgModel w) (⟨.number 5, 1, .category, true, 2, true, true⟩ : DiscreteArgs Nat Unit) (m', .number 5, .ok (r, ls)) := by
  obtain ⟨m', u, hru, htree, h1, h2, h3⟩ := bg_run w hw K
  obtain ⟨⟨m2, s2, res⟩, ho⟩ := C53_total ⟨K, g, lr, 0, 4⟩ (bgModel w) (⟨.number 5, 1, .category, true, 2, true, true⟩ : DiscreteArgs Nat Unit)
  have ho' := ho
  have hv := (runUtilities_ok hru).1
  have hr := rel_after (rgOps R) rgOps_clean
  have hne := live_ne_of_valid hr rgOps_valid
  have hrow : ∀ i, i < u.toRows.length → unitRow u i = [w 0, w 1, w 2] := by
    intro i hi
    have hi2 : i < 2 := by unfold Tab.toRows at hi; simpa [h1] using hi
    unfold unitRow
    rw [h2]
    simp [List.range_succ, h3 i _ hi2]
  unfold RunDiscrete at ho
  simp only [hv, resolveSeed, hru] at ho
  rw [if_neg (by omega), if_neg (by omega)] at ho
  obtain ⟨dres, hd, hout⟩ := ho
  unfold DiscreteStage at hd
  simp only at hd
  rw [htree, hr.depth_eq hne, bg_choices] at hd
  simp only [if_neg (not_lt.mpr bg_flat)] at hd
  rw [htree, bg_choices] at hout
  obtain ⟨wres, hw', hfin⟩ := hd
  have hone : ∀ i (hi : i < u.toRows.length) x, multinomialSample (u.toRows[i]) x = .ok (sampleOnce p x, l) := by
    intro i hi x
    rw [toRows_get, hrow i hi]
    unfold multinomialSample
    rw [hmn]; rfl
  rcases C12_multinomial_sample _ _ _ _ _ hw' with ⟨mem, rfl, hall⟩ | ⟨i, hi, e, rfl, he⟩
  swap
  · exfalso
    rcases he with ⟨_, he⟩ | ⟨hn, _⟩
    · rw [hone i hi] at he; cases he
    · simp at hn
  simp only at hfin
  subst hfin
  simp only at hout
  have hno : ¬ ∃ i < u.rows, ∃ c < (1 : Int).toNat, takeAt ([[['A']], [['B']], [['C']]] : List (List Name)).length (readIdx mem (aRes, i, c)) = none := by
    rintro ⟨i, hi, c, hcn, hnone⟩
    have hir : i < u.toRows.length := by unfold Tab.toRows; simpa using hi
    obtain rfl : c = 0 := by simp at hcn; omega
    obtain ⟨k, lv, hk, hm, -⟩ := (hall i hir).1 (by simp)
    rw [hone i hir] at hk
    cases hk
    obtain ⟨k, hk3, ek⟩ := hs i
    have : readIdx mem (aRes, i, 0) = (k : Int) := by unfold readIdx; rw [hm]; exact ek
    rw [this, takeAt_nat (by simpa using hk3)] at hnone
    cases hnone
  unfold convertResult at hout
  simp only [if_neg hno, Except.map] at hout
  rw [hout] at ho'
  exact ⟨m', u, _, _, hru, h1, h2, h3, ho'⟩

end concrete

/-- utilities 0, 1000, 0 -/
noncomputable def bgUtil (j : Nat) : F64 := if j = 1 then dy 1000 0 (by norm_num) (by norm_num) (by norm_num) else FOps.zero

theorem bgUtil_v (j : Nat) : (bgUtil j).v = if j = 1 then .fin 1000 else .fin 0 := by
  unfold bgUtil
  split
  · show XR.fin _ = _; norm_num
  · rfl

/-- **C75 (refuted)** A model with the choices A, B, C and the finite utilities 0, 1000, 0 for both decision units, in double precision:
run_stochastic returns, with the logsum `+inf`, the probability NaN for B and 0 for A and C; run_discrete returns C for both units,
although the exact probability of C is below 2^-1000. With every NumExpr, every generator of non-negative numbers, and the check for
infeasible units on. -/
theorem C75_refuted (K : Kernel F64) (g : Rng F64) (hg : ∀ t k, FOps.le FOps.zero (g.uniform t k) = true) (lr : LegacyRandom Nat) :
    ∃ (m m' : CModel Nat F64) (u : Tab F64), m.runUtilities K none true = (m', .ok u) ∧ u.rows = 2 ∧ u.cols = 3 ∧
      (∀ i < 2, (u.val i 0).v = .fin 0 ∧ (u.val i 1).v = .fin 1000 ∧ (u.val i 2).v = .fin 0) ∧
      Real.exp 0 / (Real.exp 0 + Real.exp 1000 + Real.exp 0) < 1 / 2 ^ 1000 ∧
      (∃ fr ls nls, RunStochastic ⟨K, g, lr, 0, 4⟩ m none 2 true true true (m', .ok (fr, ls, nls)) ∧ fr.cols = [[['A']], [['B']], [['C']]] ∧
        ∀ i < 2, (ls i).v = .pinf ∧ (fr.val i 0).v = .fin 0 ∧ (fr.val i 1).v = .nan ∧ (fr.val i 2).v = .fin 0) ∧
      ∃ r ls, RunDiscrete ⟨K, g, lr, 0, 4⟩ m (⟨.number 5, 1, .category, true, 2, true, true⟩ : DiscreteArgs Nat Unit) (m', .number 5, .ok (r, ls)) ∧
        ∀ i < 2, r.cell i 0 = .label [['C']] := by
  have hw : ∀ j, FOps.isNan (bgUtil j) = false := by
    intro j; show XR.isNan (bgUtil j).v = false; rw [bgUtil_v]; split <;> rfl
  obtain ⟨ps, t, hmn, hlen, -, -, hdr⟩ := C75_overflow [bgUtil 0, bgUtil 1, bgUtil 2] (by
    intro u hu
    simp only [List.mem_cons, List.not_mem_nil, or_false] at hu
    rcases hu with rfl | rfl | rfl <;> rw [bgUtil_v] <;> simp) ⟨bgUtil 1, by simp, 1000, by rw [bgUtil_v]; simp, by norm_num⟩ true
  obtain ⟨m', u, fr, ls, nls, hru, h1, h2, h3, hst⟩ := bg_stochastic bgUtil hw true ps _ t hmn K g lr
  obtain ⟨m2, u2, r, ls2, hru2, -, -, -, hdi⟩ := bg_discrete bgUtil hw ps _ t hmn K g lr (by
    intro r
    refine ⟨2, by norm_num, ?_⟩
    rw [(hdr _ (hg 5 r)).1]; rfl)
  rw [hru] at hru2
  simp only [Prod.mk.injEq, Except.ok.injEq] at hru2
  obtain ⟨rfl, rfl⟩ := hru2
  refine ⟨bgModel bgUtil, m', u, hru, h1, h2, ?_, ?_, ⟨fr, ls, nls, hst, ?_⟩, r, ls2, hdi, ?_⟩
  · intro i hi
    rw [h3 i 0 hi (by norm_num), h3 i 1 hi (by norm_num), h3 i 2 hi (by norm_num), bgUtil_v, bgUtil_v, bgUtil_v]
    simp
  · rw [Real.exp_zero, div_lt_div_iff₀ (by positivity) (by positivity), one_mul, one_mul]
    have h : (2 : ℝ) ^ 1000 ≤ Real.exp 1000 := by
      have h2 : (2 : ℝ) ≤ Real.exp 1 := by have := Real.exp_one_gt_d9; linarith
      have := exp_nat 1000
      push_cast at this
      rw [this]
      exact pow_le_pow_left₀ (by norm_num) h2 _
    linarith
  · have key := fun i (hi : i < 2) => C75_overflow_run (rgOps R64) rgOps_clean bg_flat _ (bgModel bgUtil) m' rfl none 2 true true true u hru fr ls nls hst i
      (by omega) ⟨1, by omega, 1000, by rw [h3 i 1 hi (by norm_num), bgUtil_v]; simp, by norm_num⟩
    have hcols : fr.cols = [[['A']], [['B']], [['C']]] := by
      have h : choices (after (rgOps R64)) = .ok fr.cols := (key 0 (by norm_num)).1
      rw [bg_choices] at h
      exact (Except.ok.inj h).symm
    refine ⟨hcols, fun i hi => ?_⟩
    obtain ⟨-, -, k1, k2, k3⟩ := key i hi
    refine ⟨k1, k3 0 (by omega) (Or.inr ⟨0, ?_, by norm_num⟩), k2 1 (by omega) 1000 ?_ (by norm_num), k3 2 (by omega) (Or.inr ⟨0, ?_, by norm_num⟩)⟩ <;>
      rw [h3 i _ hi (by norm_num), bgUtil_v] <;> simp
  · intro i hi
    obtain ⟨ch, l, k1, k2, -, k3⟩ := C75_overflow_draws (rgOps R64) rgOps_clean bg_flat ⟨K, g, lr, 0, 4⟩ hg (bgModel bgUtil) m' rfl _ _ r ls2 hdi u hru i
      (by omega) ⟨1, by omega, 1000, by rw [h3 i 1 hi (by norm_num), bgUtil_v]; simp, by norm_num⟩
    have h : choices (after (rgOps R64)) = .ok ch := k1
    rw [bg_choices] at h
    obtain rfl := Except.ok.inj h
    have := k3 0 (by simp)
    simp at k2
    subst k2
    exact this

/-- C75_run_partial, C75_in_range_partial: utilities 0, 0, -inf -/
example (K : Kernel F64) (g : Rng F64) (l : LegacyRandom Nat) : ∃ m' fr ls nls,
    RunStochastic ⟨K, g, l, 0, 4⟩ rfModel none 2 true true true (m', .ok (fr, ls, nls)) ∧
    ∀ i < 2, |∑ j ∈ Finset.range 3, (fr.val i j).val - 1| ≤ 3 * (1 / 2 ^ 52) := by
  obtain ⟨m', u, fr, ls, nls, hru, hrows, ho, hl⟩ := rf_call K g l
  have hlen := congrArg List.length hrows
  have hr2 : u.rows = 2 := by simpa [Tab.toRows] using hlen
  have hrow : ∀ i, i < 2 → unitRow u i = [FOps.zero, FOps.zero, FOps.negInf] := by
    intro i hi
    have hir : i < u.toRows.length := by rw [hrows]; exact hi
    rw [← toRows_get u i hir]
    have : i = 0 ∨ i = 1 := by omega
    simp only [hrows]
    rcases this with rfl | rfl <;> rfl
  have hc3 : u.cols = 3 := by rw [← unitRow_length u 0, hrow 0 (by norm_num)]; rfl
  have hval : ∀ i < 2, ∀ j < 3, (u.val i j).v = .fin 0 ∨ (u.val i j).v = .ninf := by
    intro i hi j hj
    have := unitRow_mem (u := u) (i := i) (j := j) (by omega)
    rw [hrow i hi] at this
    simp only [List.mem_cons, List.not_mem_nil, or_false] at this
    rcases this with h | h | h <;> rw [h]
    · exact Or.inl rfl
    · exact Or.inl rfl
    · exact Or.inr rfl
  refine ⟨m', fr, ls, nls, ho, fun i hi => ?_⟩
  have := (C75_run_partial rfOps rfOps_clean (by rw [rfOps_expected]; simp [Choices.depth]) (by rw [rfOps_expected]; norm_num) _ rfModel m' rfl none 2 true true true u hru fr ls nls ho i
    (by omega) (by
      intro j hj
      rcases hval i hi j (by omega) with h | h
      · exact Or.inr ⟨0, h, by norm_num⟩
      · exact Or.inl h) ⟨0, by omega, 0, by
        have e : (unitRow u i)[0]'(by rw [unitRow_length]; omega) = u.val i 0 := by simp [unitRow]
        rw [← e]; simp only [hrow i hi]; rfl, by norm_num⟩).2.2.2.2
  rw [hc3] at this
  exact_mod_cast this

end Cheval
