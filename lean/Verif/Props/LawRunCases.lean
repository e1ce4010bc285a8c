import Verif.Props.LawRuns
import Verif.Props.NestedLawRuns

/-!
# Concrete calls for C05–C11
-/
namespace Cheval
open FOps Spec

/-- choices B, A, C without nests -/
noncomputable def threeOps : List (TreeOp XR) := [.addTop ['B'] one, .addTop ['A'] one, .addTop ['C'] one]

theorem threeOps_expected : expected threeOps =
    ⟨[[['B']], [['A']], [['C']]], [⟨0, [['B']], one⟩, ⟨1, [['A']], one⟩, ⟨2, [['C']], one⟩]⟩ := by
  simp [threeOps, expected, Choices.run, Choices.step, Choices.add, Choices.empty, Legal, lt, le, zero, one, XR.lt, XR.le]

theorem threeOps_clean : CleanRun Choices.empty threeOps := by
  simp [threeOps, CleanRun, Clean, CleanAdd, Choices.step, Choices.add, Choices.empty, Legal, lt, le, zero, one, XR.lt, XR.le]

theorem threeOps_valid : validateTree (after threeOps) = .ok () := by
  rw [(C19_validate threeOps threeOps_clean).1, threeOps_expected]
  simp [Choices.kids, IsChild, List.filter_cons]

theorem threeOps_depth : (expected threeOps).depth ≤ 1 := by rw [threeOps_expected]; simp [Choices.depth]

/-- the utilities of the three choices -/
noncomputable def abc (V : List Name → Util) (j : Nat) : Util := utilRow (expected threeOps) V j

theorem abc_get (V : List Name → Util) : abc V 0 = V [['B']] ∧ abc V 1 = V [['A']] ∧ abc V 2 = V [['C']] := by
  simp [abc, utilRow, threeOps_expected]

theorem byPath_cols {ops : List (TreeOp XR)} (hc : CleanRun Choices.empty ops) {V : List Name → Util} {K : Kernel XR} {m' : CModel Nat XR}
    {u : Tab XR} (h : (byPath ops V).runUtilities K none false = (m', .ok u)) : u.cols = (expected ops).live.length := by
  obtain ⟨hv, _, _, _, _, labels, hl1, hl2⟩ := runUtilities_ok h
  have ht : (byPath ops V).tree = after ops := rfl
  have hvt := validateTree_of_validate hv
  rw [ht] at hvt hl1
  rw [choices_eq (rel_after ops hc) hvt] at hl1
  cases hl1; simpa using hl2

/-- C06_run: if B, A and C are all unavailable, the call raises with check_infeasible, and returns zeros without -/
example (env : PyEnv) (M : Arith XR) (V : List Name → Util) (hV : ∀ p, V p = none) : ∃ m' m'' fr ls nls,
    RunStochastic (emSetting M) (byPath threeOps V) none 2 false true true (m', .error .utilityBounds) ∧
    RunStochastic (emSetting M) (byPath threeOps V) none 2 false true false (m'', .ok (fr, ls, nls)) ∧ ls 0 = .fin 0 ∧
    ∀ k < 3, fr.val 0 k = .fin 0 := by
  obtain ⟨m₁, u, hu, hr, hW⟩ := byPath_run threeOps threeOps_clean threeOps_valid V (emKernel M) env
  have hcols := byPath_cols threeOps_clean hu
  have h3 : (expected threeOps).live.length = 3 := by rw [threeOps_expected]; rfl
  have hval : ∀ i < u.rows, ∀ j < u.cols, u.val i j = util ((fun _ _ => none : Nat → Nat → Util) i j) := by
    intro i hi j hj
    rw [hW i hi j (by omega), hV]
  obtain ⟨out, ho⟩ := C12_run_stochastic_total (emSetting M) (byPath threeOps V) none 2 false true true
  obtain ⟨out', ho'⟩ := C12_run_stochastic_total (emSetting M) (byPath threeOps V) none 2 false true false
  have e := (C06_run threeOps threeOps_clean threeOps_depth (emSetting M) (byPath threeOps V) m₁ rfl none 2 false true true u hu (by norm_num)
    (by simp [emSetting]) _ hval out ho).1 ⟨rfl, 0, by omega, fun _ _ => rfl⟩
  obtain ⟨fr, ls, nls, e', -, -, -, h⟩ := (C06_run threeOps threeOps_clean threeOps_depth (emSetting M) (byPath threeOps V) m₁ rfl none 2 false
    true false u hu (by norm_num) (by simp [emSetting]) _ hval out' ho').2 (by rintro ⟨h, -⟩; cases h)
  subst e e'
  obtain ⟨h4, h5⟩ := (h 0 (by omega)).1 fun _ _ => rfl
  exact ⟨_, _, fr, ls, nls, ho, ho', h4, fun k hk => h5 k (by omega)⟩

/-- a returned call for utilities with B available, or for any utilities without check_infeasible -/
theorem three_returned (env : PyEnv) (M : Arith XR) (V : List Name → Util) (check : Bool) (hB : V [['B']] ≠ none ∨ check = false) : ∃ fr ls nls,
    Returned threeOps (emSetting M) (byPath threeOps V) true check 1 (fun _ => abc V) fr ls nls ∧ fr.cols.length = 3 := by
  obtain ⟨m₁, u, hu, hr, hW⟩ := byPath_run threeOps threeOps_clean threeOps_valid V (emKernel M) env
  have hcols := byPath_cols threeOps_clean hu
  have h3 : (expected threeOps).live.length = 3 := by rw [threeOps_expected]; rfl
  have hval : ∀ i < u.rows, ∀ j < u.cols, u.val i j = util ((fun _ => abc V : Nat → Nat → Util) i j) := by
    intro i hi j hj
    have hj' : j < (expected threeOps).live.length := by omega
    rw [hW i hi j hj']
    show _ = util (utilRow (expected threeOps) V j)
    rw [utilRow_lt hj']
  obtain ⟨out, ho⟩ := C12_run_stochastic_total (emSetting M) (byPath threeOps V) none 2 false true check
  obtain ⟨fr, ls, nls, e, -, -, e3, -⟩ := (C06_run threeOps threeOps_clean threeOps_depth (emSetting M) (byPath threeOps V) m₁ rfl none 2 false
    true check u hu (by norm_num) (by simp [emSetting]) _ hval out ho).2 (by
      rintro ⟨hc, i, hi, h⟩
      rcases hB with hB | hB
      · exact hB ((abc_get V).1 ▸ h 0 (by omega))
      · rw [hc] at hB; cases hB)
  subst e
  exact ⟨fr, ls, nls, ⟨threeOps_clean, rfl, m₁, u, none, 2, false, hu, ho, by omega, hval⟩, by omega⟩

/-- C06_returned: nothing is available, and the call without check_infeasible returned -/
example (env : PyEnv) (M : Arith XR) : ∃ fr ls nls, Returned threeOps (emSetting M) (byPath threeOps fun _ => none) true false 1
    (fun _ => abc fun _ => none) fr ls nls ∧ ls 0 = .fin 0 ∧ fr.val 0 0 = .fin 0 ∧ fr.val 0 1 = .fin 0 ∧ fr.val 0 2 = .fin 0 := by
  obtain ⟨fr, ls, nls, h, h3⟩ := three_returned env M (fun _ => none) false (.inr rfl)
  obtain ⟨a0, a1, a2⟩ := abc_get fun _ => none
  obtain ⟨-, e1, e2⟩ := C06_returned h threeOps_depth 0 (by norm_num) (fun j hj => by
    match j, hj with
    | 0, _ => exact a0
    | 1, _ => exact a1
    | 2, _ => exact a2
    | j + 3, hj => omega)
  exact ⟨fr, ls, nls, h, e1, e2 0 (by omega), e2 1 (by omega), e2 2 (by omega)⟩

/-- C05_run, C07_run_translation, C07_run_odds, C07_run_monotone: A unavailable, B and C available; everything 5 higher; C higher -/
example (env : PyEnv) (M : Arith XR) (b c c' : ℝ) (hcc : c ≤ c') :
    ∃ fr ls nls fr' ls' nls' fr'' ls'' nls'',
      Returned threeOps (emSetting M) (byPath threeOps fun p => if p = [['A']] then none else if p = [['B']] then some b else some c) true true 1
        (fun _ => abc fun p => if p = [['A']] then none else if p = [['B']] then some b else some c) fr ls nls ∧
      Returned threeOps (emSetting M) (byPath threeOps fun p => if p = [['A']] then none else if p = [['B']] then some (b + 5) else some (c + 5))
        true true 1 (fun _ => abc fun p => if p = [['A']] then none else if p = [['B']] then some (b + 5) else some (c + 5)) fr' ls' nls' ∧
      Returned threeOps (emSetting M) (byPath threeOps fun p => if p = [['A']] then none else if p = [['B']] then some b else some c') true false 1
        (fun _ => abc fun p => if p = [['A']] then none else if p = [['B']] then some b else some c') fr'' ls'' nls'' ∧
      fr.val 0 0 = .fin (Real.exp b / (Real.exp b + Real.exp c)) ∧ fr.val 0 1 = .fin 0 ∧ fr'.val 0 0 = fr.val 0 0 ∧
      realOf (fr.val 0 2) / realOf (fr.val 0 0) = Real.exp (c - b) ∧ realOf (fr''.val 0 0) ≤ realOf (fr.val 0 0) := by
  have hne : ([['B']] : List Name) ≠ [['A']] := by decide
  have hne' : ([['C']] : List Name) ≠ [['A']] := by decide
  have hne'' : ([['C']] : List Name) ≠ [['B']] := by decide
  obtain ⟨fr, ls, nls, h, hl⟩ := three_returned env M (fun p => if p = [['A']] then none else if p = [['B']] then some b else some c) true (.inl (by simp [hne]))
  obtain ⟨fr', ls', nls', h', hl'⟩ := three_returned env M
    (fun p => if p = [['A']] then none else if p = [['B']] then some (b + 5) else some (c + 5)) true (.inl (by simp [hne]))
  obtain ⟨fr'', ls'', nls'', h'', hl''⟩ := three_returned env M
    (fun p => if p = [['A']] then none else if p = [['B']] then some b else some c') false (.inr rfl)
  obtain ⟨a0, a1, a2⟩ := abc_get fun p => if p = [['A']] then none else if p = [['B']] then some b else some c
  obtain ⟨b0, b1, b2⟩ := abc_get fun p => if p = [['A']] then none else if p = [['B']] then some (b + 5) else some (c + 5)
  obtain ⟨d0, d1, d2⟩ := abc_get fun p => if p = [['A']] then none else if p = [['B']] then some b else some c'
  simp only [hne, hne', hne'', if_false, if_true] at a0 a1 a2 b0 b1 b2 d0 d1 d2
  have hfeas : ∃ j < fr.cols.length, abc (fun p => if p = [['A']] then none else if p = [['B']] then some b else some c) j ≠ none :=
    ⟨0, by omega, by rw [a0]; simp⟩
  obtain ⟨-, -, -, e, -⟩ := C05_run h threeOps_depth 0 (by norm_num) hfeas
  refine ⟨fr, ls, nls, fr', ls', nls', fr'', ls'', nls'', h, h', h'', ?_, ?_, ?_, ?_, ?_⟩
  · rw [(e 0 (by omega)).1, hl]
    simp only [Finset.sum_range_succ, Finset.sum_range_zero, a0, a1, a2, expw]
    simp
  · exact ((e 1 (by omega)).2.2.2.2).mpr a1
  · refine C07_run_translation h h' threeOps_depth 0 0 (by norm_num) (by norm_num) 5 (fun j hj => ?_) 0 (by omega)
    match j, hj with
    | 0, _ => rw [a0, b0]; rfl
    | 1, _ => rw [a1, b1]; rfl
    | 2, _ => rw [a2, b2]; rfl
    | j + 3, hj => omega
  · exact (C07_run_odds h threeOps_depth 0 (by norm_num) 2 0 (by omega) (by omega) c b a2 a0).2
  · refine (C07_run_monotone h h'' threeOps_depth 0 0 (by norm_num) (by norm_num) 2 (by omega) c' d2 (fun x hx => ?_) (fun j hj hj2 => ?_) hfeas).2 0
      (by omega) (by decide)
    · rw [a2] at hx; exact Option.some.inj hx ▸ hcc
    · match j, hj with
      | 0, _ => rw [a0, d0]
      | 1, _ => rw [a1, d1]
      | 2, _ => exact absurd rfl hj2
      | j + 3, hj => omega

/-! ## with nests -/

/-- what can be reached in the example model: B, or A.x or A.y if A is available -/
theorem example_reaches (V : List Name → Util) : Reaches exampleOps (utilRow (expected exampleOps) V) ↔
    V [['B']] ≠ none ∨ (V [['A']] ≠ none ∧ (V [['A'], ['x']] ≠ none ∨ V [['A'], ['y']] ≠ none)) := by
  have hp : ∀ k, (expected exampleOps).tree.parent k = if k = 2 ∨ k = 3 then some 1 else none := by
    intro k
    rw [exampleOps_expected]
    match k with
    | 0 => simp [Choices.tree]
    | 1 => simp [Choices.tree]
    | 2 => simp [Choices.tree, List.idxOf_cons]
    | 3 => simp [Choices.tree, List.idxOf_cons]
    | k + 4 => simp [Choices.tree]
  have hu : ∀ k, utilRow (expected exampleOps) V k = match k with
      | 0 => V [['B']]
      | 1 => V [['A']]
      | 2 => V [['A'], ['x']]
      | 3 => V [['A'], ['y']]
      | _ => utilRow (expected exampleOps) V k := by
    intro k
    match k with
    | 0 | 1 | 2 | 3 => simp [utilRow, exampleOps_expected]
    | k + 4 => rfl
  have hn : (expected exampleOps).live.length = 4 := by rw [exampleOps_expected]; rfl
  have hleaf : ∀ k < 4, (expected exampleOps).tree.Leaf k ↔ k ≠ 1 := by
    intro k hk
    rw [flat_leaf (rel_after _ exampleOps_clean) (by rw [exampleOps_expected]; simp) k (by rw [hn]; exact hk)]
    simp only [exampleOps_expected]
    match k, hk with
    | 0, _ => simp [IsChild]
    | 1, _ => simp [IsChild]
    | 2, _ => simp [IsChild]
    | 3, _ => simp [IsChild]
    | k + 4, h => omega
  have htop : ∀ k, k = 0 ∨ k = 1 → ((expected exampleOps).tree.Open (utilRow (expected exampleOps) V) k ↔
      utilRow (expected exampleOps) V k ≠ none) := by
    intro k hk
    constructor
    · intro h; cases h <;> assumption
    · intro h
      exact .top k (by rw [hp]; rcases hk with rfl | rfl <;> simp) h
  have hsub : ∀ k, k = 2 ∨ k = 3 → ((expected exampleOps).tree.Open (utilRow (expected exampleOps) V) k ↔
      utilRow (expected exampleOps) V k ≠ none ∧ utilRow (expected exampleOps) V 1 ≠ none) := by
    intro k hk
    constructor
    · intro h
      cases h with
      | top _ h1 h2 => rw [hp, if_pos hk] at h1; cases h1
      | child _ p h1 h2 h3 =>
        rw [hp, if_pos hk] at h1
        cases h1
        exact ⟨by assumption, (htop 1 (.inr rfl)).mp (by assumption)⟩
    · rintro ⟨h1, h2⟩
      exact .child k 1 (by rw [hp, if_pos hk]) h1 ((htop 1 (.inr rfl)).mpr h2)
  unfold Reaches
  rw [hn]
  constructor
  · rintro ⟨l, hl, hlf, hop⟩
    match l, hl with
    | 0, _ => exact .inl (by rw [htop 0 (.inl rfl), hu] at hop; exact hop)
    | 1, _ => exact absurd rfl ((hleaf 1 (by norm_num)).mp hlf)
    | 2, _ => rw [hsub 2 (.inl rfl), hu, hu 1] at hop; exact .inr ⟨hop.2, .inl hop.1⟩
    | 3, _ => rw [hsub 3 (.inr rfl), hu, hu 1] at hop; exact .inr ⟨hop.2, .inr hop.1⟩
    | l + 4, h => omega
  · rintro (h | ⟨h, h' | h'⟩)
    · exact ⟨0, by norm_num, (hleaf 0 (by norm_num)).mpr (by norm_num), (htop 0 (.inl rfl)).mpr (by rw [hu]; exact h)⟩
    · exact ⟨2, by norm_num, (hleaf 2 (by norm_num)).mpr (by norm_num), (hsub 2 (.inl rfl)).mpr (by rw [hu, hu 1]; exact ⟨h', h⟩)⟩
    · exact ⟨3, by norm_num, (hleaf 3 (by norm_num)).mpr (by norm_num), (hsub 3 (.inr rfl)).mpr (by rw [hu, hu 1]; exact ⟨h', h⟩)⟩

/-- the utilities of `byPath` as a table -/
theorem byPath_table (ops : List (TreeOp XR)) (hc : CleanRun Choices.empty ops) (hv : validateTree (after ops) = .ok ()) (V : List Name → Util)
    (K : Kernel XR) (env : PyEnv) : ∃ m' u, (byPath ops V).runUtilities K none false = (m', .ok u) ∧ u.rows = 1 ∧
      ∀ i < u.rows, ∀ j < u.cols, u.val i j = util ((fun _ => utilRow (expected ops) V : Nat → Nat → Util) i j) := by
  obtain ⟨m₁, u, hu, hr, hW⟩ := byPath_run ops hc hv V K env
  have hcols := byPath_cols hc hu
  refine ⟨m₁, u, hu, hr, fun i hi j hj => ?_⟩
  have hj' : j < (expected ops).live.length := by omega
  rw [hW i hi j hj']
  show _ = util (utilRow (expected ops) V j)
  rw [utilRow_lt hj']

/-- C10_run, C10_run_discrete: B and A unavailable; the choices in A do not help -/
example (env : PyEnv) (M : Arith XR) (T : Type) (V : List Name → Util) (hB : V [['B']] = none) (hA : V [['A']] = none) : ∃ m' m'' fr ls nls m₃ seed,
    RunStochastic (emSetting M) (byPath exampleOps V) none 2 false true true (m', .error .utilityBounds) ∧
    RunStochastic (emSetting M) (byPath exampleOps V) none 2 false true false (m'', .ok (fr, ls, nls)) ∧ ls 0 = .fin 0 ∧
    (∀ j < fr.cols.length, fr.val 0 j = .fin 0) ∧
    RunDiscrete (emSetting M) (byPath exampleOps V) (⟨.number 3, 5, .index, true, 2, false, true⟩ : DiscreteArgs Nat T)
      (m₃, seed, .error .utilityBounds) := by
  obtain ⟨m₁, u, hu, hr, hval⟩ := byPath_table exampleOps exampleOps_clean exampleOps_valid V (emKernel M) env
  have hno : ¬ Reaches exampleOps (utilRow (expected exampleOps) V) := by
    rw [example_reaches]; simp [hA, hB]
  obtain ⟨out, ho⟩ := C12_run_stochastic_total (emSetting M) (byPath exampleOps V) none 2 false true true
  obtain ⟨out', ho'⟩ := C12_run_stochastic_total (emSetting M) (byPath exampleOps V) none 2 false true false
  obtain ⟨⟨m₃, seed, o⟩, ho''⟩ := C53_total (emSetting M) (byPath exampleOps V) (⟨.number 3, 5, .index, true, 2, false, true⟩ : DiscreteArgs Nat T)
  have e := (C10_run exampleOps exampleOps_clean exampleOps_depth (emSetting M) (byPath exampleOps V) m₁ rfl none 2 false true true u hu
    (by norm_num) (by simp [emSetting]) _ hval out ho).1 ⟨rfl, 0, by omega, hno⟩
  obtain ⟨fr, ls, nls, e', -, -, h⟩ := (C10_run exampleOps exampleOps_clean exampleOps_depth (emSetting M) (byPath exampleOps V) m₁ rfl none 2 false
    true false u hu (by norm_num) (by simp [emSetting]) _ hval out' ho').2 (by rintro ⟨h, -⟩; cases h)
  have e'' := (C10_run_discrete exampleOps exampleOps_clean exampleOps_depth (emSetting M) (by
      intro s k
      simp only [emSetting, le, one, tiny, XR.le, decide_eq_true_eq]
      exact ⟨pow_le_one₀ (by norm_num) (by norm_num), le_refl _⟩)
    (byPath exampleOps V) m₁ rfl (⟨.number 3, 5, .index, true, 2, false, true⟩ : DiscreteArgs Nat T) (by intro e h; cases h) (by norm_num)
    u hu (by norm_num) (by simp [emSetting]) _ hval _ ho'').1 ⟨0, by omega, hno⟩
  obtain ⟨e1, e2⟩ := e''
  simp only at e1 e2
  subst e e' e1 e2
  obtain ⟨h4, h5⟩ := (h 0 (by omega)).1 hno
  exact ⟨_, _, fr, ls, nls, _, seed, ho, ho', h4, h5, ho''⟩

theorem example_parent (k : Nat) : (expected exampleOps).tree.parent k = if k = 2 ∨ k = 3 then some 1 else none := by
  rw [exampleOps_expected]
  match k with
  | 0 => simp [Choices.tree]
  | 1 => simp [Choices.tree]
  | 2 => simp [Choices.tree, List.idxOf_cons]
  | 3 => simp [Choices.tree, List.idxOf_cons]
  | k + 4 => simp [Choices.tree]

/-- C10_run_independent: A is unavailable; whatever the utilities of A.x and A.y are, the probabilities are the same -/
example (env : PyEnv) (M : Arith XR) (b x y x' y' : ℝ) : ∃ fr ls nls fr' ls' nls',
    Returned exampleOps (emSetting M) (byPath exampleOps fun p => if p = [['A']] then none else if p = [['B']] then some b else
      if p = [['A'], ['x']] then some x else some y) true true 1 (fun _ => utilRow (expected exampleOps) fun p => if p = [['A']] then none else
      if p = [['B']] then some b else if p = [['A'], ['x']] then some x else some y) fr ls nls ∧
    Returned exampleOps (emSetting M) (byPath exampleOps fun p => if p = [['A']] then none else if p = [['B']] then some b else
      if p = [['A'], ['x']] then some x' else some y') true true 1 (fun _ => utilRow (expected exampleOps) fun p => if p = [['A']] then none else
      if p = [['B']] then some b else if p = [['A'], ['x']] then some x' else some y') fr' ls' nls' ∧
    ∀ j < fr.cols.length, fr'.val 0 j = fr.val 0 j := by
  have hret : ∀ V : List Name → Util, V [['B']] ≠ none → ∃ fr ls nls,
      Returned exampleOps (emSetting M) (byPath exampleOps V) true true 1 (fun _ => utilRow (expected exampleOps) V) fr ls nls := by
    intro V hB
    obtain ⟨m₁, u, hu, hr, hval⟩ := byPath_table exampleOps exampleOps_clean exampleOps_valid V (emKernel M) env
    obtain ⟨out, ho⟩ := C12_run_stochastic_total (emSetting M) (byPath exampleOps V) none 2 false true true
    obtain ⟨fr, ls, nls, e, -⟩ := (C10_run exampleOps exampleOps_clean exampleOps_depth (emSetting M) (byPath exampleOps V) m₁ rfl none 2 false
      true true u hu (by norm_num) (by simp [emSetting]) _ hval out ho).2 (by
        rintro ⟨-, i, hi, h⟩
        exact h ((example_reaches V).mpr (.inl hB)))
    subst e
    exact ⟨fr, ls, nls, exampleOps_clean, rfl, m₁, u, none, 2, false, hu, ho, hr, hval⟩
  have hne : ([['B']] : List Name) ≠ [['A']] := by decide
  have hn : (expected exampleOps).live.length = 4 := by rw [exampleOps_expected]; rfl
  have hopen : ∀ V : List Name → Util, V [['A']] = none → ∀ l, (expected exampleOps).tree.Above 1 l →
      ¬ (expected exampleOps).tree.Open (utilRow (expected exampleOps) V) l := by
    intro V hA l ha
    have h1 : utilRow (expected exampleOps) V 1 = none := by rw [← hA]; simp [utilRow, exampleOps_expected]
    induction ha with
    | self => intro h; cases h <;> exact absurd h1 (by assumption)
    | child i p hp _ ih =>
      intro h
      cases h with
      | top _ h2 _ => rw [hp] at h2; cases h2
      | child _ q h2 _ h3 => rw [hp] at h2; cases h2; exact ih h3
  obtain ⟨fr, ls, nls, h⟩ := hret (fun p => if p = [['A']] then none else if p = [['B']] then some b else
      if p = [['A'], ['x']] then some x else some y) (by simp [hne])
  obtain ⟨fr', ls', nls', h'⟩ := hret (fun p => if p = [['A']] then none else if p = [['B']] then some b else
      if p = [['A'], ['x']] then some x' else some y') (by simp [hne])
  refine ⟨fr, ls, nls, fr', ls', nls', h, h', (C10_run_independent exampleOps exampleOps_clean exampleOps_depth h h' 0 0 (by norm_num) (by norm_num) 1 (by omega) (fun k hk hab => ?_)
    (fun l _ _ ha => hopen _ (by simp) l ha) (fun l _ _ ha => hopen _ (by simp) l ha)).2⟩
  match k, hk with
  | 0, _ => simp [utilRow, exampleOps_expected]
  | 1, _ => exact absurd .self hab
  | 2, _ => exact absurd (.child 2 1 (by rw [example_parent]; simp) .self) hab
  | 3, _ => exact absurd (.child 3 1 (by rw [example_parent]; simp) .self) hab
  | k + 4, h => omega

/-- B, and A with A.x and A.y, all scales one -/
noncomputable def unitOps : List (TreeOp XR) :=
  [.addTop ['B'] one, .addTop ['A'] one, .addChild 1 ['x'] one, .addChild 1 ['y'] one]

theorem unitOps_expected : expected unitOps =
    ⟨[[['B']], [['A']], [['A'], ['x']], [['A'], ['y']]],
     [⟨0, [['B']], one⟩, ⟨1, [['A']], one⟩, ⟨2, [['A'], ['x']], one⟩, ⟨3, [['A'], ['y']], one⟩]⟩ := by
  simp [unitOps, expected, Choices.run, Choices.step, Choices.add, Choices.empty, Legal, lt, le, zero, one, XR.lt, XR.le]

theorem unitOps_clean : CleanRun Choices.empty unitOps := by
  simp [unitOps, CleanRun, Clean, CleanAdd, Choices.step, Choices.add, Choices.empty, Legal, lt, le, zero, one, XR.lt, XR.le]

theorem unitOps_valid : validateTree (after unitOps) = .ok () := by
  rw [(C19_validate unitOps unitOps_clean).1, unitOps_expected]
  simp [Choices.kids, IsChild, List.filter_cons]

/-- C11_run: B, A.x available, A.y not, the nest has utility 0 -/
example (env : PyEnv) (M : Arith XR) (b x : ℝ) : ∃ m' fr ls nls,
    RunStochastic (emSetting M) (byPath unitOps fun p => if p = [['A']] then some 0 else if p = [['B']] then some b else
      if p = [['A'], ['x']] then some x else none) none 2 false true true (m', .ok (fr, ls, nls)) ∧
    ls 0 = .fin (Real.exp b + Real.exp x) := by
  classical
  have hn : (expected unitOps).live.length = 4 := by rw [unitOps_expected]; rfl
  have hd : 1 < (expected unitOps).depth := by rw [unitOps_expected]; simp [Choices.depth]
  have hleaf : ∀ k < 4, (expected unitOps).tree.Leaf k ↔ k ≠ 1 := by
    intro k hk
    rw [flat_leaf (rel_after _ unitOps_clean) (by rw [unitOps_expected]; simp) k (by rw [hn]; exact hk)]
    simp only [unitOps_expected]
    match k, hk with
    | 0, _ => simp [IsChild]
    | 1, _ => simp [IsChild]
    | 2, _ => simp [IsChild]
    | 3, _ => simp [IsChild]
    | k + 4, h => omega
  obtain ⟨m₁, u, hu, hr, hval⟩ := byPath_table unitOps unitOps_clean unitOps_valid (fun p => if p = [['A']] then some 0 else
    if p = [['B']] then some b else if p = [['A'], ['x']] then some x else none) (emKernel M) env
  obtain ⟨out, ho⟩ := C12_run_stochastic_total (emSetting M) (byPath unitOps fun p => if p = [['A']] then some 0 else
    if p = [['B']] then some b else if p = [['A'], ['x']] then some x else none) none 2 false true true
  obtain ⟨fr, ls, nls, e, -, h⟩ := C11_run unitOps unitOps_clean hd (by rw [unitOps_expected]; simp) (emSetting M) _ m₁ rfl none 2 false true true
    u hu (by norm_num) (by simp [emSetting]) _ hval (fun i _ k hk hl => by
      rw [hn] at hk
      rw [hleaf k hk, not_not] at hl
      subst hl
      simp [utilRow, unitOps_expected]) (fun i _ => ⟨0, by omega, (hleaf 0 (by norm_num)).mpr (by norm_num), by simp [utilRow, unitOps_expected]⟩)
    out ho
  subst e
  obtain ⟨total, ht, hls, -⟩ := h 0 (by omega)
  refine ⟨_, fr, ls, nls, ho, ?_⟩
  rw [hls, ht, hn, Finset.sum_filter]
  simp only [Finset.sum_range_succ, Finset.sum_range_zero]
  rw [if_pos ((hleaf 0 (by norm_num)).mpr (by norm_num)), if_neg (fun h => (hleaf 1 (by norm_num)).mp h rfl),
    if_pos ((hleaf 2 (by norm_num)).mpr (by norm_num)), if_pos ((hleaf 3 (by norm_num)).mpr (by norm_num))]
  simp [utilRow, unitOps_expected, expw]

/-- C06_run_discrete: a unit with nothing available makes `run_discrete` raise, one with B available does not -/
example (env : PyEnv) (M : Arith XR) (T : Type) : ∃ m' seed m'' seed' r,
    RunDiscrete (emSetting M) (byPath threeOps fun _ => none) (⟨.number 3, 5, .category, true, 2, false, true⟩ : DiscreteArgs Nat T)
      (m', seed, .error .utilityBounds) ∧
    RunDiscrete (emSetting M) (byPath threeOps fun p => if p = [['B']] then some 1 else none)
      (⟨.number 3, 5, .category, true, 2, false, true⟩ : DiscreteArgs Nat T) (m'', seed', .ok r) := by
  have hrng : (emSetting M).rng.InUnit := by
    intro s k
    simp only [emSetting, le, one, tiny, XR.le, decide_eq_true_eq]
    exact ⟨pow_le_one₀ (by norm_num) (by norm_num), le_refl _⟩
  have key : ∀ V : List Name → Util, ∃ m₁ seed o, RunDiscrete (emSetting M) (byPath threeOps V)
        (⟨.number 3, 5, .category, true, 2, false, true⟩ : DiscreteArgs Nat T) (m₁, seed, o) ∧
      ((∀ p, V p = none) → o = .error .utilityBounds) ∧ (V [['B']] ≠ none → ∃ r, o = .ok r) := by
    intro V
    obtain ⟨m₁, u, hu, hr, hval⟩ := byPath_table threeOps threeOps_clean threeOps_valid V (emKernel M) env
    have hcols := byPath_cols threeOps_clean hu
    have h3 : (expected threeOps).live.length = 3 := by rw [threeOps_expected]; rfl
    obtain ⟨⟨m₃, seed, o⟩, ho⟩ := C53_total (emSetting M) (byPath threeOps V) (⟨.number 3, 5, .category, true, 2, false, true⟩ : DiscreteArgs Nat T)
    obtain ⟨e1, e2⟩ := C06_run_discrete threeOps threeOps_clean threeOps_depth (emSetting M) hrng
      (byPath threeOps V) m₁ rfl (⟨.number 3, 5, .category, true, 2, false, true⟩ : DiscreteArgs Nat T) (by intro e h; cases h) (by norm_num)
      u hu (by norm_num) (by simp [emSetting]) _ hval _ ho
    refine ⟨m₃, seed, o, ho, fun hV => ?_, fun hV => ?_⟩
    · refine (e1 ⟨0, by omega, fun j hj => ?_⟩).2
      show utilRow (expected threeOps) V j = none
      rw [utilRow_lt (by omega), hV]
    · obtain ⟨r, -, h⟩ := e2 (fun i hi => ⟨0, by omega, by rw [← (abc_get V).1] at hV; exact hV⟩) rfl
      exact ⟨r, h⟩
  obtain ⟨m₁, seed, o, h, h1, -⟩ := key fun _ => none
  obtain ⟨m₂, seed', o', h', -, h2⟩ := key fun p => if p = [['B']] then some 1 else none
  obtain ⟨r, rfl⟩ := h2 (by simp)
  rw [h1 fun _ => rfl] at h
  exact ⟨m₁, seed, m₂, seed', r, h, h'⟩

end Cheval
