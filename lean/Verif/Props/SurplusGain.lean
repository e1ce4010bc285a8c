import Verif.Props.SurplusNested

/-!
# C82: what an improvement of one choice is worth, between the probabilities before and after
-/
set_option linter.unusedSectionVars false
namespace Cheval
open FOps Spec

/-- a function whose slope never falls gains at least the first slope and at most the last slope, times the step -/
private theorem gain_between {f g : ℝ → ℝ} (hf : ∀ w, HasDerivAt f (g w) w) {x y : ℝ} (hxy : x ≤ y)
    (hg : ∀ v w, v ≤ w → g v ≤ g w) : g x * (y - x) ≤ f y - f x ∧ f y - f x ≤ g y * (y - x) := by
  rcases hxy.eq_or_lt with rfl | hlt
  · simp
  · obtain ⟨c, hc, e⟩ := exists_hasDerivAt_eq_slope f g hlt (fun w _ => (hf w).continuousAt.continuousWithinAt) fun w _ => hf w
    have hpos : 0 < y - x := sub_pos.mpr hlt
    rw [eq_div_iff hpos.ne'] at e
    rw [← e]
    exact ⟨mul_le_mul_of_nonneg_right (hg _ _ hc.1.le) hpos.le, mul_le_mul_of_nonneg_right (hg _ _ hc.2.le) hpos.le⟩

variable {t : Flat XR} {θ : Nat → ℝ}

/-- the gain of an available elemental choice of the tree, if the slope of the logarithm of the logsum is its probability times `K` -/
private theorem gain (h : t.WF) (hs : t.HasScales θ) (scaled : Bool) (u : Nat → Util) (d : Nat) (hd : d < t.n) (hl : (t.spec θ).Leaf d)
    (K : ℝ) (hK : 0 ≤ K)
    (hslope : ∀ x, ∃ (Z : ℝ → ℝ) (p : Nat → ℝ) (terms : List XR),
      (∀ y, ∃ (q : Nat → ℝ) (terms' : List XR), nested (row t.n (Function.update u d (some y))) t scaled true =
        .ok (arr t.n (fun i => .fin (q i)), .fin (Z y), terms')) ∧
      nested (row t.n (Function.update u d (some x))) t scaled true = .ok (arr t.n (fun i => .fin (p i)), .fin (Z x), terms) ∧
      HasDerivAt (fun y => Real.log (Z y)) (p d * K) x) {x y : ℝ} (hxy : x ≤ y) :
    absR t θ scaled (Function.update u d (some x)) d * K * (y - x) ≤
        Real.log (∑ i ∈ (t.spec θ).tops, termR t scaled (Function.update u d (some y)) i) -
        Real.log (∑ i ∈ (t.spec θ).tops, termR t scaled (Function.update u d (some x)) i) ∧
      Real.log (∑ i ∈ (t.spec θ).tops, termR t scaled (Function.update u d (some y)) i) -
        Real.log (∑ i ∈ (t.spec θ).tops, termR t scaled (Function.update u d (some x)) i) ≤
        absR t θ scaled (Function.update u d (some y)) d * K * (y - x) := by
  refine gain_between (f := fun w => Real.log (∑ i ∈ (t.spec θ).tops, termR t scaled (Function.update u d (some w)) i))
    (g := fun w => absR t θ scaled (Function.update u d (some w)) d * K) (fun w => ?_) hxy fun v w hvw => ?_
  · obtain ⟨Z, p, terms, h2, h3, h4⟩ := hslope w
    have hZ : (fun w => ∑ i ∈ (t.spec θ).tops, termR t scaled (Function.update u d (some w)) i) = Z := by
      funext y
      obtain ⟨q, terms', hq⟩ := h2 y
      exact (XR.fin.inj (returned_logsum h hs hq)).symm
    rw [returned_prob h hs h3 hd hl] at h4
    rw [← hZ] at h4
    exact h4
  · refine mul_le_mul_of_nonneg_right ?_ hK
    refine (nl_of h hs scaled (Function.update u d (some v))).raise_own (nl_of h hs scaled _) (d := d) (y := w) ⟨fun k _ hk => ?_, ?_, ?_⟩ hd d hd
      (.inr .self)
    · rw [Function.update_of_ne hk, Function.update_of_ne hk]
    · rw [Function.update_self]
    · intro z hz
      rw [Function.update_self] at hz
      cases hz
      exact hvw

open Classical in
/-- **C82 (gain, trees)** Raising the utility of an available elemental choice from `x` to `y` raises the logarithm of the reported logsum by at least the
probability before and at most the probability after, times `y - x`; without scale_utilities, times the scales of the nests around the choice as well. -/
theorem C82_gain (h : t.WF) (hs : t.HasScales θ) (scaled check : Bool) (u : Nat → Util) (d : Nat) (hd : d < t.n)
    (hl : (t.spec θ).Leaf d) (ho : (t.spec θ).Open u d) (x y : ℝ) (hx : u d = some x) (hxy : x ≤ y) (p p' : Nat → ℝ) (ls ls' : XR)
    (terms terms' : List XR)
    (hr : nested (row t.n u) t scaled check = .ok (arr t.n (fun i => .fin (p i)), ls, terms))
    (hr' : nested (row t.n (Function.update u d (some y))) t scaled check = .ok (arr t.n (fun i => .fin (p' i)), ls', terms')) :
    ∃ z z' : ℝ, ls = .fin z ∧ ls' = .fin z' ∧ 0 < z ∧ 0 < z' ∧
      p d * (if scaled then 1 else ∏ a ∈ (Finset.range t.n).filter (fun a => (t.spec θ).Above a d ∧ a ≠ d), θ a) * (y - x) ≤
        Real.log z' - Real.log z ∧
      Real.log z' - Real.log z ≤
        p' d * (if scaled then 1 else ∏ a ∈ (Finset.range t.n).filter (fun a => (t.spec θ).Above a d ∧ a ≠ d), θ a) * (y - x) := by
  have hself : Function.update u d (some x) = u := by rw [← hx, Function.update_eq_self]
  have hpos : ∀ u, (t.spec θ).Open u d → 0 < ∑ i ∈ (t.spec θ).tops, termR t scaled u i := fun u ho =>
    (nl_of h hs scaled u).feasible_iff.mpr ⟨d, hd, hl, ho⟩
  refine ⟨_, _, returned_logsum h hs hr, returned_logsum h hs hr', hpos u ho, hpos _ (open_update y ho), ?_⟩
  rw [returned_prob h hs hr hd hl, returned_prob h hs hr' hd hl]
  have := gain h hs scaled u d hd hl
    (if scaled then 1 else ∏ a ∈ (Finset.range t.n).filter (fun a => (t.spec θ).Above a d ∧ a ≠ d), θ a) (by
      split
      · exact zero_le_one
      · exact Finset.prod_nonneg fun a ha => (hs a (Finset.mem_range.mp (Finset.mem_filter.mp ha).1)).2.le) (fun w => by
      have ho' := open_update (d := d) w ho
      cases scaled
      · obtain ⟨Z, p, terms, -, h2, h3, h4⟩ := C82_slope_unscaled h hs true _ d hd hl ho' w (by rw [Function.update_self])
        refine ⟨Z, p, terms, fun y => ?_, h3, ?_⟩
        · have := h2 y
          rw [Function.update_idem] at this
          exact this
        · simpa using h4
      · obtain ⟨Z, p, terms, -, h2, h3, h4⟩ := C82_slope h hs true _ d hd hl ho' w (by rw [Function.update_self])
        refine ⟨Z, p, terms, fun y => ?_, h3, ?_⟩
        · have := h2 y
          rw [Function.update_idem] at this
          exact this
        · simpa using h4) hxy
  rw [hself] at this
  exact this

/-! ## whole calls -/
variable {U U' R R' : Type} [DecidableEq U] [DecidableEq U'] [Inhabited R] [Inhabited R']

open Classical in
/-- **C82 (run_stochastic, gain)** Nested models: two decision units, of one call or of two, differ only in the utility of an available elemental choice, `x`
for the first and `y ≥ x` for the second. The composite utility (the logarithm of the reported logsum) of the second is higher by at least `y - x` times
the probability reported for the choice in the first and by at most `y - x` times the one in the second (times the scales of the nests around the choice
without scale_utilities). -/
theorem C82_run_nested_gain {ops : List (TreeOp XR)} {s : Setting XR R} {s' : Setting XR R'} {m : CModel U XR} {m' : CModel U' XR}
    {scaled check check' : Bool} {n n' : Nat} {V V' : Nat → List Name → Util} {fr fr' nls nls' : Frame XR} {ls ls' : Nat → XR}
    (h : Returned ops s m scaled check n (fun i => utilRow (expected ops) (V i)) fr ls nls)
    (h' : Returned ops s' m' scaled check' n' (fun i => utilRow (expected ops) (V' i)) fr' ls' nls') (hd : 1 < (expected ops).depth)
    (hav : ∀ i < n, Available (expected ops) (V i)) (hav' : ∀ i < n', Available (expected ops) (V' i)) (i i' : Nat) (hi : i < n) (hi' : i' < n')
    (j j' : Nat) (hj : j < fr.cols.length) (hj' : j' < fr'.cols.length) (d : Rec XR) (hdl : d ∈ (expected ops).live)
    (hlab : fr.cols[j] = pad (expected ops).depth d.path) (hlab' : fr'.cols[j'] = pad (expected ops).depth d.path)
    (hin : ∀ q ∈ (expected ops).live, q.path <+: d.path → V i q.path ≠ none) (x y : ℝ) (hx : V i d.path = some x) (hy : V' i' d.path = some y)
    (hxy : x ≤ y) (hsame : ∀ q ∈ (expected ops).live, q.path ≠ d.path → V' i' q.path = V i q.path) :
    ∃ z z' : ℝ, ls i = .fin z ∧ ls' i' = .fin z' ∧ 0 < z ∧ 0 < z' ∧
      realOf (fr.val i j) * (if scaled then 1 else
        ((expected ops).live.map fun r => if r.path <+: d.path ∧ r.path ≠ d.path then realOf r.scale else 1).prod) * (y - x) ≤
        Real.log z' - Real.log z ∧
      Real.log z' - Real.log z ≤ realOf (fr'.val i' j') * (if scaled then 1 else
        ((expected ops).live.map fun r => if r.path <+: d.path ∧ r.path ≠ d.path then realOf r.scale else 1).prod) * (y - x) := by
  have hr := rel_after ops h.clean
  obtain ⟨wf, hsc, e⟩ := returned_nested h hd hav
  obtain ⟨-, -, e'⟩ := returned_nested h' hd hav'
  obtain ⟨δ, hδ, rfl⟩ := List.mem_iff_getElem.mp hdl
  obtain ⟨hl, hval⟩ := (e i hi).2 j hj δ hδ hlab
  obtain ⟨-, hval'⟩ := (e' i' hi').2 j' hj' δ hδ hlab'
  have hrow : utilRow (expected ops) (V i) δ = some x := by rw [utilRow_lt hδ, hx]
  have hopen : ((flatOf ops).spec (expected ops).tree.θ).Open (utilRow (expected ops) (V i)) δ := by
    rw [flat_spec]
    exact open_of_path hr hδ fun q hq hp => hin q hq hp
  have hrow' : utilRow (expected ops) (V' i') = Function.update (utilRow (expected ops) (V i)) δ (some y) := by
    rw [← utilRow_update h.clean _ hδ]
    funext k
    by_cases hk : k < (expected ops).live.length
    · rw [utilRow_lt hk, utilRow_lt hk]
      by_cases hp : (expected ops).live[k].path = (expected ops).live[δ].path
      · rw [hp, Function.update_self, hy]
      · rw [Function.update_of_ne hp, hsame _ (List.getElem_mem hk) hp]
    · unfold utilRow
      rw [List.getElem?_eq_none (by omega)]
  have hl' : ((flatOf ops).spec (expected ops).tree.θ).Leaf δ := by rw [flat_spec]; exact hl
  have hpos : ∀ u, ((flatOf ops).spec (expected ops).tree.θ).Open u δ →
      0 < ∑ k ∈ ((flatOf ops).spec (expected ops).tree.θ).tops, termR (flatOf ops) scaled u k := fun u ho =>
    (nl_of wf hsc scaled u).feasible_iff.mpr ⟨δ, hδ, hl', ho⟩
  obtain ⟨p, terms, hp⟩ := nested_returns wf hsc scaled true (utilRow (expected ops) (V i)) (hpos _ hopen)
  obtain ⟨p', terms', hp'⟩ := nested_returns wf hsc scaled true (Function.update (utilRow (expected ops) (V i)) δ (some y))
    (hpos _ (open_update y hopen))
  obtain ⟨z, z', e1, e2, h1, h2, h3, h4⟩ := C82_gain wf hsc scaled true _ δ hδ hl' hopen x y hrow hxy p p' _ _ terms terms' hp hp'
  refine ⟨z, z', ?_, ?_, h1, h2, ?_⟩
  · rw [(e i hi).1, ← e1, flat_spec]
  · rw [(e' i' hi').1, hrow', ← e2, flat_spec]
  · rw [scales_around hr wf hsc (ops := ops) hδ, returned_prob wf hsc hp hδ hl', returned_prob wf hsc hp' hδ hl'] at *
    rw [hval, hval', hrow']
    exact ⟨h3, h4⟩

/-! ## a case meeting the hypotheses -/

open Classical in
/-- the example model without scale_utilities: the utility of A.x rises from x to x', the scale of A is 1/2 -/
example (env : PyEnv) (M : Arith XR) (a b x x' y : ℝ) (hx : x ≤ x') : ∃ fr ls nls fr' ls' nls',
    Returned exampleOps (emSetting M) (byPath exampleOps fun p => if p = [['A']] then some a else if p = [['B']] then some b else
      if p = [['A'], ['x']] then some x else some y) false true 1 (fun _ => utilRow (expected exampleOps) fun p => if p = [['A']] then some a else
      if p = [['B']] then some b else if p = [['A'], ['x']] then some x else some y) fr ls nls ∧
    Returned exampleOps (emSetting M) (byPath exampleOps fun p => if p = [['A']] then some a else if p = [['B']] then some b else
      if p = [['A'], ['x']] then some x' else some y) false true 1 (fun _ => utilRow (expected exampleOps) fun p => if p = [['A']] then some a else
      if p = [['B']] then some b else if p = [['A'], ['x']] then some x' else some y) fr' ls' nls' ∧
    ∃ (j j' : Nat) (_ : j < fr.cols.length) (_ : j' < fr'.cols.length) (z z' : ℝ), fr.cols[j] = pad 2 [['A'], ['x']] ∧
      fr'.cols[j'] = pad 2 [['A'], ['x']] ∧ ls 0 = .fin z ∧ ls' 0 = .fin z' ∧
      realOf (fr.val 0 j) * (1 / 2) * (x' - x) ≤ Real.log z' - Real.log z ∧
      Real.log z' - Real.log z ≤ realOf (fr'.val 0 j') * (1 / 2) * (x' - x) := by
  have hne : ([['B']] : List Name) ≠ [['A']] := by decide
  have hne1 : ([['A'], ['x']] : List Name) ≠ [['A']] := by decide
  have hne2 : ([['A'], ['x']] : List Name) ≠ [['B']] := by decide
  obtain ⟨fr, ls, nls, h⟩ := surplus_example_call false env M (fun p => if p = [['A']] then some a else if p = [['B']] then some b else
      if p = [['A'], ['x']] then some x else some y) (by simp [hne])
  obtain ⟨fr', ls', nls', h'⟩ := surplus_example_call false env M (fun p => if p = [['A']] then some a else if p = [['B']] then some b else
      if p = [['A'], ['x']] then some x' else some y) (by simp [hne])
  have hav : ∀ w, ∀ i < 1, Available (expected exampleOps) ((fun _ => fun p => if p = [['A']] then some a else if p = [['B']] then some b else
      if p = [['A'], ['x']] then some w else some y : Nat → List Name → Util) i) := fun _ _ _ => example_available _ (by simp [hne])
  have hcol : ∀ {V : List Name → Util} {fr ls nls}, Returned exampleOps (emSetting M) (byPath exampleOps V) false true 1
      (fun _ => utilRow (expected exampleOps) V) fr ls nls → V [['B']] ≠ none → pad 2 [['A'], ['x']] ∈ fr.cols := by
    intro V fr ls nls h hB
    rw [returned_labels (V := fun _ => V) h exampleOps_depth fun _ _ => example_available _ hB]
    refine List.mem_map.mpr ⟨⟨2, [['A'], ['x']], .fin 1⟩, List.mem_filter.mpr ⟨by rw [exampleOps_expected]; simp [FOps.one], ?_⟩, ?_⟩
    · rw [exampleOps_expected]
      simp [IsChild]
    · rw [exampleOps_expected]; rfl
  obtain ⟨j, hj, e⟩ := List.mem_iff_getElem.mp (hcol h (by simp [hne]))
  obtain ⟨j', hj', e'⟩ := List.mem_iff_getElem.mp (hcol h' (by simp [hne]))
  obtain ⟨z, z', h1, h2, -, -, h3, h4⟩ := C82_run_nested_gain h h' exampleOps_depth (hav x) (hav x') 0 0 (by norm_num) (by norm_num) j j' hj hj'
    ⟨2, [['A'], ['x']], .fin 1⟩ (by rw [exampleOps_expected]; simp [FOps.one]) (by rw [e, exampleOps_expected]; rfl)
    (by rw [e', exampleOps_expected]; rfl) (by
      intro q _ _
      show (if q.path = [['A']] then some a else if q.path = [['B']] then some b else if q.path = [['A'], ['x']] then some x else some y) ≠ none
      split_ifs <;> simp) x x' (by simp [hne1, hne2]) (by simp [hne1, hne2]) hx (by
      intro q _ hq
      have hq : q.path ≠ [['A'], ['x']] := hq
      simp [hq])
  have hk : ((expected exampleOps).live.map fun r => if r.path <+: [['A'], ['x']] ∧ r.path ≠ [['A'], ['x']] then realOf r.scale else 1).prod = 1 / 2 := by
    rw [exampleOps_expected]
    have b1 : ¬ ([['B']] : List Name) <+: [['A'], ['x']] := by decide
    have b2 : ([['A']] : List Name) <+: [['A'], ['x']] := by decide
    have b3 : ([['A']] : List Name) ≠ [['A'], ['x']] := by decide
    have b4 : ¬ ([['A'], ['y']] : List Name) <+: [['A'], ['x']] := by decide
    simp [b1, b2, b4, realOf]
  refine ⟨fr, ls, nls, fr', ls', nls', h, h', j, j', hj, hj', z, z', e, e', h1, h2, ?_, ?_⟩
  · rw [← hk]; simpa only [Bool.false_eq_true, if_false] using h3
  · rw [← hk]; simpa only [Bool.false_eq_true, if_false] using h4

end Cheval
