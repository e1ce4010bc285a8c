import Verif.Core.Surplus
import Verif.Props.NestedLaws
import Verif.Props.Multinomial

/-!
# C82: the logsum is the composite utility of the choice set

Stated about the overall logsum term `nested_probabilities` and `multinomial_probabilities` return (the sum of the logsum terms of
the top level, whose logarithm is the composite utility), over the reals.
-/
set_option linter.unusedSectionVars false
namespace Cheval
open FOps Spec

variable {t : Flat XR} {θ : Nat → ℝ}

/-- a call with some available elemental choice returns the textbook probabilities and the sum of the top-level terms -/
theorem nested_returns (h : t.WF) (hs : t.HasScales θ) (scaled check : Bool) (u : Nat → Util)
    (hZ : 0 < ∑ i ∈ (t.spec θ).tops, termR t scaled u i) :
    ∃ (p : Nat → ℝ) (terms : List XR), nested (row t.n u) t scaled check =
      .ok (arr t.n (fun i => .fin (p i)), .fin (∑ i ∈ (t.spec θ).tops, termR t scaled u i), terms) := by
  classical
  refine ⟨fun i => if (t.spec θ).Leaf i then absR t θ scaled u i else 0, arr t.n (fun i => .fin (termR t scaled u i)), ?_⟩
  rw [C09_textbook h hs scaled check u _ _ (nl_of h hs scaled u).is, if_neg fun hh => hZ.ne' hh.1]

/-- the returned logsum is the sum of the top-level terms -/
theorem returned_logsum (h : t.WF) (hs : t.HasScales θ) {scaled check : Bool} {u : Nat → Util} {ps : List XR} {ls : XR}
    {terms : List XR} (hr : nested (row t.n u) t scaled check = .ok (ps, ls, terms)) :
    ls = .fin (∑ i ∈ (t.spec θ).tops, termR t scaled u i) := by
  classical
  rw [C09_textbook h hs scaled check u _ _ (nl_of h hs scaled u).is] at hr
  split at hr
  · cases hr
  · simp only [Except.ok.injEq, Prod.mk.injEq] at hr
    exact hr.2.1.symm

/-- an available elemental choice stays available, whatever its utility -/
theorem open_update {s : Tree} {u : Nat → Util} {d : Nat} (y : ℝ) {i : Nat} (ho : s.Open u i) :
    s.Open (Function.update u d (some y)) i := by
  have key : ∀ i, u i ≠ none → Function.update u d (some y) i ≠ none := by
    intro i hi
    by_cases hid : i = d
    · subst hid; rw [Function.update_self]; simp
    · rw [Function.update_of_ne hid]; exact hi
  induction ho with
  | top i hp hu => exact .top i hp (key i hu)
  | child i p hp hu _ ih => exact .child i p hp (key i hu) ih

/-- the slope of the logarithm of the returned logsum in the utility of an available elemental choice -/
theorem slope (h : t.WF) (hs : t.HasScales θ) (scaled check : Bool) (u : Nat → Util) (d : Nat) (hd : d < t.n)
    (hl : (t.spec θ).Leaf d) (ho : (t.spec θ).Open u d) (x : ℝ) (hx : u d = some x) (G : Nat → ℝ)
    (hG0 : G d = 1 / (t.spec θ).θp scaled d)
    (hG : ∀ i < t.n, ∀ c < t.n, (t.spec θ).parent c = some i → (t.spec θ).Above c d →
      G i = G c * (θ i / (t.spec θ).θp scaled i)) :
    ∃ (Z : ℝ → ℝ) (p : Nat → ℝ) (terms : List XR), (∀ y, 0 < Z y) ∧
      (∀ y, ∃ (q : Nat → ℝ) (terms' : List XR), nested (row t.n (Function.update u d (some y))) t scaled check =
        .ok (arr t.n (fun i => .fin (q i)), .fin (Z y), terms')) ∧
      nested (row t.n u) t scaled check = .ok (arr t.n (fun i => .fin (p i)), .fin (Z x), terms) ∧
      ∃ a < t.n, (t.spec θ).Above a d ∧ (t.spec θ).parent a = none ∧
        HasDerivAt (fun y => Real.log (Z y)) (p d * G a) x := by
  have hself : Function.update u d (some x) = u := by rw [← hx, Function.update_eq_self]
  have m := nl_of h hs scaled u
  have hP := (m.leaf_pos_iff d hd hl).mpr ho
  have hZ : ∀ y, 0 < ∑ i ∈ (t.spec θ).tops, termR t scaled (Function.update u d (some y)) i := fun y =>
    (nl_of h hs scaled (Function.update u d (some y))).feasible_iff.mpr ⟨d, hd, hl, open_update y ho⟩
  have hZ0 := hZ x
  rw [hself] at hZ0
  obtain ⟨p, terms, hr⟩ := nested_returns h hs scaled check u hZ0
  refine ⟨fun y => ∑ i ∈ (t.spec θ).tops, termR t scaled (Function.update u d (some y)) i, p, terms, hZ,
    fun y => nested_returns h hs scaled check _ (hZ y), ?_, ?_⟩
  · simp only [hself]; exact hr
  · rw [returned_prob h hs hr hd hl]
    exact logsum_deriv h hs scaled u hd hx hP G hG0 hG

/-- **C82 (slope, scaled utilities)** With `scale_utilities=True`, on every tree: the probability of an available elemental choice is the slope of the
logarithm of the reported logsum in the utility of this choice. (`Z y` is the logsum reported when the utility is `y`.) -/
theorem C82_slope (h : t.WF) (hs : t.HasScales θ) (check : Bool) (u : Nat → Util) (d : Nat) (hd : d < t.n)
    (hl : (t.spec θ).Leaf d) (ho : (t.spec θ).Open u d) (x : ℝ) (hx : u d = some x) :
    ∃ (Z : ℝ → ℝ) (p : Nat → ℝ) (terms : List XR), (∀ y, 0 < Z y) ∧
      (∀ y, ∃ (q : Nat → ℝ) (terms' : List XR), nested (row t.n (Function.update u d (some y))) t true check =
        .ok (arr t.n (fun i => .fin (q i)), .fin (Z y), terms')) ∧
      nested (row t.n u) t true check = .ok (arr t.n (fun i => .fin (p i)), .fin (Z x), terms) ∧
      HasDerivAt (fun y => Real.log (Z y)) (p d) x := by
  have m := nl_of h hs true u
  obtain ⟨Z, p, terms, h1, h2, h3, a, _, _, hap, h4⟩ := slope h hs true check u d hd hl ho x hx
    (fun i => 1 / (t.spec θ).θp true i) rfl (by
      intro i hi c hc hcp _
      have e : (t.spec θ).θp true c = θ i := by unfold Tree.θp; rw [hcp]; rfl
      have h0 := (hs i hi).2.ne'
      rw [e]
      field_simp)
  refine ⟨Z, p, terms, h1, h2, h3, h4.congr_deriv ?_⟩
  have e : (t.spec θ).θp true a = 1 := by unfold Tree.θp; rw [hap]
  rw [e, div_one, mul_one]

open Classical in
/-- **C82 (slope, utilities not scaled)** With `scale_utilities=False` the slope is the probability times the scales of all nests around the
choice. -/
theorem C82_slope_unscaled (h : t.WF) (hs : t.HasScales θ) (check : Bool) (u : Nat → Util) (d : Nat) (hd : d < t.n)
    (hl : (t.spec θ).Leaf d) (ho : (t.spec θ).Open u d) (x : ℝ) (hx : u d = some x) :
    ∃ (Z : ℝ → ℝ) (p : Nat → ℝ) (terms : List XR), (∀ y, 0 < Z y) ∧
      (∀ y, ∃ (q : Nat → ℝ) (terms' : List XR), nested (row t.n (Function.update u d (some y))) t false check =
        .ok (arr t.n (fun i => .fin (q i)), .fin (Z y), terms')) ∧
      nested (row t.n u) t false check = .ok (arr t.n (fun i => .fin (p i)), .fin (Z x), terms) ∧
      HasDerivAt (fun y => Real.log (Z y))
        (p d * ∏ a ∈ (Finset.range t.n).filter (fun a => (t.spec θ).Above a d ∧ a ≠ d), θ a) x := by
  have m := nl_of h hs false u
  have hθp : ∀ i, (t.spec θ).θp false i = 1 := by
    intro i; unfold Tree.θp; cases (t.spec θ).parent i <;> rfl
  -- the product over the nests from `i` down to `d`
  let G : Nat → ℝ := fun i => ∏ a ∈ (Finset.range t.n).filter (fun a => (t.spec θ).Above a d ∧ a ≠ d ∧ t.level i ≤ t.level a), θ a
  obtain ⟨Z, p, terms, h1, h2, h3, a, han, had, hap, h4⟩ := slope h hs false check u d hd hl ho x hx G (by
      rw [hθp, div_one]
      refine Finset.prod_eq_one fun a ha => ?_
      obtain ⟨h1, h2, h3, h4⟩ := Finset.mem_filter.mp ha
      exact absurd (m.above_unique h2 .self hd (le_antisymm (m.above_level h2 hd).2 h4)) h3) (by
      intro i hi c hc hcp hca
      have hlev := (m.parent_lt hc hcp).2
      have hia : (t.spec θ).Above i d := above_up hcp hca
      have hid : i ≠ d := by rintro rfl; have := (m.above_level hca hd).2; omega
      rw [hθp, div_one, mul_comm]
      have hset : (Finset.range t.n).filter (fun a => (t.spec θ).Above a d ∧ a ≠ d ∧ t.level i ≤ t.level a) =
          insert i ((Finset.range t.n).filter (fun a => (t.spec θ).Above a d ∧ a ≠ d ∧ t.level c ≤ t.level a)) := by
        ext b
        simp only [Finset.mem_filter, Finset.mem_range, Finset.mem_insert]
        constructor
        · rintro ⟨g1, g2, g3, g4⟩
          by_cases hb : t.level b = t.level i
          · exact .inl (m.above_unique g2 hia hd hb)
          · exact .inr ⟨g1, g2, g3, by omega⟩
        · rintro (rfl | ⟨g1, g2, g3, g4⟩)
          · exact ⟨hi, hia, hid, le_refl _⟩
          · exact ⟨g1, g2, g3, by omega⟩
      show ∏ a ∈ _, θ a = _
      rw [hset, Finset.prod_insert]
      simp only [Finset.mem_filter, not_and]
      intro _ _ _
      omega)
  refine ⟨Z, p, terms, h1, h2, h3, h4.congr_deriv ?_⟩
  congr 1
  refine Finset.prod_congr ?_ fun _ _ => rfl
  ext b
  simp only [Finset.mem_filter, m.top_level han hap, Nat.zero_le, and_true]

/-- **C82 (monotone)** Raising the utility of a choice or nest, or making it available, never lowers the reported logsum. -/
theorem C82_monotone (h : t.WF) (hs : t.HasScales θ) (scaled check : Bool) (u : Nat → Util) (d : Nat) (y : ℝ)
    (hy : ∀ x, u d = some x → x ≤ y) (ps ps' : List XR) (ls ls' : XR) (terms terms' : List XR)
    (hr : nested (row t.n u) t scaled check = .ok (ps, ls, terms))
    (hr' : nested (row t.n (Function.update u d (some y))) t scaled check = .ok (ps', ls', terms')) :
    ∃ z z' : ℝ, ls = .fin z ∧ ls' = .fin z' ∧ 0 ≤ z ∧ z ≤ z' := by
  refine ⟨_, _, returned_logsum h hs hr, returned_logsum h hs hr', (nl_of h hs scaled u).topSum_nonneg,
    (nl_of h hs scaled u).raise_topSum (nl_of h hs scaled _) (d := d) (y := y) ⟨fun k _ hk => ?_, ?_, hy⟩⟩
  · rw [Function.update_of_ne hk]
  · rw [Function.update_self]

/-- **C82 (common constant)** Adding a constant to the utilities of all top-level choices multiplies the reported logsum by its exponential:
the composite utility, its logarithm, grows by the constant. -/
theorem C82_translation (h : t.WF) (hs : t.HasScales θ) (scaled check : Bool) (u : Nat → Util) (c : ℝ) (ps : List XR) (ls : XR)
    (terms : List XR) (hr : nested (row t.n u) t scaled check = .ok (ps, ls, terms)) :
    ∃ z, ls = .fin z ∧ ∃ terms', nested (row t.n fun i => if (t.spec θ).parent i = none then (u i).map (· + c) else u i) t scaled check =
      .ok (ps, .fin (Real.exp c * z), terms') := by
  classical
  obtain ⟨T', s', htop⟩ := shifted_is h hs scaled u c
  have hz : (∑ i ∈ (t.spec θ).tops, T' i) = 0 ↔ (∑ i ∈ (t.spec θ).tops, termR t scaled u i) = 0 := by
    rw [htop, mul_eq_zero, or_iff_right (Real.exp_pos c).ne']
  rw [C09_textbook h hs scaled check u _ _ (nl_of h hs scaled u).is] at hr
  refine ⟨_, returned_logsum h hs (by rw [C09_textbook h hs scaled check u _ _ (nl_of h hs scaled u).is]; exact hr), ?_⟩
  rw [C09_textbook h hs scaled check _ _ _ s']
  split at hr
  · cases hr
  · rename_i hne
    simp only [Except.ok.injEq, Prod.mk.injEq] at hr
    rw [if_neg fun hh => hne ⟨hz.mp hh.1, hh.2⟩, htop, hr.1]
    exact ⟨_, rfl⟩

/-- **C82 (one level)** In a multinomial row the probability of an available choice is the slope of the logarithm of the reported logsum in its
utility; the logsum grows with every utility. -/
theorem C82_multinomial (us : List Util) (check : Bool) (i : Nat) (hi : i < us.length) (x : ℝ) (hx : us[i] = some x) :
    ∃ (Z : ℝ → ℝ) (ps : List ℝ) (hp : i < ps.length), (∀ y, 0 < Z y) ∧ StrictMono Z ∧
      (∀ y, ∃ (qs : List ℝ) (terms : List XR), multinomial ((us.set i (some y)).map util) check = .ok (qs.map .fin, .fin (Z y), terms)) ∧
      (∃ terms, multinomial (us.map util) check = .ok (ps.map .fin, .fin (Z x), terms)) ∧
      HasDerivAt (fun y => Real.log (Z y)) ps[i] x := by
  have hset : us.set i (some x) = us := by rw [← hx]; exact List.set_getElem_self hi
  have hfeas : ∀ y : ℝ, ∃ u ∈ us.set i (some y), u ≠ none := fun y =>
    ⟨some y, List.mem_iff_getElem.mpr ⟨i, by simpa using hi, by simp⟩, by simp⟩
  have hpos : ∀ y : ℝ, 0 < ((us.set i (some y)).map expw).sum := fun y => (sum_expw_pos _).mpr (hfeas y)
  have hsum : ∀ y : ℝ, ((us.set i (some y)).map expw).sum = ((us.map expw).sum - expw us[i]) + Real.exp y := fun y =>
    sum_set us i hi (some y)
  refine ⟨fun y => ((us.set i (some y)).map expw).sum, us.map fun u => expw u / (us.map expw).sum, by simpa using hi, hpos, ?_,
    fun y => ⟨(us.set i (some y)).map fun u => expw u / ((us.set i (some y)).map expw).sum, (us.set i (some y)).map fun u => .fin (expw u), ?_⟩,
    ⟨us.map fun u => .fin (expw u), ?_⟩, ?_⟩
  · intro y z hyz
    simp only [hsum]
    have := Real.exp_lt_exp.mpr hyz
    linarith
  · rw [C05_formula _ check (hfeas y), List.map_map]; rfl
  · have := hfeas x
    rw [hset] at this
    simp only [hset]
    rw [C05_formula _ check this, List.map_map]; rfl
  · have hd1 : HasDerivAt (fun y : ℝ => ((us.map expw).sum - expw us[i]) + Real.exp y) (Real.exp x) x :=
      (Real.hasDerivAt_exp x).const_add _
    have hx0 : ((us.map expw).sum - expw us[i]) + Real.exp x = (us.map expw).sum := by rw [← hsum x, hset]
    have hne : ((us.map expw).sum - expw us[i]) + Real.exp x ≠ 0 := by rw [← hsum x]; exact (hpos x).ne'
    have hd2 := hd1.log hne
    have e : (fun y => Real.log ((us.set i (some y)).map expw).sum) =
        fun y => Real.log (((us.map expw).sum - expw us[i]) + Real.exp y) := funext fun y => by rw [hsum y]
    rw [e]
    refine hd2.congr_deriv ?_
    rw [hx0, List.getElem_map, hx]
    rfl

/-- **C82 (one level, common constant)** Adding a constant to every utility multiplies the reported logsum by its exponential: the composite
utility, its logarithm, grows by the constant. -/
theorem C82_multinomial_translation (us : List Util) (c : ℝ) (check : Bool) (ps : List XR) (ls : XR) (terms : List XR)
    (hr : multinomial (us.map util) check = .ok (ps, ls, terms)) :
    ∃ z, ls = .fin z ∧ ∃ ps' terms', multinomial ((us.map (Option.map (· + c))).map util) check = .ok (ps', .fin (Real.exp c * z), terms') := by
  have hw : ∀ u : Util, expw (u.map (· + c)) = Real.exp c * expw u := by
    intro u; cases u with
    | none => simp [expw]
    | some x => simp [expw, Real.exp_add, mul_comm]
  have hsum : ((us.map (Option.map (· + c))).map expw).sum = Real.exp c * (us.map expw).sum := by
    clear hr
    induction us with
    | nil => simp
    | cons u us ih => simp only [List.map_cons, List.sum_cons, ih, hw]; ring
  have hc := Real.exp_pos c
  have hiff : Real.exp c * (us.map expw).sum ≤ 0 ↔ (us.map expw).sum ≤ 0 := by
    constructor
    · intro h; by_contra hn; exact absurd (mul_pos hc (not_le.mp hn)) (not_lt.mpr h)
    · intro h; exact mul_nonpos_of_nonneg_of_nonpos hc.le h
  rw [multinomial_exact] at hr ⊢
  rw [hsum]
  by_cases h : (us.map expw).sum ≤ 0
  · rw [if_pos h] at hr
    rw [if_pos (hiff.mpr h)]
    cases check with
    | true => cases hr
    | false =>
      simp only [Bool.false_eq_true, if_false, Except.ok.injEq, Prod.mk.injEq] at hr ⊢
      exact ⟨_, hr.2.1.symm, _, _, rfl, rfl, rfl⟩
  · rw [if_neg h] at hr
    rw [if_neg fun h' => h (hiff.mp h')]
    simp only [Except.ok.injEq, Prod.mk.injEq] at hr ⊢
    exact ⟨_, hr.2.1.symm, _, _, rfl, rfl, rfl⟩

/-! ## cases meeting the hypotheses -/

private noncomputable def surplusθ : Nat → ℝ := fun i => if i = 2 then 1/2 else 1

private theorem surplus_leaf : (exTree.spec surplusθ).Leaf 3 := by
  rw [spec_leaf exTree_wf 3 (by simp [exTree])]; rfl

private theorem surplus_open (x y : ℝ) : (exTree.spec surplusθ).Open (fun i => if i = 3 then some x else some y) 3 := by
  refine .child 3 2 ?_ (by simp) (.top 2 ?_ (by simp))
  · simp [Flat.spec, exTree]
  · simp [Flat.spec, exTree]

/-- C82_slope and C82_slope_unscaled for node 3, in the nest 2 of scale 1/2 -/
example (x y : ℝ) : ∃ (Z Z' : ℝ → ℝ) (p p' : Nat → ℝ) (terms terms' : List XR),
    nested (row 4 fun i => if i = 3 then some x else some y) exTree true true = .ok (arr 4 (fun i => .fin (p i)), .fin (Z x), terms) ∧
    nested (row 4 fun i => if i = 3 then some x else some y) exTree false true = .ok (arr 4 (fun i => .fin (p' i)), .fin (Z' x), terms') ∧
    HasDerivAt (fun z => Real.log (Z z)) (p 3) x ∧ HasDerivAt (fun z => Real.log (Z' z)) (p' 3 * (1 / 2)) x := by
  classical
  obtain ⟨Z, p, terms, -, -, h1, h2⟩ := C82_slope exTree_wf exTree_scales true _ 3 (by simp [exTree]) surplus_leaf (surplus_open x y) x (by simp)
  obtain ⟨Z', p', terms', -, -, h1', h2'⟩ :=
    C82_slope_unscaled exTree_wf exTree_scales true _ 3 (by simp [exTree]) surplus_leaf (surplus_open x y) x (by simp)
  refine ⟨Z, Z', p, p', terms, terms', h1, h1', h2, h2'.congr_deriv ?_⟩
  have hpar : ∀ i, (exTree.spec surplusθ).parent i = if i = 0 ∨ i = 3 then some 2 else none := by
    intro i
    by_cases h : i = 0 ∨ i = 3
    · simp only [Flat.spec, exTree, if_pos h]; rfl
    · simp only [Flat.spec, exTree, if_neg h]; rfl
  have hset : (Finset.range exTree.n).filter (fun a => (exTree.spec surplusθ).Above a 3 ∧ a ≠ 3) = {2} := by
    ext a
    simp only [Finset.mem_filter, Finset.mem_range, Finset.mem_singleton]
    constructor
    · rintro ⟨-, ha, h3⟩
      cases ha with
      | self => exact absurd rfl h3
      | child _ q hq ha =>
        rw [hpar] at hq
        simp at hq
        subst hq
        cases ha with
        | self => rfl
        | child _ r hr _ => rw [hpar] at hr; simp at hr
    · rintro rfl
      exact ⟨by simp [exTree], .child 3 2 (by rw [hpar]; simp) .self, by omega⟩
  show p' 3 * ∏ a ∈ (Finset.range exTree.n).filter (fun a => (exTree.spec surplusθ).Above a 3 ∧ a ≠ 3), surplusθ a = _
  rw [hset, Finset.prod_singleton]
  simp [surplusθ]

/-- C82_multinomial and C82_multinomial_translation on a row with an unavailable choice -/
example (x y : ℝ) : (∃ (Z : ℝ → ℝ) (ps : List ℝ) (hp : 2 < ps.length),
      (∃ terms, multinomial ([some y, none, some x].map util) true = .ok (ps.map .fin, .fin (Z x), terms)) ∧
      HasDerivAt (fun z => Real.log (Z z)) ps[2] x) ∧
    ∃ z ps terms, multinomial ([some (y + 3), none, some (x + 3)].map util) true = .ok (ps, .fin (Real.exp 3 * z), terms) := by
  obtain ⟨Z, ps, hp, -, -, -, ⟨terms, h1⟩, h2⟩ := C82_multinomial [some y, none, some x] true 2 (by simp) x rfl
  obtain ⟨z, -, ps', terms', h⟩ := C82_multinomial_translation [some y, none, some x] 3 true _ _ _ h1
  exact ⟨⟨Z, ps, hp, ⟨terms, h1⟩, h2⟩, z, ps', terms', h⟩

end Cheval
