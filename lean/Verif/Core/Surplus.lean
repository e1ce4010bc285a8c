import Verif.Core.NestedLaws
import Mathlib.Analysis.SpecialFunctions.Pow.Deriv
import Mathlib.Analysis.SpecialFunctions.Log.Deriv
import Mathlib.Analysis.SpecialFunctions.ExpDeriv

/-! Helper lemmas for the logsum laws of C82: how the logsum terms depend on one utility (no property statements here). -/
set_option linter.unusedSectionVars false
namespace Cheval
open FOps Spec

variable {t : Flat XR} {θ : Nat → ℝ}

theorem above_step {t : Tree} {i d : Nat} (h : t.Above i d) : i = d ∨ ∃ c, t.parent c = some i ∧ t.Above c d := by
  induction h with
  | self => exact .inl rfl
  | child k p hp _ ih =>
    rcases ih with rfl | ⟨c, h1, h2⟩
    · exact .inr ⟨k, hp, .self⟩
    · exact .inr ⟨c, h1, .child _ _ hp h2⟩

variable (h : t.WF) (hs : t.HasScales θ) (scaled : Bool) (u : Nat → Util) {d : Nat}
include h hs

/-- terms of nodes that are not above `d` do not depend on its utility -/
theorem term_unaffected (y z : ℝ) {i : Nat} (hi : i < t.n) (hna : ¬ (t.spec θ).Above i d) :
    termR t scaled (Function.update u d (some y)) i = termR t scaled (Function.update u d (some z)) i := by
  have key : ∀ w : ℝ, termR t scaled (Function.update u d (some w)) i = termR t scaled (Function.update u d none) i := by
    intro w
    refine ((nl_of h hs scaled (Function.update u d none)).raise_T (nl_of h hs scaled (Function.update u d (some w)))
      (d := d) (y := w) ⟨fun k _ hk => ?_, ?_, ?_⟩ i hi).2 hna
    · rw [Function.update_of_ne hk, Function.update_of_ne hk]
    · rw [Function.update_self]
    · intro v hv; rw [Function.update_self] at hv; cases hv
  rw [key, key]

/-- how the term of a node above `d` moves with the utility of `d` -/
theorem term_deriv (hd : d < t.n) {x : ℝ} (hx : u d = some x) (hP : 0 < absR t θ scaled u d) (G : Nat → ℝ)
    (hG0 : G d = 1 / (t.spec θ).θp scaled d)
    (hG : ∀ i < t.n, ∀ c < t.n, (t.spec θ).parent c = some i → (t.spec θ).Above c d →
      G i = G c * (θ i / (t.spec θ).θp scaled i)) :
    ∀ i < t.n, (t.spec θ).Above i d → ∃ c : ℝ, absR t θ scaled u d = c * absR t θ scaled u i ∧ 0 < termR t scaled u i ∧
      HasDerivAt (fun y => termR t scaled (Function.update u d (some y)) i) (c * G i * termR t scaled u i) x := by
  have m := nl_of h hs scaled u
  have hself : Function.update u d (some x) = u := by rw [← hx, Function.update_eq_self]
  have mU := fun y => nl_of h hs scaled (Function.update u d (some y))
  have hpos : ∀ i < t.n, ∀ c : ℝ, absR t θ scaled u d = c * absR t θ scaled u i → 0 < termR t scaled u i := by
    intro i hi c hc
    refine lt_of_le_of_ne (m.nonneg i hi) fun h0 => ?_
    rw [m.P_zero_of_T i hi h0.symm, mul_zero] at hc
    exact hP.ne' hc
  apply m.up_induction
  intro i hi ih ha
  have hθ := m.θp_pos i hi
  by_cases hid : i = d
  · subst hid
    refine ⟨1, by rw [one_mul], hpos i hi 1 (by rw [one_mul]), ?_⟩
    -- only the factor with its own utility moves
    have hform : ∀ y, termR t scaled (Function.update u i (some y)) i =
        Real.exp ((y - x) / (t.spec θ).θp scaled i) * termR t scaled u i := by
      intro y
      have hu : Function.update u i (some y) i = some y := Function.update_self ..
      have hsplit : Real.exp (y / (t.spec θ).θp scaled i) =
          Real.exp ((y - x) / (t.spec θ).θp scaled i) * Real.exp (x / (t.spec θ).θp scaled i) := by
        rw [← Real.exp_add]; congr 1; ring
      by_cases hl : (t.spec θ).Leaf i
      · rw [(mU y).is.leaf i hi hl, hu, m.is.leaf i hi hl, hx]; exact hsplit
      · have hch : ∑ j ∈ (t.spec θ).children i, termR t scaled (Function.update u i (some y)) j =
            ∑ j ∈ (t.spec θ).children i, termR t scaled u j := by
          refine Finset.sum_congr rfl fun j hj => ?_
          obtain ⟨hjn, hjp⟩ := m.mem_children.mp hj
          have := term_unaffected h hs scaled u (d := i) y x hjn fun hab => by
            have h1 := m.above_level hab hi
            have h2 := m.parent_lt hjn hjp
            omega
          rw [hself] at this
          exact this
        rw [(mU y).nest_term hi hl hu, m.nest_term hi hl hx, hch, hsplit, mul_assoc]
    have hd1 : HasDerivAt (fun y : ℝ => (y - x) / (t.spec θ).θp scaled i) (1 / (t.spec θ).θp scaled i) x :=
      ((hasDerivAt_id x).sub_const x).div_const _
    have hd2 := (hd1.exp).mul_const (termR t scaled u i)
    rw [sub_self, zero_div, Real.exp_zero, one_mul] at hd2
    rw [one_mul, hG0]
    exact hd2.congr_of_eventuallyEq (Filter.Eventually.of_forall hform)
  · obtain hid' | ⟨c, hcp, hca⟩ := above_step ha
    · exact absurd hid' hid
    have hcn : c < t.n := (m.above_level hca hd).1
    obtain ⟨cc, hc1, hc2, hc3⟩ := ih c hcn hcp hca
    have hl := m.not_leaf_of_child hcn hcp
    set S := ∑ j ∈ (t.spec θ).children i, termR t scaled u j with hS
    have hmem := m.mem_children.mpr ⟨hcn, hcp⟩
    have hSpos : 0 < S := lt_of_lt_of_le hc2 (m.mem_childSum hcn hcp)
    have hPc := m.is.child c hcn i hcp
    have hc : absR t θ scaled u d = cc * (termR t scaled u c / S) * absR t θ scaled u i := by
      rw [hc1, hPc, mul_assoc]
    refine ⟨cc * (termR t scaled u c / S), hc, hpos i hi _ hc, ?_⟩
    obtain ⟨xi, hxi⟩ : ∃ xi, u i = some xi :=
      Option.ne_none_iff_exists'.mp ((m.term_pos_iff i hi).mp (hpos i hi _ hc)).1
    have hSy : ∀ y, ∑ j ∈ (t.spec θ).children i, termR t scaled (Function.update u d (some y)) j =
        termR t scaled (Function.update u d (some y)) c + ∑ j ∈ ((t.spec θ).children i).erase c, termR t scaled u j := by
      intro y
      rw [← Finset.add_sum_erase _ _ hmem]
      congr 1
      refine Finset.sum_congr rfl fun j hj => ?_
      obtain ⟨hne, hj⟩ := Finset.mem_erase.mp hj
      obtain ⟨hjn, hjp⟩ := m.mem_children.mp hj
      have := term_unaffected h hs scaled u (d := d) y x hjn fun hab => hne (m.above_unique hab hca hd (by
        rw [(m.parent_lt hjn hjp).2, (m.parent_lt hcn hcp).2]))
      rw [hself] at this
      exact this
    have hform : ∀ y, termR t scaled (Function.update u d (some y)) i = Real.exp (xi / (t.spec θ).θp scaled i) *
        (termR t scaled (Function.update u d (some y)) c + ∑ j ∈ ((t.spec θ).children i).erase c, termR t scaled u j) ^
          ((t.spec θ).θ i / (t.spec θ).θp scaled i) := by
      intro y
      rw [(mU y).nest_term hi hl (x := xi) (by rw [Function.update_of_ne hid]; exact hxi), hSy y]
    have hSx : termR t scaled (Function.update u d (some x)) c + ∑ j ∈ ((t.spec θ).children i).erase c, termR t scaled u j = S := by
      rw [← hSy x, hself]
    have hd1 := hc3.add_const (∑ j ∈ ((t.spec θ).children i).erase c, termR t scaled u j)
    have hd2 := ((hd1.rpow_const (p := (t.spec θ).θ i / (t.spec θ).θp scaled i) (.inl (by rw [hSx]; exact hSpos.ne'))).const_mul
      (Real.exp (xi / (t.spec θ).θp scaled i))).congr_of_eventuallyEq (Filter.Eventually.of_forall hform)
    rw [hSx, Real.rpow_sub_one hSpos.ne'] at hd2
    refine hd2.congr_deriv ?_
    rw [hG i hi c hcn hcp hca, m.nest_term hi hl hxi, ← hS]
    have e : (t.spec θ).θ i = θ i := rfl
    rw [e]
    ring

/-- how the overall logsum moves with the utility of `d` -/
theorem logsum_deriv (hd : d < t.n) {x : ℝ} (hx : u d = some x) (hP : 0 < absR t θ scaled u d) (G : Nat → ℝ)
    (hG0 : G d = 1 / (t.spec θ).θp scaled d)
    (hG : ∀ i < t.n, ∀ c < t.n, (t.spec θ).parent c = some i → (t.spec θ).Above c d →
      G i = G c * (θ i / (t.spec θ).θp scaled i)) :
    ∃ a < t.n, (t.spec θ).Above a d ∧ (t.spec θ).parent a = none ∧
      HasDerivAt (fun y => Real.log (∑ i ∈ (t.spec θ).tops, termR t scaled (Function.update u d (some y)) i))
        (absR t θ scaled u d * G a) x := by
  have m := nl_of h hs scaled u
  have hself : Function.update u d (some x) = u := by rw [← hx, Function.update_eq_self]
  have hroot : ∀ i < t.n, ∃ a < t.n, (t.spec θ).Above a i ∧ (t.spec θ).parent a = none := by
    apply m.down_induction
    · exact fun i hi hp => ⟨i, hi, .self, hp⟩
    · rintro i hi p hp hpar ⟨a, h1, h2, h3⟩
      exact ⟨a, h1, .child i p hpar h2, h3⟩
  obtain ⟨a, han, had, hap⟩ := hroot d hd
  refine ⟨a, han, had, hap, ?_⟩
  obtain ⟨c, hc1, hc2, hc3⟩ := term_deriv h hs scaled u hd hx hP G hG0 hG a han had
  have hmem := m.mem_tops.mpr ⟨han, hap⟩
  have hZpos : 0 < ∑ i ∈ (t.spec θ).tops, termR t scaled u i := lt_of_lt_of_le hc2 (m.mem_topSum han hap)
  have hZy : ∀ y, ∑ i ∈ (t.spec θ).tops, termR t scaled (Function.update u d (some y)) i =
      termR t scaled (Function.update u d (some y)) a + ∑ i ∈ ((t.spec θ).tops).erase a, termR t scaled u i := by
    intro y
    rw [← Finset.add_sum_erase _ _ hmem]
    congr 1
    refine Finset.sum_congr rfl fun j hj => ?_
    obtain ⟨hne, hj⟩ := Finset.mem_erase.mp hj
    obtain ⟨hjn, hjp⟩ := m.mem_tops.mp hj
    have := term_unaffected h hs scaled u (d := d) y x hjn fun hab => hne (m.above_unique hab had hd (by
      rw [m.top_level hjn hjp, m.top_level han hap]))
    rw [hself] at this
    exact this
  have hZx : termR t scaled (Function.update u d (some x)) a + ∑ i ∈ ((t.spec θ).tops).erase a, termR t scaled u i =
      ∑ i ∈ (t.spec θ).tops, termR t scaled u i := by rw [← hZy x, hself]
  have hd1 := hc3.add_const (∑ i ∈ ((t.spec θ).tops).erase a, termR t scaled u i)
  have hd2 := hd1.log (by rw [hZx]; exact hZpos.ne')
  rw [hZx] at hd2
  have e : (fun y => Real.log (∑ i ∈ (t.spec θ).tops, termR t scaled (Function.update u d (some y)) i)) =
      fun y => Real.log (termR t scaled (Function.update u d (some y)) a + ∑ i ∈ ((t.spec θ).tops).erase a, termR t scaled u i) :=
    funext fun y => by rw [hZy y]
  rw [e]
  refine hd2.congr_deriv ?_
  rw [hc1, m.is.top a han hap]
  ring

end Cheval
