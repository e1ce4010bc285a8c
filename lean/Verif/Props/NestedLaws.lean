import Verif.Core.NestedLaws
import Verif.Props.Nested

/-!
# C80: the nested logit laws

Stated about the probabilities `nested_probabilities` returns, over the reals.
-/
set_option linter.unusedSectionVars false
namespace Cheval
open FOps Spec

variable {t : Flat XR} {θ : Nat → ℝ}

/-- returned probabilities are those of the textbook model -/
theorem returned_prob (h : t.WF) (hs : t.HasScales θ) {scaled check : Bool} {u : Nat → Util} {p : Nat → ℝ} {ls : XR}
    {terms : List XR} (hr : nested (row t.n u) t scaled check = .ok (arr t.n (fun i => .fin (p i)), ls, terms))
    {i : Nat} (hi : i < t.n) (hl : (t.spec θ).Leaf i) : p i = absR t θ scaled u i := by
  classical
  have m := nl_of h hs scaled u
  rw [C09_textbook h hs scaled check u _ _ m.is] at hr
  split at hr
  · cases hr
  · simp only [Except.ok.injEq, Prod.mk.injEq] at hr
    have h1 := congrArg (fun l => l[i]?) hr.1
    simp only [arr, List.getElem?_map, List.getElem?_range hi, Option.map_some, Option.some.injEq, XR.fin.injEq] at h1
    rw [← h1, if_pos hl]

/-- two rows with the same textbook probabilities and logsums that vanish together get the same probabilities -/
theorem same_probs (h : t.WF) (hs : t.HasScales θ) (scaled check : Bool) {u u' : Nat → Util} {T T' P P' : Nat → ℝ}
    (s : (t.spec θ).IsNestedLogit scaled u T P) (s' : (t.spec θ).IsNestedLogit scaled u' T' P')
    (h0 : (∑ i ∈ (t.spec θ).tops, T i) = 0 ↔ (∑ i ∈ (t.spec θ).tops, T' i) = 0) (hP : ∀ i < t.n, P i = P' i) :
    (nested (row t.n u) t scaled check).map (·.1) = (nested (row t.n u') t scaled check).map (·.1) := by
  classical
  rw [C09_textbook h hs scaled check u T P s, C09_textbook h hs scaled check u' T' P' s']
  by_cases hz : (∑ i ∈ (t.spec θ).tops, T i) = 0 ∧ check = true
  · rw [if_pos hz, if_pos ⟨h0.mp hz.1, hz.2⟩]
  · rw [if_neg hz, if_neg fun hh => hz ⟨h0.mpr hh.1, hh.2⟩]
    simp only [Except.map, Except.ok.injEq]
    unfold arr
    apply List.map_congr_left
    intro i hi
    rw [hP i (List.mem_range.mp hi)]

/-- the textbook model after a constant was added to the utilities of all top-level choices -/
theorem shifted_is (h : t.WF) (hs : t.HasScales θ) (scaled : Bool) (u : Nat → Util) (c : ℝ) :
    ∃ T', (t.spec θ).IsNestedLogit scaled (fun i => if (t.spec θ).parent i = none then (u i).map (· + c) else u i) T'
      (absR t θ scaled u) ∧ ∑ i ∈ (t.spec θ).tops, T' i = Real.exp c * ∑ i ∈ (t.spec θ).tops, termR t scaled u i := by
  have m := nl_of h hs scaled u
  set T := termR t scaled u
  set P := absR t θ scaled u
  have hch : ∀ j, ∑ i ∈ (t.spec θ).children j, (if (t.spec θ).parent i = none then Real.exp c * T i else T i) =
      ∑ i ∈ (t.spec θ).children j, T i := by
    intro j
    refine Finset.sum_congr rfl fun i hi => ?_
    rw [(m.mem_children.mp hi).2, if_neg (by simp)]
  have htop : ∑ i ∈ (t.spec θ).tops, (if (t.spec θ).parent i = none then Real.exp c * T i else T i) =
      Real.exp c * ∑ i ∈ (t.spec θ).tops, T i := by
    rw [Finset.mul_sum]
    refine Finset.sum_congr rfl fun i hi => ?_
    rw [if_pos (m.mem_tops.mp hi).2]
  have hθ1 : ∀ i, (t.spec θ).parent i = none → (t.spec θ).θp scaled i = 1 := by
    intro i hp; unfold Tree.θp; rw [hp]
  have s' : (t.spec θ).IsNestedLogit scaled (fun i => if (t.spec θ).parent i = none then (u i).map (· + c) else u i)
      (fun i => if (t.spec θ).parent i = none then Real.exp c * T i else T i) P := by
    refine ⟨fun i hi hl => ?_, fun i hi hl => ?_, fun i hi hp => ?_, fun i hi p hp => ?_⟩
    · by_cases hp : (t.spec θ).parent i = none
      · simp only [hp, if_true]
        rw [m.is.leaf i hi hl]
        cases u i with
        | none => simp
        | some x => simp [hθ1 i hp, Real.exp_add, mul_comm]
      · simp only [hp, if_false]; exact m.is.leaf i hi hl
    · rw [hch]
      by_cases hp : (t.spec θ).parent i = none
      · simp only [hp, if_true]
        rw [m.is.nest i hi hl]
        cases u i with
        | none => simp
        | some x => simp only [Option.map_some, hθ1 i hp, div_one, Real.exp_add]; ring
      · simp only [hp, if_false]; exact m.is.nest i hi hl
    · rw [htop, if_pos hp, m.is.top i hi hp, mul_div_mul_left _ _ (Real.exp_pos c).ne']
    · rw [hch, if_neg (by rw [hp]; simp)]; exact m.is.child i hi p hp
  exact ⟨_, s', htop⟩

/-- **C80 (common constant)** Adding a constant to the utilities of all top-level choices leaves all probabilities unchanged. -/
theorem C80_translation (h : t.WF) (hs : t.HasScales θ) (scaled check : Bool) (u : Nat → Util) (c : ℝ) :
    (nested (row t.n fun i => if (t.spec θ).parent i = none then (u i).map (· + c) else u i) t scaled check).map (·.1) =
      (nested (row t.n u) t scaled check).map (·.1) := by
  have m := nl_of h hs scaled u
  obtain ⟨T', s', htop⟩ := shifted_is h hs scaled u c
  refine same_probs h hs scaled check s' m.is ?_ fun _ _ => rfl
  rw [htop]
  constructor
  · intro hz
    rcases mul_eq_zero.mp hz with hz | hz
    · exact absurd hz (Real.exp_pos c).ne'
    · exact hz
  · intro hz; rw [hz, mul_zero]

/-- **C80 (constants move in and out of nests)** A constant taken off all choices of a nest and put on the nest itself (times
the nest's scale if utilities are not scaled) leaves all probabilities unchanged. -/
theorem C80_exchange (h : t.WF) (hs : t.HasScales θ) (scaled check : Bool) (u : Nat → Util) (c : ℝ) (p : Nat) (hpn : p < t.n)
    (hpl : ¬ (t.spec θ).Leaf p) :
    (nested (row t.n fun i => if i = p then (u i).map (· + if scaled then c else c * θ p)
        else if (t.spec θ).parent i = some p then (u i).map (· - c) else u i) t scaled check).map (·.1) =
      (nested (row t.n u) t scaled check).map (·.1) := by
  have m := nl_of h hs scaled u
  set T := termR t scaled u
  set P := absR t θ scaled u
  set q : ℝ := if scaled then θ p else 1 with hq
  have hθ : 0 < θ p := (hs p hpn).2
  have hqp : 0 < q := by rw [hq]; split <;> simp [hθ]
  have hqc : ∀ i, (t.spec θ).parent i = some p → (t.spec θ).θp scaled i = q := by
    intro i hp; unfold Tree.θp; rw [hp]; rfl
  have hcp : (if scaled then c else c * θ p) = c / q * θ p := by
    rw [hq]; split
    · field_simp
    · rw [div_one]
  set k := Real.exp (-(c / q)) with hk
  have hkp : 0 < k := Real.exp_pos _
  have hpp : (t.spec θ).parent p ≠ some p := fun hh => by have := (m.parent_lt hpn hh).2; omega
  have hch : ∀ j, ∑ i ∈ (t.spec θ).children j, (if (t.spec θ).parent i = some p then k * T i else T i) =
      if j = p then k * ∑ i ∈ (t.spec θ).children j, T i else ∑ i ∈ (t.spec θ).children j, T i := by
    intro j
    by_cases hj : j = p
    · subst hj
      rw [if_pos rfl, Finset.mul_sum]
      refine Finset.sum_congr rfl fun i hi => ?_
      rw [if_pos (m.mem_children.mp hi).2]
    · rw [if_neg hj]
      refine Finset.sum_congr rfl fun i hi => ?_
      rw [(m.mem_children.mp hi).2, if_neg (by simpa using hj)]
  have htop : ∑ i ∈ (t.spec θ).tops, (if (t.spec θ).parent i = some p then k * T i else T i) = ∑ i ∈ (t.spec θ).tops, T i := by
    refine Finset.sum_congr rfl fun i hi => ?_
    rw [(m.mem_tops.mp hi).2, if_neg (by simp)]
  have s' : (t.spec θ).IsNestedLogit scaled (fun i => if i = p then (u i).map (· + if scaled then c else c * θ p)
        else if (t.spec θ).parent i = some p then (u i).map (· - c) else u i)
      (fun i => if (t.spec θ).parent i = some p then k * T i else T i) P := by
    refine ⟨fun i hi hl => ?_, fun i hi hl => ?_, fun i hi hp => ?_, fun i hi r hp => ?_⟩
    · have hip : i ≠ p := fun hh => hpl (hh ▸ hl)
      simp only [hip, if_false]
      by_cases hp : (t.spec θ).parent i = some p
      · simp only [hp, if_true]
        rw [m.is.leaf i hi hl]
        cases u i with
        | none => simp
        | some x =>
          simp only [Option.map_some, hqc i hp, hk, ← Real.exp_add]
          congr 1; ring
      · simp only [hp, if_false]; exact m.is.leaf i hi hl
    · rw [hch]
      by_cases hip : i = p
      · subst hip
        simp only [hpp, if_false, if_true]
        rw [m.is.nest i hi hl]
        cases u i with
        | none => simp
        | some x =>
          simp only [Option.map_some]
          rw [Real.mul_rpow hkp.le (m.childSum_nonneg i), hcp, hk, ← Real.exp_mul, ← mul_assoc, ← Real.exp_add]
          congr 2
          have : (t.spec θ).θ i = θ i := rfl
          rw [this]; ring
      · simp only [hip, if_false]
        by_cases hp : (t.spec θ).parent i = some p
        · simp only [hp, if_true]
          rw [m.is.nest i hi hl]
          cases u i with
          | none => simp
          | some x =>
            simp only [Option.map_some, hqc i hp]
            rw [← mul_assoc, hk, ← Real.exp_add]
            congr 2; ring
        · simp only [hp, if_false]; exact m.is.nest i hi hl
    · rw [htop, if_neg (by rw [hp]; simp)]; exact m.is.top i hi hp
    · rw [hch, m.is.child i hi r hp, hp]
      by_cases hr : r = p
      · subst hr
        rw [if_pos rfl, if_pos rfl, mul_div_mul_left _ _ hkp.ne']
      · rw [if_neg (by simpa using hr), if_neg hr]
  refine same_probs h hs scaled check s' m.is ?_ fun _ _ => rfl
  rw [htop]

/-- **C80 (odds within a nest)** The odds of two available elemental choices with the same parent are `exp((x - y) / θ)`, `θ`
being the parent's scale (1 at the top or without scaling), whatever the rest of the model. -/
theorem C80_odds (h : t.WF) (hs : t.HasScales θ) (scaled check : Bool) (u : Nat → Util) (p : Nat → ℝ) (ls : XR) (terms : List XR)
    (hr : nested (row t.n u) t scaled check = .ok (arr t.n (fun i => .fin (p i)), ls, terms)) (i j : Nat) (hi : i < t.n)
    (hj : j < t.n) (hli : (t.spec θ).Leaf i) (hlj : (t.spec θ).Leaf j) (hpar : (t.spec θ).parent i = (t.spec θ).parent j)
    (hoj : (t.spec θ).Open u j) (x y : ℝ) (hx : u i = some x) (hy : u j = some y) :
    0 < p j ∧ p i / p j = Real.exp ((x - y) / (t.spec θ).θp scaled i) := by
  have hpj := ((C10_zero_iff h hs scaled check u p ls terms hr j hj hlj).1).mpr hoj
  refine ⟨hpj, ?_⟩
  rw [returned_prob h hs hr hi hli, returned_prob h hs hr hj hlj]
  rw [returned_prob h hs hr hj hlj] at hpj
  have m := nl_of h hs scaled u
  have hθ : (t.spec θ).θp scaled j = (t.spec θ).θp scaled i := by unfold Tree.θp; rw [hpar]
  have hTi := m.is.leaf i hi hli
  have hTj := m.is.leaf j hj hlj
  rw [hx] at hTi
  rw [hy, hθ] at hTj
  simp only at hTi hTj
  cases hp : (t.spec θ).parent i with
  | none =>
    rw [m.is.top j hj (hpar ▸ hp)] at hpj ⊢
    rw [m.is.top i hi hp]
    have hS : (∑ k ∈ (t.spec θ).tops, termR t scaled u k) ≠ 0 := fun hz => by rw [hz, div_zero] at hpj; exact lt_irrefl _ hpj
    rw [div_div_div_cancel_right₀ hS, hTi, hTj, ← Real.exp_sub, sub_div]
  | some r =>
    rw [m.is.child j hj r (hpar ▸ hp)] at hpj ⊢
    rw [m.is.child i hi r hp]
    have hS : (∑ k ∈ (t.spec θ).children r, termR t scaled u k) ≠ 0 := fun hz => by
      rw [hz, div_zero, zero_mul] at hpj; exact lt_irrefl _ hpj
    have hPr : absR t θ scaled u r ≠ 0 := fun hz => by rw [hz, mul_zero] at hpj; exact lt_irrefl _ hpj
    rw [mul_div_mul_right _ _ hPr, div_div_div_cancel_right₀ hS, hTi, hTj, ← Real.exp_sub, sub_div]

/-- **C80 (own utility)** Raising the utility of a choice, or of a nest, never lowers the probability of an elemental choice that
is it or lies below it. -/
theorem C80_own (h : t.WF) (hs : t.HasScales θ) (scaled check : Bool) (u : Nat → Util) (d : Nat) (hd : d < t.n) (y : ℝ)
    (hy : ∀ x, u d = some x → x ≤ y) (p p' : Nat → ℝ) (ls ls' : XR) (terms terms' : List XR)
    (hr : nested (row t.n u) t scaled check = .ok (arr t.n (fun i => .fin (p i)), ls, terms))
    (hr' : nested (row t.n (Function.update u d (some y))) t scaled check = .ok (arr t.n (fun i => .fin (p' i)), ls', terms'))
    (i : Nat) (hi : i < t.n) (hl : (t.spec θ).Leaf i) (hdi : (t.spec θ).Above d i) : p i ≤ p' i := by
  rw [returned_prob h hs hr hi hl, returned_prob h hs hr' hi hl]
  refine (nl_of h hs scaled u).raise_own (nl_of h hs scaled _) ⟨fun k _ hk => ?_, ?_, hy⟩ hd i hi (.inr hdi)
  · rw [Function.update_of_ne hk]
  · rw [Function.update_self]

/-- **C80 (other utilities)** Raising the utility of a choice or nest `d` never raises the probability of an elemental choice
that does not lie below it, provided no nest around `d` has a larger scale than the one its own utility is divided by. -/
theorem C80_cross_partial (h : t.WF) (hs : t.HasScales θ) (scaled check : Bool) (u : Nat → Util) (d : Nat) (hd : d < t.n) (y : ℝ)
    (hy : ∀ x, u d = some x → x ≤ y)
    (hscale : ∀ a < t.n, (t.spec θ).Above a d → a ≠ d → θ a ≤ (t.spec θ).θp scaled a)
    (p p' : Nat → ℝ) (ls ls' : XR) (terms terms' : List XR)
    (hr : nested (row t.n u) t scaled check = .ok (arr t.n (fun i => .fin (p i)), ls, terms))
    (hr' : nested (row t.n (Function.update u d (some y))) t scaled check = .ok (arr t.n (fun i => .fin (p' i)), ls', terms'))
    (i : Nat) (hi : i < t.n) (hl : (t.spec θ).Leaf i) (hdi : ¬ (t.spec θ).Above d i) : p' i ≤ p i := by
  rw [returned_prob h hs hr hi hl, returned_prob h hs hr' hi hl]
  have m := nl_of h hs scaled u
  refine m.raise_cross (nl_of h hs scaled _) (d := d) (y := y) ⟨fun k _ hk => ?_, ?_, hy⟩ hscale i hi (fun ha => ?_) hdi
  · rw [Function.update_of_ne hk]
  · rw [Function.update_self]
  · -- a leaf is above itself only
    have : ∀ x, (t.spec θ).Above i x → x < t.n → x = i := by
      intro x hx hxn
      induction hx with
      | self => rfl
      | child a b hab hb ih =>
        have := ih (m.parent_lt hxn hab).1
        subst this
        exact absurd hl (m.not_leaf_of_child hxn hab)
    have hdi' := this d ha hd
    subst hdi'
    exact hdi .self

/-- **C80 (other utilities, without scaling)** With `scale_utilities=False` the condition on the scales is met by every tree
`add_choice` accepts. -/
theorem C80_cross_unscaled (h : t.WF) (hs : t.HasScales θ) (h1 : ∀ i < t.n, θ i ≤ 1) (check : Bool) (u : Nat → Util) (d : Nat)
    (hd : d < t.n) (y : ℝ) (hy : ∀ x, u d = some x → x ≤ y) (p p' : Nat → ℝ) (ls ls' : XR) (terms terms' : List XR)
    (hr : nested (row t.n u) t false check = .ok (arr t.n (fun i => .fin (p i)), ls, terms))
    (hr' : nested (row t.n (Function.update u d (some y))) t false check = .ok (arr t.n (fun i => .fin (p' i)), ls', terms'))
    (i : Nat) (hi : i < t.n) (hl : (t.spec θ).Leaf i) (hdi : ¬ (t.spec θ).Above d i) : p' i ≤ p i := by
  refine C80_cross_partial h hs false check u d hd y hy (fun a ha _ _ => ?_) p p' ls ls' terms terms' hr hr' i hi hl hdi
  unfold Tree.θp
  split <;> simp [h1 a ha]

/-- **C80 (other utilities, one level of nests)** With one level of nests it is met as well. -/
theorem C80_cross_two_levels (h : t.WF) (hs : t.HasScales θ) (h1 : ∀ i < t.n, θ i ≤ 1)
    (h2 : ∀ i < t.n, ∀ q, (t.spec θ).parent i = some q → (t.spec θ).parent q = none) (scaled check : Bool) (u : Nat → Util) (d : Nat)
    (hd : d < t.n) (y : ℝ) (hy : ∀ x, u d = some x → x ≤ y) (p p' : Nat → ℝ) (ls ls' : XR) (terms terms' : List XR)
    (hr : nested (row t.n u) t scaled check = .ok (arr t.n (fun i => .fin (p i)), ls, terms))
    (hr' : nested (row t.n (Function.update u d (some y))) t scaled check = .ok (arr t.n (fun i => .fin (p' i)), ls', terms'))
    (i : Nat) (hi : i < t.n) (hl : (t.spec θ).Leaf i) (hdi : ¬ (t.spec θ).Above d i) : p' i ≤ p i := by
  refine C80_cross_partial h hs scaled check u d hd y hy (fun a ha hab hne => ?_) p p' ls ls' terms terms' hr hr' i hi hl hdi
  have m := nl_of h hs scaled u
  have hpar : (t.spec θ).parent a = none := by
    cases hab with
    | self => exact absurd rfl hne
    | child _ q hq hqa =>
      cases hqa with
      | self => exact h2 d hd a hq
      | child _ r hr'' _ =>
        have := h2 d hd q hq
        rw [this] at hr''; cases hr''
  unfold Tree.θp
  rw [hpar]
  exact h1 a ha

/-- logsum terms and probabilities of a tree whose nodes are numbered differently -/
theorem reorder_core {t' : Flat XR} {θ' : Nat → ℝ} (h : t.WF) (hs : t.HasScales θ) (h' : t'.WF) (hs' : t'.HasScales θ')
    (σ : Equiv.Perm Nat) (hσ : ∀ i, i < t.n ↔ σ i < t'.n)
    (hpar : ∀ i < t.n, (t'.spec θ').parent (σ i) = ((t.spec θ).parent i).map σ) (hθ : ∀ i < t.n, θ' (σ i) = θ i)
    (scaled : Bool) (u u' : Nat → Util) (hu : ∀ i < t.n, u' (σ i) = u i) :
    (∀ i < t.n, ((t'.spec θ').Leaf (σ i) ↔ (t.spec θ).Leaf i)) ∧
    (∀ i < t.n, termR t' scaled u' (σ i) = termR t scaled u i ∧ absR t' θ' scaled u' (σ i) = absR t θ scaled u i) ∧
    ∑ k ∈ (t'.spec θ').tops, termR t' scaled u' k = ∑ k ∈ (t.spec θ).tops, termR t scaled u k := by
  classical
  have m := nl_of h hs scaled u
  have m' := nl_of h' hs' scaled u'
  -- sums over children and over the top correspond
  have hch : ∀ i < t.n, ∀ f : Nat → ℝ, ∑ k ∈ (t'.spec θ').children (σ i), f k = ∑ j ∈ (t.spec θ).children i, f (σ j) := by
    intro i hi f
    symm
    refine Finset.sum_nbij σ (fun j hj => ?_) (fun _ _ _ _ e => σ.injective e) (fun k hk => ?_) fun _ _ => rfl
    · obtain ⟨hj1, hj2⟩ := m.mem_children.mp hj
      exact m'.mem_children.mpr ⟨(hσ j).mp hj1, by rw [hpar j hj1, hj2]; rfl⟩
    · obtain ⟨hk1, hk2⟩ := m'.mem_children.mp hk
      refine ⟨σ.symm k, m.mem_children.mpr ?_, by simp⟩
      have hk1' : σ.symm k < t.n := (hσ _).mpr (by simpa using hk1)
      have := hpar _ hk1'
      rw [Equiv.apply_symm_apply, hk2] at this
      cases hq : (t.spec θ).parent (σ.symm k) with
      | none => rw [hq] at this; cases this
      | some q =>
        rw [hq] at this
        simp only [Option.map_some, Option.some.injEq, EmbeddingLike.apply_eq_iff_eq] at this
        exact ⟨hk1', by rw [this]⟩
  have htop : ∀ f : Nat → ℝ, ∑ k ∈ (t'.spec θ').tops, f k = ∑ j ∈ (t.spec θ).tops, f (σ j) := by
    intro f
    symm
    refine Finset.sum_nbij σ (fun j hj => ?_) (fun _ _ _ _ e => σ.injective e) (fun k hk => ?_) fun _ _ => rfl
    · obtain ⟨hj1, hj2⟩ := m.mem_tops.mp hj
      exact m'.mem_tops.mpr ⟨(hσ j).mp hj1, by rw [hpar j hj1, hj2]; rfl⟩
    · obtain ⟨hk1, hk2⟩ := m'.mem_tops.mp hk
      refine ⟨σ.symm k, m.mem_tops.mpr ?_, by simp⟩
      have hk1' : σ.symm k < t.n := (hσ _).mpr (by simpa using hk1)
      have := hpar _ hk1'
      rw [Equiv.apply_symm_apply, hk2] at this
      cases hq : (t.spec θ).parent (σ.symm k) with
      | none => exact ⟨hk1', rfl⟩
      | some q => rw [hq] at this; cases this
  have hleaf : ∀ i < t.n, ((t'.spec θ').Leaf (σ i) ↔ (t.spec θ).Leaf i) := by
    intro i hi
    have hc := hch i hi fun _ => 1
    unfold Tree.Leaf
    simp only [Finset.sum_const, nsmul_eq_mul, mul_one, Nat.cast_inj] at hc
    rw [← Finset.card_eq_zero, ← Finset.card_eq_zero, hc]
  have hθp : ∀ i < t.n, (t'.spec θ').θp scaled (σ i) = (t.spec θ).θp scaled i := by
    intro i hi
    unfold Tree.θp
    rw [hpar i hi]
    cases hq : (t.spec θ).parent i with
    | none => rfl
    | some q =>
      simp only [Option.map_some]
      have : (t'.spec θ').θ (σ q) = (t.spec θ).θ q := hθ q (m.parent_lt hi hq).1
      rw [this]
  have hT : ∀ i < t.n, termR t' scaled u' (σ i) = termR t scaled u i ∧ absR t' θ' scaled u' (σ i) = absR t θ scaled u i := by
    refine IsNestedLogit_unique (T := fun i => termR t' scaled u' (σ i)) (P := fun i => absR t' θ' scaled u' (σ i)) h scaled u ?_ m.is
    refine ⟨fun i hi hl => ?_, fun i hi hl => ?_, fun i hi hp => ?_, fun i hi q hp => ?_⟩
    · rw [m'.is.leaf _ ((hσ i).mp hi) ((hleaf i hi).mpr hl), hu i hi, hθp i hi]
    · have : (t'.spec θ').θ (σ i) = (t.spec θ).θ i := hθ i hi
      rw [m'.is.nest _ ((hσ i).mp hi) (fun hh => hl ((hleaf i hi).mp hh)), hu i hi, hθp i hi, hch i hi, this]
    · rw [m'.is.top _ ((hσ i).mp hi) (by rw [hpar i hi, hp]; rfl), htop]
    · rw [m'.is.child _ ((hσ i).mp hi) (σ q) (by rw [hpar i hi, hp]; rfl), hch q (m.parent_lt hi hp).1]
  refine ⟨hleaf, hT, ?_⟩
  rw [htop]
  exact Finset.sum_congr rfl fun j hj => (hT j (m.mem_tops.mp hj).1).1

/-- **C80 (order of choices)** Numbering the nodes of the tree differently (`σ`), with the utilities and scales following
along, changes neither the outcome nor any probability. -/
theorem C80_reorder {t' : Flat XR} {θ' : Nat → ℝ} (h : t.WF) (hs : t.HasScales θ) (h' : t'.WF) (hs' : t'.HasScales θ')
    (σ : Equiv.Perm Nat) (hσ : ∀ i, i < t.n ↔ σ i < t'.n)
    (hpar : ∀ i < t.n, (t'.spec θ').parent (σ i) = ((t.spec θ).parent i).map σ) (hθ : ∀ i < t.n, θ' (σ i) = θ i)
    (scaled check : Bool) (u u' : Nat → Util) (hu : ∀ i < t.n, u' (σ i) = u i) :
    (∀ e, nested (row t.n u) t scaled check = .error e ↔ nested (row t'.n u') t' scaled check = .error e) ∧
    ∀ (p p' : Nat → ℝ) (ls ls' : XR) (terms terms' : List XR),
      nested (row t.n u) t scaled check = .ok (arr t.n (fun i => .fin (p i)), ls, terms) →
      nested (row t'.n u') t' scaled check = .ok (arr t'.n (fun i => .fin (p' i)), ls', terms') →
      ls' = ls ∧ ∀ i < t.n, p' (σ i) = p i := by
  classical
  have m := nl_of h hs scaled u
  have m' := nl_of h' hs' scaled u'
  obtain ⟨hleaf, hT, hsum⟩ := reorder_core h hs h' hs' σ hσ hpar hθ scaled u u' hu
  have e := C09_textbook h hs scaled check u _ _ m.is
  have e' := C09_textbook h' hs' scaled check u' _ _ m'.is
  rw [hsum] at e'
  constructor
  · intro er
    rw [e, e']
    by_cases hz : (∑ k ∈ (t.spec θ).tops, termR t scaled u k) = 0 ∧ check = true
    · rw [if_pos hz, if_pos hz]
    · rw [if_neg hz, if_neg hz]; exact iff_of_false (by simp) (by simp)
  · intro p p' ls ls' terms terms' hr hr'
    rw [e] at hr
    rw [e'] at hr'
    by_cases hz : (∑ k ∈ (t.spec θ).tops, termR t scaled u k) = 0 ∧ check = true
    · rw [if_pos hz] at hr; cases hr
    · rw [if_neg hz] at hr hr'
      simp only [Except.ok.injEq, Prod.mk.injEq] at hr hr'
      refine ⟨by rw [← hr.2.1, ← hr'.2.1], fun i hi => ?_⟩
      have h1 := congrArg (fun l => l[i]?) hr.1
      have h2 := congrArg (fun l => l[σ i]?) hr'.1
      simp only [arr, List.getElem?_map, List.getElem?_range hi, List.getElem?_range ((hσ i).mp hi), Option.map_some,
        Option.some.injEq, XR.fin.injEq] at h1 h2
      rw [← h1, ← h2]
      simp only [hleaf i hi, (hT i hi).2]

/-! the violation -/

open Classical in
/-- only `a` and the nests around it, the nest `b`, the choices `i`, `j` and `c` are available -/
noncomputable def cornerU (tr : Tree) (a b i j c : Nat) (x z : ℝ) : Nat → Util := fun k =>
  if k = i then some x else if k = j ∨ k = b then some 0 else if k = c then some z else if tr.Above k a then some 0 else none

/-- the probability of `j` in such a row -/
theorem corner_prob (h : t.WF) (hs : t.HasScales θ) {a b i j c : Nat} (hbn : b < t.n) (hin : i < t.n) (hjn : j < t.n) (hcn : c < t.n)
    (hb : (t.spec θ).parent b = some a) (hi : (t.spec θ).parent i = some b) (hj : (t.spec θ).parent j = some b) (hij : i ≠ j)
    (hc : (t.spec θ).parent c = some a) (hcb : c ≠ b) (hli : (t.spec θ).Leaf i) (hlj : (t.spec θ).Leaf j) (hlc : (t.spec θ).Leaf c)
    (x z : ℝ) :
    let u := cornerU (t.spec θ) a b i j c x z
    let S := Real.exp (x / θ b) + 1
    (t.spec θ).Open u j ∧
    absR t θ true u j = 1 / S * (S ^ (θ b / θ a) / (S ^ (θ b / θ a) + Real.exp (z / θ a))) := by
  intro u S
  have m := nl_of h hs true u
  set T := termR t true u
  set P := absR t θ true u
  obtain ⟨han, hbl⟩ := m.parent_lt hbn hb
  have hil := (m.parent_lt hin hi).2
  have hjl := (m.parent_lt hjn hj).2
  have hcl := (m.parent_lt hcn hc).2
  have hbi : b ≠ i := by rintro rfl; omega
  have hbj : b ≠ j := by rintro rfl; omega
  have hci : c ≠ i := by rintro rfl; omega
  have hcj : c ≠ j := by rintro rfl; omega
  have hup : ∀ k, (t.spec θ).Above k a → k ≠ i ∧ k ≠ j ∧ k ≠ b ∧ k ≠ c := by
    intro k hk
    have := (m.above_level hk han).2
    refine ⟨?_, ?_, ?_, ?_⟩ <;> (rintro rfl; omega)
  have ui : u i = some x := by simp [u, cornerU]
  have uj : u j = some 0 := by simp [u, cornerU, hij.symm]
  have ub : u b = some 0 := by simp [u, cornerU, hbi]
  have uc : u c = some z := by simp [u, cornerU, hci, hcj, hcb]
  have ua : ∀ k, (t.spec θ).Above k a → u k = some 0 := by
    intro k hk
    obtain ⟨h1, h2, h3, h4⟩ := hup k hk
    simp [u, cornerU, h1, h2, h3, h4, hk]
  have un : ∀ k, k ≠ i → k ≠ j → k ≠ b → k ≠ c → ¬ (t.spec θ).Above k a → u k = none := by
    intro k h1 h2 h3 h4 h5
    simp [u, cornerU, h1, h2, h3, h4, h5]
  have θpc : ∀ k q, (t.spec θ).parent k = some q → (t.spec θ).θp true k = θ q := by
    intro k q hk; unfold Tree.θp; rw [hk]; rfl
  have hTi : T i = Real.exp (x / θ b) := by
    rw [m.is.leaf i hin hli, ui, θpc i b hi]
  have hTj : T j = 1 := by rw [m.is.leaf j hjn hlj, uj]; simp
  have hTc : T c = Real.exp (z / θ a) := by
    rw [m.is.leaf c hcn hlc, uc, θpc c a hc]
  -- the sum over `b`
  have hSb : ∑ k ∈ (t.spec θ).children b, T k = S := by
    rw [← Finset.sum_subset (s₁ := {i, j})]
    · rw [Finset.sum_pair hij, hTi, hTj]
    · intro k hk
      simp only [Finset.mem_insert, Finset.mem_singleton] at hk
      rcases hk with rfl | rfl
      · exact m.mem_children.mpr ⟨hin, hi⟩
      · exact m.mem_children.mpr ⟨hjn, hj⟩
    · intro k hk hnk
      simp only [Finset.mem_insert, Finset.mem_singleton, not_or] at hnk
      obtain ⟨hk1, hk2⟩ := m.mem_children.mp hk
      have hkl := (m.parent_lt hk1 hk2).2
      refine m.none_term hk1 (un k hnk.1 hnk.2 ?_ ?_ fun ha => ?_)
      · rintro rfl; omega
      · rintro rfl; omega
      · have := (m.above_level ha han).2; omega
  have hS0 : 0 < S := by positivity
  have hTb : T b = S ^ (θ b / θ a) := by
    rw [m.nest_term hbn (m.not_leaf_of_child hin hi) ub, hSb, θpc b a hb]
    simp [Flat.spec]
  have hSa : ∑ k ∈ (t.spec θ).children a, T k = S ^ (θ b / θ a) + Real.exp (z / θ a) := by
    rw [← Finset.sum_subset (s₁ := {b, c})]
    · rw [Finset.sum_pair hcb.symm, hTb, hTc]
    · intro k hk
      simp only [Finset.mem_insert, Finset.mem_singleton] at hk
      rcases hk with rfl | rfl
      · exact m.mem_children.mpr ⟨hbn, hb⟩
      · exact m.mem_children.mpr ⟨hcn, hc⟩
    · intro k hk hnk
      simp only [Finset.mem_insert, Finset.mem_singleton, not_or] at hnk
      obtain ⟨hk1, hk2⟩ := m.mem_children.mp hk
      have hkl := (m.parent_lt hk1 hk2).2
      refine m.none_term hk1 (un k ?_ ?_ hnk.1 hnk.2 fun ha => ?_)
      · rintro rfl; omega
      · rintro rfl; omega
      · have := (m.above_level ha han).2; omega
  -- the nests around `a` have probability 1
  have hTpos : ∀ k < t.n, (t.spec θ).Above k a → 0 < T k := by
    have hTa : 0 < T a := (m.term_pos_iff a han).mpr ⟨by rw [ua a .self]; simp, .inr ⟨c, hcn, hc, by rw [hTc]; exact Real.exp_pos _⟩⟩
    intro k hk ha
    have key : ∀ x, (t.spec θ).Above k x → x < t.n → (∀ y, (t.spec θ).Above y x → (t.spec θ).Above y a) → 0 < T x → 0 < T k := by
      intro x hx
      induction hx with
      | self => exact fun _ _ hh => hh
      | child p q hpq hq ih =>
        intro hp hsub hT
        obtain ⟨hqn, _⟩ := m.parent_lt hp hpq
        refine ih hqn (fun y hy => hsub y (.child p q hpq hy)) ?_
        exact (m.term_pos_iff q hqn).mpr ⟨by rw [ua q (hsub q (.child p q hpq .self))]; simp, .inr ⟨p, hp, hpq, hT⟩⟩
    exact key a ha han (fun _ hy => hy) hTa
  have hP1 : ∀ k < t.n, (t.spec θ).Above k a → P k = 1 := by
    apply m.down_induction
    · intro k hk hp ha
      rw [m.is.top k hk hp]
      have : ∑ r ∈ (t.spec θ).tops, T r = T k := by
        refine Finset.sum_eq_single_of_mem k (m.mem_tops.mpr ⟨hk, hp⟩) fun r hr hne => ?_
        obtain ⟨hr1, hr2⟩ := m.mem_tops.mp hr
        refine m.none_term hr1 (un r ?_ ?_ ?_ ?_ fun hra => hne (m.above_unique hra ha han ?_))
        · rintro rfl; rw [hi] at hr2; cases hr2
        · rintro rfl; rw [hj] at hr2; cases hr2
        · rintro rfl; rw [hb] at hr2; cases hr2
        · rintro rfl; rw [hc] at hr2; cases hr2
        · rw [m.top_level hr1 hr2, m.top_level hk hp]
      rw [this, div_self (hTpos k hk ha).ne']
    · intro k hk p hpn hp ih ha
      rw [m.is.child k hk p hp, ih (above_up hp ha), mul_one]
      have hkl := (m.parent_lt hk hp).2
      have hka := (m.above_level ha han).2
      have : ∑ r ∈ (t.spec θ).children p, T r = T k := by
        refine Finset.sum_eq_single_of_mem k (m.mem_children.mpr ⟨hk, hp⟩) fun r hr hne => ?_
        obtain ⟨hr1, hr2⟩ := m.mem_children.mp hr
        have hrl := (m.parent_lt hr1 hr2).2
        refine m.none_term hr1 (un r ?_ ?_ ?_ ?_ fun hra => hne (m.above_unique hra ha han (by omega)))
        all_goals (rintro rfl; omega)
      rw [this, div_self (hTpos k hk ha).ne']
  have hopen : ∀ k, k < t.n → (∀ y, (t.spec θ).Above y k → (t.spec θ).Above y a) → (t.spec θ).Open u k := by
    apply m.down_induction
    · intro k hk hp hsub
      exact .top k hp (by rw [ua k (hsub k .self)]; simp)
    · intro k hk p hpn hp ih hsub
      exact .child k p hp (by rw [ua k (hsub k .self)]; simp) (ih fun y hy => hsub y (.child k p hp hy))
  refine ⟨.child j b hj (by rw [uj]; simp) (.child b a hb (by rw [ub]; simp) (hopen a han fun _ hy => hy)), ?_⟩
  rw [m.is.child j hjn b hj, m.is.child b hbn a hb, hP1 a han .self, hSb, hSa, hTj, hTb, mul_one]

/-- **C80** (violated) Whenever a nest `b` inside a nest `a` has a larger scale than `a` (`add_choice` accepts every scale up to
1), two elemental choices, and `a` has a further elemental choice, some row shows the opposite: raising the (finite) utility of
one choice raises the probability of another. -/
theorem C80_cross_refuted (h : t.WF) (hs : t.HasScales θ) {a b i j c : Nat} (hbn : b < t.n) (hin : i < t.n) (hjn : j < t.n)
    (hcn : c < t.n) (hb : (t.spec θ).parent b = some a) (hi : (t.spec θ).parent i = some b) (hj : (t.spec θ).parent j = some b)
    (hij : i ≠ j) (hc : (t.spec θ).parent c = some a) (hcb : c ≠ b) (hli : (t.spec θ).Leaf i) (hlj : (t.spec θ).Leaf j)
    (hlc : (t.spec θ).Leaf c) (hθ : θ a < θ b) (check : Bool) :
    ∃ (u : Nat → Util) (x y : ℝ), u i = some x ∧ x < y ∧
      ∃ (p p' : Nat → ℝ) (ls ls' : XR) (terms terms' : List XR),
        nested (row t.n u) t true check = .ok (arr t.n (fun i => .fin (p i)), ls, terms) ∧
        nested (row t.n (Function.update u i (some y))) t true check = .ok (arr t.n (fun i => .fin (p' i)), ls', terms') ∧
        p j < p' j := by
  have m0 := nl_of h hs true (fun _ => none)
  have han := (m0.parent_lt hbn hb).1
  have hθa : 0 < θ a := (hs a han).2
  have hθb : 0 < θ b := (hs b hbn).2
  set e := θ b / θ a with he
  have he1 : 1 < e := (one_lt_div hθa).mpr hθ
  set r : ℝ := 2 ^ (e - 1) with hr
  have hr1 : 1 < r := Real.one_lt_rpow (by norm_num) (by linarith)
  set w : ℝ := 2 * r ^ 2 / (r - 1) + 1 with hw
  have hw0 : 0 < w := by have : 0 < r - 1 := by linarith
                         positivity
  have hwr : 2 * r ^ 2 < w * (r - 1) := by
    have : 0 < r - 1 := by linarith
    rw [hw, add_mul, div_mul_cancel₀ _ this.ne']; linarith
  set z := θ a * Real.log w with hz
  have hzw : Real.exp (z / θ a) = w := by rw [hz, mul_div_cancel_left₀ _ hθa.ne', Real.exp_log hw0]
  set y := θ b * Real.log 3 with hy
  have hy3 : Real.exp (y / θ b) = 3 := by rw [hy, mul_div_cancel_left₀ _ hθb.ne', Real.exp_log (by norm_num)]
  have hupd : Function.update (cornerU (t.spec θ) a b i j c 0 z) i (some y) = cornerU (t.spec θ) a b i j c y z := by
    funext k
    by_cases hk : k = i
    · subst hk; simp [cornerU]
    · rw [Function.update_of_ne hk]; simp [cornerU, hk]
  obtain ⟨ho, hp⟩ := corner_prob h hs hbn hin hjn hcn hb hi hj hij hc hcb hli hlj hlc 0 z
  obtain ⟨ho', hp'⟩ := corner_prob h hs hbn hin hjn hcn hb hi hj hij hc hcb hli hlj hlc y z
  obtain ⟨p, ls, terms, h1, _⟩ := C08_distribution h hs true check _ ⟨j, hjn, hlj, ho⟩
  obtain ⟨p', ls', terms', h1', _⟩ := C08_distribution h hs true check _ ⟨j, hjn, hlj, ho'⟩
  refine ⟨cornerU (t.spec θ) a b i j c 0 z, 0, y, by simp [cornerU], ?_, p, p', ls, ls', terms, terms', h1, by rw [hupd]; exact h1', ?_⟩
  · exact mul_pos hθb (Real.log_pos (by norm_num))
  · rw [returned_prob h hs h1 hjn hlj, returned_prob h hs h1' hjn hlj, hp, hp']
    have e2 : (2 : ℝ) ^ e = 2 * r := by
      rw [hr, show e = (e - 1) + 1 by ring, Real.rpow_add_one (by norm_num)]; ring_nf
    have e4 : (4 : ℝ) ^ e = 4 * r ^ 2 := by
      rw [show (4 : ℝ) = 2 * 2 by norm_num, Real.mul_rpow (by norm_num) (by norm_num), e2]; ring
    rw [zero_div, Real.exp_zero, hy3, hzw, ← he, show (1 : ℝ) + 1 = 2 by norm_num, show (3 : ℝ) + 1 = 4 by norm_num, e2, e4]
    have hA : 0 < 2 * r + w := by linarith
    have hB : 0 < 4 * r ^ 2 + w := by positivity
    rw [div_mul_div_comm, div_mul_div_comm, div_lt_div_iff₀ (by positivity) (by positivity)]
    nlinarith [mul_pos (by linarith : (0 : ℝ) < r) (sub_pos.mpr hwr)]

/-! ### Non-vacuity: a tree with a nest in a nest

Nodes: 0 = top nest (scale 1/2), 1 = nest in 0 (scale 1), 2 and 3 = choices of 1, 4 = choice of 0, 5 = top-level choice. -/

noncomputable def deepθ : Nat → ℝ := fun i => if i = 0 then 1/2 else 1

noncomputable def deepTree : Flat XR where
  n := 6
  parent i := if i = 1 ∨ i = 4 then 0 else if i = 2 ∨ i = 3 then 1 else -1
  level i := if i = 1 ∨ i = 4 then 1 else if i = 2 ∨ i = 3 then 2 else 0
  scale i := .fin (deepθ i)
  bottom i := !(i == 0 || i == 1)

theorem deepTree_wf : deepTree.WF where
  pos := by simp [deepTree]
  node := by
    intro i hi
    have hi : i < 6 := hi
    simp only [deepTree]
    interval_cases i
    · left; simp
    · right; exact ⟨0, by norm_num, by simp, by simp⟩
    · right; exact ⟨1, by norm_num, by simp, by simp⟩
    · right; exact ⟨1, by norm_num, by simp, by simp⟩
    · right; exact ⟨0, by norm_num, by simp, by simp⟩
    · left; simp
  bottom := by
    intro i hi
    have hi : i < 6 := hi
    simp only [deepTree]
    constructor
    · intro hb j hj
      have : i ≠ 0 ∧ i ≠ 1 := by simpa using hb
      split
      · omega
      · split <;> omega
    · intro hh
      have h1 := hh 1 (by norm_num)
      have h2 := hh 2 (by norm_num)
      simp at h1 h2 ⊢
      omega

theorem deepTree_scales : deepTree.HasScales deepθ := by
  intro i _
  refine ⟨rfl, ?_⟩
  unfold deepθ
  split <;> norm_num

theorem deep_leaf (i : Nat) (hi : i < 6) : (deepTree.spec deepθ).Leaf i ↔ i ≠ 0 ∧ i ≠ 1 := by
  rw [spec_leaf deepTree_wf i hi]; simp [deepTree]

theorem deep_parent (i : Nat) : (deepTree.spec deepθ).parent i =
    if i = 1 ∨ i = 4 then some 0 else if i = 2 ∨ i = 3 then some 1 else none := by
  by_cases h : i = 1 ∨ i = 4
  · simp only [Flat.spec, deepTree, if_pos h]; rfl
  · by_cases h' : i = 2 ∨ i = 3
    · simp only [Flat.spec, deepTree, if_neg h, if_pos h']; rfl
    · simp only [Flat.spec, deepTree, if_neg h, if_neg h']; rfl

theorem deep_open (u : Nat → Util) (hu : ∀ i, u i ≠ none) : (deepTree.spec deepθ).Open u 5 ∧ (deepTree.spec deepθ).Open u 3 := by
  refine ⟨.top 5 (by simp [deep_parent]) (hu 5), .child 3 1 (by simp [deep_parent]) (hu 3) (.child 1 0 (by simp [deep_parent]) (hu 1)
    (.top 0 (by simp [deep_parent]) (hu 0)))⟩

/-- a row with finite utilities gets probabilities -/
theorem deep_runs (scaled check : Bool) (u : Nat → Util) (hu : ∀ i, u i ≠ none) : ∃ (p : Nat → ℝ) (ls : XR) (terms : List XR),
    nested (row deepTree.n u) deepTree scaled check = .ok (arr deepTree.n (fun i => .fin (p i)), ls, terms) := by
  obtain ⟨p, ls, terms, h, _⟩ := C08_distribution deepTree_wf deepTree_scales scaled check u
    ⟨5, by simp [deepTree], (deep_leaf 5 (by norm_num)).mpr (by norm_num), (deep_open u hu).1⟩
  exact ⟨p, ls, terms, h⟩

theorem deep_update (u : Nat → Util) (hu : ∀ i, u i ≠ none) (d : Nat) (y : ℝ) : ∀ i, Function.update u d (some y) i ≠ none := by
  intro i
  by_cases h : i = d
  · subst h; simp
  · rw [Function.update_of_ne h]; exact hu i

/-- C80_own and C80_cross_unscaled: raising choice 2 from 0 to 1 does not lower its probability, and, without scaling, does not
raise that of choice 3 -/
example (scaled : Bool) : ∃ p p' : Nat → ℝ, ∃ ls ls' terms terms',
    nested (row 6 fun _ => some 0) deepTree scaled true = .ok (arr 6 (fun i => .fin (p i)), ls, terms) ∧
    nested (row 6 (Function.update (fun _ => some 0) 2 (some 1))) deepTree scaled true = .ok (arr 6 (fun i => .fin (p' i)), ls', terms') ∧
    p 2 ≤ p' 2 ∧ (scaled = false → p' 3 ≤ p 3) := by
  obtain ⟨p, ls, terms, h⟩ := deep_runs scaled true (fun _ => some 0) (by simp)
  obtain ⟨p', ls', terms', h'⟩ := deep_runs scaled true _ (deep_update (fun _ => some 0) (by simp) 2 1)
  have hy : ∀ x : ℝ, (fun _ => some 0 : Nat → Util) 2 = some x → x ≤ 1 := by intro x hx; simp at hx; linarith
  refine ⟨p, p', ls, ls', terms, terms', h, h', ?_, ?_⟩
  · exact C80_own deepTree_wf deepTree_scales scaled true _ 2 (by simp [deepTree]) 1 hy p p' ls ls' terms terms' h h' 2
      (by simp [deepTree]) ((deep_leaf 2 (by norm_num)).mpr (by norm_num)) .self
  · rintro rfl
    refine C80_cross_unscaled deepTree_wf deepTree_scales ?_ true _ 2 (by simp [deepTree]) 1 hy p p' ls ls' terms terms' h h' 3
      (by simp [deepTree]) ((deep_leaf 3 (by norm_num)).mpr (by norm_num)) ?_
    · intro i _; unfold deepθ; split <;> norm_num
    · intro ha
      cases ha with
      | child _ q hq h1 =>
        simp [deep_parent] at hq
        subst hq
        cases h1 with
        | child _ q hq h1 =>
          simp [deep_parent] at hq
          subst hq
          cases h1 with
          | child _ q hq _ => simp [deep_parent] at hq

/-- C80_cross_refuted: with scaling the tree shows the opposite for choices 2 and 3 -/
example : ∃ (u : Nat → Util) (x y : ℝ), u 2 = some x ∧ x < y ∧ ∃ (p p' : Nat → ℝ) (ls ls' : XR) (terms terms' : List XR),
    nested (row 6 u) deepTree true true = .ok (arr 6 (fun i => .fin (p i)), ls, terms) ∧
    nested (row 6 (Function.update u 2 (some y))) deepTree true true = .ok (arr 6 (fun i => .fin (p' i)), ls', terms') ∧
    p 3 < p' 3 :=
  C80_cross_refuted deepTree_wf deepTree_scales (a := 0) (b := 1) (i := 2) (j := 3) (c := 4) (by simp [deepTree]) (by simp [deepTree])
    (by simp [deepTree]) (by simp [deepTree]) (by simp [deep_parent]) (by simp [deep_parent]) (by simp [deep_parent]) (by norm_num)
    (by simp [deep_parent]) (by norm_num) ((deep_leaf 2 (by norm_num)).mpr (by norm_num)) ((deep_leaf 3 (by norm_num)).mpr (by norm_num))
    ((deep_leaf 4 (by norm_num)).mpr (by norm_num)) (by norm_num [deepθ]) true

/-- C80_odds: choices 3 and 2, utilities 0 and 0 -/
example : ∃ p : Nat → ℝ, ∃ ls terms, nested (row 6 fun _ => some 0) deepTree true true = .ok (arr 6 (fun i => .fin (p i)), ls, terms) ∧
    p 2 / p 3 = 1 := by
  obtain ⟨p, ls, terms, h⟩ := deep_runs true true (fun _ => some 0) (by simp)
  refine ⟨p, ls, terms, h, ?_⟩
  have := (C80_odds deepTree_wf deepTree_scales true true _ p ls terms h 2 3 (by simp [deepTree]) (by simp [deepTree])
    ((deep_leaf 2 (by norm_num)).mpr (by norm_num)) ((deep_leaf 3 (by norm_num)).mpr (by norm_num)) (by simp [deep_parent])
    (deep_open _ (by simp)).2 0 0 rfl rfl).2
  simpa using this

/-- C80_exchange for nest 1: taking 7 off choices 2 and 3 and putting it on the nest changes nothing -/
example (u : Nat → Util) : (nested (row 6 fun i => if i = 1 then (u i).map (· + if true then 7 else 7 * deepθ 1)
      else if (deepTree.spec deepθ).parent i = some 1 then (u i).map (· - 7) else u i) deepTree true true).map (·.1) =
    (nested (row 6 u) deepTree true true).map (·.1) :=
  C80_exchange deepTree_wf deepTree_scales true true u 7 1 (by simp [deepTree]) fun h => by
    have := (deep_leaf 1 (by norm_num)).mp h
    omega

/-- C80_reorder: exchanging choices 2 and 3 -/
example (u : Nat → Util) (p p' : Nat → ℝ) (ls ls' : XR) (terms terms' : List XR)
    (h : nested (row 6 u) deepTree true true = .ok (arr 6 (fun i => .fin (p i)), ls, terms))
    (h' : nested (row 6 fun i => u (Equiv.swap 2 3 i)) deepTree true true = .ok (arr 6 (fun i => .fin (p' i)), ls', terms')) :
    p' 3 = p 2 := by
  have := (C80_reorder deepTree_wf deepTree_scales deepTree_wf deepTree_scales (Equiv.swap 2 3) (fun i => ?_) (fun i hi => ?_)
    (fun i hi => ?_) true true u (fun i => u (Equiv.swap 2 3 i)) (fun i _ => by simp)).2 p p' ls ls' terms terms' h h'
  · simpa using this.2 2 (by simp [deepTree])
  · show i < 6 ↔ Equiv.swap 2 3 i < 6
    rw [Equiv.swap_apply_def]; split_ifs <;> omega
  · have hi : i < 6 := hi
    interval_cases i <;> simp [deep_parent, Equiv.swap_apply_def]
  · have hi : i < 6 := hi
    interval_cases i <;> simp [deepθ, Equiv.swap_apply_def]

end Cheval
