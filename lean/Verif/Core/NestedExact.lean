import Verif.Core.NestedLemmas
import Verif.Num.XRLemmas
import Verif.Spec.Logit

/-! Helper lemmas: exact-arithmetic reading of the nested logit closed form (no property statements here). -/
set_option linter.unusedSectionVars false
namespace Cheval
open FOps Spec

/-- a specification utility as a number -/
noncomputable def util : Util → XR
  | none => .ninf
  | some x => .fin x

theorem exp_util (u : Util) : FOps.exp (util u) = XR.fin (expw u) := by
  cases u <;> rfl

theorem expw_nonneg (u : Util) : 0 ≤ expw u := by
  cases u with
  | none => exact le_refl _
  | some x => exact (Real.exp_pos x).le

theorem expw_eq_zero (u : Util) : expw u = 0 ↔ u = none := by
  cases u with
  | none => simp [expw]
  | some x => simp [expw, (Real.exp_pos x).ne']

/-- the specification tree denoted by a flattened table -/
noncomputable def Flat.spec (t : Flat XR) (θ : Nat → ℝ) : Tree where
  n := t.n
  parent i := if t.parent i = -1 then none else some (t.parent i).toNat
  θ := θ

/-- the scales of the table are the positive reals `θ` -/
def Flat.HasScales (t : Flat XR) (θ : Nat → ℝ) : Prop := ∀ i < t.n, t.scale i = .fin (θ i) ∧ 0 < θ i

theorem sum_range_filter (n : Nat) (q : Nat → Bool) (f : Nat → ℝ) :
    (((List.range n).filter q).map f).sum = ∑ i ∈ (Finset.range n).filter (fun i => q i = true), f i := by
  induction n with
  | zero => simp
  | succ n ih =>
    rw [List.range_succ, List.filter_append, List.map_append, List.sum_append, ih, Finset.sum_filter, Finset.sum_filter,
      Finset.sum_range_succ]
    by_cases h : q n = true <;> simp [h]

variable {t : Flat XR} {θ : Nat → ℝ}

theorem spec_parent_some (h : t.WF) (i p : Nat) (hi : i < t.n) :
    (t.spec θ).parent i = some p ↔ t.parent i = (p : Int) := by
  simp only [Flat.spec]
  rcases h.node i hi with ⟨h1, _⟩ | ⟨q, _, h1, _⟩
  · simp [h1]
  · have : t.parent i ≠ -1 := by omega
    simp only [this, if_false, Option.some.injEq]; omega

theorem spec_parent_none (i : Nat) : (t.spec θ).parent i = none ↔ t.parent i = -1 := by
  simp only [Flat.spec]
  split <;> simp_all

theorem spec_children (h : t.WF) (j : Nat) (f : Nat → ℝ) :
    ((t.children j).map f).sum = ∑ i ∈ (t.spec θ).children j, f i := by
  unfold Flat.children
  rw [sum_range_filter]
  apply Finset.sum_congr _ (fun _ _ => rfl)
  ext i
  simp only [Tree.children, Finset.mem_filter, Finset.mem_range, beq_iff_eq]
  constructor
  · rintro ⟨h1, h2⟩; exact ⟨h1, (spec_parent_some h i j h1).mpr h2⟩
  · rintro ⟨h1, h2⟩; exact ⟨h1, (spec_parent_some h i j h1).mp h2⟩

theorem spec_mem_children (h : t.WF) (i j : Nat) : i ∈ (t.spec θ).children j ↔ i ∈ t.children j := by
  rw [Flat.mem_children]
  simp only [Tree.children, Finset.mem_filter, Finset.mem_range]
  constructor
  · rintro ⟨h1, h2⟩; exact ⟨h1, (spec_parent_some h i j h1).mp h2⟩
  · rintro ⟨h1, h2⟩; exact ⟨h1, (spec_parent_some h i j h1).mpr h2⟩

theorem spec_tops (f : Nat → ℝ) : (t.tops.map f).sum = ∑ i ∈ (t.spec θ).tops, f i := by
  unfold Flat.tops
  rw [sum_range_filter]
  apply Finset.sum_congr _ (fun _ _ => rfl)
  ext i
  simp only [Tree.tops, Finset.mem_filter, Finset.mem_range, beq_iff_eq, spec_parent_none]
  rfl

theorem spec_leaf (h : t.WF) (i : Nat) (hi : i < t.n) : (t.spec θ).Leaf i ↔ t.bottom i = true := by
  rw [h.bottom i hi]
  unfold Tree.Leaf
  rw [Finset.eq_empty_iff_forall_notMem]
  constructor
  · intro hh j hj hp
    exact hh j ((spec_mem_children h j i).mpr (Flat.mem_children.mpr ⟨hj, hp⟩))
  · intro hh j hj
    obtain ⟨h1, h2⟩ := Flat.mem_children.mp ((spec_mem_children h j i).mp hj)
    exact hh j h1 h2

theorem parentScale_eq (h : t.WF) (hs : t.HasScales θ) (scaleU : Bool) (i : Nat) (hi : i < t.n) :
    parentScale t scaleU i = .fin ((t.spec θ).θp scaleU i) ∧ 0 < (t.spec θ).θp scaleU i := by
  unfold parentScale Tree.θp
  rcases h.node i hi with ⟨h1, _⟩ | ⟨p, hpn, h1, _⟩
  · rw [(spec_parent_none i).mpr h1]
    simp [h1]
  · rw [(spec_parent_some h i p hi).mpr h1]
    cases scaleU with
    | false => simp
    | true =>
      have : (t.parent i).toNat = p := by omega
      have hneg : ¬ (t.parent i < 0) := by omega
      simp [this, hneg, hs p hpn, Flat.spec]

/-- real value of a number -/
noncomputable def realOf : XR → ℝ
  | .fin x => x
  | _ => 0

/-- The real logsum term: what `termOf` computes on exact numbers. -/
theorem termOf_exact (h : t.WF) (hs : t.HasScales θ) (scaleU : Bool) (u : Nat → Util) (i : Nat) (hi : i < t.n)
    (S : ℝ) (hS : 0 ≤ S) :
    termOf t scaleU (fun i => util (u i)) i (.fin S) = .fin (match u i with
      | none => 0
      | some x => if t.bottom i then Real.exp (x / (t.spec θ).θp scaleU i)
          else Real.exp (x / (t.spec θ).θp scaleU i) * S ^ (θ i / (t.spec θ).θp scaleU i)) := by
  obtain ⟨hp, hpos⟩ := parentScale_eq h hs scaleU i hi
  unfold termOf
  rw [hp]
  obtain ⟨hsc, hθ⟩ := hs i hi
  rw [hsc]
  set q := (t.spec θ).θp scaleU i with hq
  have hq0 : q ≠ 0 := hpos.ne'
  cases hu : u i with
  | none =>
    simp only [hu, util]
    cases hb : t.bottom i with
    | true => simp [FOps.div, XR.div, hpos.le, FOps.exp, XR.exp]
    | false =>
      have : FOps.add XR.ninf (FOps.mul (XR.fin (θ i)) (FOps.log (XR.fin S))) = XR.ninf := by
        by_cases hS0 : S = 0
        · simp [FOps.log, XR.log, hS0, FOps.mul, XR.mul, XR.mulNinf, hθ, hθ.ne', FOps.add, XR.add]
        · have : 0 < S := lt_of_le_of_ne hS (Ne.symm hS0)
          simp [FOps.log, XR.log, hS0, this, FOps.mul, XR.mul, FOps.add, XR.add]
      simp [this, FOps.div, XR.div, hpos.le, FOps.exp, XR.exp]
  | some x =>
    simp only [hu, util]
    cases hb : t.bottom i with
    | true =>
      simp only [if_true]
      rw [XR.div_fin _ _ hq0, XR.exp_fin]
    | false =>
      simp only [Bool.false_eq_true, if_false]
      by_cases hS0 : S = 0
      · have : FOps.add (XR.fin x) (FOps.mul (XR.fin (θ i)) (FOps.log (XR.fin S))) = XR.ninf := by
          simp [FOps.log, XR.log, hS0, FOps.mul, XR.mul, XR.mulNinf, hθ, hθ.ne', FOps.add, XR.add]
        rw [this]
        have h2 : FOps.exp (FOps.div XR.ninf (XR.fin q)) = XR.fin 0 := by
          simp [FOps.div, XR.div, hpos.le, FOps.exp, XR.exp]
        rw [h2, hS0, Real.zero_rpow (div_pos hθ hpos).ne', mul_zero]
      · have hSp : 0 < S := lt_of_le_of_ne hS (Ne.symm hS0)
        have hl : FOps.log (XR.fin S) = XR.fin (Real.log S) := by simp [FOps.log, XR.log, hS0, hSp]
        rw [hl, XR.mul_fin, XR.add_fin, XR.div_fin _ _ hq0, XR.exp_fin]
        congr 1
        rw [Real.rpow_def_of_pos hSp, ← Real.exp_add]
        congr 1
        field_simp

/-- All logsum terms are non-negative reals. -/
theorem term_real (h : t.WF) (hs : t.HasScales θ) (scaleU : Bool) (u : Nat → Util) :
    ∀ i < t.n, ∃ x : ℝ, term t scaleU (fun i => util (u i)) i = .fin x ∧ 0 ≤ x := by
  have key : ∀ d i, i < t.n → t.maxLevel - t.level i = d →
      ∃ x : ℝ, term t scaleU (fun i => util (u i)) i = .fin x ∧ 0 ≤ x := by
    intro d
    induction d using Nat.strong_induction_on with
    | _ d ih =>
      intro i hi hd
      have hch : ∀ j ∈ t.children i, ∃ x : ℝ, term t scaleU (fun i => util (u i)) j = .fin x ∧ 0 ≤ x := by
        intro j hj
        have hj' := (Flat.mem_children.mp hj).1
        have h1 := t.level_le_max j hj'
        have h2 := h.level_child hj
        exact ih (t.maxLevel - t.level j) (by omega) j hj' rfl
      have hsum : childSum t scaleU (fun i => util (u i)) i =
          .fin (((t.children i).map fun j => realOf (term t scaleU (fun i => util (u i)) j)).sum) := by
        unfold childSum
        rw [← XR.sumF_fin, List.map_map]
        congr 1
        apply List.map_congr_left
        intro j hj
        obtain ⟨x, hx, _⟩ := hch j hj
        simp [hx, realOf]
      have hS : 0 ≤ ((t.children i).map fun j => realOf (term t scaleU (fun i => util (u i)) j)).sum := by
        apply List.sum_nonneg
        intro x hx
        obtain ⟨j, hj, rfl⟩ := List.mem_map.mp hx
        obtain ⟨x, hx, h0⟩ := hch j hj
        rw [hx]; exact h0
      rw [term_eq h _ _ _ hi, hsum, termOf_exact h hs scaleU u i hi _ hS]
      refine ⟨_, rfl, ?_⟩
      cases u i with
      | none => exact le_refl _
      | some x =>
        simp only
        split
        · exact (Real.exp_pos _).le
        · exact mul_nonneg (Real.exp_pos _).le (Real.rpow_nonneg hS _)
  intro i hi
  exact key _ i hi rfl

/-- the real logsum terms -/
noncomputable def termR (t : Flat XR) (scaleU : Bool) (u : Nat → Util) (i : Nat) : ℝ :=
  realOf (term t scaleU (fun i => util (u i)) i)

theorem term_fin (h : t.WF) (hs : t.HasScales θ) (scaleU : Bool) (u : Nat → Util) (i : Nat) (hi : i < t.n) :
    term t scaleU (fun i => util (u i)) i = .fin (termR t scaleU u i) ∧ 0 ≤ termR t scaleU u i := by
  obtain ⟨x, hx, h0⟩ := term_real h hs scaleU u i hi
  simp [termR, hx, realOf, h0]

theorem childSum_fin (h : t.WF) (hs : t.HasScales θ) (scaleU : Bool) (u : Nat → Util) (j : Nat) :
    childSum t scaleU (fun i => util (u i)) j = .fin (∑ i ∈ (t.spec θ).children j, termR t scaleU u i) ∧
      0 ≤ ∑ i ∈ (t.spec θ).children j, termR t scaleU u i := by
  constructor
  · rw [← spec_children h, ← XR.sumF_fin, List.map_map]
    unfold childSum
    congr 1
    apply List.map_congr_left
    intro i hi
    exact (term_fin h hs scaleU u i (Flat.mem_children.mp hi).1).1
  · apply Finset.sum_nonneg
    intro i hi
    have := (Finset.mem_filter.mp hi).1
    exact (term_fin h hs scaleU u i (Finset.mem_range.mp this)).2

theorem topSum_fin (h : t.WF) (hs : t.HasScales θ) (scaleU : Bool) (u : Nat → Util) :
    topSum t scaleU (fun i => util (u i)) = .fin (∑ i ∈ (t.spec θ).tops, termR t scaleU u i) ∧
      0 ≤ ∑ i ∈ (t.spec θ).tops, termR t scaleU u i := by
  constructor
  · rw [← spec_tops, ← XR.sumF_fin, List.map_map]
    unfold topSum
    congr 1
    apply List.map_congr_left
    intro i hi
    exact (term_fin h hs scaleU u i (Flat.mem_tops.mp hi).1).1
  · apply Finset.sum_nonneg
    intro i hi
    have := (Finset.mem_filter.mp hi).1
    exact (term_fin h hs scaleU u i (Finset.mem_range.mp this)).2

/-- conditional probability as a real -/
noncomputable def condR (t : Flat XR) (θ : Nat → ℝ) (scaleU : Bool) (u : Nat → Util) (i : Nat) : ℝ :=
  match (t.spec θ).parent i with
  | none => termR t scaleU u i / ∑ j ∈ (t.spec θ).tops, termR t scaleU u j
  | some p => termR t scaleU u i / ∑ j ∈ (t.spec θ).children p, termR t scaleU u j

theorem condP_fin (h : t.WF) (hs : t.HasScales θ) (scaleU : Bool) (u : Nat → Util) (i : Nat) (hi : i < t.n) :
    condP t scaleU (fun i => util (u i)) i = .fin (condR t θ scaleU u i) := by
  have aux : ∀ S : ℝ, 0 ≤ S → (if FOps.le (XR.fin S) (FOps.zero : XR) then (FOps.zero : XR) else
      FOps.div (term t scaleU (fun i => util (u i)) i) (.fin S)) = .fin (termR t scaleU u i / S) := by
    intro S hS
    by_cases h0 : S = 0
    · subst h0; simp
    · have hp : 0 < S := lt_of_le_of_ne hS (Ne.symm h0)
      have : FOps.le (XR.fin S) (FOps.zero : XR) = false := by simp [hp]
      rw [this, (term_fin h hs scaleU u i hi).1, XR.div_fin _ _ h0]
      simp
  unfold condP condR
  rcases h.node i hi with ⟨h1, _⟩ | ⟨p, hpn, h1, _⟩
  · rw [(spec_parent_none i).mpr h1]
    obtain ⟨e, h0⟩ := topSum_fin h hs scaleU u
    simp only [h1, if_true, e]
    exact aux _ h0
  · rw [(spec_parent_some h i p hi).mpr h1]
    have hne : t.parent i ≠ -1 := by omega
    have htn : (t.parent i).toNat = p := by omega
    obtain ⟨e, h0⟩ := childSum_fin h hs scaleU u p
    simp only [hne, if_false, htn, e]
    exact aux _ h0

/-- absolute probability as a real -/
noncomputable def absR (t : Flat XR) (_θ : Nat → ℝ) (scaleU : Bool) (u : Nat → Util) (i : Nat) : ℝ :=
  realOf (absP t (condP t scaleU (fun i => util (u i))) i)

theorem absP_fin (h : t.WF) (hs : t.HasScales θ) (scaleU : Bool) (u : Nat → Util) :
    ∀ i < t.n, absP t (condP t scaleU (fun i => util (u i))) i = .fin (absR t θ scaleU u i) ∧
      (∀ (_ : t.parent i = -1), absR t θ scaleU u i = condR t θ scaleU u i) ∧
      (∀ p : Nat, t.parent i = (p : Int) → absR t θ scaleU u i = condR t θ scaleU u i * absR t θ scaleU u p) := by
  have key : ∀ d i, i < t.n → t.level i = d →
      absP t (condP t scaleU (fun i => util (u i))) i = .fin (absR t θ scaleU u i) := by
    intro d
    induction d with
    | zero =>
      intro i hi hd
      rcases h.node i hi with ⟨h1, _⟩ | ⟨p, _, _, h2⟩
      · unfold absR
        rw [(absP_eq h _ i hi).1 h1, condP_fin h hs scaleU u i hi]; rfl
      · omega
    | succ d ih =>
      intro i hi hd
      rcases h.node i hi with ⟨h1, h2⟩ | ⟨p, hpn, h1, h2⟩
      · omega
      · unfold absR
        rw [(absP_eq h _ i hi).2 p h1, condP_fin h hs scaleU u i hi, ih p hpn (by omega), XR.mul_fin]; rfl
  intro i hi
  refine ⟨key _ i hi rfl, ?_, ?_⟩
  · intro h1
    unfold absR
    rw [(absP_eq h _ i hi).1 h1, condP_fin h hs scaleU u i hi]; rfl
  · intro p h1
    have hpn : p < t.n := h.child_lt (Flat.mem_children.mpr ⟨hi, h1⟩)
    conv_lhs => unfold absR
    rw [(absP_eq h _ i hi).2 p h1, condP_fin h hs scaleU u i hi, key _ p hpn rfl, XR.mul_fin]; rfl

/-- the computed terms and probabilities satisfy the specification -/
theorem isNestedLogit (h : t.WF) (hs : t.HasScales θ) (scaleU : Bool) (u : Nat → Util) :
    (t.spec θ).IsNestedLogit scaleU u (termR t scaleU u) (absR t θ scaleU u) := by
  have hterm : ∀ i < t.n, termR t scaleU u i = match u i with
      | none => 0
      | some x => if t.bottom i then Real.exp (x / (t.spec θ).θp scaleU i)
          else Real.exp (x / (t.spec θ).θp scaleU i) *
            (∑ j ∈ (t.spec θ).children i, termR t scaleU u j) ^ (θ i / (t.spec θ).θp scaleU i) := by
    intro i hi
    obtain ⟨e, h0⟩ := childSum_fin h hs scaleU u i
    conv_lhs => unfold termR
    rw [term_eq h _ _ _ hi, e, termOf_exact h hs scaleU u i hi _ h0]
    rfl
  refine ⟨?_, ?_, ?_, ?_⟩
  · intro i hi hl
    have := (spec_leaf h i hi).mp hl
    rw [hterm i hi]
    cases u i <;> simp [this]
  · intro i hi hl
    have : ¬ t.bottom i = true := fun hb => hl ((spec_leaf h i hi).mpr hb)
    rw [hterm i hi]
    cases u i <;> simp [this, Flat.spec]
  · intro i hi hp
    have hp' := (spec_parent_none i).mp hp
    rw [(absP_fin h hs scaleU u i hi).2.1 hp']
    unfold condR
    rw [hp]
  · intro i hi p hp
    have hp' := (spec_parent_some h i p hi).mp hp
    rw [(absP_fin h hs scaleU u i hi).2.2 p hp']
    unfold condR
    rw [hp]

/-- exact closed form of `nested` -/
theorem nested_exact (h : t.WF) (hs : t.HasScales θ) (scaleU check : Bool) (u : Nat → Util) :
    nested (arr t.n fun i => util (u i)) t scaleU check =
      if (∑ i ∈ (t.spec θ).tops, termR t scaleU u i) ≤ 0 ∧ check = true then .error .utilityBounds
      else .ok (arr t.n (fun i => if t.bottom i then .fin (absR t θ scaleU u i) else .fin 0),
        .fin (∑ i ∈ (t.spec θ).tops, termR t scaleU u i), arr t.n (fun i => .fin (termR t scaleU u i))) := by
  rw [nested_eq h]
  have hu : ∀ i < t.n, (arr t.n fun i => util (u i)).getD i zero = util (u i) := by
    intro i hi
    simp [arr, hi]
  -- the closed form only reads positions below n
  have hterm : ∀ i < t.n, term t scaleU (fun i => (arr t.n fun i => util (u i)).getD i zero) i =
      term t scaleU (fun i => util (u i)) i := by
    have key : ∀ d i, i < t.n → t.maxLevel - t.level i = d →
        term t scaleU (fun i => (arr t.n fun i => util (u i)).getD i zero) i = term t scaleU (fun i => util (u i)) i := by
      intro d
      induction d using Nat.strong_induction_on with
      | _ d ih =>
        intro i hi hd
        rw [term_eq h _ _ _ hi, term_eq h _ _ _ hi]
        unfold termOf
        have : childSum t scaleU (fun i => (arr t.n fun i => util (u i)).getD i zero) i =
            childSum t scaleU (fun i => util (u i)) i := by
          unfold childSum
          congr 1
          apply List.map_congr_left
          intro j hj
          have hj' := (Flat.mem_children.mp hj).1
          have h1 := t.level_le_max j hj'
          have h2 := h.level_child hj
          exact ih (t.maxLevel - t.level j) (by omega) j hj' rfl
        simp only [this, hu i hi]
    intro i hi
    exact key _ i hi rfl
  have htop : topSum t scaleU (fun i => (arr t.n fun i => util (u i)).getD i zero) =
      topSum t scaleU (fun i => util (u i)) := by
    unfold topSum
    congr 1
    exact List.map_congr_left fun i hi => hterm i (Flat.mem_tops.mp hi).1
  have hcs : ∀ j, childSum t scaleU (fun i => (arr t.n fun i => util (u i)).getD i zero) j =
      childSum t scaleU (fun i => util (u i)) j := by
    intro j
    unfold childSum
    congr 1
    exact List.map_congr_left fun i hi => hterm i (Flat.mem_children.mp hi).1
  have hcond : ∀ i < t.n, condP t scaleU (fun i => (arr t.n fun i => util (u i)).getD i zero) i =
      condP t scaleU (fun i => util (u i)) i := by
    intro i hi
    unfold condP
    rw [htop, hcs, hterm i hi]
  have habs : ∀ i < t.n, absP t (condP t scaleU (fun i => (arr t.n fun i => util (u i)).getD i zero)) i =
      absP t (condP t scaleU (fun i => util (u i))) i := by
    have key : ∀ d i, i < t.n → t.level i = d →
        absP t (condP t scaleU (fun i => (arr t.n fun i => util (u i)).getD i zero)) i =
        absP t (condP t scaleU (fun i => util (u i))) i := by
      intro d
      induction d with
      | zero =>
        intro i hi hd
        rcases h.node i hi with ⟨h1, _⟩ | ⟨p, _, _, h2⟩
        · rw [(absP_eq h _ i hi).1 h1, (absP_eq h _ i hi).1 h1, hcond i hi]
        · omega
      | succ d ih =>
        intro i hi hd
        rcases h.node i hi with ⟨h1, h2⟩ | ⟨p, hpn, h1, h2⟩
        · omega
        · rw [(absP_eq h _ i hi).2 p h1, (absP_eq h _ i hi).2 p h1, hcond i hi, ih p hpn (by omega)]
    intro i hi
    exact key _ i hi rfl
  obtain ⟨e, h0⟩ := topSum_fin h hs scaleU u
  simp only [htop, e]
  have hcnd : ((FOps.le (XR.fin (∑ i ∈ (t.spec θ).tops, termR t scaleU u i)) (FOps.zero : XR) && check) = true) =
      ((∑ i ∈ (t.spec θ).tops, termR t scaleU u i) ≤ 0 ∧ check = true) := by
    simp
  simp only [hcnd]
  congr 1
  have e1 : arr t.n (term t scaleU fun i => (arr t.n fun i => util (u i)).getD i zero) =
      arr t.n (fun i => XR.fin (termR t scaleU u i)) := by
    unfold arr
    apply List.map_congr_left
    intro i hi
    have hi := List.mem_range.mp hi
    rw [← (term_fin h hs scaleU u i hi).1]
    exact hterm i hi
  rw [e1]
  congr 2
  unfold arr
  apply List.map_congr_left
  intro i hi
  have hi := List.mem_range.mp hi
  have hb : (∃ j < t.n, t.parent j = (i : Int)) ↔ ¬ t.bottom i = true := by
    rw [h.bottom i hi]; push Not; rfl
  by_cases hbi : t.bottom i = true
  · rw [if_neg (by rw [hb]; simpa using hbi), if_pos hbi, ← (absP_fin h hs scaleU u i hi).1]
    exact habs i hi
  · rw [if_pos (by rw [hb]; simpa using hbi), if_neg hbi]; rfl

end Cheval
