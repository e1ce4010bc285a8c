import Verif.Core.NestedExact
import Mathlib.Algebra.BigOperators.Field

/-! Helper lemmas about the textbook nested logit on well-formed tables (no property statements here). -/
set_option linter.unusedSectionVars false
namespace Cheval
open FOps Spec

variable {t : Flat XR} {θ : Nat → ℝ}

/-- The specification has at most one solution on a well-formed tree. -/
theorem IsNestedLogit_unique (h : t.WF) (scaled : Bool) (u : Nat → Util) {T P T' P' : Nat → ℝ}
    (s : (t.spec θ).IsNestedLogit scaled u T P) (s' : (t.spec θ).IsNestedLogit scaled u T' P') :
    ∀ i < t.n, T i = T' i ∧ P i = P' i := by
  have hT : ∀ d i, i < t.n → t.maxLevel - t.level i = d → T i = T' i := by
    intro d
    induction d using Nat.strong_induction_on with
    | _ d ih =>
      intro i hi hd
      by_cases hl : (t.spec θ).Leaf i
      · rw [s.leaf i hi hl, s'.leaf i hi hl]
      · rw [s.nest i hi hl, s'.nest i hi hl]
        have : ∑ j ∈ (t.spec θ).children i, T j = ∑ j ∈ (t.spec θ).children i, T' j := by
          apply Finset.sum_congr rfl
          intro j hj
          have hj1 := (spec_mem_children h j i).mp hj
          have hj' := (Flat.mem_children.mp hj1).1
          have h1 := t.level_le_max j hj'
          have h2 := h.level_child hj1
          exact ih (t.maxLevel - t.level j) (by omega) j hj' rfl
        rw [this]
  have hP : ∀ d i, i < t.n → t.level i = d → P i = P' i := by
    intro d
    induction d with
    | zero =>
      intro i hi hd
      rcases h.node i hi with ⟨h1, _⟩ | ⟨p, _, _, h2⟩
      · have h1' := (spec_parent_none (θ := θ) i).mpr h1
        rw [s.top i hi h1', s'.top i hi h1', hT _ i hi rfl]
        congr 1
        apply Finset.sum_congr rfl
        intro j hj
        exact hT _ j (Finset.mem_range.mp (Finset.mem_filter.mp hj).1) rfl
      · omega
    | succ d ih =>
      intro i hi hd
      rcases h.node i hi with ⟨h1, h2⟩ | ⟨p, hpn, h1, h2⟩
      · omega
      · have h1' := (spec_parent_some (θ := θ) h i p hi).mpr h1
        rw [s.child i hi p h1', s'.child i hi p h1', hT _ i hi rfl, ih p hpn (by omega)]
        congr 2
        apply Finset.sum_congr rfl
        intro j hj
        exact hT _ j (Finset.mem_range.mp (Finset.mem_filter.mp hj).1) rfl
  exact fun i hi => ⟨hT _ i hi rfl, hP _ i hi rfl⟩

/-- The facts about a nested logit model that the property proofs use. -/
structure NL (t : Flat XR) (θ : Nat → ℝ) (scaled : Bool) (u : Nat → Util) (T P : Nat → ℝ) : Prop where
  wf : t.WF
  hs : t.HasScales θ
  is : (t.spec θ).IsNestedLogit scaled u T P
  nonneg : ∀ i < t.n, 0 ≤ T i

theorem nl_of (h : t.WF) (hs : t.HasScales θ) (scaled : Bool) (u : Nat → Util) :
    NL t θ scaled u (termR t scaled u) (absR t θ scaled u) :=
  ⟨h, hs, isNestedLogit h hs scaled u, fun i hi => (term_fin h hs scaled u i hi).2⟩

namespace NL
variable {scaled : Bool} {u : Nat → Util} {T P : Nat → ℝ}

theorem mem_children (_m : NL t θ scaled u T P) {i j : Nat} :
    i ∈ (t.spec θ).children j ↔ i < t.n ∧ (t.spec θ).parent i = some j := by
  simp [Tree.children, Flat.spec]

theorem mem_tops (_m : NL t θ scaled u T P) {i : Nat} :
    i ∈ (t.spec θ).tops ↔ i < t.n ∧ (t.spec θ).parent i = none := by
  simp [Tree.tops, Flat.spec]

theorem parent_lt (m : NL t θ scaled u T P) {i p : Nat} (hi : i < t.n) (hp : (t.spec θ).parent i = some p) :
    p < t.n ∧ t.level i = t.level p + 1 := by
  have := (spec_parent_some m.wf i p hi).mp hp
  exact ⟨m.wf.child_lt (Flat.mem_children.mpr ⟨hi, this⟩), m.wf.level_child (Flat.mem_children.mpr ⟨hi, this⟩)⟩

/-- induction from the leaves upwards -/
theorem up_induction (m : NL t θ scaled u T P) (Q : Nat → Prop)
    (hstep : ∀ i < t.n, (∀ j < t.n, (t.spec θ).parent j = some i → Q j) → Q i) : ∀ i < t.n, Q i := by
  have key : ∀ d i, i < t.n → t.maxLevel - t.level i = d → Q i := by
    intro d
    induction d using Nat.strong_induction_on with
    | _ d ih =>
      intro i hi hd
      apply hstep i hi
      intro j hj hp
      have h2 := (m.parent_lt hj hp).2
      have h1 := t.level_le_max j hj
      exact ih (t.maxLevel - t.level j) (by omega) j hj rfl
  exact fun i hi => key _ i hi rfl

/-- induction from the top downwards -/
theorem down_induction (m : NL t θ scaled u T P) (Q : Nat → Prop)
    (htop : ∀ i < t.n, (t.spec θ).parent i = none → Q i)
    (hstep : ∀ i < t.n, ∀ p < t.n, (t.spec θ).parent i = some p → Q p → Q i) : ∀ i < t.n, Q i := by
  have key : ∀ d i, i < t.n → t.level i = d → Q i := by
    intro d
    induction d using Nat.strong_induction_on with
    | _ d ih =>
      intro i hi hd
      cases hp : (t.spec θ).parent i with
      | none => exact htop i hi hp
      | some p =>
        obtain ⟨hpn, hl⟩ := m.parent_lt hi hp
        exact hstep i hi p hpn hp (ih (t.level p) (by omega) p hpn rfl)
  exact fun i hi => key _ i hi rfl

theorem childSum_nonneg (m : NL t θ scaled u T P) (j : Nat) : 0 ≤ ∑ i ∈ (t.spec θ).children j, T i :=
  Finset.sum_nonneg fun i hi => m.nonneg i (m.mem_children.mp hi).1

theorem topSum_nonneg (m : NL t θ scaled u T P) : 0 ≤ ∑ i ∈ (t.spec θ).tops, T i :=
  Finset.sum_nonneg fun i hi => m.nonneg i (m.mem_tops.mp hi).1

theorem θp_pos (m : NL t θ scaled u T P) (i : Nat) (hi : i < t.n) : 0 < (t.spec θ).θp scaled i :=
  (parentScale_eq m.wf m.hs scaled i hi).2

/-- a term is positive iff the utility is finite and, for a nest, some child's term is positive -/
theorem term_pos_iff (m : NL t θ scaled u T P) (i : Nat) (hi : i < t.n) :
    0 < T i ↔ u i ≠ none ∧ ((t.spec θ).Leaf i ∨ ∃ j < t.n, (t.spec θ).parent j = some i ∧ 0 < T j) := by
  by_cases hl : (t.spec θ).Leaf i
  · rw [m.is.leaf i hi hl]
    cases hu : u i with
    | none => simp
    | some x => simp [hl, Real.exp_pos]
  · rw [m.is.nest i hi hl]
    cases hu : u i with
    | none => simp
    | some x =>
      simp only [hl, false_or, ne_eq, reduceCtorEq, not_false_eq_true, true_and]
      have hS := m.childSum_nonneg i
      constructor
      · intro hpos
        by_contra hno
        push Not at hno
        have : ∑ j ∈ (t.spec θ).children i, T j = 0 := by
          apply Finset.sum_eq_zero
          intro j hj
          obtain ⟨hj1, hj2⟩ := m.mem_children.mp hj
          exact le_antisymm (hno j hj1 hj2) (m.nonneg j hj1)
        have hz : (0 : ℝ) ^ ((t.spec θ).θ i / (t.spec θ).θp scaled i) = 0 :=
          Real.zero_rpow (div_pos (m.hs i hi).2 (m.θp_pos i hi)).ne'
        rw [this, hz, mul_zero] at hpos
        exact lt_irrefl _ hpos
      · rintro ⟨j, hj, hp, hTj⟩
        have : 0 < ∑ j ∈ (t.spec θ).children i, T j :=
          Finset.sum_pos' (fun k hk => m.nonneg k (m.mem_children.mp hk).1) ⟨j, m.mem_children.mpr ⟨hj, hp⟩, hTj⟩
        exact mul_pos (Real.exp_pos _) (Real.rpow_pos_of_pos this _)

theorem not_leaf_of_child (m : NL t θ scaled u T P) {i p : Nat} (hi : i < t.n) (hp : (t.spec θ).parent i = some p) :
    ¬ (t.spec θ).Leaf p := by
  intro hl
  have := m.mem_children.mpr ⟨hi, hp⟩
  rw [hl] at this
  simp at this

theorem P_nonneg (m : NL t θ scaled u T P) : ∀ i < t.n, 0 ≤ P i := by
  apply m.down_induction
  · intro i hi hp
    rw [m.is.top i hi hp]
    exact div_nonneg (m.nonneg i hi) m.topSum_nonneg
  · intro i hi p hpn hp ih
    rw [m.is.child i hi p hp]
    exact mul_nonneg (div_nonneg (m.nonneg i hi) (m.childSum_nonneg p)) ih

/-- a term of 0 gives probability 0 -/
theorem P_zero_of_T (m : NL t θ scaled u T P) (i : Nat) (hi : i < t.n) (h0 : T i = 0) : P i = 0 := by
  cases hp : (t.spec θ).parent i with
  | none => rw [m.is.top i hi hp, h0, zero_div]
  | some p => rw [m.is.child i hi p hp, h0, zero_div, zero_mul]

/-- the probability of a nest is distributed over its children -/
theorem P_children (m : NL t θ scaled u T P) (j : Nat) (hj : j < t.n) (hl : ¬ (t.spec θ).Leaf j) :
    ∑ i ∈ (t.spec θ).children j, P i = P j := by
  have e : ∑ i ∈ (t.spec θ).children j, P i =
      ∑ i ∈ (t.spec θ).children j, T i / (∑ k ∈ (t.spec θ).children j, T k) * P j := by
    apply Finset.sum_congr rfl
    intro i hi
    obtain ⟨h1, h2⟩ := m.mem_children.mp hi
    exact m.is.child i h1 j h2
  rw [e, ← Finset.sum_mul, ← Finset.sum_div]
  by_cases h0 : ∑ k ∈ (t.spec θ).children j, T k = 0
  · have : T j = 0 := by
      by_contra hne
      have hpos : 0 < T j := lt_of_le_of_ne (m.nonneg j hj) (Ne.symm hne)
      obtain ⟨_, h2 | ⟨k, hk, hp, hTk⟩⟩ := (m.term_pos_iff j hj).mp hpos
      · exact hl h2
      · have := (Finset.sum_eq_zero_iff_of_nonneg
          (fun k hk => m.nonneg k (m.mem_children.mp hk).1)).mp h0 k (m.mem_children.mpr ⟨hk, hp⟩)
        linarith
    rw [m.P_zero_of_T j hj this, mul_zero]
  · rw [div_self h0, one_mul]

theorem P_tops (m : NL t θ scaled u T P) (h0 : 0 < ∑ i ∈ (t.spec θ).tops, T i) :
    ∑ i ∈ (t.spec θ).tops, P i = 1 := by
  have e : ∑ i ∈ (t.spec θ).tops, P i = ∑ i ∈ (t.spec θ).tops, T i / (∑ k ∈ (t.spec θ).tops, T k) := by
    apply Finset.sum_congr rfl
    intro i hi
    obtain ⟨h1, h2⟩ := m.mem_tops.mp hi
    exact m.is.top i h1 h2
  rw [e, ← Finset.sum_div, div_self h0.ne']

open Classical in
/-- leaf values of any function conserved by nests sum to the top total -/
theorem leaf_sum (m : NL t θ scaled u T P) (f : Nat → ℝ)
    (hf : ∀ j < t.n, ¬ (t.spec θ).Leaf j → ∑ i ∈ (t.spec θ).children j, f i = f j) :
    ∑ i ∈ (Finset.range t.n).filter (fun i => (t.spec θ).Leaf i), f i = ∑ i ∈ (t.spec θ).tops, f i := by
  have hall : ∑ i ∈ Finset.range t.n, f i =
      ∑ i ∈ (t.spec θ).tops, f i + ∑ j ∈ Finset.range t.n, ∑ i ∈ (t.spec θ).children j, f i := by
    have h1 : ∑ i ∈ Finset.range t.n, f i =
        ∑ i ∈ (t.spec θ).tops, f i + ∑ i ∈ (Finset.range t.n).filter (fun i => ¬ (t.spec θ).parent i = none), f i := by
      rw [← Finset.sum_filter_add_sum_filter_not (Finset.range t.n) (fun i => (t.spec θ).parent i = none)]
      rfl
    rw [h1]
    congr 1
    have h2 : ∀ i ∈ (Finset.range t.n).filter (fun i => ¬ (t.spec θ).parent i = none),
        ((t.spec θ).parent i).getD 0 ∈ Finset.range t.n := by
      intro i hi
      obtain ⟨hi1, hi2⟩ := Finset.mem_filter.mp hi
      cases hp : (t.spec θ).parent i with
      | none => exact absurd hp hi2
      | some p =>
        simp only [Option.getD_some]
        exact Finset.mem_range.mpr (m.parent_lt (Finset.mem_range.mp hi1) hp).1
    rw [← Finset.sum_fiberwise_of_maps_to h2]
    apply Finset.sum_congr rfl
    intro j _
    apply Finset.sum_congr _ (fun _ _ => rfl)
    ext i
    simp only [Finset.mem_filter, Finset.mem_range]
    rw [m.mem_children]
    constructor
    · rintro ⟨⟨h1, h2⟩, h3⟩
      cases hp : (t.spec θ).parent i with
      | none => exact absurd hp h2
      | some p => rw [hp] at h3; simp at h3; exact ⟨h1, by rw [h3]⟩
    · rintro ⟨h1, h2⟩
      exact ⟨⟨h1, by rw [h2]; simp⟩, by rw [h2]; rfl⟩
  have hsplit := Finset.sum_filter_add_sum_filter_not (Finset.range t.n) (fun i => (t.spec θ).Leaf i) f
  have hnl : ∑ j ∈ Finset.range t.n, ∑ i ∈ (t.spec θ).children j, f i =
      ∑ j ∈ (Finset.range t.n).filter (fun i => ¬ (t.spec θ).Leaf i), f j := by
    rw [Finset.sum_filter]
    apply Finset.sum_congr rfl
    intro j hj
    by_cases hl : (t.spec θ).Leaf j
    · simp only [hl, not_true_eq_false, if_false]
      rw [show (t.spec θ).children j = ∅ from hl, Finset.sum_empty]
    · simp only [hl, not_false_eq_true, if_true]
      exact hf j (Finset.mem_range.mp hj) hl
  rw [hnl, ← hsplit] at hall
  linarith

/-! availability -/

theorem open_pos (m : NL t θ scaled u T P) (i : Nat) (hi : i < t.n) (ho : (t.spec θ).Open u i) (hT : 0 < T i) :
    0 < P i ∧ 0 < ∑ j ∈ (t.spec θ).tops, T j := by
  induction ho with
  | top i hp hu =>
    have hpos : 0 < ∑ j ∈ (t.spec θ).tops, T j :=
      Finset.sum_pos' (fun k hk => m.nonneg k (m.mem_tops.mp hk).1) ⟨i, m.mem_tops.mpr ⟨hi, hp⟩, hT⟩
    exact ⟨by rw [m.is.top i hi hp]; exact div_pos hT hpos, hpos⟩
  | child i p hp hu ho ih =>
    obtain ⟨hpn, _⟩ := m.parent_lt hi hp
    have hup : u p ≠ none := by cases ho <;> assumption
    have hTp : 0 < T p := (m.term_pos_iff p hpn).mpr ⟨hup, Or.inr ⟨i, hi, hp, hT⟩⟩
    obtain ⟨h1, h2⟩ := ih hpn hTp
    have hpos : 0 < ∑ j ∈ (t.spec θ).children p, T j :=
      Finset.sum_pos' (fun k hk => m.nonneg k (m.mem_children.mp hk).1) ⟨i, m.mem_children.mpr ⟨hi, hp⟩, hT⟩
    exact ⟨by rw [m.is.child i hi p hp]; exact mul_pos (div_pos hT hpos) h1, h2⟩

theorem P_zero_of_not_open (m : NL t θ scaled u T P) : ∀ i < t.n, ¬ (t.spec θ).Open u i → P i = 0 := by
  apply m.down_induction
  · intro i hi hp hno
    have : u i = none := by
      by_contra hne; exact hno (.top i hp hne)
    apply m.P_zero_of_T i hi
    by_contra hne
    exact ((m.term_pos_iff i hi).mp (lt_of_le_of_ne (m.nonneg i hi) (Ne.symm hne))).1 this
  · intro i hi p hpn hp ih hno
    by_cases hu : u i = none
    · apply m.P_zero_of_T i hi
      by_contra hne
      exact ((m.term_pos_iff i hi).mp (lt_of_le_of_ne (m.nonneg i hi) (Ne.symm hne))).1 hu
    · rw [m.is.child i hi p hp, ih (fun ho => hno (.child i p hp hu ho)), mul_zero]

/-- a positive term below an open parent leads to an open leaf -/
theorem open_leaf_of_pos (m : NL t θ scaled u T P) : ∀ i < t.n,
    (∀ p, (t.spec θ).parent i = some p → (t.spec θ).Open u p) → 0 < T i →
    ∃ l < t.n, (t.spec θ).Leaf l ∧ (t.spec θ).Open u l ∧ (t.spec θ).Above i l := by
  apply m.up_induction
  intro i hi ih hpar hT
  obtain ⟨hu, hrest⟩ := (m.term_pos_iff i hi).mp hT
  have hoi : (t.spec θ).Open u i := by
    cases hp : (t.spec θ).parent i with
    | none => exact .top i hp hu
    | some p => exact .child i p hp hu (hpar p hp)
  rcases hrest with hl | ⟨j, hj, hp, hTj⟩
  · exact ⟨i, hi, hl, hoi, .self⟩
  · obtain ⟨l, hl1, hl2, hl3, hl4⟩ := ih j hj hp (by
      intro p hp'
      rw [hp] at hp'
      cases hp'
      exact hoi) hTj
    refine ⟨l, hl1, hl2, hl3, ?_⟩
    clear hl1 hl2 hl3
    induction hl4 with
    | self => exact .child j i hp .self
    | child a b hab _ ih => exact .child a b hab ih

theorem feasible_iff (m : NL t θ scaled u T P) :
    0 < ∑ j ∈ (t.spec θ).tops, T j ↔ ∃ l < t.n, (t.spec θ).Leaf l ∧ (t.spec θ).Open u l := by
  constructor
  · intro hpos
    by_contra hno
    have : ∑ j ∈ (t.spec θ).tops, T j = 0 := by
      apply Finset.sum_eq_zero
      intro j hj
      obtain ⟨h1, h2⟩ := m.mem_tops.mp hj
      by_contra hne
      obtain ⟨l, a, b, c, _⟩ := m.open_leaf_of_pos j h1 (by intro p hp; rw [h2] at hp; cases hp)
        (lt_of_le_of_ne (m.nonneg j h1) (Ne.symm hne))
      exact hno ⟨l, a, b, c⟩
    linarith
  · rintro ⟨l, hl, hleaf, ho⟩
    have hu : u l ≠ none := by cases ho <;> assumption
    exact (m.open_pos l hl ho ((m.term_pos_iff l hl).mpr ⟨hu, Or.inl hleaf⟩)).2

theorem leaf_pos_iff (m : NL t θ scaled u T P) (i : Nat) (hi : i < t.n) (hl : (t.spec θ).Leaf i) :
    0 < P i ↔ (t.spec θ).Open u i := by
  constructor
  · intro hp
    by_contra hno
    rw [m.P_zero_of_not_open i hi hno] at hp
    exact lt_irrefl _ hp
  · intro ho
    have hu : u i ≠ none := by cases ho <;> assumption
    exact (m.open_pos i hi ho ((m.term_pos_iff i hi).mpr ⟨hu, Or.inl hl⟩)).1

/-- everything below a node of probability 0 has probability 0 -/
theorem P_zero_below (m : NL t θ scaled u T P) (d : Nat) (h0 : P d = 0) (i : Nat) (hi : i < t.n)
    (ha : (t.spec θ).Above d i) : P i = 0 := by
  induction ha with
  | self => exact h0
  | child i p hp _ ih =>
    obtain ⟨hpn, _⟩ := m.parent_lt hi hp
    rw [m.is.child i hi p hp, ih hpn, mul_zero]

/-- two rows that differ only below a node `d` whose term is 0 in both -/
theorem indep_zero {u' : Nat → Util} {T' P' : Nat → ℝ} (m : NL t θ scaled u T P) (m' : NL t θ scaled u' T' P')
    (d : Nat) (hd : d < t.n) (hsame : ∀ i < t.n, ¬ (t.spec θ).Above d i → u i = u' i)
    (hT : T d = 0) (hT' : T' d = 0) : ∀ i < t.n, P i = P' i := by
  have hTeq : ∀ i < t.n, ¬ (t.spec θ).Above d i → T i = T' i := by
    apply m.up_induction
    intro i hi ih hna
    have hu := hsame i hi hna
    have hch : ∀ j ∈ (t.spec θ).children i, T j = T' j := by
      intro j hj
      obtain ⟨h1, h2⟩ := m.mem_children.mp hj
      by_cases hjd : j = d
      · subst hjd; rw [hT, hT']
      · apply ih j h1 h2
        intro ha
        cases ha with
        | self => exact hjd rfl
        | child _ p hp ha =>
          rw [h2] at hp; cases hp; exact hna ha
    by_cases hl : (t.spec θ).Leaf i
    · rw [m.is.leaf i hi hl, m'.is.leaf i hi hl, hu]
    · rw [m.is.nest i hi hl, m'.is.nest i hi hl, hu, Finset.sum_congr rfl hch]
  have hTd : ∀ j < t.n, (∀ p, (t.spec θ).parent j = some p → ¬ (t.spec θ).Above d p) → T j = T' j := by
    intro j hj hp
    by_cases hjd : j = d
    · subst hjd; rw [hT, hT']
    · apply hTeq j hj
      intro ha
      cases ha with
      | self => exact hjd rfl
      | child _ p hp' ha => exact hp p hp' ha
  have hPd := m.P_zero_of_T d hd hT
  have hPd' := m'.P_zero_of_T d hd hT'
  apply m.down_induction
  · intro i hi hp
    rw [m.is.top i hi hp, m'.is.top i hi hp]
    have hs : ∑ j ∈ (t.spec θ).tops, T j = ∑ j ∈ (t.spec θ).tops, T' j := by
      apply Finset.sum_congr rfl
      intro j hj
      obtain ⟨h1, h2⟩ := m.mem_tops.mp hj
      exact hTd j h1 (by intro p hp; rw [h2] at hp; cases hp)
    rw [hs, hTd i hi (by intro p hp'; rw [hp] at hp'; cases hp')]
  · intro i hi p hpn hp ih
    by_cases ha : (t.spec θ).Above d p
    · rw [m.P_zero_below d hPd i hi (.child i p hp ha), m'.P_zero_below d hPd' i hi (.child i p hp ha)]
    · rw [m.is.child i hi p hp, m'.is.child i hi p hp, ih]
      have hs : ∑ j ∈ (t.spec θ).children p, T j = ∑ j ∈ (t.spec θ).children p, T' j := by
        apply Finset.sum_congr rfl
        intro j hj
        obtain ⟨h1, h2⟩ := m.mem_children.mp hj
        exact hTd j h1 (by intro q hq; rw [h2] at hq; cases hq; exact ha)
      rw [hs, hTd i hi (by intro q hq; rw [hp] at hq; cases hq; exact ha)]

end NL
end Cheval
