import Verif.Core.NestedSpecLemmas

/-! Helper lemmas for the nested logit laws of C80 (no property statements here). -/
set_option linter.unusedSectionVars false
namespace Cheval
open FOps Spec

variable {t : Flat XR} {θ : Nat → ℝ}

theorem above_up {t : Tree} {i j p : Nat} (hp : t.parent j = some p) (h : t.Above j i) : t.Above p i := by
  induction h with
  | self => exact .child j p hp .self
  | child a b hab _ ih => exact .child a b hab ih

namespace NL
variable {scaled : Bool} {u u' : Nat → Util} {T P T' P' : Nat → ℝ}

theorem above_level (m : NL t θ scaled u T P) {d i : Nat} (h : (t.spec θ).Above d i) (hi : i < t.n) :
    d < t.n ∧ t.level d ≤ t.level i := by
  induction h with
  | self => exact ⟨hi, le_refl _⟩
  | child a b hab _ ih =>
    obtain ⟨h1, h2⟩ := m.parent_lt hi hab
    obtain ⟨h3, h4⟩ := ih h1
    exact ⟨h3, by omega⟩

/-- two nodes above the same one, on the same level, are equal -/
theorem above_unique (m : NL t θ scaled u T P) {a b i : Nat} (ha : (t.spec θ).Above a i) (hb : (t.spec θ).Above b i) (hi : i < t.n)
    (hl : t.level a = t.level b) : a = b := by
  induction ha with
  | self =>
    cases hb with
    | self => rfl
    | child _ p hp h =>
      have h1 := m.parent_lt hi hp
      have h2 := m.above_level h h1.1
      omega
  | child c p hp h ih =>
    obtain ⟨h1, h2⟩ := m.parent_lt hi hp
    have h3 := m.above_level h h1
    cases hb with
    | self => omega
    | child _ q hq h' =>
      rw [hp] at hq
      cases hq
      exact ih h' h1

/-- the level of a top node is 0 -/
theorem top_level (m : NL t θ scaled u T P) {i : Nat} (hi : i < t.n) (hp : (t.spec θ).parent i = none) : t.level i = 0 := by
  rcases m.wf.node i hi with ⟨_, h2⟩ | ⟨p, hpn, h1, _⟩
  · exact h2
  · rw [(spec_parent_some m.wf i p hi).mpr h1] at hp; cases hp

/-- the term of an available nest -/
theorem nest_term (m : NL t θ scaled u T P) {i : Nat} (hi : i < t.n) (hl : ¬ (t.spec θ).Leaf i) {x : ℝ} (hx : u i = some x) :
    T i = Real.exp (x / (t.spec θ).θp scaled i) *
      (∑ j ∈ (t.spec θ).children i, T j) ^ ((t.spec θ).θ i / (t.spec θ).θp scaled i) := by
  rw [m.is.nest i hi hl, hx]

theorem none_term (m : NL t θ scaled u T P) {i : Nat} (hi : i < t.n) (hx : u i = none) : T i = 0 := by
  by_contra hne
  exact ((m.term_pos_iff i hi).mp (lt_of_le_of_ne (m.nonneg i hi) (Ne.symm hne))).1 hx

theorem mem_childSum (m : NL t θ scaled u T P) {i p : Nat} (hi : i < t.n) (hp : (t.spec θ).parent i = some p) :
    T i ≤ ∑ j ∈ (t.spec θ).children p, T j :=
  Finset.single_le_sum (f := T) (fun k hk => m.nonneg k (m.mem_children.mp hk).1) (m.mem_children.mpr ⟨hi, hp⟩)

theorem mem_topSum (m : NL t θ scaled u T P) {i : Nat} (hi : i < t.n) (hp : (t.spec θ).parent i = none) :
    T i ≤ ∑ j ∈ (t.spec θ).tops, T j :=
  Finset.single_le_sum (f := T) (fun k hk => m.nonneg k (m.mem_tops.mp hk).1) (m.mem_tops.mpr ⟨hi, hp⟩)

/-! raising the utility of node `d` -/

/-- `u'` is `u` with the utility of `d` raised to `y` -/
structure Raised (n : Nat) (u u' : Nat → Util) (d : Nat) (y : ℝ) : Prop where
  same : ∀ i < n, i ≠ d → u' i = u i
  at_d : u' d = some y
  le : ∀ x, u d = some x → x ≤ y

variable {d : Nat} {y : ℝ}

theorem raise_T (m : NL t θ scaled u T P) (m' : NL t θ scaled u' T' P') (hr : Raised t.n u u' d y) :
    ∀ i < t.n, T i ≤ T' i ∧ (¬ (t.spec θ).Above i d → T' i = T i) := by
  apply m.up_induction
  intro i hi ih
  have hsum : ∑ j ∈ (t.spec θ).children i, T j ≤ ∑ j ∈ (t.spec θ).children i, T' j :=
    Finset.sum_le_sum fun j hj => (ih j (m.mem_children.mp hj).1 (m.mem_children.mp hj).2).1
  refine ⟨?_, fun hna => ?_⟩
  · -- monotone
    have hθ := m.θp_pos i hi
    have hu : ∀ x, u i = some x → ∃ x', u' i = some x' ∧ x ≤ x' := by
      intro x hx
      by_cases h : i = d
      · subst h; exact ⟨y, hr.at_d, hr.le x hx⟩
      · exact ⟨x, by rw [hr.same i hi h]; exact hx, le_refl _⟩
    cases hx : u i with
    | none => rw [m.none_term hi hx]; exact m'.nonneg i hi
    | some x =>
      obtain ⟨x', hx', hle⟩ := hu x hx
      have he : Real.exp (x / (t.spec θ).θp scaled i) ≤ Real.exp (x' / (t.spec θ).θp scaled i) :=
        Real.exp_le_exp.mpr ((div_le_div_iff_of_pos_right hθ).mpr hle)
      by_cases hl : (t.spec θ).Leaf i
      · rw [m.is.leaf i hi hl, m'.is.leaf i hi hl, hx, hx']; exact he
      · rw [m.nest_term hi hl hx, m'.nest_term hi hl hx']
        exact mul_le_mul he (Real.rpow_le_rpow (m.childSum_nonneg i) hsum (div_pos (m.hs i hi).2 hθ).le)
          (Real.rpow_nonneg (m.childSum_nonneg i) _) (Real.exp_pos _).le
  · have hid : i ≠ d := fun h => hna (h ▸ .self)
    have hch : ∑ j ∈ (t.spec θ).children i, T' j = ∑ j ∈ (t.spec θ).children i, T j :=
      Finset.sum_congr rfl fun j hj => (ih j (m.mem_children.mp hj).1 (m.mem_children.mp hj).2).2 fun h =>
        hna (above_up (m.mem_children.mp hj).2 h)
    by_cases hl : (t.spec θ).Leaf i
    · rw [m.is.leaf i hi hl, m'.is.leaf i hi hl, hr.same i hi hid]
    · rw [m.is.nest i hi hl, m'.is.nest i hi hl, hr.same i hi hid, hch]

theorem raise_childSum (m : NL t θ scaled u T P) (m' : NL t θ scaled u' T' P') (hr : Raised t.n u u' d y) (i : Nat) :
    ∑ j ∈ (t.spec θ).children i, T j ≤ ∑ j ∈ (t.spec θ).children i, T' j :=
  Finset.sum_le_sum fun j hj => (m.raise_T m' hr j (m.mem_children.mp hj).1).1

theorem raise_topSum (m : NL t θ scaled u T P) (m' : NL t θ scaled u' T' P') (hr : Raised t.n u u' d y) :
    ∑ j ∈ (t.spec θ).tops, T j ≤ ∑ j ∈ (t.spec θ).tops, T' j :=
  Finset.sum_le_sum fun j hj => (m.raise_T m' hr j (m.mem_tops.mp hj).1).1

theorem raise_childSum_eq (m : NL t θ scaled u T P) (m' : NL t θ scaled u' T' P') (hr : Raised t.n u u' d y) (i : Nat)
    (h : ∀ j < t.n, (t.spec θ).parent j = some i → ¬ (t.spec θ).Above j d) :
    ∑ j ∈ (t.spec θ).children i, T' j = ∑ j ∈ (t.spec θ).children i, T j :=
  Finset.sum_congr rfl fun j hj => (m.raise_T m' hr j (m.mem_children.mp hj).1).2 (h j (m.mem_children.mp hj).1 (m.mem_children.mp hj).2)

/-- the share of one term in a sum grows with it -/
theorem share_mono {a b R : ℝ} (ha : 0 ≤ a) (hab : a ≤ b) (hR : 0 ≤ R) : a / (a + R) ≤ b / (b + R) := by
  rcases eq_or_lt_of_le ha with h | h
  · rw [← h, zero_div]; exact div_nonneg (ha.trans hab) (add_nonneg (ha.trans hab) hR)
  · rw [div_le_div_iff₀ (by linarith) (by linarith)]
    nlinarith

/-- own probability -/
theorem raise_own (m : NL t θ scaled u T P) (m' : NL t θ scaled u' T' P') (hr : Raised t.n u u' d y) (hd : d < t.n) :
    ∀ i < t.n, (t.spec θ).Above i d ∨ (t.spec θ).Above d i → P i ≤ P' i := by
  have hanc : ∀ i < t.n, (t.spec θ).Above i d → P i ≤ P' i := by
    apply m.down_induction
    · intro i hi hp ha
      rw [m.is.top i hi hp, m'.is.top i hi hp]
      have hmem := m.mem_tops.mpr ⟨hi, hp⟩
      rw [← Finset.add_sum_erase _ _ hmem, ← Finset.add_sum_erase (a := i) _ T' hmem]
      have : ∑ x ∈ (t.spec θ).tops.erase i, T' x = ∑ x ∈ (t.spec θ).tops.erase i, T x := by
        refine Finset.sum_congr rfl fun j hj => ?_
        obtain ⟨hne, hj⟩ := Finset.mem_erase.mp hj
        obtain ⟨hj1, hj2⟩ := m.mem_tops.mp hj
        refine (m.raise_T m' hr j hj1).2 fun h => hne (m.above_unique h ha hd ?_)
        rw [m.top_level hj1 hj2, m.top_level hi hp]
      rw [this]
      exact share_mono (m.nonneg i hi) (m.raise_T m' hr i hi).1
        (Finset.sum_nonneg fun j hj => m.nonneg j (m.mem_tops.mp (Finset.mem_erase.mp hj).2).1)
    · intro i hi p hpn hp ih ha
      rw [m.is.child i hi p hp, m'.is.child i hi p hp]
      have hmem := m.mem_children.mpr ⟨hi, hp⟩
      rw [← Finset.add_sum_erase _ _ hmem, ← Finset.add_sum_erase (a := i) _ T' hmem]
      have : ∑ x ∈ ((t.spec θ).children p).erase i, T' x = ∑ x ∈ ((t.spec θ).children p).erase i, T x := by
        refine Finset.sum_congr rfl fun j hj => ?_
        obtain ⟨hne, hj⟩ := Finset.mem_erase.mp hj
        obtain ⟨hj1, hj2⟩ := m.mem_children.mp hj
        refine (m.raise_T m' hr j hj1).2 fun h => hne (m.above_unique h ha hd ?_)
        rw [(m.parent_lt hj1 hj2).2, (m.parent_lt hi hp).2]
      rw [this]
      have hR : 0 ≤ ∑ x ∈ ((t.spec θ).children p).erase i, T x :=
        Finset.sum_nonneg fun j hj => m.nonneg j (m.mem_children.mp (Finset.mem_erase.mp hj).2).1
      exact mul_le_mul (share_mono (m.nonneg i hi) (m.raise_T m' hr i hi).1 hR) (ih (above_up hp ha)) (m.P_nonneg p hpn)
        (div_nonneg (m'.nonneg i hi) (add_nonneg (m'.nonneg i hi) hR))
  intro i hi h
  rcases h with h | h
  · exact hanc i hi h
  · induction h with
    | self => exact hanc d hd .self
    | child a b hab hb ih =>
      obtain ⟨hbn, hbl⟩ := m.parent_lt hi hab
      have hdl := m.above_level hb hbn
      rw [m.is.child a hi b hab, m'.is.child a hi b hab]
      have hna : ∀ j < t.n, (t.spec θ).parent j = some b → ¬ (t.spec θ).Above j d := by
        intro j hj hjp h
        have h1 := m.above_level h hd
        have h2 := m.parent_lt hj hjp
        omega
      rw [m.raise_childSum_eq m' hr b hna, (m.raise_T m' hr a hi).2 (hna a hi hab)]
      exact mul_le_mul_of_nonneg_left (ih hbn) (div_nonneg (m.nonneg a hi) (m.childSum_nonneg b))

/-- `P a / S a` falls for the nests above `d` -/
theorem raise_ratio (m : NL t θ scaled u T P) (m' : NL t θ scaled u' T' P') (hr : Raised t.n u u' d y)
    (hexp : ∀ a < t.n, (t.spec θ).Above a d → a ≠ d → (t.spec θ).θ a ≤ (t.spec θ).θp scaled a) :
    ∀ a < t.n, ¬ (t.spec θ).Leaf a → (t.spec θ).Above a d → a ≠ d → 0 < ∑ j ∈ (t.spec θ).children a, T j →
      P' a / ∑ j ∈ (t.spec θ).children a, T' j ≤ P a / ∑ j ∈ (t.spec θ).children a, T j := by
  -- the ratio of the own term to the own sum
  have hstep : ∀ a < t.n, ¬ (t.spec θ).Leaf a → (t.spec θ).Above a d → a ≠ d → 0 < ∑ j ∈ (t.spec θ).children a, T j →
      T' a / ∑ j ∈ (t.spec θ).children a, T' j ≤ T a / ∑ j ∈ (t.spec θ).children a, T j := by
    intro a ha hl hab hne hS
    have hS' : 0 < ∑ j ∈ (t.spec θ).children a, T' j := hS.trans_le (m.raise_childSum m' hr a)
    cases hx : u a with
    | none =>
      have hx' : u' a = none := by rw [hr.same a ha hne]; exact hx
      rw [m.none_term ha hx, m'.none_term ha hx', zero_div, zero_div]
    | some x =>
      have hx' : u' a = some x := by rw [hr.same a ha hne]; exact hx
      rw [m.nest_term ha hl hx, m'.nest_term ha hl hx', mul_div_assoc, mul_div_assoc]
      refine mul_le_mul_of_nonneg_left ?_ (Real.exp_pos _).le
      rw [← Real.rpow_sub_one hS.ne', ← Real.rpow_sub_one hS'.ne']
      refine Real.rpow_le_rpow_of_nonpos hS (m.raise_childSum m' hr a) ?_
      have := (div_le_one (m.θp_pos a ha)).mpr (hexp a ha hab hne)
      linarith
  apply m.down_induction
  · intro a ha hp hl hab hne hS
    rw [m.is.top a ha hp, m'.is.top a ha hp, div_right_comm, div_right_comm (T a)]
    by_cases h0 : T a = 0
    · have hu : u a = none := by
        by_contra hne'
        have hpos : 0 < T a := by
          obtain ⟨x, hx⟩ := Option.ne_none_iff_exists'.mp hne'
          rw [m.nest_term ha hl hx]
          exact mul_pos (Real.exp_pos _) (Real.rpow_pos_of_pos hS _)
        exact hpos.ne' h0
      have hu' : u' a = none := by rw [hr.same a ha hne]; exact hu
      rw [h0, m'.none_term ha hu']; simp
    · have hpos : 0 < T a := lt_of_le_of_ne (m.nonneg a ha) (Ne.symm h0)
      have h1 : 0 < ∑ j ∈ (t.spec θ).tops, T j := hpos.trans_le (m.mem_topSum ha hp)
      exact div_le_div₀ (div_nonneg hpos.le hS.le) (hstep a ha hl hab hne hS) h1 (m.raise_topSum m' hr)
  · intro a ha p hpn hp ih hl hab hne hS
    rw [m.is.child a ha p hp, m'.is.child a ha p hp]
    have e : ∀ A B C D : ℝ, A / B * C / D = A / D * (C / B) := by intro A B C D; ring
    rw [e, e]
    by_cases h0 : T a = 0
    · have hu : u a = none := by
        by_contra hne'
        have hpos : 0 < T a := by
          obtain ⟨x, hx⟩ := Option.ne_none_iff_exists'.mp hne'
          rw [m.nest_term ha hl hx]
          exact mul_pos (Real.exp_pos _) (Real.rpow_pos_of_pos hS _)
        exact hpos.ne' h0
      have hu' : u' a = none := by rw [hr.same a ha hne]; exact hu
      rw [h0, m'.none_term ha hu']; simp
    · have hpos : 0 < T a := lt_of_le_of_ne (m.nonneg a ha) (Ne.symm h0)
      have h1 : 0 < ∑ j ∈ (t.spec θ).children p, T j := hpos.trans_le (m.mem_childSum ha hp)
      have hpd : p ≠ d := by
        rintro rfl
        obtain ⟨_, h2⟩ := m.parent_lt ha hp
        have h3 : ∀ x, (t.spec θ).Above a x → x < t.n → t.level a ≤ t.level x := fun x hx hx' => (m.above_level hx hx').2
        have := h3 p hab hpn
        omega
      exact mul_le_mul (hstep a ha hl hab hne hS) (ih (m.not_leaf_of_child ha hp) (above_up hp hab) hpd h1)
        (div_nonneg (m'.P_nonneg p hpn) (m'.childSum_nonneg p)) (div_nonneg (m.nonneg a ha) hS.le)

/-- the other probabilities -/
theorem raise_cross (m : NL t θ scaled u T P) (m' : NL t θ scaled u' T' P') (hr : Raised t.n u u' d y)
    (hexp : ∀ a < t.n, (t.spec θ).Above a d → a ≠ d → (t.spec θ).θ a ≤ (t.spec θ).θp scaled a) :
    ∀ i < t.n, ¬ (t.spec θ).Above i d → ¬ (t.spec θ).Above d i → P' i ≤ P i := by
  apply m.down_induction
  · intro i hi hp hna _
    rw [m.is.top i hi hp, m'.is.top i hi hp, (m.raise_T m' hr i hi).2 hna]
    by_cases h0 : T i = 0
    · simp [h0]
    · have hpos : 0 < T i := lt_of_le_of_ne (m.nonneg i hi) (Ne.symm h0)
      exact div_le_div_of_nonneg_left hpos.le (hpos.trans_le (m.mem_topSum hi hp)) (m.raise_topSum m' hr)
  · intro i hi p hpn hp ih hna hnd
    rw [m.is.child i hi p hp, m'.is.child i hi p hp, (m.raise_T m' hr i hi).2 hna]
    have hndp : ¬ (t.spec θ).Above d p := fun h => hnd (.child i p hp h)
    by_cases hpa : (t.spec θ).Above p d
    · have hpd : p ≠ d := fun h => hndp (h ▸ .self)
      by_cases h0 : T i = 0
      · simp [h0]
      · have hpos : 0 < T i := lt_of_le_of_ne (m.nonneg i hi) (Ne.symm h0)
        have h1 : 0 < ∑ j ∈ (t.spec θ).children p, T j := hpos.trans_le (m.mem_childSum hi hp)
        have e : ∀ A B C : ℝ, A / B * C = A * (C / B) := by intro A B C; ring
        rw [e, e]
        exact mul_le_mul_of_nonneg_left (m.raise_ratio m' hr hexp p hpn (m.not_leaf_of_child hi hp) hpa hpd h1) hpos.le
    · rw [m.raise_childSum_eq m' hr p fun j hj hjp h => hpa (above_up hjp h)]
      exact mul_le_mul_of_nonneg_left (ih hpa hndp) (div_nonneg (m.nonneg i hi) (m.childSum_nonneg p))

end NL
end Cheval
