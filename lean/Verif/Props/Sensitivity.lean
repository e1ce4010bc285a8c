import Verif.Props.NestedAccuracy

/-!
# C74: how much the probabilities depend on the utilities
-/
namespace Cheval
open B64 Spec

/-- two utilities at most `δ` apart: both `-inf`, or both finite and at most `δ` apart -/
def Spec.Near (δ : ℝ) : Util → Util → Prop
  | none, none => True
  | some x, some y => |x - y| ≤ δ
  | _, _ => False

section tree
variable {F : Type} [FOps F] {t : Flat F} {θ : Nat → ℝ} {scaled : Bool} {σ : ℝ}

private def shape {F : Type} (t : Flat F) : Flat XR := ⟨t.n, t.parent, t.level, fun _ => .fin 0, t.bottom⟩

private theorem shape_wf (h : t.WF) : (shape t).WF := ⟨h.pos, h.node, h.bottom⟩

private theorem sum_children (h : t.WF) (i : Nat) (T : Nat → ℝ) : ∑ j ∈ (t.tree θ).children i, T j = ((t.children i).map T).sum :=
  (spec_children (t := shape t) (θ := θ) (shape_wf h) i T).symm

private theorem sum_tops (T : Nat → ℝ) : ∑ j ∈ (t.tree θ).tops, T j = (t.tops.map T).sum := (spec_tops (t := shape t) (θ := θ) T).symm

private theorem leaf_iff (h : t.WF) {i : Nat} (hi : i < t.n) : (t.tree θ).Leaf i ↔ t.bottom i = true := spec_leaf (t := shape t) (θ := θ) (shape_wf h) i hi

private theorem θp_kid {i c : Nat} (hc : c ∈ t.children i) : (t.tree θ).θp scaled c = if scaled then θ i else 1 := by
  obtain ⟨-, hp⟩ := Flat.mem_children.mp hc
  unfold Tree.θp Flat.tree
  have hne : ¬ t.parent c = -1 := by omega
  have htn : (t.parent c).toNat = i := by omega
  simp [hne, htn]

private theorem θp_pos (h : t.WF) (hθ : ∀ i < t.n, 0 < θ i ∧ θ i ≤ 1) {i : Nat} (hi : i < t.n) :
    0 < (t.tree θ).θp scaled i ∧ (t.tree θ).θp scaled i ≤ 1 := by
  unfold Tree.θp Flat.tree
  rcases h.node i hi with ⟨h1, _⟩ | ⟨p, hp, h1, _⟩
  · simp [h1]
  · have hne : ¬ t.parent i = -1 := by omega
    have htn : (t.parent i).toNat = p := by omega
    cases scaled
    · simp [hne]
    · simp [hne, htn, hθ p hp]

/-- the logsum terms of two nested logit models whose utilities are at most `δ` apart -/
theorem terms_near (h : t.WF) (hθ : ∀ i < t.n, 0 < θ i ∧ θ i ≤ 1) {u u' : Nat → Util} {δ : ℝ} (hδ : 0 ≤ δ) (hn : ∀ i < t.n, Near δ (u i) (u' i))
    {T P T' P' : Nat → ℝ} (hs : (t.tree θ).IsNestedLogit scaled u T P) (hs' : (t.tree θ).IsNestedLogit scaled u' T' P') (i : Nat) (hi : i < t.n) :
    LogClose ((t.maxLevel + 1 - t.level i : ℕ) * δ / (t.tree θ).θp scaled i) (T i) (T' i) := by
  have key : ∀ k i, i < t.n → t.maxLevel - t.level i = k →
      LogClose ((t.maxLevel + 1 - t.level i : ℕ) * δ / (t.tree θ).θp scaled i) (T i) (T' i) := by
    intro k
    induction k using Nat.strong_induction_on with
    | _ k ih =>
      intro i hi hk
      have hlev := t.level_le_max i hi
      obtain ⟨hq0, hq1⟩ := θp_pos (scaled := scaled) h hθ hi
      have hni := hn i hi
      set q := (t.tree θ).θp scaled i with hqdef
      set H : ℕ := t.maxLevel + 1 - t.level i with hH
      have hH1 : 1 ≤ H ∧ ((H - 1 : ℕ) : ℝ) + 1 = H := by
        have : 1 ≤ H := by omega
        refine ⟨this, ?_⟩
        have : H - 1 + 1 = H := by omega
        exact_mod_cast this
      have hHδ : ((H - 1 : ℕ) : ℝ) * δ + δ = H * δ := by rw [← hH1.2]; ring
      have hH0 : 0 ≤ ((H - 1 : ℕ) : ℝ) * δ := mul_nonneg (Nat.cast_nonneg _) hδ
      by_cases hb : t.bottom i = true
      · have h1 := hs.leaf i hi ((leaf_iff h hi).mpr hb)
        have h2 := hs'.leaf i hi ((leaf_iff h hi).mpr hb)
        cases hu : u i with
        | none =>
          cases hu' : u' i with
          | none => rw [hu] at h1; rw [hu'] at h2; exact .inl ⟨h1, h2⟩
          | some y => rw [hu, hu'] at hni; exact hni.elim
        | some x =>
          cases hu' : u' i with
          | none => rw [hu, hu'] at hni; exact hni.elim
          | some y =>
            rw [hu, hu'] at hni
            rw [hu] at h1; rw [hu'] at h2
            simp only at h1 h2
            right
            rw [h1, h2]
            refine ⟨Real.exp_pos _, Real.exp_pos _, ?_⟩
            rw [Real.log_exp, Real.log_exp, ← sub_div, abs_div, abs_of_pos hq0]
            refine div_le_div_of_nonneg_right ?_ hq0.le
            rw [abs_sub_comm]
            have hni : |x - y| ≤ δ := hni
            linarith
      · have hnl : ¬ (t.tree θ).Leaf i := fun hc => hb ((leaf_iff h hi).mp hc)
        have h1 := hs.nest i hi hnl
        have h2 := hs'.nest i hi hnl
        cases hu : u i with
        | none =>
          cases hu' : u' i with
          | none => rw [hu] at h1; rw [hu'] at h2; exact .inl ⟨h1, h2⟩
          | some y => rw [hu, hu'] at hni; exact hni.elim
        | some x =>
          cases hu' : u' i with
          | none => rw [hu, hu'] at hni; exact hni.elim
          | some y =>
            rw [hu, hu'] at hni
            have hni : |x - y| ≤ δ := hni
            rw [hu] at h1; rw [hu'] at h2
            simp only at h1 h2
            rw [sum_children h] at h1 h2
            have hchne : t.children i ≠ [] := by
              intro e
              apply hb
              rw [h.bottom i hi]
              intro j hj hp
              have : j ∈ t.children i := Flat.mem_children.mpr ⟨hj, hp⟩
              rw [e] at this; simp at this
            obtain ⟨hθ0, hθ1⟩ := hθ i hi
            set θc : ℝ := if scaled then θ i else 1 with hθc
            have hθc0 : 0 < θc := by rw [hθc]; split_ifs <;> linarith
            have hθle : θ i ≤ θc := by rw [hθc]; split_ifs <;> linarith
            have hch : ∀ c ∈ t.children i, LogClose ((H - 1 : ℕ) * δ / θc) (T c) (T' c) := by
              intro c hc
              obtain ⟨hcn, -⟩ := Flat.mem_children.mp hc
              have hl := h.level_child hc
              have hlc := t.level_le_max c hcn
              have := ih (t.maxLevel - t.level c) (by omega) c hcn rfl
              rw [θp_kid hc] at this
              have e : t.maxLevel + 1 - t.level c = H - 1 := by omega
              rwa [e] at this
            have hpw : (t.tree θ).θ i / q = θ i / q := rfl
            rcases LogClose.sum _ T T' _ hch with ⟨e1, e2⟩ | ⟨e1, e2, e3⟩
            · left
              have hz : (0 : ℝ) ^ ((t.tree θ).θ i / (t.tree θ).θp scaled i) = 0 := Real.zero_rpow (div_pos hθ0 hq0).ne'
              rw [h1, h2, e1, e2, hz, mul_zero, mul_zero]
              exact ⟨rfl, rfl⟩
            · right
              rw [h1, h2]
              have p1 := Real.rpow_pos_of_pos e1 ((t.tree θ).θ i / q)
              have p2 := Real.rpow_pos_of_pos e2 ((t.tree θ).θ i / q)
              refine ⟨mul_pos (Real.exp_pos _) p1, mul_pos (Real.exp_pos _) p2, ?_⟩
              rw [Real.log_mul (Real.exp_pos _).ne' p1.ne', Real.log_mul (Real.exp_pos _).ne' p2.ne', Real.log_exp, Real.log_exp,
                Real.log_rpow e1, Real.log_rpow e2, hpw]
              have e : y / q + θ i / q * Real.log (List.map T' (t.children i)).sum - (x / q + θ i / q * Real.log (List.map T (t.children i)).sum) =
                  ((y - x) + θ i * (Real.log (List.map T' (t.children i)).sum - Real.log (List.map T (t.children i)).sum)) / q := by ring
              rw [e, abs_div, abs_of_pos hq0]
              refine div_le_div_of_nonneg_right ?_ hq0.le
              refine (abs_add_le _ _).trans ?_
              rw [abs_mul, abs_of_pos hθ0, abs_sub_comm y x]
              have k1 := mul_le_mul_of_nonneg_left e3 hθ0.le
              have k2 : θ i * ((H - 1 : ℕ) * δ / θc) ≤ (H - 1 : ℕ) * δ := by
                rw [mul_div_assoc', div_le_iff₀ hθc0, mul_comm]
                exact mul_le_mul_of_nonneg_left hθle hH0
              linarith
  exact key _ i hi rfl

/-- shares of terms that are close on the logarithmic scale -/
theorem share_near (l : List Nat) (T T' : Nat → ℝ) (Δ : ℝ) (hΔ0 : 0 ≤ Δ) (hΔ : 2 * Δ ≤ 1 / 2) (hc : ∀ i ∈ l, LogClose Δ (T i) (T' i)) (i : Nat) (hi : i ∈ l) :
    0 ≤ T i / (l.map T).sum ∧ T i / (l.map T).sum ≤ 1 ∧ 0 ≤ T' i / (l.map T').sum ∧ T' i / (l.map T').sum ≤ 1 ∧
    |T' i / (l.map T').sum - T i / (l.map T).sum| ≤ 4 * Δ := by
  have hT0 : ∀ j ∈ l, 0 ≤ T j := fun j hj => (hc j hj).bounds.2.2.2
  have hT0' : ∀ j ∈ l, 0 ≤ T' j := fun j hj => (hc j hj).bounds.2.2.1
  have hle : ∀ f : Nat → ℝ, (∀ j ∈ l, 0 ≤ f j) → f i ≤ (l.map f).sum := fun f hf => List.single_le_sum (by
    intro x hx; obtain ⟨j, hj, rfl⟩ := List.mem_map.mp hx; exact hf j hj) _ (List.mem_map_of_mem hi)
  have h1 := hle T hT0
  have h2 := hle T' hT0'
  have hG := (hT0 i hi).trans h1
  have hG' := (hT0' i hi).trans h2
  refine ⟨div_nonneg (hT0 i hi) hG, div_le_one_of_le₀ h1 hG, div_nonneg (hT0' i hi) hG', div_le_one_of_le₀ h2 hG', ?_⟩
  rcases LogClose.sum l T T' Δ hc with ⟨e1, e2⟩ | ⟨e1, e2, e3⟩
  · rw [e1, e2, div_zero, div_zero, sub_zero, abs_zero]
    linarith
  · rcases hc i hi with ⟨z1, z2⟩ | ⟨p1, p2, p3⟩
    · rw [z1, z2, zero_div, zero_div, sub_zero, abs_zero]
      linarith [(abs_nonneg _).trans e3]
    · have hlog : |Real.log (T' i / (l.map T').sum) - Real.log (T i / (l.map T).sum)| ≤ 2 * Δ := by
        rw [Real.log_div p2.ne' e2.ne', Real.log_div p1.ne' e1.ne']
        have e : Real.log (T' i) - Real.log (l.map T').sum - (Real.log (T i) - Real.log (l.map T).sum)
          = (Real.log (T' i) - Real.log (T i)) - (Real.log (l.map T').sum - Real.log (l.map T).sum) := by ring
        rw [e]
        refine (abs_sub _ _).trans ?_
        linarith
      have := near_of_log (div_pos p1 e1) (div_le_one_of_le₀ h1 hG) (div_pos p2 e2) hΔ hlog
      linarith

/-- **C74 (sensitivity)** Nested logit probabilities depend smoothly on the utilities: in a tree of `d` levels, with scales in `(0, 1]` of which
those applied to utilities are at least `σ`, changing every utility by at most `δ` (`4 d δ <= σ`; unavailable choices stay so) changes the
probability of every choice and nest by at most `4 d² δ / σ`. -/
theorem C74_sensitivity (h : t.WF) (hθ : ∀ i < t.n, 0 < θ i ∧ θ i ≤ 1) (hσ : 0 < σ) (ha : ∀ i < t.n, σ ≤ (t.tree θ).θp scaled i)
    {u u' : Nat → Util} {δ : ℝ} (hδ : 0 ≤ δ) (hsm : 4 * (t.maxLevel + 1) * δ ≤ σ) (hn : ∀ i < t.n, Near δ (u i) (u' i))
    {T P T' P' : Nat → ℝ} (hs : (t.tree θ).IsNestedLogit scaled u T P) (hs' : (t.tree θ).IsNestedLogit scaled u' T' P') (i : Nat) (hi : i < t.n) :
    LogClose ((t.maxLevel + 1) * δ / σ) (T i) (T' i) ∧ |P' i - P i| ≤ 4 * (t.maxLevel + 1) ^ 2 * δ / σ := by
  have hd0 : (0 : ℝ) ≤ t.maxLevel := Nat.cast_nonneg _
  set Δ : ℝ := (t.maxLevel + 1) * δ / σ with hΔ
  have hΔ0 : 0 ≤ Δ := div_nonneg (mul_nonneg (by linarith) hδ) hσ.le
  have hΔ4 : 2 * Δ ≤ 1 / 2 := by
    rw [hΔ, mul_div_assoc', div_le_iff₀ hσ]; linarith
  have hclose : ∀ i < t.n, LogClose Δ (T i) (T' i) := by
    intro i hi
    refine (terms_near h hθ hδ hn hs hs' i hi).mono ?_
    obtain ⟨hq0, -⟩ := θp_pos (scaled := scaled) h hθ hi
    have h1 : ((t.maxLevel + 1 - t.level i : ℕ) : ℝ) ≤ t.maxLevel + 1 := by
      have : t.maxLevel + 1 - t.level i ≤ t.maxLevel + 1 := Nat.sub_le _ _
      exact_mod_cast this
    exact div_le_div₀ (mul_nonneg (by linarith) hδ) (mul_le_mul_of_nonneg_right h1 hδ) hσ (ha i hi)
  set C : (Nat → ℝ) → Nat → ℝ := fun T i => if t.parent i = -1 then T i / (t.tops.map T).sum else T i / ((t.children (t.parent i).toNat).map T).sum with hC
  have hcu : ∀ i < t.n, 0 ≤ C T i ∧ C T i ≤ 1 ∧ 0 ≤ C T' i ∧ C T' i ≤ 1 ∧ |C T' i - C T i| ≤ 4 * Δ := by
    intro i hi
    rcases h.node i hi with ⟨h1, _⟩ | ⟨p, hp, h1, _⟩
    · have := share_near t.tops T T' Δ hΔ0 hΔ4 (fun j hj => hclose j (Flat.mem_tops.mp hj).1) i (Flat.mem_tops.mpr ⟨hi, h1⟩)
      simpa only [hC, h1, if_true] using this
    · have hne : ¬ t.parent i = -1 := by omega
      have htn : (t.parent i).toNat = p := by omega
      have := share_near (t.children p) T T' Δ hΔ0 hΔ4 (fun j hj => hclose j (Flat.mem_children.mp hj).1) i (Flat.mem_children.mpr ⟨hi, h1⟩)
      simpa only [hC, hne, if_false, htn] using this
  have hP : ∀ {u T P}, (t.tree θ).IsNestedLogit scaled u T P → ∀ i < t.n, (t.parent i = -1 → P i = C T i) ∧
      ∀ p : Nat, t.parent i = (p : Int) → P i = C T i * P p := by
    intro u T P hs i hi
    refine ⟨fun h1 => ?_, fun p h1 => ?_⟩
    · rw [hs.top i hi (by simp [Flat.tree, h1]), sum_tops]
      simp only [hC, h1, if_true]
    · have hne : ¬ t.parent i = -1 := by omega
      have htn : (t.parent i).toNat = p := by omega
      rw [hs.child i hi p (by simp [Flat.tree, hne, htn]), sum_children h]
      simp only [hC, hne, if_false, htn]
  have key : ∀ d i, i < t.n → t.level i = d → 0 ≤ P i ∧ P i ≤ 1 ∧ 0 ≤ P' i ∧ P' i ≤ 1 ∧ |P' i - P i| ≤ (d + 1) * (4 * Δ) := by
    intro d
    induction d with
    | zero =>
      intro i hi hd
      rcases h.node i hi with ⟨h1, _⟩ | ⟨p, _, _, h2⟩
      · rw [(hP hs i hi).1 h1, (hP hs' i hi).1 h1]
        obtain ⟨q1, q2, q3, q4, q5⟩ := hcu i hi
        exact ⟨q1, q2, q3, q4, by push_cast; linarith⟩
      · omega
    | succ d ih =>
      intro i hi hd
      rcases h.node i hi with ⟨_, h2⟩ | ⟨p, hp, h1, h2⟩
      · omega
      · obtain ⟨hp1, hp2, hp3, hp4, hp5⟩ := ih p hp (by omega)
        obtain ⟨q1, q2, q3, q4, q5⟩ := hcu i hi
        rw [(hP hs i hi).2 p h1, (hP hs' i hi).2 p h1]
        refine ⟨mul_nonneg q1 hp1, mul_le_one₀ q2 hp1 hp2, mul_nonneg q3 hp3, mul_le_one₀ q4 hp3 hp4, ?_⟩
        have e : C T' i * P' p - C T i * P p = C T' i * (P' p - P p) + (C T' i - C T i) * P p := by ring
        rw [e]
        refine (abs_add_le _ _).trans ?_
        rw [abs_mul, abs_mul, abs_of_nonneg q3, abs_of_nonneg hp1]
        have k1 : C T' i * |P' p - P p| ≤ 1 * ((d + 1) * (4 * Δ)) := mul_le_mul q4 hp5 (abs_nonneg _) zero_le_one
        have k2 : |C T' i - C T i| * P p ≤ 4 * Δ * 1 := mul_le_mul q5 hp2 hp1 (by linarith)
        push_cast
        linarith
  refine ⟨hclose i hi, ?_⟩
  obtain ⟨-, -, -, -, k⟩ := key _ i hi rfl
  refine k.trans ?_
  have hlv : ((t.level i : ℕ) : ℝ) ≤ t.maxLevel := by exact_mod_cast t.level_le_max i hi
  calc ((t.level i : ℕ) + 1 : ℝ) * (4 * Δ) ≤ (t.maxLevel + 1) * (4 * Δ) := mul_le_mul_of_nonneg_right (by linarith) (by linarith)
    _ = _ := by rw [hΔ]; ring

end tree

/-- **C74 (sensitivity without nests)** Changing every utility of a multinomial logit by at most `δ <= 1/4` changes every probability by at
most `4 δ`. -/
theorem C74_sensitivity_flat {n : Nat} {u u' : Nat → Util} {δ : ℝ} (hδ : 0 ≤ δ) (hsm : δ ≤ 1 / 4) (hn : ∀ i < n, Near δ (u i) (u' i)) (i : Nat) (hi : i < n) :
    |expw (u' i) / ∑ k ∈ Finset.range n, expw (u' k) - expw (u i) / ∑ k ∈ Finset.range n, expw (u k)| ≤ 4 * δ := by
  have hc : ∀ j ∈ List.range n, LogClose δ (expw (u j)) (expw (u' j)) := by
    intro j hj
    have h1 := hn j (List.mem_range.mp hj)
    cases hu : u j with
    | none =>
      cases hu' : u' j with
      | none => exact .inl ⟨rfl, rfl⟩
      | some y => rw [hu, hu'] at h1; exact h1.elim
    | some x =>
      cases hu' : u' j with
      | none => rw [hu, hu'] at h1; exact h1.elim
      | some y =>
        rw [hu, hu'] at h1
        have h1 : |x - y| ≤ δ := h1
        refine .inr ⟨Real.exp_pos _, Real.exp_pos _, ?_⟩
        show |Real.log (Real.exp y) - Real.log (Real.exp x)| ≤ δ
        rw [Real.log_exp, Real.log_exp, abs_sub_comm]
        exact h1
  have hsum : ∀ f : Nat → ℝ, ((List.range n).map f).sum = ∑ k ∈ Finset.range n, f k := by
    intro f
    rw [Finset.sum_range, ← List.sum_ofFn]
    congr 1
    apply List.ext_getElem <;> simp
  have := (share_near (List.range n) (fun j => expw (u j)) (fun j => expw (u' j)) δ hδ (by linarith) hc i (List.mem_range.mpr hi)).2.2.2.2
  rwa [hsum, hsum] at this

end Cheval
