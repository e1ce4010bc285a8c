import Verif.Props.NestedAccuracy
import Verif.Props.LargeUtilities
import Verif.Props.Nested

/-!
# C72, C75: nested logit rows that are in range

If the exact logsum terms of the available nodes lie between `exp(-600)` and `exp(600)`, nothing overflows: the logsum is finite, and C60
and C72 apply.
-/
set_option linter.unusedSectionVars false
namespace Cheval
open FOps B64 Spec
variable {R : Rounding}

/-- sums of numbers up to `2^940` are finite -/
theorem sumF_fin (hR : R.rnd = B64.rnd) (ws : List (Rnd R)) (hn : ws.length ≤ 2 ^ 50) (h : ∀ w ∈ ws, w.FinNonneg ∧ w.val ≤ 2 ^ 940) :
    (sumF ws).FinNonneg := by
  have hz : (FOps.zero : Rnd R).val = 0 := rfl
  refine foldl_add_fin_below hR ws FOps.zero ⟨0, rfl, le_refl _⟩ (fun w hw => (h w hw).1) ?_
  have hsum : (ws.map Rnd.val).sum ≤ ws.length * 2 ^ 940 := by
    have : ∀ x ∈ ws.map Rnd.val, x ≤ (2 : ℝ) ^ 940 := by
      intro x hx
      obtain ⟨w, hw, rfl⟩ := List.mem_map.mp hx
      exact (h w hw).2
    have := List.sum_le_card_nsmul _ _ this
    simpa using this
  have hs0 : 0 ≤ (ws.map Rnd.val).sum := List.sum_nonneg (by
    intro x hx
    obtain ⟨w, hw, rfl⟩ := List.mem_map.mp hx
    exact (h w hw).1.nonneg)
  rw [hz, zero_add]
  have hnR : (ws.length : ℝ) ≤ 2 ^ 50 := by exact_mod_cast hn
  have hp : (1 + uro) ^ ws.length ≤ 2 := by
    have h1 := pow_uro_le (n := ws.length) (by omega)
    have h2 : (ws.length : ℝ) / 2 ^ 52 ≤ 1 := by rw [div_le_one (by positivity)]; linarith
    linarith
  have h940 : (0 : ℝ) < 2 ^ 940 := by positivity
  have e : (2 : ℝ) ^ 1000 = 2 ^ 940 * 2 ^ 60 := by rw [← pow_add]
  rw [e]
  generalize (2 : ℝ) ^ 940 = A at *
  calc (1 + uro) ^ ws.length * (ws.map Rnd.val).sum ≤ 2 * (2 ^ 50 * A) := by
        refine mul_le_mul hp (hsum.trans (mul_le_mul_of_nonneg_right hnR h940.le)) hs0 (by norm_num)
    _ = A * 2 ^ 51 := by ring
    _ ≤ A * 2 ^ 60 := mul_le_mul_of_nonneg_left (by norm_num) h940.le

/-- the exponential of a number up to 650, or of `-inf` -/
theorem exp_fin {L T : ℝ} (hE : ExpRange R L 650 T) {a : Rnd R} (h : a.v = .ninf ∨ ∃ x : ℝ, a.v = .fin x ∧ x ≤ 650) :
    (FOps.exp a).FinNonneg ∧ (FOps.exp a).val ≤ 2 ^ 940 := exp_atMost hE h

section tree
variable {t : Flat (Rnd R)} {θ : Nat → ℝ} {scaled : Bool} {us : List (Rnd R)} {u : Nat → Util} {σ : ℝ}

/-- all computed terms are finite -/
theorem terms_in_range {L₀ T₀ : ℝ} (hE : ExpRange R L₀ 650 T₀) (hR : R.rnd = B64.rnd) {ε : ℝ} (hε : 0 ≤ ε) (hε1 : ε ≤ 1 / 1000) (hexp : ExpAcc R ε)
    (hlog : LogAcc R ε) (h : t.WF) (D : NestedData t θ scaled us u σ) (hσ : 0 < σ) (hn : t.n ≤ 2 ^ 48) {T P : Nat → ℝ}
    (hspec : (t.tree θ).IsNestedLogit scaled u T P) {M : ℝ} (hM0 : 0 ≤ M) (hM : M ≤ 600) (hTM : ∀ i < t.n, T i = 0 ∨ |Real.log (T i)| ≤ M)
    (hsmall : (t.maxLevel + 1) * nodeErr t.n M ε ≤ σ / 5) (i : Nat) (hi : i < t.n) :
    (term t scaled (fun i => us.getD i zero) i).FinNonneg ∧ (term t scaled (fun i => us.getD i zero) i).val ≤ 2 ^ 940 := by
  have hu0 := uro_pos
  have hκ0 : 0 ≤ nodeErr t.n M ε := by
    unfold nodeErr
    have : (0 : ℝ) ≤ t.n := Nat.cast_nonneg _
    positivity
  have hσ1 : σ ≤ 1 := by
    obtain ⟨i, hi, hp⟩ := h.exists_top
    exact (D.applied i hi).trans (D.parentScale h hi).2.2
  set uv : Nat → Rnd R := fun i => us.getD i zero with huv
  have key : ∀ k i, i < t.n → t.maxLevel - t.level i = k → (term t scaled uv i).FinNonneg ∧ (term t scaled uv i).val ≤ 2 ^ 940 := by
    intro k
    induction k using Nat.strong_induction_on with
    | _ k ih =>
      intro i hi hk
      have hlev := t.level_le_max i hi
      obtain ⟨hq, hq0, hq1⟩ := D.parentScale h hi
      set q := (t.tree θ).θp scaled i with hqdef
      have hterm := term_eq h scaled uv i hi
      by_cases hb : t.bottom i = true
      · have he : term t scaled uv i = FOps.exp (FOps.div (uv i) (parentScale t scaled i)) := by
          rw [hterm, termOf, if_pos hb]
        rw [he]
        refine exp_fin hE ?_
        have hTi := hspec.leaf i hi ((tree_leaf h hi).mpr hb)
        cases hui : u i with
        | none =>
          left
          have hv : (uv i).v = .ninf := by rw [huv]; simp only; rw [D.util i hi, hui]; rfl
          show R.rndX (XR.div (uv i).v (parentScale t scaled i).v) = _
          rw [hv, hq]
          simp [XR.div, Rounding.rndX, hq0.le]
        | some x =>
          right
          rw [hui] at hTi
          simp only at hTi
          have hpos : 0 < T i := by rw [hTi]; exact Real.exp_pos _
          have hMi := (hTM i hi).resolve_left hpos.ne'
          rw [hTi, Real.log_exp] at hMi
          have hxv : (uv i).v = .fin x := by rw [huv]; simp only; rw [D.util i hi, hui]; rfl
          obtain ⟨v, hv1, hv2⟩ := rnd_bounded hMi (by linarith)
          refine ⟨v, by rw [rndX_div_fin _ _ x q hxv hq hq0.ne', hR]; exact hv1, ?_⟩
          rw [abs_le] at hMi hv2
          have : uro * M ≤ 1 / 100 * 600 := mul_le_mul uro_small hM hM0 (by norm_num)
          have h3 : uro ≤ 1 / 100 := uro_small
          linarith [hMi.2, hv2.2, eta_le_uro]
      · have he : term t scaled uv i = FOps.exp (FOps.div (FOps.add (uv i) (FOps.mul (t.scale i) (FOps.log (childSum t scaled uv i))))
            (parentScale t scaled i)) := by
          rw [hterm, termOf, if_neg hb]
        rw [he]
        refine exp_fin hE ?_
        have hchne : t.children i ≠ [] := by
          intro e
          apply hb
          rw [h.bottom i hi]
          intro j hj hp
          have : j ∈ t.children i := Flat.mem_children.mpr ⟨hj, hp⟩
          rw [e] at this; simp at this
        have hclen : (t.children i).length ≤ t.n := by
          unfold Flat.children
          exact (List.length_filter_le _ _).trans (by simp)
        -- everything below node `i` is finite
        have hbelow : ∀ c < t.n, t.level i + 1 ≤ t.level c → (term t scaled uv c).FinNonneg ∧ (term t scaled uv c).val ≤ 2 ^ 940 := by
          intro c hc hl
          have := t.level_le_max c hc
          exact ih (t.maxLevel - t.level c) (by omega) c hc rfl
        have hcn : ∀ c ∈ t.children i, c < t.n ∧ t.level i + 1 ≤ t.level c := fun c hc =>
          ⟨(Flat.mem_children.mp hc).1, by have := h.level_child hc; omega⟩
        obtain ⟨S', hS', hS'0⟩ : (childSum t scaled uv i).FinNonneg := sumF_fin hR ((t.children i).map (term t scaled uv))
          (by rw [List.length_map]; exact hclen.trans (hn.trans (by norm_num))) (by
            intro w hw
            obtain ⟨c, hc, rfl⟩ := List.mem_map.mp hw
            exact hbelow c (hcn c hc).1 (hcn c hc).2)
        obtain ⟨hscv, hθ0, hθ1⟩ := D.scale i hi
        set θc : ℝ := if scaled then θ i else 1 with hθc
        have hθc0 : 0 < θc := by rw [hθc]; split_ifs <;> linarith
        have hθle : θ i ≤ θc := by rw [hθc]; split_ifs <;> linarith
        have hσc : σ ≤ θc := by
          obtain ⟨c0, hc0⟩ := List.exists_mem_of_ne_nil _ hchne
          have := D.applied c0 (hcn c0 hc0).1
          have e : (t.tree θ).θp scaled c0 = θc := by
            obtain ⟨-, hp⟩ := Flat.mem_children.mp hc0
            unfold Tree.θp Flat.tree
            have hne : ¬ t.parent c0 = -1 := by omega
            have htn : (t.parent c0).toNat = i := by omega
            simp [hne, htn, hθc]
          rwa [e] at this
        set H : ℕ := t.maxLevel - t.level i with hH
        have hch : ∀ c ∈ t.children i, LogClose (H * nodeErr t.n M ε / θc) (T c) (term t scaled uv c).val := by
          intro c hc
          have := terms_close hR hε hε1 hexp hlog h D hσ hn hspec hM0 hM hTM (t.level i + 1) (fun c hc hl => (hbelow c hc hl).1) hsmall c
            (hcn c hc).1 (hcn c hc).2
          have e : (t.tree θ).θp scaled c = θc := by
            obtain ⟨-, hp⟩ := Flat.mem_children.mp hc
            unfold Tree.θp Flat.tree
            have hne : ¬ t.parent c = -1 := by omega
            have htn : (t.parent c).toNat = i := by omega
            simp [hne, htn, hθc]
          rw [e] at this
          have hl := h.level_child hc
          have e2 : t.maxLevel + 1 - t.level c = H := by omega
          rwa [e2] at this
        have hHκ : (H : ℝ) * nodeErr t.n M ε + nodeErr t.n M ε ≤ σ / 5 := by
          refine le_trans ?_ hsmall
          have : (H : ℝ) ≤ t.maxLevel := by
            have : H ≤ t.maxLevel := by omega
            exact_mod_cast this
          nlinarith
        set δ : ℝ := H * nodeErr t.n M ε / θc with hδ
        have hgl := group_log hR (t.children i) hchne t.n hclen (term t scaled uv) T δ
          (fun c hc => (hbelow c (hcn c hc).1 (hcn c hc).2).1) hch S' hS'
        have hT0 : ∀ c ∈ t.children i, 0 ≤ T c := fun c hc => (hch c hc).bounds.2.2.2
        have hδ5 : δ ≤ 1 / 5 := by
          rw [hδ, div_le_iff₀ hθc0]
          linarith
        have hnu : 2 * (t.n : ℝ) * uro ≤ 1 / 16 := by
          have : (t.n : ℝ) ≤ 2 ^ 48 := by exact_mod_cast hn
          calc 2 * (t.n : ℝ) * uro ≤ 2 * 2 ^ 48 * uro := mul_le_mul_of_nonneg_right (by linarith) hu0.le
            _ ≤ 1 / 16 := by unfold uro; norm_num
        have hmz : S' = 0 → (FOps.mul (t.scale i) (FOps.log (childSum t scaled uv i))).v = .ninf := by
          intro hz
          show R.rndX (XR.mul (t.scale i).v (Rnd.logV R (childSum t scaled uv i).v)) = _
          rw [hS', hscv, hz]
          simp [Rnd.logV, XR.mul, XR.mulNinf, Rounding.rndX, hθ0.ne', hθ0]
        have hdiv : ∀ a : Rnd R, a.v = .ninf → (FOps.div a (parentScale t scaled i)).v = .ninf := by
          intro a ha
          show R.rndX (XR.div a.v (parentScale t scaled i).v) = _
          rw [ha, hq]
          simp [XR.div, Rounding.rndX, hq0.le]
        have hlS : 0 < S' → |Real.log S'| ≤ M + 37 := by
          intro hp
          rcases hgl with ⟨e1, e2⟩ | ⟨e1, e2, e3⟩
          · linarith
          have hgr := group_range (t.children i) t.n hclen hn T M hT0 (fun c hc => hTM c (hcn c hc).1) e1
          have e : Real.log S' = (Real.log S' - Real.log ((t.children i).map T).sum) + Real.log ((t.children i).map T).sum := by ring
          rw [e]
          refine (abs_add_le _ _).trans ?_
          linarith
        cases hui : u i with
        | none =>
          left
          apply hdiv
          have hv : (uv i).v = .ninf := by rw [huv]; simp only; rw [D.util i hi, hui]; rfl
          have hm : (FOps.mul (t.scale i) (FOps.log (childSum t scaled uv i))).v = .ninf ∨
              ∃ m, (FOps.mul (t.scale i) (FOps.log (childSum t scaled uv i))).v = .fin m := by
            rcases hS'0.eq_or_lt with hz | hp
            · exact .inl (hmz hz.symm)
            · right
              obtain ⟨l, hl1, hl2⟩ := hlog S' hp (by linarith [hlS hp])
              have hlv : (FOps.log (childSum t scaled uv i)).v = .fin l := by
                show Rnd.logV R (childSum t scaled uv i).v = _
                rw [hS']
                simp [Rnd.logV, hp.ne', hp, hl1]
              have hl4 : |l| ≤ M + 39 := by
                have e : l = (l - Real.log S') + Real.log S' := by ring
                rw [e]
                refine (abs_add_le _ _).trans ?_
                have h1 : ε * |Real.log S'| ≤ 1 / 1000 * 637 := mul_le_mul hε1 (by linarith [hlS hp]) (abs_nonneg _) (by norm_num)
                have h2 : (1 : ℝ) / 2 ^ 1074 ≤ 1 := by rw [div_le_one (by positivity)]; exact one_le_pow₀ (by norm_num)
                linarith [hlS hp]
              obtain ⟨m, hm1, -⟩ := rnd_bounded (x := θ i * l) (B := M + 39) (by
                rw [abs_mul, abs_of_pos hθ0]
                calc θ i * |l| ≤ 1 * (M + 39) := mul_le_mul hθ1 hl4 (abs_nonneg _) zero_le_one
                  _ = M + 39 := one_mul _) (by linarith)
              refine ⟨m, ?_⟩
              show R.rndX (XR.mul (t.scale i).v (FOps.log (childSum t scaled uv i)).v) = _
              rw [hscv, hlv]
              show R.rnd (θ i * l) = _
              rw [hR]; exact hm1
          show R.rndX (XR.add (uv i).v (FOps.mul (t.scale i) (FOps.log (childSum t scaled uv i))).v) = _
          rw [hv]
          rcases hm with hm | ⟨m, hm⟩ <;> rw [hm] <;> rfl
        | some x =>
          have hxv : (uv i).v = .fin x := by rw [huv]; simp only; rw [D.util i hi, hui]; rfl
          rcases hgl with ⟨e1, e2⟩ | ⟨e1, e2, e3⟩
          · left
            apply hdiv
            show R.rndX (XR.add (uv i).v (FOps.mul (t.scale i) (FOps.log (childSum t scaled uv i))).v) = _
            rw [hxv, hmz e2]; rfl
          · right
            have hnl : ¬ (t.tree θ).Leaf i := fun hc => hb ((tree_leaf h hi).mp hc)
            have hTi := hspec.nest i hi hnl
            rw [hui] at hTi
            simp only at hTi
            have hsum : ∑ j ∈ (t.tree θ).children i, T j = ((t.children i).map T).sum := tree_children h i T
            rw [hsum] at hTi
            have hpos : 0 < T i := by rw [hTi]; exact mul_pos (Real.exp_pos _) (Real.rpow_pos_of_pos e1 _)
            have hlogT : Real.log (T i) = (x + θ i * Real.log ((t.children i).map T).sum) / q := by
              rw [hTi, Real.log_mul (Real.exp_pos _).ne' (Real.rpow_pos_of_pos e1 _).ne', Real.log_exp, Real.log_rpow e1]
              show x / q + θ i / q * _ = _
              ring
            have hMi := (hTM i hi).resolve_left hpos.ne'
            rw [hlogT] at hMi
            have hθδ : θ i * δ ≤ H * nodeErr t.n M ε := by
              rw [hδ, mul_div_assoc', div_le_iff₀ hθc0, mul_comm]
              exact mul_le_mul_of_nonneg_left hθle (mul_nonneg (Nat.cast_nonneg _) hκ0)
            have hK : θ i * |Real.log S' - Real.log ((t.children i).map T).sum| ≤ H * nodeErr t.n M ε + 2 * t.n * uro := by
              have h1 := mul_le_mul_of_nonneg_left e3 hθ0.le
              have h2 : θ i * (2 * t.n * uro) ≤ 1 * (2 * t.n * uro) := mul_le_mul_of_nonneg_right hθ1 (by positivity)
              rw [mul_add] at h1
              linarith
            have hκe : nodeErr t.n M ε = (M + 40) * ε + (3 * M + 2 * t.n + 50) * uro := rfl
            have hκ2 : nodeErr t.n M ε - (2 * t.n * uro + (M + 39) * ε + (3 * M + 46) * uro) = ε + 4 * uro := by rw [hκe]; ring
            have hσq := D.applied i hi
            obtain ⟨v, hv1, -, hv2, -⟩ := nest_arg_err hR hε hε1 hlog (K := H * nodeErr t.n M ε + 2 * t.n * uro) hxv hscv hS' hq hq0 hq1 hθ0 hθ1 e2
              hM0 hM hMi (hlS e2) hK (by linarith)
            exact ⟨v, hv1, by linarith⟩
  exact key _ i hi rfl

/-- the same shape, with the exact scales -/
private def exactFlat {F : Type} (t : Flat F) (θ : Nat → ℝ) : Flat XR := ⟨t.n, t.parent, t.level, fun k => .fin (θ k), t.bottom⟩

/-- the textbook model of a tree exists -/
theorem tree_model_exists {F : Type} [FOps F] {t : Flat F} (h : t.WF) (hθ : ∀ i < t.n, 0 < θ i) (scaled : Bool) (u : Nat → Util) :
    ∃ T P, (t.tree θ).IsNestedLogit scaled u T P := by
  obtain ⟨T, P, h1, -⟩ := C09_spec_unique (t := exactFlat t θ) (θ := θ) ⟨h.pos, h.node, h.bottom⟩ (fun k hk => ⟨rfl, hθ k hk⟩) scaled u
  exact ⟨T, P, h1⟩

/-- some elemental choice is available, and all the nests around it, exactly if the textbook logsum is positive -/
theorem tree_feasible {F : Type} [FOps F] {t : Flat F} (h : t.WF) (hθ : ∀ i < t.n, 0 < θ i) {scaled : Bool} {u : Nat → Util} {T P : Nat → ℝ}
    (hspec : (t.tree θ).IsNestedLogit scaled u T P) :
    0 < ∑ j ∈ (t.tree θ).tops, T j ↔ ∃ l < t.n, (t.tree θ).Leaf l ∧ (t.tree θ).Open u l := by
  have hw : (exactFlat t θ).WF := ⟨h.pos, h.node, h.bottom⟩
  have hsc : (exactFlat t θ).HasScales θ := fun k hk => ⟨rfl, hθ k hk⟩
  have h1 := nl_of hw hsc scaled u
  have hun := IsNestedLogit_unique (t := exactFlat t θ) (θ := θ) hw scaled u hspec h1.is
  have h2 : NL (exactFlat t θ) θ scaled u T P := ⟨hw, hsc, hspec, fun i hi => by rw [(hun i hi).1]; exact h1.nonneg i hi⟩
  exact h2.feasible_iff

/-- **C72 (feasibility)** Under the conditions of C72 the logsum is finite, so that nothing needs to be assumed about it: the nested logit
raises an error exactly if it is asked to check and no elemental choice is available together with all the nests around it; otherwise it
returns a finite logsum, which is 0 if there is no such choice and positive if there is. -/
theorem C72_feasibility {L₀ T₀ : ℝ} (hE : ExpRange R L₀ 650 T₀) (hR : R.rnd = B64.rnd) {ε : ℝ} (hε : 0 ≤ ε) (hε1 : ε ≤ 1 / 1000) (hexp : ExpAcc R ε)
    (hlog : LogAcc R ε) (h : t.WF) (D : NestedData t θ scaled us u σ) (hσ : 0 < σ) (hn : t.n ≤ 2 ^ 48) {T P : Nat → ℝ}
    (hspec : (t.tree θ).IsNestedLogit scaled u T P) {M : ℝ} (hM0 : 0 ≤ M) (hM : M ≤ 600) (hTM : ∀ i < t.n, T i = 0 ∨ |Real.log (T i)| ≤ M)
    (hsmall : (t.maxLevel + 1) * ((M + 40) * ε + (3 * M + 2 * t.n + 50) * (1 / 2 ^ 53)) ≤ σ / 5) (check : Bool) :
    ((∃ l < t.n, (t.tree θ).Leaf l ∧ (t.tree θ).Open u l) →
      ∃ ps ls terms, ∃ S : ℝ, nested us t scaled check = .ok (ps, ls, terms) ∧ ls.v = .fin S ∧ 0 < S) ∧
    ((¬ ∃ l < t.n, (t.tree θ).Leaf l ∧ (t.tree θ).Open u l) →
      nested us t scaled true = .error .utilityBounds ∧ ∃ ps ls terms, nested us t scaled false = .ok (ps, ls, terms) ∧ ls.v = .fin 0) := by
  have hT := terms_in_range hE hR hε hε1 hexp hlog h D hσ hn hspec hM0 hM hTM hsmall
  set uv : Nat → Rnd R := fun i => us.getD i zero with huv
  obtain ⟨S, hS, hS0⟩ : (topSum t scaled uv).FinNonneg := sumF_fin hR (t.tops.map (term t scaled uv)) (by
      rw [List.length_map]
      unfold Flat.tops
      exact ((List.length_filter_le _ _).trans (by simp)).trans (hn.trans (by norm_num))) (by
    intro w hw
    obtain ⟨c, hc, rfl⟩ := List.mem_map.mp hw
    exact hT c (Flat.mem_tops.mp hc).1)
  have hle : FOps.le (topSum t scaled uv) (FOps.zero : Rnd R) = decide (S ≤ 0) := by
    show XR.le (topSum t scaled uv).v (.fin 0) = _
    rw [hS]; rfl
  have hfalse : nested us t scaled false = .ok (arr t.n (fun i => if ∃ j < t.n, t.parent j = (i : Int) then zero else absP t (condP t scaled uv) i),
      topSum t scaled uv, arr t.n (term t scaled uv)) := by
    rw [nested_eq h]; simp [huv]
  obtain ⟨-, hz, hp⟩ := C72_accuracy hR hε hε1 hexp hlog h D hσ hn hspec hM0 hM hTM (Δ := 1 / 5) (le_refl _) (by linarith) false _ _ _ hfalse S hS
  have hθ : ∀ i < t.n, 0 < θ i := fun i hi => (D.scale i hi).2.1
  have hfe := tree_feasible h hθ hspec
  constructor
  · intro hf
    have hpos := (hp (hfe.mpr hf)).1
    have hr : nested us t scaled check = .ok (arr t.n (fun i => if ∃ j < t.n, t.parent j = (i : Int) then zero else absP t (condP t scaled uv) i),
        topSum t scaled uv, arr t.n (term t scaled uv)) := by
      rw [nested_eq h]
      simp only [← huv, hle]
      rw [if_neg (by simp [hpos])]
    exact ⟨_, _, _, S, hr, hS, hpos⟩
  · intro hno
    have h0 : ∑ j ∈ (t.tree θ).tops, T j = 0 := by
      by_contra hne
      refine hno (hfe.mp (lt_of_le_of_ne ?_ (Ne.symm hne)))
      refine Finset.sum_nonneg fun j hj => ?_
      have hjn : j < t.n := List.mem_range.mp (by
        have := (Finset.mem_filter.mp hj).1
        simpa [Flat.tree] using this)
      have hc := terms_close hR hε hε1 hexp hlog h D hσ hn hspec hM0 hM hTM 0 (fun i hi _ => (hT i hi).1) hsmall j hjn (Nat.zero_le _)
      exact hc.bounds.2.2.2
    have hSz := hz h0
    refine ⟨?_, _, _, _, hfalse, by rw [hS, hSz]⟩
    rw [nested_eq h]
    simp only [← huv, hle]
    rw [if_pos (by simp [hSz])]

/-- **C75 (nested, in range)** Double precision with correctly rounded `exp` and `log`: utilities at most `B` in absolute value or `-inf`,
`d` levels, applied scales at least `σ`, `n` nodes, `d (B + 34) <= 600 σ`, `d (2n + 2500) <= 2^48 σ`, and some elemental choice available
together with all the nests around it. Then the nested logit returns (with or without the check) a finite positive logsum and
probabilities in [0,1] that sum to 1 within `n * 2^-51`; each is within `d (4 d (4 M + 2 n + 90) / σ + 4 n + 5) / 2^53` of the textbook
probability, `M` being `d (B + 34) / σ`. Missing: utilities beyond this range (`C75_nested_overflow`). -/
theorem C75_nested_in_range_partial {t : Flat F64} {θ : Nat → ℝ} {scaled : Bool} {us : List F64} {u : Nat → Util} {σ : ℝ} (h : t.WF)
    (D : NestedData t θ scaled us u σ) (hσ : 0 < σ) {T P : Nat → ℝ} (hspec : (t.tree θ).IsNestedLogit scaled u T P) {B : ℝ} (hB : 0 ≤ B)
    (hu : ∀ i < t.n, ∀ x, u i = some x → |x| ≤ B) (hbig : (t.maxLevel + 1) * (B + 34) ≤ 600 * σ)
    (hn : (t.maxLevel + 1) * (2 * t.n + 2500) ≤ 2 ^ 48 * σ) (hopen : ∃ l < t.n, (t.tree θ).Leaf l ∧ (t.tree θ).Open u l) (check : Bool) :
    ∃ ps ls terms, ∃ S : ℝ, nested us t scaled check = .ok (ps, ls, terms) ∧ ls.v = .fin S ∧ 0 < S ∧ ps.length = t.n ∧
      (∀ p ∈ ps, ∃ x : ℝ, p.v = .fin x ∧ 0 ≤ x ∧ x ≤ 1) ∧ |(ps.map Rnd.val).sum - 1| ≤ t.n * (1 / 2 ^ 51) ∧
      ∀ i (hi : i < ps.length), (t.tree θ).Leaf i →
        |ps[i].val - P i| ≤ (t.maxLevel + 1) * (4 * ((t.maxLevel + 1) * (4 * ((t.maxLevel + 1) * (B + 34) / σ) + 2 * t.n + 90) / σ) + (4 * t.n + 5)) * (1 / 2 ^ 53) := by
  set d : ℝ := (t.maxLevel : ℝ) + 1 with hd
  have hd1 : 1 ≤ d := by rw [hd]; linarith [(Nat.cast_nonneg t.maxLevel : (0 : ℝ) ≤ t.maxLevel)]
  set M : ℝ := d * (B + 34) / σ with hM
  have hM0 : 0 ≤ M := div_nonneg (mul_nonneg (by linarith) (by linarith)) hσ.le
  have hM6 : M ≤ 600 := by rw [hM, div_le_iff₀ hσ]; exact hbig
  have hσ1 : σ ≤ 1 := by
    obtain ⟨i, hi, hp⟩ := h.exists_top
    exact (D.applied i hi).trans (D.parentScale h hi).2.2
  have hn0 : (0 : ℝ) ≤ t.n := Nat.cast_nonneg _
  have hn48 : t.n ≤ 2 ^ 48 := by
    have h1 : (2 * t.n + 2500 : ℝ) ≤ d * (2 * t.n + 2500) := le_mul_of_one_le_left (by linarith) hd1
    have h3 : (t.n : ℝ) ≤ (281474976710656 : ℕ) := by push_cast; norm_num at hn; linarith
    exact_mod_cast h3
  have hsmall : (t.maxLevel + 1) * ((M + 40) * (1 / 2 ^ 53) + (3 * M + 2 * t.n + 50) * (1 / 2 ^ 53)) ≤ σ / 5 := by
    rw [← hd]
    have h1 : (M + 40) * (1 / 2 ^ 53) + (3 * M + 2 * t.n + 50) * (1 / 2 ^ 53) ≤ (2 * t.n + 2500) * (1 / 2 ^ 53) := by
      rw [← add_mul]
      exact mul_le_mul_of_nonneg_right (by linarith) (by positivity)
    refine (mul_le_mul_of_nonneg_left h1 (by linarith)).trans ?_
    rw [← mul_assoc]
    refine (mul_le_mul_of_nonneg_right hn (by positivity)).trans ?_
    norm_num
    linarith
  obtain ⟨ps, ls, terms, S, hr, hS, hpos⟩ := (C72_feasibility (R := R64) expRange_64 rfl (ε := 1 / 2 ^ 53) (by positivity) (by norm_num) expAcc_R64
    logAcc_R64 h D hσ hn48 hspec hM0 hM6 (C72_terms_bounded h D hσ hn48 hspec hB hu) hsmall check).1 hopen
  obtain ⟨h1, h2, h3⟩ := C60_sum (R := R64) rfl t h D.pos us scaled check ps ls terms hr S hS hpos (hn48.trans (by norm_num))
  refine ⟨ps, ls, terms, S, hr, hS, hpos, h1, h2, h3, fun i hi hl => ?_⟩
  exact C72_correctly_rounded h D hσ hspec hB hu hbig hn check ps ls terms hr S hS i hi hl

end tree
/-- C75_nested_in_range_partial: the tree of RoundedNested with the utilities 0, 0, 0, -inf -/
example (check : Bool) : ∃ ps ls terms, ∃ S : ℝ, nested [FOps.zero, FOps.zero, FOps.zero, FOps.negInf] nestEx true check = .ok (ps, ls, terms) ∧
    ls.v = .fin S ∧ 0 < S ∧ |(ps.map Rnd.val).sum - 1| ≤ 4 * (1 / 2 ^ 51) := by
  have hm : nestEx.maxLevel = 1 := by decide
  obtain ⟨ps, ls, terms, S, h1, h2, h3, -, -, h6, -⟩ := C75_nested_in_range_partial nestEx_wf nestEx_data one_pos nestEx_spec (B := 0) (le_refl _) (by
    intro i _ x hx
    unfold nxU at hx
    split at hx
    · cases hx
    · simp only [Option.some.injEq] at hx; subst hx; simp) (by rw [hm]; norm_num) (by rw [hm]; simp [nestEx]; norm_num)
    ⟨2, by simp [nestEx], (tree_leaf nestEx_wf (by simp [nestEx])).mpr (by simp [nestEx]), .top 2 (by simp [Flat.tree, nestEx]) (by simp [nxU])⟩ check
  exact ⟨ps, ls, terms, S, h1, h2, h3, by simpa [nestEx] using h6⟩

/-- C72_feasibility, both parts of its hypotheses: the same tree, and with no choice available -/
example : (∃ ps ls terms, ∃ S : ℝ, nested [FOps.zero, FOps.zero, FOps.zero, FOps.negInf] nestEx true true = .ok (ps, ls, terms) ∧ ls.v = .fin S ∧ 0 < S) ∧
    nested [FOps.zero, FOps.negInf, FOps.negInf, FOps.negInf] nestEx true true = .error .utilityBounds := by
  have hm : nestEx.maxLevel = 1 := by decide
  have hn : nestEx.n = 4 := rfl
  constructor
  · refine (C72_feasibility (R := R64) expRange_64 rfl (ε := 1 / 2 ^ 53) (by positivity) (by norm_num) expAcc_R64 logAcc_R64 nestEx_wf nestEx_data one_pos
      (by rw [hn]; norm_num) nestEx_spec (M := 0) (le_refl _) (by norm_num) ?_ (by rw [hm, hn]; norm_num) true).1
      ⟨2, by simp [nestEx], (tree_leaf nestEx_wf (by simp [nestEx])).mpr (by simp [nestEx]), .top 2 (by simp [Flat.tree, nestEx]) (by simp [nxU])⟩
    intro i _
    unfold nxT
    split
    · exact Or.inl rfl
    · exact Or.inr (by simp)
  · have D : NestedData nestEx (fun _ => 1) true [FOps.zero, FOps.negInf, FOps.negInf, FOps.negInf] (fun i => if i = 0 then some 0 else none) 1 :=
      ⟨nestEx_data.scale, by
        intro i hi
        have hi : i < 4 := hi
        interval_cases i <;> rfl, nestEx_data.applied⟩
    obtain ⟨T, P, hspec⟩ := tree_model_exists (t := nestEx) (θ := fun _ => 1) nestEx_wf (fun _ _ => one_pos) true (fun i => if i = 0 then some 0 else none)
    have hleafs : ∀ i < 4, i ≠ 0 → T i = 0 := by
      intro i hi h0
      have := hspec.leaf i hi ((tree_leaf nestEx_wf hi).mpr (by simp [nestEx, h0]))
      simpa [h0] using this
    have ht0 : T 0 = 0 := by
      have hnl : ¬ (nestEx.tree fun _ => (1 : ℝ)).Leaf 0 := by
        rw [tree_leaf nestEx_wf (by simp [nestEx])]; simp [nestEx]
      have h := hspec.nest 0 (by show 0 < 4; norm_num) hnl
      have hch : nestEx.children 0 = [1, 3] := by decide
      rw [tree_children nestEx_wf, hch] at h
      have hp : (nestEx.tree fun _ => (1 : ℝ)).θp true 0 = 1 := by simp [Tree.θp, Flat.tree, nestEx]
      simp [hleafs 1 (by norm_num) (by norm_num), hleafs 3 (by norm_num) (by norm_num), hp] at h
      rw [h]; simp [Flat.tree]
    refine ((C72_feasibility (R := R64) expRange_64 rfl (ε := 1 / 2 ^ 53) (by positivity) (by norm_num) expAcc_R64 logAcc_R64 nestEx_wf D one_pos
      (by rw [hn]; norm_num) hspec (M := 0) (le_refl _) (by norm_num) ?_ (by rw [hm, hn]; norm_num) true).2 ?_).1
    · intro i hi
      have hi : i < 4 := hi
      by_cases h0 : i = 0
      · subst h0; exact Or.inl ht0
      · exact Or.inl (hleafs i hi h0)
    · rintro ⟨l, hl, hleaf, hopen⟩
      have hl : l < 4 := hl
      have h0 : l ≠ 0 := by
        rintro rfl
        rw [tree_leaf nestEx_wf (by simp [nestEx])] at hleaf
        simp [nestEx] at hleaf
      cases hopen with
      | top _ _ h => exact h (by simp [h0])
      | child _ _ _ h _ => exact h (by simp [h0])

end Cheval
