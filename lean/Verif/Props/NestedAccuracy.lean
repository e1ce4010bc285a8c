import Verif.Props.RoundedNested
import Verif.Num.LogError
import Verif.Core.NestedSpecLemmas

/-!
# C72: accuracy of the nested logit in double precision
-/
set_option linter.unusedSectionVars false
namespace Cheval
open FOps B64 Spec
variable {R : Rounding}

/-- `R`'s logarithm is finite and accurate on the positive numbers between `exp(-1000)` and `exp(1000)` (all positive doubles are):
relative error `ε`, or one subnormal step -/
def LogAcc (R : Rounding) (ε : ℝ) : Prop := ∀ x : ℝ, 0 < x → |Real.log x| ≤ 1000 → ∃ y, R.flog x = .fin y ∧ |y - Real.log x| ≤ ε * |Real.log x| + 1 / 2 ^ 1074

private theorem sub_le_uro : (1 : ℝ) / 2 ^ 1074 ≤ uro := by
  unfold uro
  exact one_div_le_one_div_of_le (by positivity) (pow_le_pow_right₀ (by norm_num) (by norm_num))

/-- the exponential of a moderate number -/
theorem exp_log_err {ε : ℝ} (hε : 0 ≤ ε) (hε1 : ε ≤ 1 / 100) (hexp : ExpAcc R ε) {v y : ℝ} (hv : -620 ≤ v) (h : R.fexp v = .fin y) :
    0 < y ∧ |Real.log y - v| ≤ 2 * (ε + uro) := by
  have h1 := hexp v y h
  have h2 := exp_620.trans (Real.exp_le_exp.mpr hv)
  have h3 : (1 : ℝ) / 2 ^ 1074 ≤ uro * Real.exp v := by
    refine le_trans ?_ (mul_le_mul_of_nonneg_left h2 uro_pos.le)
    unfold uro
    rw [one_div_mul_one_div, ← pow_add]
    exact one_div_le_one_div_of_le (by positivity) (pow_le_pow_right₀ (by norm_num) (by norm_num))
  have := log_near (x := Real.exp v) (y := y) (a := ε + uro) (Real.exp_pos v) (by linarith [uro_small]) (by
    rw [add_mul]; linarith)
  rwa [Real.log_exp] at this

/-- one nest: from the children's sum to the argument of `exp` -/
theorem nest_arg_err (hR : R.rnd = B64.rnd) {ε : ℝ} (hε : 0 ≤ ε) (hε1 : ε ≤ 1 / 1000) (hlog : LogAcc R ε)
    {a sc ls pq : Rnd R} {x0 θ q S S' M K : ℝ} (ha : a.v = .fin x0) (hsc : sc.v = .fin θ) (hls : ls.v = .fin S') (hpq : pq.v = .fin q)
    (hq : 0 < q) (hq1 : q ≤ 1) (hθ : 0 < θ) (hθ1 : θ ≤ 1) (hS' : 0 < S') (hM0 : 0 ≤ M) (hM : M ≤ 600)
    (hL : |(x0 + θ * Real.log S) / q| ≤ M) (hlS : |Real.log S'| ≤ M + 37) (hK : θ * |Real.log S' - Real.log S| ≤ K)
    (hsmall : K + (M + 39) * ε + (3 * M + 46) * uro ≤ q / 5) :
    ∃ v : ℝ, (FOps.div (FOps.add a (FOps.mul sc (FOps.log ls))) pq).v = .fin v ∧ -620 ≤ v ∧ v ≤ M + 2 ∧
      q * |v - (x0 + θ * Real.log S) / q| ≤ K + (M + 37) * ε + (3 * M + 44) * uro := by
  have hu0 := uro_pos
  have hu := uro_small
  have hK0 : 0 ≤ K := (mul_nonneg hθ.le (abs_nonneg _)).trans hK
  have hMε : 0 ≤ M * ε := mul_nonneg hM0 hε
  have hMu : 0 ≤ M * uro := mul_nonneg hM0 hu0.le
  -- log
  obtain ⟨l, hl1, hl2⟩ := hlog S' hS' (by linarith)
  have hlv : (FOps.log ls).v = .fin l := by
    show Rnd.logV R ls.v = _
    rw [hls]
    simp [Rnd.logV, hS'.ne', hS', hl1]
  have hl3 : |l - Real.log S'| ≤ ε * (M + 37) + uro := by
    have := mul_le_mul_of_nonneg_left hlS hε
    linarith [sub_le_uro]
  have hl4 : |l| ≤ M + 38 := by
    have e : l = (l - Real.log S') + Real.log S' := by ring
    rw [e]
    refine (abs_add_le _ _).trans ?_
    have : ε * (M + 37) ≤ 1 / 1000 * 637 := mul_le_mul hε1 (by linarith) (by linarith) (by norm_num)
    linarith
  -- mul
  obtain ⟨m, hm1, hm2⟩ := rnd_bounded (x := θ * l) (B := M + 38) (by
    rw [abs_mul, abs_of_pos hθ]
    calc θ * |l| ≤ 1 * (M + 38) := mul_le_mul hθ1 hl4 (abs_nonneg _) zero_le_one
      _ = M + 38 := one_mul _) (by linarith)
  have hmv : (FOps.mul sc (FOps.log ls)).v = .fin m := by
    show R.rndX (XR.mul sc.v (FOps.log ls).v) = _
    rw [hsc, hlv]
    show R.rnd (θ * l) = _
    rw [hR]; exact hm1
  have hm3 : |m - θ * Real.log S| ≤ K + (ε * (M + 37) + uro) + (uro * (M + 38) + uro) := by
    have e : m - θ * Real.log S = (m - θ * l) + θ * (l - Real.log S') + θ * (Real.log S' - Real.log S) := by ring
    rw [e]
    refine (abs_add_three _ _ _).trans ?_
    rw [abs_mul, abs_mul, abs_of_pos hθ]
    have h1 : θ * |l - Real.log S'| ≤ 1 * (ε * (M + 37) + uro) := mul_le_mul hθ1 hl3 (abs_nonneg _) zero_le_one
    linarith [eta_le_uro]
  -- add
  have hqL : |x0 + θ * Real.log S| ≤ M := by
    have e : x0 + θ * Real.log S = (x0 + θ * Real.log S) / q * q := by field_simp
    rw [e, abs_mul, abs_of_pos hq]
    calc |(x0 + θ * Real.log S) / q| * q ≤ M * 1 := mul_le_mul hL hq1 hq.le hM0
      _ = M := mul_one _
  have hs : |x0 + m - (x0 + θ * Real.log S)| ≤ K + (ε * (M + 37) + uro) + (uro * (M + 38) + uro) := by
    have e : x0 + m - (x0 + θ * Real.log S) = m - θ * Real.log S := by ring
    rw [e]; exact hm3
  obtain ⟨s, hs1, hs2⟩ := rnd_bounded (x := x0 + m) (B := M + 1) (by
    have e : x0 + m = (x0 + m - (x0 + θ * Real.log S)) + (x0 + θ * Real.log S) := by ring
    rw [e]
    refine (abs_add_le _ _).trans ?_
    nlinarith) (by linarith)
  have hsv : (FOps.add a (FOps.mul sc (FOps.log ls))).v = .fin s := by
    show R.rndX (XR.add a.v (FOps.mul sc (FOps.log ls)).v) = _
    rw [ha, hmv]
    show R.rnd (x0 + m) = _
    rw [hR]; exact hs1
  have hs3 : |s - (x0 + θ * Real.log S)| ≤ K + (ε * (M + 37) + uro) + (uro * (M + 38) + uro) + (uro * (M + 1) + uro) := by
    have e : s - (x0 + θ * Real.log S) = (s - (x0 + m)) + (x0 + m - (x0 + θ * Real.log S)) := by ring
    rw [e]
    refine (abs_add_le _ _).trans ?_
    linarith [eta_le_uro]
  -- div
  have hd0 : q * |s / q - (x0 + θ * Real.log S) / q| ≤ K + (ε * (M + 37) + uro) + (uro * (M + 38) + uro) + (uro * (M + 1) + uro) := by
    have e : s / q - (x0 + θ * Real.log S) / q = (s - (x0 + θ * Real.log S)) / q := by ring
    rw [e, abs_div, abs_of_pos hq, mul_div_cancel₀ _ hq.ne']
    exact hs3
  have hd1 : |s / q - (x0 + θ * Real.log S) / q| ≤ 1 / 5 := by
    have : q * |s / q - (x0 + θ * Real.log S) / q| ≤ q * (1 / 5) := by nlinarith
    exact le_of_mul_le_mul_left this hq
  obtain ⟨v, hv1, hv2⟩ := rnd_bounded (x := s / q) (B := M + 1) (by
    have e : s / q = (s / q - (x0 + θ * Real.log S) / q) + (x0 + θ * Real.log S) / q := by ring
    rw [e]
    refine (abs_add_le _ _).trans ?_
    linarith) (by linarith)
  have hvv : (FOps.div (FOps.add a (FOps.mul sc (FOps.log ls))) pq).v = .fin v := by
    rw [rndX_div_fin _ _ s q hsv hpq hq.ne', hR]; exact hv1
  refine ⟨v, hvv, ?_, ?_, ?_⟩
  · rw [abs_le] at hd1 hL hv2
    have : uro * (M + 1) ≤ 1 / 100 * 601 := mul_le_mul hu (by linarith) (by linarith) (by norm_num)
    linarith [hd1.1, hL.1, hv2.1, eta_le_uro]
  · rw [abs_le] at hd1 hL hv2
    have : uro * (M + 1) ≤ 1 / 1000 * 601 := mul_le_mul (by unfold uro; norm_num) (by linarith) (by linarith) (by norm_num)
    have h3 : uro ≤ 1 / 1000 := by unfold uro; norm_num
    linarith [hd1.2, hL.2, hv2.2, eta_le_uro]
  · have e : v - (x0 + θ * Real.log S) / q = (v - s / q) + (s / q - (x0 + θ * Real.log S) / q) := by ring
    rw [e]
    have h2 := mul_le_mul_of_nonneg_left (abs_add_le (v - s / q) (s / q - (x0 + θ * Real.log S) / q)) hq.le
    have h4 : q * |v - s / q| ≤ 1 * (uro * (M + 1) + uro) := mul_le_mul hq1 (hv2.trans (by linarith [eta_le_uro])) (abs_nonneg _) zero_le_one
    nlinarith

/-- one nest: from the children's sum to the nest's term -/
theorem nest_log_err (hR : R.rnd = B64.rnd) {ε : ℝ} (hε : 0 ≤ ε) (hε1 : ε ≤ 1 / 1000) (hexp : ExpAcc R ε) (hlog : LogAcc R ε)
    {a sc ls pq : Rnd R} {x0 θ q S S' M K : ℝ} (ha : a.v = .fin x0) (hsc : sc.v = .fin θ) (hls : ls.v = .fin S') (hpq : pq.v = .fin q)
    (hq : 0 < q) (hq1 : q ≤ 1) (hθ : 0 < θ) (hθ1 : θ ≤ 1) (hS' : 0 < S') (hM0 : 0 ≤ M) (hM : M ≤ 600)
    (hL : |(x0 + θ * Real.log S) / q| ≤ M) (hlS : |Real.log S'| ≤ M + 37) (hK : θ * |Real.log S' - Real.log S| ≤ K)
    (hsmall : K + (M + 39) * ε + (3 * M + 46) * uro ≤ q / 5)
    (hfin : (FOps.exp (FOps.div (FOps.add a (FOps.mul sc (FOps.log ls))) pq)).FinNonneg) :
    0 < (FOps.exp (FOps.div (FOps.add a (FOps.mul sc (FOps.log ls))) pq)).val ∧
    q * |Real.log (FOps.exp (FOps.div (FOps.add a (FOps.mul sc (FOps.log ls))) pq)).val - (x0 + θ * Real.log S) / q| ≤
      K + (M + 39) * ε + (3 * M + 46) * uro := by
  obtain ⟨v, hvv, hvlow, -, hv3⟩ := nest_arg_err hR hε hε1 hlog ha hsc hls hpq hq hq1 hθ hθ1 hS' hM0 hM hL hlS hK hsmall
  have hu0 := uro_pos
  have hy : R.fexp v = .fin (FOps.exp (FOps.div (FOps.add a (FOps.mul sc (FOps.log ls))) pq)).val := by
    have h1 := hfin.v
    rw [← h1]
    show _ = Rnd.expV R (FOps.div (FOps.add a (FOps.mul sc (FOps.log ls))) pq).v
    rw [hvv]; rfl
  obtain ⟨hy0, hy1⟩ := exp_log_err hε (by linarith) hexp hvlow hy
  refine ⟨hy0, ?_⟩
  generalize (FOps.exp (FOps.div (FOps.add a (FOps.mul sc (FOps.log ls))) pq)).val = y at *
  have e : Real.log y - (x0 + θ * Real.log S) / q = (Real.log y - v) + (v - (x0 + θ * Real.log S) / q) := by ring
  rw [e]
  have h2 := mul_le_mul_of_nonneg_left (abs_add_le (Real.log y - v) (v - (x0 + θ * Real.log S) / q)) hq.le
  have h3 : q * |Real.log y - v| ≤ 1 * (2 * (ε + uro)) := mul_le_mul hq1 hy1 (abs_nonneg _) zero_le_one
  nlinarith

/-- one elemental choice -/
theorem leaf_log_err (hR : R.rnd = B64.rnd) {ε : ℝ} (hε : 0 ≤ ε) (hε1 : ε ≤ 1 / 1000) (hexp : ExpAcc R ε)
    {a pq : Rnd R} {x0 q M : ℝ} (ha : a.v = .fin x0) (hpq : pq.v = .fin q)
    (hq : 0 < q) (hq1 : q ≤ 1) (hM0 : 0 ≤ M) (hM : M ≤ 600) (hL : |x0 / q| ≤ M) (hfin : (FOps.exp (FOps.div a pq)).FinNonneg) :
    0 < (FOps.exp (FOps.div a pq)).val ∧ q * |Real.log (FOps.exp (FOps.div a pq)).val - x0 / q| ≤ (M + 39) * ε + (3 * M + 46) * uro := by
  have hu0 := uro_pos
  have hu := uro_small
  have hMε : 0 ≤ M * ε := mul_nonneg hM0 hε
  have hMu : 0 ≤ M * uro := mul_nonneg hM0 hu0.le
  obtain ⟨v, hv1, hv2⟩ := rnd_bounded hL (by linarith)
  have hvv : (FOps.div a pq).v = .fin v := by
    rw [rndX_div_fin _ _ x0 q ha hpq hq.ne', hR]; exact hv1
  have hy : R.fexp v = .fin (FOps.exp (FOps.div a pq)).val := by
    have h1 := hfin.v
    rw [← h1]
    show _ = Rnd.expV R (FOps.div a pq).v
    rw [hvv]; rfl
  have hvlow : -620 ≤ v := by
    rw [abs_le] at hL hv2
    have : uro * M ≤ 1 / 100 * 600 := mul_le_mul hu hM hM0 (by norm_num)
    linarith [hL.1, hv2.1, eta_le_uro]
  obtain ⟨hy0, hy1⟩ := exp_log_err hε (by linarith) hexp hvlow hy
  refine ⟨hy0, ?_⟩
  generalize (FOps.exp (FOps.div a pq)).val = y at *
  have h1 : |Real.log y - x0 / q| ≤ 2 * (ε + uro) + (uro * M + uro) := by
    have e : Real.log y - x0 / q = (Real.log y - v) + (v - x0 / q) := by ring
    rw [e]
    refine (abs_add_le _ _).trans ?_
    linarith [eta_le_uro]
  calc q * |Real.log y - x0 / q| ≤ 1 * (2 * (ε + uro) + (uro * M + uro)) := mul_le_mul hq1 h1 (abs_nonneg _) zero_le_one
    _ ≤ _ := by nlinarith

/-! ### The tree -/

/-- the textbook tree of a table -/
def Flat.tree {F : Type} (t : Flat F) (θ : Nat → ℝ) : Tree where
  n := t.n
  parent i := if t.parent i = -1 then none else some (t.parent i).toNat
  θ := θ

private def skel {F : Type} (t : Flat F) : Flat XR := ⟨t.n, t.parent, t.level, fun _ => .fin 0, t.bottom⟩

private theorem skel_wf {F : Type} [FOps F] {t : Flat F} (h : t.WF) : (skel t).WF := ⟨h.pos, h.node, h.bottom⟩

/-- the numbers handed to the code: the scales `θ` and the utilities `u`; every scale that is applied to a utility is at least `σ` -/
structure NestedData (t : Flat (Rnd R)) (θ : Nat → ℝ) (scaled : Bool) (us : List (Rnd R)) (u : Nat → Util) (σ : ℝ) : Prop where
  scale : ∀ i < t.n, (t.scale i).v = .fin (θ i) ∧ 0 < θ i ∧ θ i ≤ 1
  util : ∀ i < t.n, (us.getD i zero).v = util (u i)
  applied : ∀ i < t.n, σ ≤ (t.tree θ).θp scaled i

section tree
variable {t : Flat (Rnd R)} {θ : Nat → ℝ} {scaled : Bool} {us : List (Rnd R)} {u : Nat → Util} {σ : ℝ}

theorem NestedData.pos (D : NestedData t θ scaled us u σ) : PosScales t := fun i hi => ⟨θ i, (D.scale i hi).1, (D.scale i hi).2.1⟩

theorem NestedData.parentScale (D : NestedData t θ scaled us u σ) (h : t.WF) {i : Nat} (hi : i < t.n) :
    (parentScale t scaled i).v = .fin ((t.tree θ).θp scaled i) ∧ 0 < (t.tree θ).θp scaled i ∧ (t.tree θ).θp scaled i ≤ 1 := by
  unfold Cheval.parentScale Tree.θp Flat.tree
  rcases h.node i hi with ⟨h1, _⟩ | ⟨p, hp, h1, _⟩
  · simp [h1]; rfl
  · have hne : ¬ t.parent i = -1 := by omega
    have hlt : ¬ t.parent i < 0 := by omega
    have htn : (t.parent i).toNat = p := by omega
    cases scaled
    · simp [hne]; rfl
    · simp [hne, hlt, htn, (D.scale p hp).1, (D.scale p hp).2]

theorem Flat.WF.exists_top (h : t.WF) : ∃ i < t.n, t.parent i = -1 := by
  have key : ∀ d i, i < t.n → t.level i = d → ∃ i < t.n, t.parent i = -1 := by
    intro d
    induction d with
    | zero =>
      intro i hi hd
      rcases h.node i hi with ⟨h1, _⟩ | ⟨p, _, _, h2⟩
      · exact ⟨i, hi, h1⟩
      · omega
    | succ d ih =>
      intro i hi hd
      rcases h.node i hi with ⟨h1, _⟩ | ⟨p, hp, _, h2⟩
      · exact ⟨i, hi, h1⟩
      · exact ih p hp (by omega)
  exact key _ 0 h.pos rfl

/-- the error made at one node, in units of utility -/
noncomputable def nodeErr (n : Nat) (M ε : ℝ) : ℝ := (M + 40) * ε + (3 * M + 2 * n + 50) * uro

/-- a group of siblings (or the top-level nodes): the computed sum of the terms -/
theorem group_log (hR : R.rnd = B64.rnd) (l : List Nat) (hne : l ≠ []) (n : Nat) (hl : l.length ≤ n) (f : Nat → Rnd R) (T : Nat → ℝ) (δ : ℝ)
    (hf : ∀ i ∈ l, (f i).FinNonneg) (hc : ∀ i ∈ l, LogClose δ (T i) (f i).val) (S' : ℝ) (hS : (sumF (l.map f)).v = .fin S') :
    LogClose (δ + 2 * n * uro) (l.map T).sum S' := by
  obtain ⟨-, h1, h2⟩ := sumF_acc hR (l.map f) (by simpa using hne) (fun w hw => by
    obtain ⟨i, hi, rfl⟩ := List.mem_map.mp hw
    left
    rw [(hf i hi).v]; simpa [XR.le] using (hf i hi).nonneg) S' hS
  rw [List.length_map, List.map_map] at h1 h2
  have hsum := LogClose.sum l T (fun i => (f i).val) δ hc
  rcases hsum with ⟨e1, e2⟩ | ⟨e1, e2, e3⟩
  · left
    have e2' : (l.map (Rnd.val ∘ f)).sum = 0 := e2
    rw [e2', mul_zero] at h1 h2
    exact ⟨e1, le_antisymm h2 h1⟩
  · right
    obtain ⟨h3, h4⟩ := log_sum_err (l.length - 1) e2 h1 h2
    refine ⟨e1, h3, ?_⟩
    have hk : ((l.length - 1 : ℕ) : ℝ) ≤ n := by exact_mod_cast (Nat.sub_le _ _).trans hl
    have hk2 : 2 * ((l.length - 1 : ℕ) : ℝ) * uro ≤ 2 * n * uro := mul_le_mul_of_nonneg_right (by linarith) uro_pos.le
    have e : Real.log S' - Real.log (l.map T).sum = (Real.log S' - Real.log (l.map fun i => (f i).val).sum) +
        (Real.log (l.map fun i => (f i).val).sum - Real.log (l.map T).sum) := by ring
    rw [e]
    refine (abs_add_le _ _).trans ?_
    linarith

/-- a node whose utility is `-inf` has the term 0 -/
theorem term_unavailable (D : NestedData t θ scaled us u σ) (h : t.WF) {i : Nat} (hi : i < t.n) (hu : u i = none)
    (hfin : (term t scaled (fun i => us.getD i zero) i).FinNonneg) : (term t scaled (fun i => us.getD i zero) i).val = 0 := by
  obtain ⟨hq, hq0, -⟩ := D.parentScale h hi
  have hv : (us.getD i zero).v = .ninf := by rw [D.util i hi, hu]; rfl
  have hT := term_eq h scaled (fun i => us.getD i zero) i hi
  unfold termOf at hT
  have hfv := hfin.v
  rw [hT] at hfv ⊢
  split_ifs at hfv ⊢
  · have e : (FOps.exp (FOps.div (us.getD i zero) (parentScale t scaled i))).v = .fin 0 := by
      show Rnd.expV R (R.rndX (XR.div (us.getD i zero).v (parentScale t scaled i).v)) = _
      rw [hv, hq]
      simp [XR.div, Rounding.rndX, Rnd.expV, hq0.le]
    exact Rnd.val_fin e
  · apply Rnd.val_fin
    have e : (FOps.exp (FOps.div (FOps.add (us.getD i zero) (FOps.mul (t.scale i) (FOps.log (childSum t scaled (fun i => us.getD i zero) i)))) (parentScale t scaled i))).v =
        Rnd.expV R (R.rndX (XR.div (R.rndX (XR.add (us.getD i zero).v (FOps.mul (t.scale i) (FOps.log (childSum t scaled (fun i => us.getD i zero) i))).v)) (parentScale t scaled i).v)) := rfl
    rw [e, hv, hq] at hfv ⊢
    generalize (FOps.mul (t.scale i) (FOps.log (childSum t scaled (fun i => us.getD i zero) i))).v = x at *
    cases x <;> simp [XR.add, XR.div, Rounding.rndX, Rnd.expV, hq0.le] at hfv ⊢

private theorem log_n_le (n : Nat) (hn : n ≤ 2 ^ 48) (h1 : 1 ≤ n) : 0 ≤ Real.log n ∧ Real.log n ≤ 34 := by
  have hR1 : (1 : ℝ) ≤ n := by exact_mod_cast h1
  refine ⟨Real.log_nonneg hR1, ?_⟩
  have h2 : (n : ℝ) ≤ 2 ^ 48 := by exact_mod_cast hn
  have h3 := Real.log_le_log (by linarith) h2
  rw [Real.log_pow] at h3
  have := Real.log_two_lt_d9
  norm_num at h3
  linarith

/-- the exact sum of a group of terms on the logarithmic scale -/
theorem group_range (l : List Nat) (n : Nat) (hl : l.length ≤ n) (hn : n ≤ 2 ^ 48) (T : Nat → ℝ) (M : ℝ) (h0 : ∀ i ∈ l, 0 ≤ T i)
    (hM : ∀ i ∈ l, T i = 0 ∨ |Real.log (T i)| ≤ M) (hpos : 0 < (l.map T).sum) : |Real.log (l.map T).sum| ≤ M + 34 := by
  have hex : ∃ i ∈ l, 0 < T i := by
    by_contra hc
    push Not at hc
    have : (l.map T).sum = 0 := List.sum_eq_zero (by
      intro x hx; obtain ⟨i, hi, rfl⟩ := List.mem_map.mp hx; exact le_antisymm (hc i hi) (h0 i hi))
    linarith
  obtain ⟨i, hi, hTi⟩ := hex
  have hMi := (hM i hi).resolve_left hTi.ne'
  have hle : T i ≤ (l.map T).sum := List.single_le_sum (by
    intro x hx; obtain ⟨j, hj, rfl⟩ := List.mem_map.mp hx; exact h0 j hj) _ (List.mem_map_of_mem hi)
  have hM0 : 0 ≤ M := (abs_nonneg _).trans hMi
  have hb : ∀ j ∈ l, T j ≤ Real.exp M := by
    intro j hj
    rcases hM j hj with e | e
    · rw [e]; exact (Real.exp_pos _).le
    · rcases (h0 j hj).eq_or_lt with e0 | e0
      · rw [← e0]; exact (Real.exp_pos _).le
      · rw [← Real.exp_log e0]; exact Real.exp_le_exp.mpr (abs_le.mp e).2
  have hup : (l.map T).sum ≤ n * Real.exp M := by
    have h1 : (l.map T).sum ≤ (l.map fun _ => Real.exp M).sum := List.sum_le_sum hb
    rw [List.map_const', List.sum_replicate, nsmul_eq_mul] at h1
    refine h1.trans (mul_le_mul_of_nonneg_right ?_ (Real.exp_pos _).le)
    exact_mod_cast hl
  have hn1 : 1 ≤ n := by
    have := List.length_pos_of_mem hi
    omega
  obtain ⟨hln0, hln⟩ := log_n_le n hn hn1
  have hnpos : (0 : ℝ) < n := by exact_mod_cast hn1
  rw [abs_le]
  constructor
  · have := Real.log_le_log hTi hle
    linarith [(abs_le.mp hMi).1]
  · have := Real.log_le_log hpos hup
    rw [Real.log_mul hnpos.ne' (Real.exp_pos _).ne', Real.log_exp] at this
    linarith

/-- the scale applied to the children of node `i` -/
private theorem θp_child (h : t.WF) (θ : Nat → ℝ) {i c : Nat} (hc : c ∈ t.children i) : (t.tree θ).θp scaled c = if scaled then θ i else 1 := by
  obtain ⟨-, hp⟩ := Flat.mem_children.mp hc
  unfold Tree.θp Flat.tree
  have hne : ¬ t.parent c = -1 := by omega
  have htn : (t.parent c).toNat = i := by omega
  simp [hne, htn]

/-- the children of node `i` in the textbook tree -/
theorem tree_children (h : t.WF) (i : Nat) (T : Nat → ℝ) : ∑ j ∈ (t.tree θ).children i, T j = ((t.children i).map T).sum :=
  (spec_children (t := skel t) (θ := θ) (skel_wf h) i T).symm

private theorem tree_tops (T : Nat → ℝ) : ∑ j ∈ (t.tree θ).tops, T j = (t.tops.map T).sum := (spec_tops (t := skel t) (θ := θ) T).symm

theorem tree_leaf (h : t.WF) {i : Nat} (hi : i < t.n) : (t.tree θ).Leaf i ↔ t.bottom i = true := spec_leaf (t := skel t) (θ := θ) (skel_wf h) i hi

/-- the computed terms and the exact ones -/
theorem terms_close (hR : R.rnd = B64.rnd) {ε : ℝ} (hε : 0 ≤ ε) (hε1 : ε ≤ 1 / 1000) (hexp : ExpAcc R ε) (hlog : LogAcc R ε) (h : t.WF)
    (D : NestedData t θ scaled us u σ) (hσ : 0 < σ) (hn : t.n ≤ 2 ^ 48) {T P : Nat → ℝ} (hspec : (t.tree θ).IsNestedLogit scaled u T P) {M : ℝ}
    (hM0 : 0 ≤ M) (hM : M ≤ 600) (hTM : ∀ i < t.n, T i = 0 ∨ |Real.log (T i)| ≤ M)
    (L : Nat) (hfin : ∀ i < t.n, L ≤ t.level i → (term t scaled (fun i => us.getD i zero) i).FinNonneg)
    (hsmall : (t.maxLevel + 1) * nodeErr t.n M ε ≤ σ / 5) (i : Nat) (hi : i < t.n) (hiL : L ≤ t.level i) :
    LogClose ((t.maxLevel + 1 - t.level i : ℕ) * nodeErr t.n M ε / (t.tree θ).θp scaled i) (T i) (term t scaled (fun i => us.getD i zero) i).val := by
  have hu0 := uro_pos
  have hκ0 : 0 ≤ nodeErr t.n M ε := by
    unfold nodeErr
    have : (0 : ℝ) ≤ t.n := Nat.cast_nonneg _
    positivity
  set κ := nodeErr t.n M ε with hκ
  set uv : Nat → Rnd R := fun i => us.getD i zero with huv
  have key : ∀ k i, i < t.n → t.maxLevel - t.level i = k → L ≤ t.level i →
      LogClose ((t.maxLevel + 1 - t.level i : ℕ) * κ / (t.tree θ).θp scaled i) (T i) (term t scaled uv i).val := by
    intro k
    induction k using Nat.strong_induction_on with
    | _ k ih =>
      intro i hi hk hiL
      have hlev := t.level_le_max i hi
      obtain ⟨hq, hq0, hq1⟩ := D.parentScale h hi
      have hσq := D.applied i hi
      set q := (t.tree θ).θp scaled i with hqdef
      set H : ℕ := t.maxLevel + 1 - t.level i with hH
      have hHd : (H : ℝ) * κ ≤ σ / 5 := by
        refine le_trans (mul_le_mul_of_nonneg_right ?_ hκ0) hsmall
        have : H ≤ t.maxLevel + 1 := by omega
        exact_mod_cast this
      have hterm := term_eq h scaled uv i hi
      have hf := hfin i hi hiL
      by_cases hb : t.bottom i = true
      · -- elemental choice
        have hTi := hspec.leaf i hi ((tree_leaf h hi).mpr hb)
        cases hui : u i with
        | none =>
          rw [hui] at hTi
          exact .inl ⟨hTi, term_unavailable D h hi hui hf⟩
        | some x =>
          rw [hui] at hTi
          simp only at hTi
          right
          have hpos : 0 < T i := by rw [hTi]; exact Real.exp_pos _
          have hlogT : Real.log (T i) = x / q := by rw [hTi, Real.log_exp]
          have hMi := (hTM i hi).resolve_left hpos.ne'
          rw [hlogT] at hMi
          have hxv : (uv i).v = .fin x := by rw [huv]; simp only; rw [D.util i hi, hui]; rfl
          have he : term t scaled uv i = FOps.exp (FOps.div (uv i) (parentScale t scaled i)) := by
            rw [hterm, termOf, if_pos hb]
          rw [he] at hf ⊢
          obtain ⟨h1, h2⟩ := leaf_log_err hR hε hε1 hexp hxv hq hq0 hq1 hM0 hM hMi hf
          refine ⟨hpos, h1, ?_⟩
          rw [hlogT, le_div_iff₀ hq0, mul_comm]
          refine h2.trans ?_
          have hH1 : (1 : ℝ) ≤ H := by
            have : 1 ≤ H := by omega
            exact_mod_cast this
          have : 1 * κ ≤ H * κ := mul_le_mul_of_nonneg_right hH1 hκ0
          have hn0 : (0 : ℝ) ≤ t.n := Nat.cast_nonneg _
          have hnu := mul_nonneg hn0 hu0.le
          have hκe : κ = (M + 40) * ε + (3 * M + 2 * t.n + 50) * uro := hκ
          have hκ2 : κ - ((M + 39) * ε + (3 * M + 46) * uro) = ε + 4 * uro + 2 * (t.n * uro) := by rw [hκe]; ring
          linarith
      · -- nest
        have hnl : ¬ (t.tree θ).Leaf i := fun hc => hb ((tree_leaf h hi).mp hc)
        have hTi := hspec.nest i hi hnl
        cases hui : u i with
        | none =>
          rw [hui] at hTi
          exact .inl ⟨hTi, term_unavailable D h hi hui hf⟩
        | some x =>
          rw [hui] at hTi
          simp only at hTi
          rw [tree_children h] at hTi
          have hbf : t.bottom i = false := by simpa using hb
          obtain ⟨S', hS', hS'0, hSz⟩ := nest_sum t h D.pos scaled uv i hi hbf hf
          have hchne : t.children i ≠ [] := by
            intro e
            apply hb
            rw [h.bottom i hi]
            intro j hj hp
            have : j ∈ t.children i := Flat.mem_children.mpr ⟨hj, hp⟩
            rw [e] at this; simp at this
          have hclen : (t.children i).length ≤ t.n := by
            unfold Flat.children
            exact (List.length_filter_le _ _).trans (by simp)
          obtain ⟨hscv, hθ0, hθ1⟩ := D.scale i hi
          set θc : ℝ := if scaled then θ i else 1 with hθc
          have hθc0 : 0 < θc := by rw [hθc]; split_ifs <;> linarith
          have hθle : θ i ≤ θc := by rw [hθc]; split_ifs <;> linarith
          obtain ⟨c0, hc0⟩ := List.exists_mem_of_ne_nil _ hchne
          have hσc : σ ≤ θc := by
            have := D.applied c0 (Flat.mem_children.mp hc0).1
            rwa [θp_child h θ hc0] at this
          -- the children
          have hH1 : 1 ≤ H ∧ ((H - 1 : ℕ) : ℝ) + 1 = H := by
            have : 1 ≤ H := by omega
            refine ⟨this, ?_⟩
            have : H - 1 + 1 = H := by omega
            exact_mod_cast this
          have hch : ∀ c ∈ t.children i, LogClose ((H - 1 : ℕ) * κ / θc) (T c) (term t scaled uv c).val := by
            intro c hc
            obtain ⟨hcn, -⟩ := Flat.mem_children.mp hc
            have hl := h.level_child hc
            have hlc := t.level_le_max c hcn
            have := ih (t.maxLevel - t.level c) (by omega) c hcn rfl (by omega)
            rw [θp_child h θ hc] at this
            have e : t.maxLevel + 1 - t.level c = H - 1 := by omega
            rwa [e] at this
          set δ : ℝ := (H - 1 : ℕ) * κ / θc with hδ
          have hgl := group_log hR (t.children i) hchne t.n hclen (term t scaled uv) T δ
            (fun c hc => hfin c (Flat.mem_children.mp hc).1 (by have := h.level_child hc; omega)) hch S' hS'
          have hT0 : ∀ c ∈ t.children i, 0 ≤ T c := fun c hc => (hch c hc).bounds.2.2.2
          have hk1 : ((H - 1 : ℕ) : ℝ) * κ ≤ σ / 5 := by
            refine le_trans (mul_le_mul_of_nonneg_right ?_ hκ0) hHd
            linarith [hH1.2]
          have hδ5 : δ ≤ 1 / 5 := by
            rw [hδ, div_le_iff₀ hθc0]
            linarith
          have hθδ : θ i * δ ≤ (H - 1 : ℕ) * κ := by
            rw [hδ, mul_div_assoc', div_le_iff₀ hθc0, mul_comm]
            exact mul_le_mul_of_nonneg_left hθle (mul_nonneg (Nat.cast_nonneg _) hκ0)
          have hnu : 2 * (t.n : ℝ) * uro ≤ 1 / 16 := by
            have : (t.n : ℝ) ≤ 2 ^ 48 := by exact_mod_cast hn
            calc 2 * (t.n : ℝ) * uro ≤ 2 * 2 ^ 48 * uro := mul_le_mul_of_nonneg_right (by linarith) hu0.le
              _ ≤ 1 / 16 := by unfold uro; norm_num
          rcases hgl with ⟨e1, e2⟩ | ⟨e1, e2, e3⟩
          · left
            refine ⟨?_, hSz e2⟩
            have hz : (0 : ℝ) ^ ((t.tree θ).θ i / (t.tree θ).θp scaled i) = 0 := Real.zero_rpow (div_pos hθ0 hq0).ne'
            rw [hTi, e1, hz, mul_zero]
          · right
            have hpos : 0 < T i := by rw [hTi]; exact mul_pos (Real.exp_pos _) (Real.rpow_pos_of_pos e1 _)
            have hlogT : Real.log (T i) = (x + θ i * Real.log ((t.children i).map T).sum) / q := by
              rw [hTi, Real.log_mul (Real.exp_pos _).ne' (Real.rpow_pos_of_pos e1 _).ne', Real.log_exp, Real.log_rpow e1]
              show x / q + θ i / q * _ = _
              ring
            have hMi := (hTM i hi).resolve_left hpos.ne'
            rw [hlogT] at hMi
            have hxv : (uv i).v = .fin x := by rw [huv]; simp only; rw [D.util i hi, hui]; rfl
            have hgr := group_range (t.children i) t.n hclen hn T M hT0 (fun c hc => hTM c (Flat.mem_children.mp hc).1) e1
            have hlS : |Real.log S'| ≤ M + 37 := by
              have e : Real.log S' = (Real.log S' - Real.log ((t.children i).map T).sum) + Real.log ((t.children i).map T).sum := by ring
              rw [e]
              refine (abs_add_le _ _).trans ?_
              linarith
            have hK : θ i * |Real.log S' - Real.log ((t.children i).map T).sum| ≤ (H - 1 : ℕ) * κ + 2 * t.n * uro := by
              have h1 := mul_le_mul_of_nonneg_left e3 hθ0.le
              have h2 : θ i * (2 * t.n * uro) ≤ 1 * (2 * t.n * uro) := mul_le_mul_of_nonneg_right hθ1 (by positivity)
              rw [mul_add] at h1
              linarith
            have hκe : κ = (M + 40) * ε + (3 * M + 2 * t.n + 50) * uro := hκ
            have hκ2 : κ - (2 * t.n * uro + (M + 39) * ε + (3 * M + 46) * uro) = ε + 4 * uro := by rw [hκe]; ring
            have hHκ : ((H - 1 : ℕ) : ℝ) * κ + κ = H * κ := by rw [← hH1.2]; ring
            have he : term t scaled uv i = FOps.exp (FOps.div (FOps.add (uv i) (FOps.mul (t.scale i) (FOps.log (childSum t scaled uv i))))
                (parentScale t scaled i)) := by
              rw [hterm, termOf, if_neg hb]
            rw [he] at hf ⊢
            obtain ⟨h1, h2⟩ := nest_log_err hR hε hε1 hexp hlog (K := (H - 1 : ℕ) * κ + 2 * t.n * uro) hxv hscv hS' hq hq0 hq1 hθ0 hθ1 e2 hM0 hM hMi
              hlS hK (by linarith) hf
            refine ⟨hpos, h1, ?_⟩
            rw [hlogT, le_div_iff₀ hq0, mul_comm]
            refine h2.trans ?_
            linarith
  exact key _ i hi rfl hiL

theorem _root_.Cheval.B64.LogClose.mono {δ Δ T y : ℝ} (h : LogClose δ T y) (hd : δ ≤ Δ) : LogClose Δ T y := by
  rcases h with h | ⟨h1, h2, h3⟩
  · exact .inl h
  · exact .inr ⟨h1, h2, h3.trans hd⟩

/-- the conditional probabilities of a group of siblings (or of the top-level nodes) -/
theorem cond_close (hR : R.rnd = B64.rnd) (l : List Nat) (n : Nat) (hl : l.length ≤ n) (hn : n ≤ 2 ^ 48) (f : Nat → Rnd R) (T : Nat → ℝ)
    (Δ : ℝ) (hΔ0 : 0 ≤ Δ) (hΔ : Δ ≤ 1 / 5) (hf : ∀ i ∈ l, (f i).FinNonneg) (hc : ∀ i ∈ l, LogClose Δ (T i) (f i).val) (S' : ℝ)
    (hS : (sumF (l.map f)).v = .fin S') (i : Nat) (hi : i ∈ l) (c : Rnd R)
    (hcv : c = if FOps.le (sumF (l.map f)) FOps.zero then FOps.zero else FOps.div (f i) (sumF (l.map f))) :
    0 ≤ T i / (l.map T).sum ∧ T i / (l.map T).sum ≤ 1 ∧ |c.val - T i / (l.map T).sum| ≤ 4 * Δ + (4 * n + 3) * uro := by
  have hu0 := uro_pos
  have hne : l ≠ [] := List.ne_nil_of_mem hi
  have hT0 : ∀ j ∈ l, 0 ≤ T j := fun j hj => (hc j hj).bounds.2.2.2
  have hle : T i ≤ (l.map T).sum := List.single_le_sum (by
    intro x hx; obtain ⟨j, hj, rfl⟩ := List.mem_map.mp hx; exact hT0 j hj) _ (List.mem_map_of_mem hi)
  have hG0 : 0 ≤ (l.map T).sum := (hT0 i hi).trans hle
  have hn0 : (0 : ℝ) ≤ n := Nat.cast_nonneg _
  have hnu : 2 * (n : ℝ) * uro ≤ 1 / 16 := by
    have : (n : ℝ) ≤ 2 ^ 48 := by exact_mod_cast hn
    calc 2 * (n : ℝ) * uro ≤ 2 * 2 ^ 48 * uro := mul_le_mul_of_nonneg_right (by linarith) hu0.le
      _ ≤ 1 / 16 := by unfold uro; norm_num
  have hnu0 := mul_nonneg hn0 hu0.le
  have hbd : 0 ≤ 4 * Δ + (4 * n + 3) * uro := by nlinarith
  refine ⟨div_nonneg (hT0 i hi) hG0, div_le_one_of_le₀ hle hG0, ?_⟩
  have hlec : FOps.le (sumF (l.map f)) (FOps.zero : Rnd R) = decide (S' ≤ 0) := by
    show XR.le (sumF (l.map f)).v (.fin 0) = _
    rw [hS]; rfl
  rcases group_log hR l hne n hl f T Δ hf hc S' hS with ⟨e1, e2⟩ | ⟨e1, e2, e3⟩
  · have : c.val = 0 := by rw [hcv, hlec, e2]; simp; rfl
    rw [this, e1, div_zero, sub_zero, abs_zero]; exact hbd
  · have hcd : c = FOps.div (f i) (sumF (l.map f)) := by rw [hcv, hlec]; simp [e2]
    have hv := rndX_div_fin (f i) (sumF (l.map f)) _ S' (hf i hi).v hS e2.ne'
    rw [← hcd, hR] at hv
    rcases hc i hi with ⟨z1, z2⟩ | ⟨p1, p2, p3⟩
    · rw [z2, zero_div] at hv
      have h0 : B64.rnd 0 = .fin 0 := by rw [← hR]; exact R.zero
      rw [h0] at hv
      rw [Rnd.val_fin hv, z1, zero_div, sub_zero, abs_zero]; exact hbd
    · have hr : 0 < (f i).val / S' := div_pos p2 e2
      have hcc : 0 < T i / (l.map T).sum := div_pos p1 e1
      have hlog : |Real.log ((f i).val / S') - Real.log (T i / (l.map T).sum)| ≤ 2 * Δ + 2 * n * uro := by
        rw [Real.log_div p2.ne' e2.ne', Real.log_div p1.ne' e1.ne']
        have e : Real.log (f i).val - Real.log S' - (Real.log (T i) - Real.log (l.map T).sum)
          = (Real.log (f i).val - Real.log (T i)) - (Real.log S' - Real.log (l.map T).sum) := by ring
        rw [e]
        refine (abs_sub _ _).trans ?_
        linarith
      have hnear := near_of_log hcc (div_le_one_of_le₀ hle hG0) hr (by linarith) hlog
      have hr2 : (f i).val / S' ≤ 2 := by
        have := (abs_le.mp hnear).2
        have := div_le_one_of_le₀ hle hG0
        linarith
      obtain ⟨y, hy1, hy2⟩ := rnd_bounded (x := (f i).val / S') (B := 2) (by rw [abs_of_pos hr]; exact hr2) (by norm_num)
      rw [hy1] at hv
      rw [Rnd.val_fin hv]
      have e : y - T i / (l.map T).sum = (y - (f i).val / S') + ((f i).val / S' - T i / (l.map T).sum) := by ring
      rw [e]
      refine (abs_add_le _ _).trans ?_
      linarith [eta_le_uro]

/-- **C72** In double precision, `exp` and `log` having relative error at most `ε <= 1/1000`: take a tree of `n <= 2^48` nodes and `d`
levels, with scales in `(0, 1]` of which those applied to utilities are at least `σ`, and utilities (finite or `-inf`) such that the exact
logsum terms of the available nodes lie between `exp(-M)` and `exp(M)`, `M <= 600`. If `d ((M+40) ε + (3M+2n+50) 2^-53) <= σ Δ` with
`Δ <= 1/5` and the returned logsum is finite, then every returned probability differs from the textbook probability of that elemental
choice (0 for a nest) by at most `d (4Δ + (4n+5) 2^-53)`; and the returned logsum is 0 if the exact one is, and otherwise has the exact
logarithm up to `Δ + 2n 2^-53`. -/
theorem C72_accuracy (hR : R.rnd = B64.rnd) {ε : ℝ} (hε : 0 ≤ ε) (hε1 : ε ≤ 1 / 1000) (hexp : ExpAcc R ε) (hlog : LogAcc R ε) (h : t.WF)
    (D : NestedData t θ scaled us u σ) (hσ : 0 < σ) (hn : t.n ≤ 2 ^ 48) {T P : Nat → ℝ} (hspec : (t.tree θ).IsNestedLogit scaled u T P) {M : ℝ}
    (hM0 : 0 ≤ M) (hM : M ≤ 600) (hTM : ∀ i < t.n, T i = 0 ∨ |Real.log (T i)| ≤ M) {Δ : ℝ} (hΔ : Δ ≤ 1 / 5)
    (hsmall : (t.maxLevel + 1) * ((M + 40) * ε + (3 * M + 2 * t.n + 50) * (1 / 2 ^ 53)) ≤ σ * Δ) (check : Bool)
    (ps : List (Rnd R)) (ls : Rnd R) (terms : List (Rnd R)) (hr : nested us t scaled check = .ok (ps, ls, terms)) (S : ℝ) (hS : ls.v = .fin S) :
    (∀ i, ∀ hi : i < ps.length,
      ((t.tree θ).Leaf i → |ps[i].val - P i| ≤ (t.maxLevel + 1) * (4 * Δ + (4 * t.n + 5) * (1 / 2 ^ 53))) ∧
      (¬ (t.tree θ).Leaf i → ps[i].val = 0)) ∧
    (∑ j ∈ (t.tree θ).tops, T j = 0 → S = 0) ∧
    (0 < ∑ j ∈ (t.tree θ).tops, T j → 0 < S ∧ |Real.log S - Real.log (∑ j ∈ (t.tree θ).tops, T j)| ≤ Δ + 2 * t.n * (1 / 2 ^ 53)) := by
  have huro : (1 : ℝ) / 2 ^ 53 = uro := rfl
  have hu0 := uro_pos
  rw [huro] at hsmall ⊢
  rw [nested_eq h] at hr
  simp only at hr
  split at hr
  · cases hr
  simp only [Except.ok.injEq, Prod.mk.injEq] at hr
  obtain ⟨rfl, rfl, -⟩ := hr
  set uv : Nat → Rnd R := fun i => us.getD i zero with huv
  have hT := terms_fin hR t h D.pos scaled uv S hS
  have hn0 : (0 : ℝ) ≤ t.n := Nat.cast_nonneg _
  have hκ0 : 0 ≤ nodeErr t.n M ε := by
    unfold nodeErr
    have := mul_nonneg hM0 hε
    have := mul_nonneg hM0 hu0.le
    have := mul_nonneg hn0 hu0.le
    nlinarith
  have hd0 : (0 : ℝ) ≤ t.maxLevel := Nat.cast_nonneg _
  have hsm : (t.maxLevel + 1) * nodeErr t.n M ε ≤ σ * Δ := hsmall
  have hΔ0 : 0 ≤ Δ := by
    have h1 : 0 ≤ σ * Δ := (mul_nonneg (by linarith) hκ0).trans hsm
    exact nonneg_of_mul_nonneg_right h1 hσ
  have hclose : ∀ i < t.n, LogClose Δ (T i) (term t scaled uv i).val := by
    intro i hi
    refine (terms_close hR hε hε1 hexp hlog h D hσ hn hspec hM0 hM hTM 0 (fun i hi _ => hT i hi) (by nlinarith) i hi (Nat.zero_le _)).mono ?_
    obtain ⟨-, hq0, -⟩ := D.parentScale h hi
    rw [div_le_iff₀ hq0]
    have h1 : ((t.maxLevel + 1 - t.level i : ℕ) : ℝ) ≤ t.maxLevel + 1 := by
      have : t.maxLevel + 1 - t.level i ≤ t.maxLevel + 1 := Nat.sub_le _ _
      exact_mod_cast this
    have h2 := mul_le_mul_of_nonneg_right h1 hκ0
    have h3 := mul_le_mul_of_nonneg_right (D.applied i hi) hΔ0
    linarith
  set c := condP t scaled uv with hc
  have hflen : ∀ q : Nat → Bool, ((List.range t.n).filter q).length ≤ t.n := fun q => (List.length_filter_le _ _).trans (by simp)
  have hn50 : t.n ≤ 2 ^ 50 := hn.trans (by norm_num)
  have hctop : ∀ i ∈ t.tops, condP t scaled uv i = if FOps.le (sumF (t.tops.map (term t scaled uv))) FOps.zero then FOps.zero
      else FOps.div (term t scaled uv i) (sumF (t.tops.map (term t scaled uv))) := by
    intro i hi
    unfold condP
    simp only [(Flat.mem_tops.mp hi).2, if_true]
    rfl
  have hcch : ∀ p, ∀ i ∈ t.children p, condP t scaled uv i = if FOps.le (sumF ((t.children p).map (term t scaled uv))) FOps.zero then FOps.zero
      else FOps.div (term t scaled uv i) (sumF ((t.children p).map (term t scaled uv))) := by
    intro p i hi
    have hpar := (Flat.mem_children.mp hi).2
    unfold condP
    have hne : ¬ t.parent i = -1 := by omega
    have htn : (t.parent i).toNat = p := by omega
    simp only [hne, if_false, htn]
    rfl
  have htne : t.tops ≠ [] := by
    obtain ⟨i, hi⟩ : ∃ i < t.n, t.parent i = -1 := h.exists_top
    exact List.ne_nil_of_mem (Flat.mem_tops.mpr hi)
  have hbot : ∀ p < t.n, t.children p ≠ [] → t.bottom p = false := by
    intro p hp hne
    by_contra hb
    rw [Bool.not_eq_false, h.bottom p hp] at hb
    obtain ⟨i, hi⟩ := List.exists_mem_of_ne_nil _ hne
    exact hb i (Flat.mem_children.mp hi).1 (Flat.mem_children.mp hi).2
  set B : ℝ := 4 * Δ + (4 * t.n + 3) * uro with hB
  have hB0 : 0 ≤ B := by rw [hB]; nlinarith [mul_nonneg hn0 hu0.le]
  -- the exact conditional probabilities
  set C : Nat → ℝ := fun i => if t.parent i = -1 then T i / (t.tops.map T).sum else T i / ((t.children (t.parent i).toNat).map T).sum with hC
  have hcu : ∀ i < t.n, (c i).FinNonneg ∧ (c i).val ≤ 1 ∧ 0 ≤ C i ∧ C i ≤ 1 ∧ |(c i).val - C i| ≤ B := by
    intro i hi
    rcases h.node i hi with ⟨h1, _⟩ | ⟨p, hp, h1, _⟩
    · have hm : i ∈ t.tops := Flat.mem_tops.mpr ⟨hi, h1⟩
      have hCi : C i = T i / (t.tops.map T).sum := by simp only [hC, h1, if_true]
      obtain ⟨g1, -, -⟩ := cond_group hR t h scaled uv hT t.tops htne (fun i hi => (Flat.mem_tops.mp hi).1) ((hflen _).trans hn50) S hS hctop
      have := cond_close hR t.tops t.n (hflen _) hn (term t scaled uv) T Δ hΔ0 hΔ (fun j hj => hT j (Flat.mem_tops.mp hj).1)
        (fun j hj => hclose j (Flat.mem_tops.mp hj).1) S hS i hm (c i) (hctop i hm)
      rw [hCi]
      exact ⟨(g1 i hm).1, (g1 i hm).2, this⟩
    · have hm : i ∈ t.children p := Flat.mem_children.mpr ⟨hi, h1⟩
      have hCi : C i = T i / ((t.children p).map T).sum := by
        have hne : ¬ t.parent i = -1 := by omega
        have htn : (t.parent i).toNat = p := by omega
        simp only [hC, hne, if_false, htn]
      have hne := List.ne_nil_of_mem hm
      obtain ⟨S', hS', -, -⟩ := nest_sum t h D.pos scaled uv p hp (hbot p hp hne) (hT p hp)
      obtain ⟨g1, -, -⟩ := cond_group hR t h scaled uv hT (t.children p) hne (fun i hi => (Flat.mem_children.mp hi).1) ((hflen _).trans hn50) S' hS' (hcch p)
      have := cond_close hR (t.children p) t.n (hflen _) hn (term t scaled uv) T Δ hΔ0 hΔ (fun j hj => hT j (Flat.mem_children.mp hj).1)
        (fun j hj => hclose j (Flat.mem_children.mp hj).1) S' hS' i hm (c i) (hcch p i hm)
      rw [hCi]
      exact ⟨(g1 i hm).1, (g1 i hm).2, this⟩
  -- absolute probabilities
  have ha : ∀ d i, i < t.n → t.level i = d → (absP t c i).FinNonneg ∧ (absP t c i).val ≤ 1 ∧ 0 ≤ P i ∧ P i ≤ 1 ∧
      |(absP t c i).val - P i| ≤ (d + 1) * (B + 2 * uro) := by
    intro d
    induction d with
    | zero =>
      intro i hi hd
      rcases h.node i hi with ⟨h1, _⟩ | ⟨p, _, _, h2⟩
      · rw [(absP_eq h c i hi).1 h1]
        obtain ⟨q1, q2, q3, q4, q5⟩ := hcu i hi
        have hP : P i = C i := by
          rw [hspec.top i hi (by simp [Flat.tree, h1]), tree_tops]
          simp only [hC, h1, if_true]
        rw [hP]
        refine ⟨q1, q2, q3, q4, q5.trans ?_⟩
        push_cast; linarith
      · omega
    | succ d ih =>
      intro i hi hd
      rcases h.node i hi with ⟨_, h2⟩ | ⟨p, hp, h1, h2⟩
      · omega
      · rw [(absP_eq h c i hi).2 p h1]
        obtain ⟨hp1, hp2, hp3, hp4, hp5⟩ := ih p hp (by omega)
        obtain ⟨hc1, hc2, hc3, hc4, hc5⟩ := hcu i hi
        have hP : P i = C i * P p := by
          have hne : ¬ t.parent i = -1 := by omega
          have htn : (t.parent i).toNat = p := by omega
          rw [hspec.child i hi p (by simp [Flat.tree, hne, htn]), tree_children h]
          simp only [hC, hne, if_false, htn]
        obtain ⟨m1, m2, -⟩ := mul_unit_err hR _ _ hc1 hc2 hp1 hp2
        refine ⟨m1.1, m1.2, by rw [hP]; exact mul_nonneg hc3 hp3, by rw [hP]; exact mul_le_one₀ hc4 hp3 hp4, ?_⟩
        rw [hP]
        have h0 : (c i).val * (absP t c p).val ≤ 1 := mul_le_one₀ hc2 hp1.nonneg hp2
        have e : (FOps.mul (c i) (absP t c p)).val - C i * P p = ((FOps.mul (c i) (absP t c p)).val - (c i).val * (absP t c p).val)
          + (c i).val * ((absP t c p).val - P p) + ((c i).val - C i) * P p := by ring
        rw [e]
        refine (abs_add_three _ _ _).trans ?_
        rw [abs_mul, abs_mul, abs_of_nonneg hc1.nonneg, abs_of_nonneg hp3]
        have k1 : (c i).val * |(absP t c p).val - P p| ≤ 1 * ((d + 1) * (B + 2 * uro)) := mul_le_mul hc2 hp5 (abs_nonneg _) zero_le_one
        have k2 : |(c i).val - C i| * P p ≤ B * 1 := mul_le_mul hc5 hp4 hp3 hB0
        have k3 := mul_le_mul_of_nonneg_left h0 hu0.le
        push_cast
        linarith [eta_le_uro]
  refine ⟨?_, ?_⟩
  · intro i hi
    have hin : i < t.n := by simpa [arr] using hi
    have hget : (arr t.n (fun i => if ∃ j < t.n, t.parent j = (i : Int) then zero else absP t c i))[i] =
      if ∃ j < t.n, t.parent j = (i : Int) then zero else absP t c i := by simp [arr]
    rw [hget]
    have hleaf : (t.tree θ).Leaf i ↔ ¬ ∃ j < t.n, t.parent j = (i : Int) := by
      rw [tree_leaf h hin, h.bottom i hin]; push Not; rfl
    constructor
    · intro hl
      rw [if_neg (hleaf.mp hl)]
      obtain ⟨-, -, -, -, q⟩ := ha _ i hin rfl
      refine q.trans ?_
      have hlv : ((t.level i : ℕ) : ℝ) ≤ t.maxLevel := by exact_mod_cast t.level_le_max i hin
      have e : 4 * Δ + (4 * t.n + 5) * uro = B + 2 * uro := by rw [hB]; ring
      rw [e]
      exact mul_le_mul_of_nonneg_right (by linarith) (by linarith)
    · intro hl
      rw [if_pos (by by_contra hcn; exact hl (hleaf.mpr hcn))]
      rfl
  · have := group_log hR t.tops htne t.n (hflen _) (term t scaled uv) T Δ (fun j hj => hT j (Flat.mem_tops.mp hj).1)
        (fun j hj => hclose j (Flat.mem_tops.mp hj).1) S hS
    rw [tree_tops]
    rcases this with ⟨e1, e2⟩ | ⟨e1, e2, e3⟩
    · exact ⟨fun _ => e2, fun hp => absurd e1 hp.ne'⟩
    · exact ⟨fun hz => absurd hz e1.ne', fun _ => ⟨e2, e3⟩⟩

/-- **C72 (size of the terms)** the bound `M` of C72 from a bound on the utilities: if every finite utility is at most `B` in absolute
value, the exact terms of the available nodes lie between `exp(-M)` and `exp(M)` for `M = d (B + 34) / σ`. -/
theorem C72_terms_bounded (h : t.WF) (D : NestedData t θ scaled us u σ) (hσ : 0 < σ) (hn : t.n ≤ 2 ^ 48) {T P : Nat → ℝ}
    (hspec : (t.tree θ).IsNestedLogit scaled u T P) {B : ℝ} (hB : 0 ≤ B) (hu : ∀ i < t.n, ∀ x, u i = some x → |x| ≤ B) (i : Nat) (hi : i < t.n) :
    T i = 0 ∨ |Real.log (T i)| ≤ (t.maxLevel + 1) * (B + 34) / σ := by
  have hB34 : 0 ≤ B + 34 := by linarith
  have key : ∀ k, ∀ i < t.n, t.maxLevel - t.level i = k →
      0 ≤ T i ∧ (T i = 0 ∨ |Real.log (T i)| ≤ (t.maxLevel + 1 - t.level i : ℕ) * (B + 34) / (t.tree θ).θp scaled i) := by
    intro k
    induction k using Nat.strong_induction_on with
    | _ k ih =>
      intro i hi hk
      obtain ⟨-, hq0, hq1⟩ := D.parentScale h hi
      set q := (t.tree θ).θp scaled i with hqd
      have hlm := t.level_le_max i hi
      set H := t.maxLevel + 1 - t.level i with hH
      have hH1 : (1 : ℝ) ≤ H := by exact_mod_cast (show 1 ≤ H by omega)
      cases hui : u i with
      | none =>
        have : T i = 0 := by
          by_cases hb : (t.tree θ).Leaf i
          · rw [hspec.leaf i hi hb, hui]
          · rw [hspec.nest i hi hb, hui]
        exact ⟨this.ge, .inl this⟩
      | some x =>
        have hx := hu i hi x hui
        by_cases hb : (t.tree θ).Leaf i
        · have e : T i = Real.exp (x / q) := by rw [hspec.leaf i hi hb, hui]
          rw [e]
          refine ⟨(Real.exp_pos _).le, .inr ?_⟩
          rw [Real.log_exp, abs_div, abs_of_pos hq0]
          refine div_le_div_of_nonneg_right ?_ hq0.le
          nlinarith
        · have e : T i = Real.exp (x / q) * (((t.children i).map T).sum) ^ (θ i / q) := by
            rw [hspec.nest i hi hb, hui, tree_children h]; rfl
          obtain ⟨-, hθ0, hθ1⟩ := D.scale i hi
          set θc : ℝ := if scaled then θ i else 1 with hθc
          have hθc0 : 0 < θc := by rw [hθc]; split_ifs <;> linarith
          have hθle : θ i ≤ θc := by rw [hθc]; split_ifs <;> linarith
          have hch : ∀ c ∈ t.children i, 0 ≤ T c ∧ (T c = 0 ∨ |Real.log (T c)| ≤ (H - 1 : ℕ) * (B + 34) / θc) := by
            intro c hc
            obtain ⟨hcn, -⟩ := Flat.mem_children.mp hc
            have hl := h.level_child hc
            have hlc := t.level_le_max c hcn
            have := ih (t.maxLevel - t.level c) (by omega) c hcn rfl
            rw [θp_child h θ hc] at this
            have e : t.maxLevel + 1 - t.level c = H - 1 := by omega
            rwa [e] at this
          have hclen : (t.children i).length ≤ t.n := (List.length_filter_le _ _).trans (by simp)
          have hG0 : 0 ≤ ((t.children i).map T).sum := List.sum_nonneg (by
            intro y hy; obtain ⟨c, hc, rfl⟩ := List.mem_map.mp hy; exact (hch c hc).1)
          rcases hG0.eq_or_lt with hz | hG
          · have : T i = 0 := by rw [e, ← hz, Real.zero_rpow (div_pos hθ0 hq0).ne', mul_zero]
            exact ⟨this.ge, .inl this⟩
          · have hgr := group_range (t.children i) t.n hclen hn T _ (fun c hc => (hch c hc).1) (fun c hc => (hch c hc).2) hG
            have hpos : 0 < T i := by rw [e]; exact mul_pos (Real.exp_pos _) (Real.rpow_pos_of_pos hG _)
            refine ⟨hpos.le, .inr ?_⟩
            have hlogT : Real.log (T i) = (x + θ i * Real.log ((t.children i).map T).sum) / q := by
              rw [e, Real.log_mul (Real.exp_pos _).ne' (Real.rpow_pos_of_pos hG _).ne', Real.log_exp, Real.log_rpow hG]
              ring
            rw [hlogT, abs_div, abs_of_pos hq0]
            refine div_le_div_of_nonneg_right ?_ hq0.le
            refine (abs_add_le _ _).trans ?_
            rw [abs_mul, abs_of_pos hθ0]
            have h1 := mul_le_mul_of_nonneg_left hgr hθ0.le
            have hK : 0 ≤ ((H - 1 : ℕ) : ℝ) * (B + 34) := mul_nonneg (Nat.cast_nonneg _) hB34
            have h2 : θ i * ((H - 1 : ℕ) * (B + 34) / θc) ≤ (H - 1 : ℕ) * (B + 34) := by
              rw [mul_div_assoc', div_le_iff₀ hθc0, mul_comm]
              exact mul_le_mul_of_nonneg_left hθle hK
            have h3 : ((H - 1 : ℕ) : ℝ) + 1 = H := by
              have : H - 1 + 1 = H := by omega
              exact_mod_cast this
            have h4 : (H : ℝ) * (B + 34) = (H - 1 : ℕ) * (B + 34) + (B + 34) := by rw [← h3]; ring
            rw [h4]
            rw [mul_add] at h1
            linarith
  obtain ⟨-, h1⟩ := key _ i hi rfl
  refine h1.imp_right fun h1 => h1.trans ?_
  obtain ⟨-, hq0, -⟩ := D.parentScale h hi
  have h2 : ((t.maxLevel + 1 - t.level i : ℕ) : ℝ) ≤ t.maxLevel + 1 := by
    have : t.maxLevel + 1 - t.level i ≤ t.maxLevel + 1 := Nat.sub_le _ _
    exact_mod_cast this
  refine div_le_div₀ (mul_nonneg ?_ hB34) (mul_le_mul_of_nonneg_right h2 hB34) hσ (D.applied i hi)
  positivity

end tree

/-- correctly rounded logarithms are accurate -/
theorem logAcc_R64 : LogAcc R64 (1 / 2 ^ 53) := by
  intro x hx hl
  obtain ⟨y, h1, h2⟩ := rnd_signed (x := Real.log x) (hl.trans (by
    calc (1000 : ℝ) ≤ 2 ^ 11 := by norm_num
      _ ≤ 2 ^ 1000 := pow_le_pow_right₀ (by norm_num) (by norm_num)))
  refine ⟨y, h1, h2.trans ?_⟩
  have e : eta ≤ 1 / 2 ^ 1074 := by
    unfold eta
    calc (2 : ℝ) ^ (-1075 : ℤ) ≤ 2 ^ (-1074 : ℤ) := zpow_le_zpow_right₀ (by norm_num) (by norm_num)
      _ = _ := by rw [zpow_neg, one_div]; norm_cast
  unfold uro
  linarith

/-- **C72, with correctly rounded `exp` and `log`** Utilities at most `B` in absolute value (or `-inf`), `d` levels, applied scales at least
`σ`, `n` nodes, `d (B + 34) <= 600 σ` and `d (2n + 2500) <= 2^48 σ`: every probability returned by the nested logit is within
`d (4 d (4 M + 2 n + 90) / σ + 4 n + 5) / 2^53` of the textbook probability, where `M = d (B + 34) / σ`. -/
theorem C72_correctly_rounded {t : Flat F64} {θ : Nat → ℝ} {scaled : Bool} {us : List F64} {u : Nat → Util} {σ : ℝ} (h : t.WF)
    (D : NestedData t θ scaled us u σ) (hσ : 0 < σ) {T P : Nat → ℝ} (hspec : (t.tree θ).IsNestedLogit scaled u T P) {B : ℝ} (hB : 0 ≤ B)
    (hu : ∀ i < t.n, ∀ x, u i = some x → |x| ≤ B) (hbig : (t.maxLevel + 1) * (B + 34) ≤ 600 * σ)
    (hn : (t.maxLevel + 1) * (2 * t.n + 2500) ≤ 2 ^ 48 * σ) (check : Bool)
    (ps : List F64) (ls : F64) (terms : List F64) (hr : nested us t scaled check = .ok (ps, ls, terms)) (S : ℝ) (hS : ls.v = .fin S)
    (i : Nat) (hi : i < ps.length) (hl : (t.tree θ).Leaf i) :
    |ps[i].val - P i| ≤ (t.maxLevel + 1) * (4 * ((t.maxLevel + 1) * (4 * ((t.maxLevel + 1) * (B + 34) / σ) + 2 * t.n + 90) / σ) + (4 * t.n + 5)) * (1 / 2 ^ 53) := by
  set d : ℝ := (t.maxLevel : ℝ) + 1 with hd
  have hd1 : 1 ≤ d := by rw [hd]; linarith [(Nat.cast_nonneg t.maxLevel : (0 : ℝ) ≤ t.maxLevel)]
  set M : ℝ := d * (B + 34) / σ with hM
  have hM0 : 0 ≤ M := div_nonneg (mul_nonneg (by linarith) (by linarith)) hσ.le
  have hM6 : M ≤ 600 := by rw [hM, div_le_iff₀ hσ]; exact hbig
  have hσ1 : σ ≤ 1 := by
    obtain ⟨i, hi, hp⟩ := h.exists_top
    have := D.applied i hi
    simpa [Tree.θp, Flat.tree, hp] using this
  have hn0 : (0 : ℝ) ≤ t.n := Nat.cast_nonneg _
  have hn48 : t.n ≤ 2 ^ 48 := by
    have h1 : (2 * t.n + 2500 : ℝ) ≤ d * (2 * t.n + 2500) := le_mul_of_one_le_left (by linarith) hd1
    have h3 : (t.n : ℝ) ≤ (281474976710656 : ℕ) := by push_cast; norm_num at hn; linarith
    exact_mod_cast h3
  have hk : d * (4 * M + 2 * t.n + 90) ≤ 2 ^ 48 * σ := by
    refine le_trans (mul_le_mul_of_nonneg_left ?_ (by linarith)) hn
    linarith
  set Δ : ℝ := d * (4 * M + 2 * t.n + 90) / σ * (1 / 2 ^ 53) with hΔ
  have hΔ5 : Δ ≤ 1 / 5 := by
    have : d * (4 * M + 2 * t.n + 90) / σ ≤ 2 ^ 48 := by rw [div_le_iff₀ hσ]; exact hk
    rw [hΔ]
    norm_num at this ⊢
    linarith
  obtain ⟨h1, -⟩ := C72_accuracy (R := R64) rfl (ε := 1 / 2 ^ 53) (by positivity) (by norm_num) expAcc_R64 logAcc_R64 h D hσ hn48 hspec hM0 hM6
    (C72_terms_bounded h D hσ hn48 hspec hB hu) hΔ5 (by
      rw [hΔ]
      have : σ * (d * (4 * M + 2 * t.n + 90) / σ * (1 / 2 ^ 53)) = d * (4 * M + 2 * t.n + 90) * (1 / 2 ^ 53) := by field_simp
      rw [this]
      apply le_of_eq
      rw [hd]; ring) check ps ls terms hr S hS
  refine ((h1 i hi).1 hl).trans (le_of_eq ?_)
  rw [hΔ, ← hd]
  ring

/-! ### A concrete case: the tree of RoundedNested with an unavailable choice in the nest -/

/-- the exact terms and probabilities of `nestEx` with the utilities `0, 0, 0, -inf` -/
noncomputable def nxT (i : Nat) : ℝ := if i = 3 then 0 else 1
noncomputable def nxP (i : Nat) : ℝ := if i = 3 then 0 else 1 / 2
def nxU (i : Nat) : Util := if i = 3 then none else some 0

theorem nestEx_data : NestedData nestEx (fun _ => 1) true [FOps.zero, FOps.zero, FOps.zero, FOps.negInf] nxU 1 where
  scale := fun i _ => ⟨rfl, one_pos, le_refl _⟩
  util := by
    intro i hi
    have hi : i < 4 := hi
    interval_cases i <;> rfl
  applied := by
    intro i hi
    have hi : i < 4 := hi
    interval_cases i <;> simp [Tree.θp, Flat.tree, nestEx]

theorem nestEx_spec : (nestEx.tree fun _ => 1).IsNestedLogit true nxU nxT nxP := by
  have hp : ∀ i < 4, (nestEx.tree fun _ => (1 : ℝ)).parent i = if i = 1 ∨ i = 3 then some 0 else none := by
    intro i hi
    interval_cases i <;> simp [Flat.tree, nestEx]
  have hθp : ∀ i < 4, (nestEx.tree fun _ => (1 : ℝ)).θp true i = 1 := by
    intro i hi
    interval_cases i <;> simp [Tree.θp, Flat.tree, nestEx]
  have hch : nestEx.children 0 = [1, 3] := by decide
  have htp : nestEx.tops = [0, 2] := by decide
  have hs : ∑ j ∈ (nestEx.tree fun _ => (1 : ℝ)).children 0, nxT j = 1 := by
    rw [tree_children nestEx_wf, hch]; simp [nxT]
  have ht : ∑ j ∈ (nestEx.tree fun _ => (1 : ℝ)).tops, nxT j = 2 := by
    rw [tree_tops, htp]; simp [nxT]; norm_num
  refine ⟨?_, ?_, ?_, ?_⟩
  · intro i hi hl
    have hi : i < 4 := hi
    rw [hθp i hi]
    interval_cases i <;> simp [nxT, nxU]
  · intro i hi hl
    have hi : i < 4 := hi
    have h0 : i = 0 := by
      by_contra h0
      exact hl ((tree_leaf nestEx_wf hi).mpr (by simp [nestEx, h0]))
    subst h0
    rw [hs, hθp 0 hi]
    simp [nxT, nxU]
  · intro i hi hpar
    have hi : i < 4 := hi
    rw [hp i hi] at hpar
    rw [ht]
    interval_cases i <;> simp_all [nxT, nxP]
  · intro i hi p hpar
    have hi : i < 4 := hi
    rw [hp i hi] at hpar
    have : p = 0 ∧ (i = 1 ∨ i = 3) := by
      by_cases hc : i = 1 ∨ i = 3
      · simp [hc] at hpar; exact ⟨hpar.symm, hc⟩
      · simp [hc] at hpar
    obtain ⟨rfl, h1 | h1⟩ := this <;> subst h1 <;> rw [hs] <;> simp [nxT, nxP]

/-- all hypotheses of C72 hold for this tree, whose exact probabilities are 1/2, 1/2 and 0: the returned ones are within 7200 / 2^53 -/
theorem nestEx_accuracy : ∃ (ps : List F64) (ls : F64) (terms : List F64),
    nested [FOps.zero, FOps.zero, FOps.zero, FOps.negInf] nestEx true true = .ok (ps, ls, terms) ∧
    ∀ i, ∀ hi : i < ps.length, i ≠ 0 → i < 4 → |ps[i].val - if i = 3 then 0 else 1 / 2| ≤ 7200 * (1 / 2 ^ 53) := by
  obtain ⟨ps, ls, terms, hr, hl, -⟩ := nestEx_run
  refine ⟨ps, ls, terms, hr, fun i hi h0 h4 => ?_⟩
  have hm : nestEx.maxLevel = 1 := by decide
  have hleaf : (nestEx.tree fun _ => (1 : ℝ)).Leaf i := (tree_leaf nestEx_wf h4).mpr (by simp [nestEx, h0])
  have := C72_correctly_rounded nestEx_wf nestEx_data one_pos nestEx_spec (B := 0) (le_refl _) (by
    intro i _ x hx
    unfold nxU at hx
    split_ifs at hx
    cases hx
    simp) (by rw [hm]; norm_num) (by rw [hm]; simp [nestEx]; norm_num) true ps ls terms hr 2 hl i hi hleaf
  rw [hm] at this
  refine this.trans ?_
  simp only [nestEx]
  norm_num

end Cheval
