import Verif.Props.RoundedDraws
import Verif.Core.NestedLemmas
import Verif.Core.NestedExact

/-!
# C60: nested logit probabilities in double precision sum to one
-/
namespace Cheval
open FOps B64
variable {R : Rounding}

/-- quotients by the rounded total of non-negative numbers, in double precision -/
theorem shares_rounded (hR : R.rnd = B64.rnd) (ws : List (Rnd R)) (hne : ws ≠ []) (hws : ∀ w ∈ ws, w.FinNonneg) (S : ℝ)
    (hS : (sumF ws).v = .fin S) (hpos : 0 < S) (hn : ws.length ≤ 2 ^ 50) :
    (∀ w ∈ ws, (FOps.div w (sumF ws)).FinNonneg ∧ (FOps.div w (sumF ws)).val ≤ 1) ∧
    |(ws.map fun w => (FOps.div w (sumF ws)).val).sum - 1| ≤ ws.length * (1 / 2 ^ 52) := by
  have hnn : ∀ w ∈ ws, FOps.le (FOps.zero : Rnd R) w = true := by
    intro w hw
    show XR.le (.fin 0) w.v = true
    rw [(hws w hw).v]; simpa [XR.le] using (hws w hw).nonneg
  obtain ⟨-, h2, h3⟩ := sumF_acc hR ws hne (fun w hw => Or.inl (hnn w hw)) S hS
  have hq : ∀ w ∈ ws, ((FOps.div w (sumF ws)).FinNonneg ∧ (FOps.div w (sumF ws)).val ≤ 1) ∧
      |(FOps.div w (sumF ws)).val - w.val / S| ≤ uro * (w.val / S) + eta := by
    intro w hw
    have hunit := FLaws.div_unit w (sumF ws) (hnn w hw)
      (le_foldl_add_of_mem _ _ (FLaws.le_refl _ FLaws.zero_notNan) hnn _ hw)
      (by show XR.lt (.fin 0) (sumF ws).v = true; rw [hS]; simpa [XR.lt] using hpos)
      (by show XR.lt (sumF ws).v .pinf = true; rw [hS]; rfl)
    have h0 : XR.le (.fin 0) (FOps.div w (sumF ws)).v = true := hunit.1
    have h1 : XR.le (FOps.div w (sumF ws)).v (.fin 1) = true := hunit.2
    have hfn : (FOps.div w (sumF ws)).FinNonneg := by
      rcases XR.nonneg_cases h0 with e | ⟨x, e, hx⟩
      · rw [e] at h1; simp [XR.le] at h1
      · exact ⟨x, e, hx⟩
    refine ⟨⟨hfn, ?_⟩, ?_⟩
    · rw [hfn.v] at h1; simpa [XR.le] using h1
    · have hv := rndX_div_fin w (sumF ws) _ S (hws w hw).v hS hpos.ne'
      rw [hfn.v, hR] at hv
      exact rnd_err (div_nonneg (hws w hw).nonneg hpos.le) hv.symm
  refine ⟨fun w hw => (hq w hw).1, ?_⟩
  have hl : 1 ≤ ws.length := by
    rcases ws with _ | ⟨a, ws⟩
    · exact absurd rfl hne
    · simp
  have hs := sum_abs_le ws (fun w => (FOps.div w (sumF ws)).val) (fun w => w.val / S) _ fun w hw => (hq w hw).2
  have e1 : (ws.map fun w => w.val / S).sum = (ws.map Rnd.val).sum / S := by
    rw [← sum_map_div, List.map_map]; rfl
  have e2 : (ws.map fun w => uro * (w.val / S) + eta).sum = uro * ((ws.map Rnd.val).sum / S) + ws.length * eta := by
    rw [List.sum_map_add, List.sum_map_mul_left, e1]; simp
  rw [e1, e2] at hs
  have hk : ((ws.length - 1 : ℕ) : ℝ) + 1 = ws.length := by
    have : ws.length - 1 + 1 = ws.length := by omega
    exact_mod_cast this
  have hk4 : ((ws.length - 1 : ℕ) : ℝ) * uro ≤ 1 / 4 := by
    have : ((ws.length - 1 : ℕ) : ℝ) ≤ 2 ^ 50 := by exact_mod_cast (Nat.sub_le _ _).trans hn
    calc _ ≤ 2 ^ 50 * uro := mul_le_mul_of_nonneg_right this uro_pos.le
      _ ≤ 1 / 4 := by unfold uro; norm_num
  have := shares_sum uro eta uro_pos eta_pos.le (ws.length - 1) _ S _ ws.length hpos h2 h3 hk4 hs (eta_small _ hn) (by unfold uro; norm_num)
  rw [hk] at this
  refine this.trans (le_of_eq ?_)
  unfold uro
  norm_num
  ring

/-- every scale is a finite positive number -/
def PosScales (t : Flat (Rnd R)) : Prop := ∀ i < t.n, ∃ s : ℝ, (t.scale i).v = .fin s ∧ 0 < s

theorem parentScale_pos (t : Flat (Rnd R)) (h : t.WF) (hs : PosScales t) (scaled : Bool) (i : Nat) (hi : i < t.n) :
    ∃ s : ℝ, (parentScale t scaled i).v = .fin s ∧ 0 < s := by
  unfold parentScale
  split_ifs with hc
  · exact ⟨1, rfl, one_pos⟩
  · rcases h.node i hi with ⟨h1, _⟩ | ⟨p, hp, h1, _⟩
    · simp [h1] at hc
    · rw [h1]; exact hs p hp

theorem term_nonneg_or_nan (t : Flat (Rnd R)) (h : t.WF) (scaled : Bool) (u : Nat → Rnd R) (i : Nat) (hi : i < t.n) :
    XR.le (.fin 0) (term t scaled u i).v = true ∨ (term t scaled u i).v = .nan := by
  rw [term_eq h scaled u i hi]
  unfold termOf
  split_ifs <;> exact exp_nonneg_or_nan _

/-- a sum of terms is not negative, infinite or NaN -/
theorem sum_nonneg_or_nan (ws : List (Rnd R)) (hws : ∀ w ∈ ws, XR.le (.fin 0) w.v = true ∨ w.v = .nan) :
    XR.le (.fin 0) (sumF ws).v = true ∨ (sumF ws).v = .nan := by
  have key : ∀ (ws : List (Rnd R)) (c : Rnd R), (XR.le (.fin 0) c.v = true ∨ c.v = .nan) →
      (∀ w ∈ ws, XR.le (.fin 0) w.v = true ∨ w.v = .nan) →
      XR.le (.fin 0) (ws.foldl FOps.add c).v = true ∨ (ws.foldl FOps.add c).v = .nan := by
    intro ws
    induction ws with
    | nil => intro c hc _; exact hc
    | cons w ws ih =>
      intro c hc hw
      refine ih _ ?_ fun x hx => hw x (List.mem_cons_of_mem _ hx)
      rcases hc with hc | hc
      · rcases hw w (List.mem_cons_self ..) with hw | hw
        · left; exact FLaws.le_trans (FOps.zero : Rnd R) c _ hc (FLaws.le_add c w hc hw)
        · right
          show R.rndX (XR.add c.v w.v) = _
          rw [hw]; cases c.v <;> rfl
      · right
        show R.rndX (XR.add c.v w.v) = _
        rw [hc]; rfl
  exact key ws _ (Or.inl (by show XR.le (.fin 0) (.fin 0) = true; simp [XR.le])) hws

/-- a nest with a finite term: its children's sum is finite, and if that is 0 so is the term -/
theorem nest_sum (t : Flat (Rnd R)) (h : t.WF) (hs : PosScales t) (scaled : Bool) (u : Nat → Rnd R) (j : Nat) (hj : j < t.n)
    (hb : t.bottom j = false) (hfin : (term t scaled u j).FinNonneg) :
    ∃ S : ℝ, (childSum t scaled u j).v = .fin S ∧ 0 ≤ S ∧ (S = 0 → (term t scaled u j).val = 0) := by
  obtain ⟨s, hs1, hs0⟩ := hs j hj
  obtain ⟨q, hq1, hq0⟩ := parentScale_pos t h hs scaled j hj
  have hnn : XR.le (.fin 0) (childSum t scaled u j).v = true ∨ (childSum t scaled u j).v = .nan := by
    refine sum_nonneg_or_nan _ fun w hw => ?_
    obtain ⟨i, hi, rfl⟩ := List.mem_map.mp hw
    exact term_nonneg_or_nan t h scaled u i (Flat.mem_children.mp hi).1
  have ht := term_eq h scaled u j hj
  unfold termOf at ht
  rw [hb] at ht
  simp only [Bool.false_eq_true, if_false] at ht
  set T := term t scaled u j with hT
  have hv : T.v = Rnd.expV R (R.rndX (XR.div (R.rndX (XR.add (u j).v (R.rndX (XR.mul (t.scale j).v (Rnd.logV R (childSum t scaled u j).v)))))
      (parentScale t scaled j).v)) := by rw [ht]; rfl
  rw [hfin.v, hs1, hq1] at hv
  rcases hnn with hnn | hnn
  · rcases XR.nonneg_cases hnn with e | ⟨S, e, hS⟩
    · exfalso
      rw [e] at hv
      have e1 : XR.mul (.fin s) (Rnd.logV R .pinf) = .pinf := by simp [Rnd.logV, XR.mul, XR.mulPinf, XR.mulNinf, hs0, hs0.ne']
      rw [e1] at hv
      cases huj : (u j).v <;> rw [huj] at hv <;> simp [Rounding.rndX, XR.add, XR.div, Rnd.expV, hq0.le] at hv
    · refine ⟨S, e, hS, ?_⟩
      rintro rfl
      rw [e] at hv
      have e1 : XR.mul (.fin s) (Rnd.logV R (.fin 0)) = .ninf := by simp [Rnd.logV, XR.mul, XR.mulPinf, XR.mulNinf, hs0, hs0.ne']
      rw [e1] at hv
      cases huj : (u j).v <;> rw [huj] at hv <;> simp [Rounding.rndX, XR.add, XR.div, Rnd.expV, hq0.le] at hv
      all_goals exact hv
  · exfalso
    rw [hnn] at hv
    have e1 : XR.mul (.fin s) (Rnd.logV R .nan) = .nan := by simp [Rnd.logV, XR.mul]
    rw [e1] at hv
    cases huj : (u j).v <;> rw [huj] at hv <;> simp [Rounding.rndX, XR.add, XR.div, Rnd.expV] at hv

/-- if the top-level total is finite, every term is -/
theorem terms_fin (hR : R.rnd = B64.rnd) (t : Flat (Rnd R)) (h : t.WF) (hs : PosScales t) (scaled : Bool) (u : Nat → Rnd R) (S : ℝ)
    (hS : (topSum t scaled u).v = .fin S) : ∀ i < t.n, (term t scaled u i).FinNonneg := by
  have key : ∀ d i, i < t.n → t.level i = d → (term t scaled u i).FinNonneg := by
    intro d
    induction d with
    | zero =>
      intro i hi hd
      rcases h.node i hi with ⟨h1, _⟩ | ⟨p, _, _, h2⟩
      · have hm : i ∈ t.tops := Flat.mem_tops.mpr ⟨hi, h1⟩
        refine (sumF_acc hR (t.tops.map (term t scaled u)) (by
          intro e; rw [List.map_eq_nil_iff] at e; rw [e] at hm; simp at hm) ?_ S hS).1 _ (List.mem_map_of_mem hm)
        intro w hw
        obtain ⟨k, hk, rfl⟩ := List.mem_map.mp hw
        exact term_nonneg_or_nan t h scaled u k (Flat.mem_tops.mp hk).1
      · omega
    | succ d ih =>
      intro i hi hd
      rcases h.node i hi with ⟨h1, h2⟩ | ⟨p, hp, h1, h2⟩
      · omega
      · have hm : i ∈ t.children p := Flat.mem_children.mpr ⟨hi, h1⟩
        have hb : t.bottom p = false := by
          by_contra hc
          rw [Bool.not_eq_false, h.bottom p hp] at hc
          exact hc i hi h1
        obtain ⟨S', hS', -, -⟩ := nest_sum t h hs scaled u p hp hb (ih p hp (by omega))
        refine (sumF_acc hR ((t.children p).map (term t scaled u)) (by
          intro e; rw [List.map_eq_nil_iff] at e; rw [e] at hm; simp at hm) ?_ S' hS').1 _ (List.mem_map_of_mem hm)
        intro w hw
        obtain ⟨k, hk, rfl⟩ := List.mem_map.mp hw
        exact term_nonneg_or_nan t h scaled u k (Flat.mem_children.mp hk).1
  intro i hi
  exact key _ i hi rfl

/-- splitting a sum over the nodes by parent -/
theorem sum_by_parent (t : Flat (Rnd R)) (h : t.WF) (f : Nat → ℝ) :
    ∑ i ∈ Finset.range t.n, f i = (t.tops.map f).sum + ∑ j ∈ Finset.range t.n, ((t.children j).map f).sum := by
  unfold Flat.tops Flat.children
  rw [sum_range_filter]
  simp_rw [sum_range_filter]
  have h1 : ∀ i ∈ Finset.range t.n, f i = (if t.parent i = -1 then f i else 0) + ∑ j ∈ Finset.range t.n, (if t.parent i = (j : Int) then f i else 0) := by
    intro i hi
    rcases h.node i (Finset.mem_range.mp hi) with ⟨h1, _⟩ | ⟨p, hp, h1, _⟩
    · rw [if_pos h1, Finset.sum_eq_zero, add_zero]
      intro j _
      rw [if_neg]; omega
    · rw [if_neg (by omega), zero_add, Finset.sum_eq_single p]
      · rw [if_pos h1]
      · intro j _ hj
        rw [if_neg]; omega
      · intro hc; exact absurd (Finset.mem_range.mpr hp) hc
  rw [Finset.sum_congr rfl h1, Finset.sum_add_distrib, Finset.sum_comm]
  simp_rw [Finset.sum_filter, beq_iff_eq]

/-- the conditional probabilities of a group of siblings (or of the top-level nodes) -/
theorem cond_group (hR : R.rnd = B64.rnd) (t : Flat (Rnd R)) (h : t.WF) (scaled : Bool) (u : Nat → Rnd R)
    (hT : ∀ i < t.n, (term t scaled u i).FinNonneg) (l : List Nat) (hne : l ≠ []) (hl : ∀ i ∈ l, i < t.n)
    (hlen : l.length ≤ 2 ^ 50) (S : ℝ) (hS : (sumF (l.map (term t scaled u))).v = .fin S)
    (hc : ∀ i ∈ l, condP t scaled u i = if FOps.le (sumF (l.map (term t scaled u))) FOps.zero then FOps.zero
      else FOps.div (term t scaled u i) (sumF (l.map (term t scaled u)))) :
    (∀ i ∈ l, (condP t scaled u i).FinNonneg ∧ (condP t scaled u i).val ≤ 1) ∧
    (0 < S → |(l.map fun i => (condP t scaled u i).val).sum - 1| ≤ l.length * (1 / 2 ^ 52)) ∧
    (S ≤ 0 → ∀ i ∈ l, (condP t scaled u i).val = 0) := by
  have hle : FOps.le (sumF (l.map (term t scaled u))) (FOps.zero : Rnd R) = decide (S ≤ 0) := by
    show XR.le (sumF (l.map (term t scaled u))).v (.fin 0) = _
    rw [hS]; rfl
  rw [hle] at hc
  by_cases h0 : S ≤ 0
  · have hz : ∀ i ∈ l, condP t scaled u i = FOps.zero := by
      intro i hi; rw [hc i hi]; simp [h0]
    refine ⟨fun i hi => ?_, fun hp => absurd h0 (by linarith), fun _ i hi => ?_⟩
    · rw [hz i hi]; exact ⟨⟨0, rfl, le_refl _⟩, by show (0 : ℝ) ≤ 1; norm_num⟩
    · rw [hz i hi]; rfl
  · have hd : ∀ i ∈ l, condP t scaled u i = FOps.div (term t scaled u i) (sumF (l.map (term t scaled u))) := by
      intro i hi; rw [hc i hi]; simp [h0]
    push Not at h0
    obtain ⟨h1, h2⟩ := shares_rounded hR (l.map (term t scaled u)) (by simpa using hne)
      (by intro w hw; obtain ⟨i, hi, rfl⟩ := List.mem_map.mp hw; exact hT i (hl i hi)) S hS h0 (by simpa using hlen)
    refine ⟨fun i hi => ?_, fun _ => ?_, fun hp => absurd h0 (by linarith)⟩
    · rw [hd i hi]; exact h1 _ (List.mem_map_of_mem hi)
    · rw [List.map_map, List.length_map] at h2
      rw [List.map_congr_left (g := fun i => (FOps.div (term t scaled u i) (sumF (l.map (term t scaled u)))).val)
        (fun i hi => by rw [hd i hi])]
      exact h2

/-- a product of numbers in `[0,1]` in double precision -/
theorem mul_unit_err (hR : R.rnd = B64.rnd) (a b : Rnd R) (ha : a.FinNonneg) (ha1 : a.val ≤ 1) (hb : b.FinNonneg) (hb1 : b.val ≤ 1) :
    ((FOps.mul a b).FinNonneg ∧ (FOps.mul a b).val ≤ 1) ∧
    |(FOps.mul a b).val - a.val * b.val| ≤ uro * (a.val * b.val) + eta ∧ (b.val = 0 → (FOps.mul a b).val = 0) := by
  have h0 := mul_nonneg ha.nonneg hb.nonneg
  have h1 : a.val * b.val ≤ 1 := mul_le_one₀ ha1 hb.nonneg hb1
  have hr1 : rpos 1 = 1 := by simpa using rpos_dyadic 1 0 (by norm_num) (by norm_num)
  have hr : rpos (a.val * b.val) ≤ 1 := by rw [← hr1]; exact rpos_mono h0 h1
  have hrnd : B64.rnd (a.val * b.val) = .fin (rpos (a.val * b.val)) := by
    rw [rnd_nonneg h0, if_neg]
    push Not
    refine lt_of_le_of_lt hr ?_
    unfold big
    exact one_lt_pow₀ (by norm_num) (by norm_num)
  have hv : (FOps.mul a b).v = .fin (rpos (a.val * b.val)) := by
    show R.rndX (XR.mul a.v b.v) = _
    rw [ha.v, hb.v]
    show R.rnd (a.val * b.val) = _
    rw [hR]; exact hrnd
  refine ⟨⟨⟨_, hv, rpos_nonneg h0⟩, by rw [Rnd.val_fin hv]; exact hr⟩, ?_, ?_⟩
  · rw [Rnd.val_fin hv]; exact rnd_err h0 hrnd
  · intro hb0
    rw [Rnd.val_fin hv, hb0, mul_zero, rpos_zero]

/-- real inequality: the children's products compared with the parent's probability -/
theorem group_mass (l : List Nat) (c p : Nat → ℝ) (P : ℝ) (hne : 1 ≤ l.length) (hlen : l.length ≤ 2 ^ 50) (hP0 : 0 ≤ P) (hP1 : P ≤ 1)
    (hc : |(l.map c).sum - 1| ≤ l.length * (1 / 2 ^ 52)) (hp : ∀ i ∈ l, |p i - c i * P| ≤ uro * (c i * P) + eta) :
    |(l.map p).sum - P| ≤ l.length * (1 / 2 ^ 51) := by
  have hs := sum_abs_le l p (fun i => c i * P) _ hp
  have e1 : (l.map fun i => c i * P).sum = (l.map c).sum * P := by rw [List.sum_map_mul_right]
  have e2 : (l.map fun i => uro * (c i * P) + eta).sum = uro * ((l.map c).sum * P) + l.length * eta := by
    rw [List.sum_map_add, List.sum_map_mul_left, e1]; simp
  rw [e1, e2] at hs
  have hn : (1 : ℝ) ≤ l.length := by exact_mod_cast hne
  have hn50 : (l.length : ℝ) ≤ 2 ^ 50 := by exact_mod_cast hlen
  have he := eta_small l.length hlen
  set n : ℝ := (l.length : ℝ) with hndef
  have hc' : n * (1 / 2 ^ 52) ≤ 1 / 4 := by
    calc n * (1 / 2 ^ 52) ≤ 2 ^ 50 * (1 / 2 ^ 52) := mul_le_mul_of_nonneg_right hn50 (by positivity)
      _ = 1 / 4 := by norm_num
  set C := (l.map c).sum with hC
  rw [abs_le] at hc hs
  have hd : |C * P - P| ≤ n * (1 / 2 ^ 52) := by
    have : C * P - P = (C - 1) * P := by ring
    rw [this, abs_mul, abs_of_nonneg hP0]
    calc |C - 1| * P ≤ (n * (1 / 2 ^ 52)) * 1 := mul_le_mul (abs_le.mpr hc) hP1 hP0 (by positivity)
      _ = _ := mul_one _
  rw [abs_le] at hd ⊢
  have hCP : C * P ≤ 5 / 4 := by linarith [hd.2]
  have h3 : uro * (C * P) ≤ uro * (5 / 4) := mul_le_mul_of_nonneg_left hCP uro_pos.le
  have e51 : n * (1 / 2 ^ 51) = 2 * (n * (1 / 2 ^ 52)) := by norm_num; ring
  have h4 : uro * (5 / 4) + uro / 4 ≤ n * (1 / 2 ^ 52) := by
    calc uro * (5 / 4) + uro / 4 ≤ 1 * (1 / 2 ^ 52) := by unfold uro; norm_num
      _ ≤ n * (1 / 2 ^ 52) := mul_le_mul_of_nonneg_right hn (by positivity)
  rw [e51]
  constructor <;> linarith [hs.1, hs.2, hd.1, hd.2]

/-- **C60** In double precision, with any implementations of `exp` and `log` (`log 0 = -inf`): for every well-formed tree of `n <= 2^50`
nodes with positive scales, if the returned top-level logsum is a finite positive number then the probabilities returned by the nested
logit are finite, between 0 and 1, and their exact sum differs from 1 by at most `n * 2^-51`. No condition on the logsums inside the
tree: they may underflow, and nests may be unavailable. -/
theorem C60_sum (hR : R.rnd = B64.rnd) (t : Flat (Rnd R)) (h : t.WF) (hs : PosScales t) (us : List (Rnd R)) (scaled check : Bool)
    (ps : List (Rnd R)) (ls : Rnd R) (terms : List (Rnd R)) (hr : nested us t scaled check = .ok (ps, ls, terms))
    (S : ℝ) (hS : ls.v = .fin S) (hpos : 0 < S) (hn : t.n ≤ 2 ^ 50) :
    ps.length = t.n ∧ (∀ p ∈ ps, ∃ x : ℝ, p.v = .fin x ∧ 0 ≤ x ∧ x ≤ 1) ∧ |(ps.map Rnd.val).sum - 1| ≤ t.n * (1 / 2 ^ 51) := by
  rw [nested_eq h] at hr
  simp only at hr
  split at hr
  · cases hr
  simp only [Except.ok.injEq, Prod.mk.injEq] at hr
  obtain ⟨rfl, rfl, -⟩ := hr
  set u : Nat → Rnd R := fun i => us.getD i zero with hu
  have hT := terms_fin hR t h hs scaled u S hS
  set c := condP t scaled u with hc
  have hflen : ∀ q : Nat → Bool, ((List.range t.n).filter q).length ≤ 2 ^ 50 := fun q =>
    (List.length_filter_le _ _).trans (by simpa using hn)
  have hctop : ∀ i ∈ t.tops, condP t scaled u i = if FOps.le (sumF (t.tops.map (term t scaled u))) FOps.zero then FOps.zero
      else FOps.div (term t scaled u i) (sumF (t.tops.map (term t scaled u))) := by
    intro i hi
    unfold condP
    simp only [(Flat.mem_tops.mp hi).2, if_true]
    rfl
  have hcch : ∀ p, ∀ i ∈ t.children p, condP t scaled u i = if FOps.le (sumF ((t.children p).map (term t scaled u))) FOps.zero then FOps.zero
      else FOps.div (term t scaled u i) (sumF ((t.children p).map (term t scaled u))) := by
    intro p i hi
    have hpar := (Flat.mem_children.mp hi).2
    unfold condP
    have hne : ¬ t.parent i = -1 := by omega
    have htn : (t.parent i).toNat = p := by omega
    simp only [hne, if_false, htn]
    rfl
  have htne : t.tops ≠ [] := by
    intro e
    have : (topSum t scaled u).v = .fin 0 := by unfold topSum; rw [e]; rfl
    rw [this] at hS
    simp only [XR.fin.injEq] at hS
    linarith
  obtain ⟨ht1, ht2, -⟩ := cond_group hR t h scaled u hT t.tops htne (fun i hi => (Flat.mem_tops.mp hi).1) (hflen _) S hS hctop
  have hbot : ∀ p < t.n, t.children p ≠ [] → t.bottom p = false := by
    intro p hp hne
    by_contra hb
    rw [Bool.not_eq_false, h.bottom p hp] at hb
    obtain ⟨i, hi⟩ := List.exists_mem_of_ne_nil _ hne
    exact hb i (Flat.mem_children.mp hi).1 (Flat.mem_children.mp hi).2
  have hgrp : ∀ p < t.n, t.children p ≠ [] →
      (∀ i ∈ t.children p, (c i).FinNonneg ∧ (c i).val ≤ 1) ∧
      (|((t.children p).map fun i => (c i).val).sum - 1| ≤ (t.children p).length * (1 / 2 ^ 52) ∨
        (term t scaled u p).val = 0 ∧ ∀ i ∈ t.children p, (c i).val = 0) := by
    intro p hp hne
    obtain ⟨S', hS', hS0, hz⟩ := nest_sum t h hs scaled u p hp (hbot p hp hne) (hT p hp)
    obtain ⟨g1, g2, g3⟩ := cond_group hR t h scaled u hT (t.children p) hne (fun i hi => (Flat.mem_children.mp hi).1) (hflen _) S' hS' (hcch p)
    refine ⟨g1, ?_⟩
    rcases lt_or_eq_of_le hS0 with h1 | h1
    · exact Or.inl (g2 h1)
    · exact Or.inr ⟨hz h1.symm, g3 h1.symm.le⟩
  have hcu : ∀ i < t.n, (c i).FinNonneg ∧ (c i).val ≤ 1 := by
    intro i hi
    rcases h.node i hi with ⟨h1, _⟩ | ⟨p, hp, h1, _⟩
    · exact ht1 i (Flat.mem_tops.mpr ⟨hi, h1⟩)
    · have hm : i ∈ t.children p := Flat.mem_children.mpr ⟨hi, h1⟩
      exact (hgrp p hp (List.ne_nil_of_mem hm)).1 i hm
  -- absolute probabilities
  have ha : ∀ d i, i < t.n → t.level i = d → (absP t c i).FinNonneg ∧ (absP t c i).val ≤ 1 := by
    intro d
    induction d with
    | zero =>
      intro i hi hd
      rcases h.node i hi with ⟨h1, _⟩ | ⟨p, _, _, h2⟩
      · rw [(absP_eq h c i hi).1 h1]; exact hcu i hi
      · omega
    | succ d ih =>
      intro i hi hd
      rcases h.node i hi with ⟨_, h2⟩ | ⟨p, hp, h1, h2⟩
      · omega
      · rw [(absP_eq h c i hi).2 p h1]
        obtain ⟨hp1, hp2⟩ := ih p hp (by omega)
        obtain ⟨hc1, hc2⟩ := hcu i hi
        exact (mul_unit_err hR _ _ hc1 hc2 hp1 hp2).1
  have hau : ∀ i < t.n, (absP t c i).FinNonneg ∧ (absP t c i).val ≤ 1 := fun i hi => ha _ i hi rfl
  -- a nest whose term is 0 has conditional probability 0, hence probability 0
  have hzero : ∀ p < t.n, (term t scaled u p).val = 0 → (absP t c p).val = 0 := by
    intro p hp h0
    have hcz : (c p).val = 0 := by
      have hdz : ∀ s : Rnd R, ∀ y : ℝ, s.v = .fin y → 0 < y → (FOps.div (term t scaled u p) s).val = 0 := by
        intro s y hy hy0
        have := rndX_div_fin (term t scaled u p) s _ y (hT p hp).v hy hy0.ne'
        rw [h0, zero_div, R.zero] at this
        exact Rnd.val_fin this
      rcases h.node p hp with ⟨h1, _⟩ | ⟨q, hq, h1, _⟩
      · have hm : p ∈ t.tops := Flat.mem_tops.mpr ⟨hp, h1⟩
        rw [hc, hctop p hm]
        split_ifs
        · rfl
        · exact hdz _ S hS hpos
      · have hm : p ∈ t.children q := Flat.mem_children.mpr ⟨hp, h1⟩
        have hne := List.ne_nil_of_mem hm
        obtain ⟨S', hS', hS0, -⟩ := nest_sum t h hs scaled u q hq (hbot q hq hne) (hT q hq)
        rw [hc, hcch q p hm]
        split_ifs with hle
        · rfl
        · refine hdz _ S' hS' ?_
          have : ¬ XR.le (childSum t scaled u q).v (.fin 0) = true := hle
          rw [hS'] at this
          simpa [XR.le] using this
    rcases h.node p hp with ⟨h1, _⟩ | ⟨q, hq, h1, _⟩
    · rw [(absP_eq h c p hp).1 h1]; exact hcz
    · rw [(absP_eq h c p hp).2 q h1]
      have h2 := (hau q hq)
      have h3 := hcu p hp
      have h4 := (mul_unit_err hR _ _ h3.1 h3.2 h2.1 h2.2).1
      have hv : (FOps.mul (c p) (absP t c q)).v = .fin 0 := by
        show R.rndX (XR.mul (c p).v (absP t c q).v) = _
        rw [h3.1.v, h2.1.v, hcz]
        show R.rnd (0 * _) = _
        rw [zero_mul, R.zero]
      exact Rnd.val_fin hv
  -- the mass of a group equals its parent's probability up to rounding
  have hmass : ∀ p < t.n, t.children p ≠ [] →
      |((t.children p).map fun i => (absP t c i).val).sum - (absP t c p).val| ≤ (t.children p).length * (1 / 2 ^ 51) := by
    intro p hp hne
    obtain ⟨g1, g2⟩ := hgrp p hp hne
    have hpu := hau p hp
    have hmul : ∀ i ∈ t.children p, (absP t c i).val = (FOps.mul (c i) (absP t c p)).val := by
      intro i hi
      rw [(absP_eq h c i (Flat.mem_children.mp hi).1).2 p (Flat.mem_children.mp hi).2]
    rcases g2 with g2 | ⟨g2, g3⟩
    · refine group_mass (t.children p) (fun i => (c i).val) _ _ ?_ (hflen _) hpu.1.nonneg hpu.2 g2 ?_
      · rcases hch : t.children p with _ | ⟨a, l⟩
        · exact absurd hch hne
        · simp
      · intro i hi
        rw [hmul i hi]
        exact (mul_unit_err hR _ _ (g1 i hi).1 (g1 i hi).2 hpu.1 hpu.2).2.1
    · have hp0 := hzero p hp g2
      have : ∀ x ∈ (t.children p).map fun i => (absP t c i).val, x = 0 := by
        intro x hx
        obtain ⟨i, hi, rfl⟩ := List.mem_map.mp hx
        rw [hmul i hi]
        exact (mul_unit_err hR _ _ (g1 i hi).1 (g1 i hi).2 hpu.1 hpu.2).2.2 hp0
      rw [List.sum_eq_zero this, hp0, sub_zero, abs_zero]
      positivity
  refine ⟨by simp [arr], ?_, ?_⟩
  · intro p hp
    obtain ⟨i, hi, rfl⟩ := List.mem_map.mp hp
    have hi := List.mem_range.mp hi
    split_ifs
    · exact ⟨0, rfl, le_refl _, by norm_num⟩
    · exact ⟨_, (hau i hi).1.v, (hau i hi).1.nonneg, (hau i hi).2⟩
  · have hex : ∀ i : Nat, (∃ j < t.n, t.parent j = (i : Int)) ↔ t.children i ≠ [] := by
      intro i
      constructor
      · rintro ⟨j, hj, hp⟩; exact List.ne_nil_of_mem (Flat.mem_children.mpr ⟨hj, hp⟩)
      · intro hne
        obtain ⟨j, hj⟩ := List.exists_mem_of_ne_nil _ hne
        exact ⟨j, Flat.mem_children.mp hj⟩
    set f : Nat → ℝ := fun i => (absP t c i).val with hf
    have hsum : ((arr t.n fun i => if ∃ j < t.n, t.parent j = (i : Int) then zero else absP t c i).map Rnd.val).sum
        = ∑ i ∈ Finset.range t.n, (f i - if t.children i ≠ [] then f i else 0) := by
      unfold arr
      rw [List.map_map, Finset.sum_range, ← List.sum_ofFn, List.ofFn_eq_map, ← List.map_coe_finRange_eq_range, List.map_map]
      congr 1
      apply List.map_congr_left
      intro i _
      simp only [Function.comp]
      by_cases hcd : ∃ j < t.n, t.parent j = ((i : Nat) : Int)
      · rw [if_pos hcd, if_pos ((hex i).mp hcd), sub_self]; rfl
      · rw [if_neg hcd, if_neg (fun hh => hcd ((hex i).mpr hh)), sub_zero]
    rw [hsum, Finset.sum_sub_distrib, sum_by_parent t h f]
    have e1 : (t.tops.map f).sum + ∑ j ∈ Finset.range t.n, ((t.children j).map f).sum
        - ∑ j ∈ Finset.range t.n, (if t.children j ≠ [] then f j else 0) - 1
        = ((t.tops.map f).sum - 1) + ∑ j ∈ Finset.range t.n, (((t.children j).map f).sum - if t.children j ≠ [] then f j else 0) := by
      rw [Finset.sum_sub_distrib]; ring
    rw [e1]
    have htop : |(t.tops.map f).sum - 1| ≤ t.tops.length * (1 / 2 ^ 51) := by
      have : t.tops.map f = t.tops.map fun i => (c i).val := List.map_congr_left fun i hi => by
        show (absP t c i).val = _
        rw [(absP_eq h c i (Flat.mem_tops.mp hi).1).1 (Flat.mem_tops.mp hi).2]
      rw [this]
      refine (ht2 hpos).trans (mul_le_mul_of_nonneg_left (by norm_num) (Nat.cast_nonneg _))
    have hch : ∀ j ∈ Finset.range t.n, |((t.children j).map f).sum - if t.children j ≠ [] then f j else 0| ≤ (t.children j).length * (1 / 2 ^ 51) := by
      intro j hj
      split_ifs with hne
      · exact hmass j (Finset.mem_range.mp hj) hne
      · push Not at hne
        rw [hne]; simp
    have hcount := sum_by_parent t h fun _ => 1
    simp only [Finset.sum_const, Finset.card_range, nsmul_eq_mul, mul_one, List.map_const', List.sum_replicate] at hcount
    calc _ ≤ |(t.tops.map f).sum - 1| + |∑ j ∈ Finset.range t.n, (((t.children j).map f).sum - if t.children j ≠ [] then f j else 0)| := abs_add_le _ _
      _ ≤ t.tops.length * (1 / 2 ^ 51) + ∑ j ∈ Finset.range t.n, ((t.children j).length : ℝ) * (1 / 2 ^ 51) :=
        add_le_add htop ((Finset.abs_sum_le_sum_abs _ _).trans (Finset.sum_le_sum hch))
      _ = t.n * (1 / 2 ^ 51) := by rw [← Finset.sum_mul, ← add_mul, hcount]

/-- **C60 (draws)** A node of a nested logit is drawn for a share of the draws that differs from its returned probability by at most
`(3 n + 2) * 2^-52`, `n` being the number of nodes; in particular a nest for at most that share. -/
theorem C60_draws (hR : R.rnd = B64.rnd) (t : Flat (Rnd R)) (h : t.WF) (hs : PosScales t) (us : List (Rnd R)) (scaled check : Bool)
    (ps : List (Rnd R)) (ls : Rnd R) (terms : List (Rnd R)) (hr : nested us t scaled check = .ok (ps, ls, terms))
    (S : ℝ) (hS : ls.v = .fin S) (hpos : 0 < S) (hn : t.n ≤ 2 ^ 50) (i : Nat) (hi : i < ps.length) :
    |drawShare hR ps i - ps[i].val| ≤ (3 * t.n + 2) * (1 / 2 ^ 52) := by
  obtain ⟨h1, h2, h3⟩ := C60_sum hR t h hs us scaled check ps ls terms hr S hS hpos hn
  have hnR : (t.n : ℝ) ≤ 2 ^ 50 := by exact_mod_cast hn
  have := draw_share hR ps (fun p hp => (h2 p hp).imp fun x hx => ⟨hx.1, hx.2.1⟩) (by rw [h1]; exact hn) _ (by
    calc (t.n : ℝ) * (1 / 2 ^ 51) ≤ 2 ^ 50 * (1 / 2 ^ 51) := mul_le_mul_of_nonneg_right hnR (by positivity)
      _ ≤ 1 / 2 := by norm_num) h3 i hi
  refine this.trans (le_of_eq ?_)
  rw [h1]
  norm_num
  ring

/-! ### A concrete case: a nest with an available and an unavailable choice, beside a top-level choice -/

/-- node 0 is a nest with the choices 1 and 3; node 2 is a top-level choice; all scales are 1 -/
noncomputable def nestEx : Flat F64 where
  n := 4
  parent i := if i = 1 ∨ i = 3 then 0 else -1
  level i := if i = 1 ∨ i = 3 then 1 else 0
  scale _ := FOps.one
  bottom i := decide (i ≠ 0)

theorem nestEx_wf : nestEx.WF where
  pos := by simp [nestEx]
  node := by
    intro i hi
    have hi : i < 4 := hi
    by_cases h : i = 1 ∨ i = 3
    · right; exact ⟨0, by simp [nestEx], by simp [nestEx, h], by simp [nestEx, h]⟩
    · left; simp [nestEx, h]
  bottom := by
    intro i hi
    have hi : i < 4 := hi
    constructor
    · intro h j _
      have h0 : i ≠ 0 := by simpa [nestEx] using h
      by_cases hj : j = 1 ∨ j = 3
      · simp only [nestEx, hj, if_true]; omega
      · simp only [nestEx, hj, if_false]; omega
    · intro h
      have := h 1 (by simp [nestEx])
      have h0 : i ≠ 0 := by rintro rfl; exact this (by simp [nestEx])
      simpa [nestEx] using h0

/-- all hypotheses of C60 hold for the utilities `0, 0, 0, -inf` -/
theorem nestEx_run : ∃ (ps : List F64) (ls : F64) (terms : List F64),
    nested [FOps.zero, FOps.zero, FOps.zero, FOps.negInf] nestEx true true = .ok (ps, ls, terms) ∧ ls.v = .fin 2 ∧
    |(ps.map Rnd.val).sum - 1| ≤ 4 * (1 / 2 ^ 51) := by
  have hsc : PosScales nestEx := fun i _ => ⟨1, rfl, one_pos⟩
  set u : Nat → F64 := fun i => ([FOps.zero, FOps.zero, FOps.zero, FOps.negInf] : List F64).getD i FOps.zero with hu
  have ext : ∀ a b : F64, a.v = b.v → a = b := by
    rintro ⟨a, _⟩ ⟨b, _⟩ h; cases h; rfl
  have d1 : ∀ a : F64, FOps.div a FOps.one = a := by
    intro a
    apply ext
    show R64.rndX (XR.div a.v (.fin 1)) = a.v
    cases ha : a.v with
    | fin x =>
      have h2 : XR.div (.fin x) (.fin 1) = .fin (x / 1) := XR.div_fin x 1 one_ne_zero
      rw [h2, div_one]; exact a.rep x ha
    | nan => rfl
    | pinf => simp [XR.div, Rounding.rndX]
    | ninf => simp [XR.div, Rounding.rndX]
  have m1 : ∀ x : ℝ, ∀ a : F64, a.v = .fin x → FOps.mul FOps.one a = a := by
    intro x a ha
    apply ext
    show R64.rndX (XR.mul (.fin 1) a.v) = a.v
    rw [ha]
    show R64.rnd (1 * x) = _
    rw [one_mul]; exact a.rep x ha
  have a0 : ∀ a : F64, (FOps.add FOps.zero a) = a := by
    intro a
    apply ext
    show R64.rndX (XR.add (.fin 0) a.v) = a.v
    cases ha : a.v with
    | fin x => simp only [XR.add, zero_add, Rounding.rndX]; exact a.rep x ha
    | nan => rfl
    | pinf => rfl
    | ninf => rfl
  have a1 : ∀ a : F64, ∀ x : ℝ, a.v = .fin x → (FOps.add a FOps.zero) = a := by
    intro a x ha
    apply ext
    show R64.rndX (XR.add a.v (.fin 0)) = a.v
    rw [ha]
    show R64.rnd (x + 0) = _
    rw [add_zero]; exact a.rep x ha
  have e0 : FOps.exp (FOps.zero : F64) = FOps.one := by
    apply ext
    show R64.fexp 0 = .fin 1
    show rnd (Real.exp 0) = _
    rw [Real.exp_zero]; exact R64.one
  have l1 : FOps.log (FOps.one : F64) = FOps.zero := by
    apply ext
    show (if (1 : ℝ) = 0 then XR.ninf else if (0 : ℝ) < 1 then R64.flog 1 else XR.nan) = _
    rw [if_neg one_ne_zero, if_pos one_pos]
    show rnd (Real.log 1) = _
    rw [Real.log_one]; exact R64.zero
  have en : FOps.exp (FOps.negInf : F64) = FOps.zero := rfl
  have ps1 : ∀ i, parentScale nestEx true i = FOps.one := by
    intro i; unfold parentScale; split_ifs <;> rfl
  have t1 : term nestEx true u 1 = FOps.one := by
    rw [term_eq nestEx_wf true u 1 (by simp [nestEx])]
    unfold termOf
    rw [if_pos (by simp [nestEx]), ps1, d1]; exact e0
  have t2 : term nestEx true u 2 = FOps.one := by
    rw [term_eq nestEx_wf true u 2 (by simp [nestEx])]
    unfold termOf
    rw [if_pos (by simp [nestEx]), ps1, d1]; exact e0
  have t3 : term nestEx true u 3 = FOps.zero := by
    rw [term_eq nestEx_wf true u 3 (by simp [nestEx])]
    unfold termOf
    rw [if_pos (by simp [nestEx]), ps1, d1]; exact en
  have hch : nestEx.children 0 = [1, 3] := by decide
  have htp : nestEx.tops = [0, 2] := by decide
  have c0 : childSum nestEx true u 0 = FOps.one := by
    unfold childSum
    rw [hch]
    show FOps.add (FOps.add FOps.zero (term nestEx true u 1)) (term nestEx true u 3) = _
    rw [t1, t3, a0, a1 _ 1 rfl]
  have t0 : term nestEx true u 0 = FOps.one := by
    rw [term_eq nestEx_wf true u 0 (by simp [nestEx])]
    unfold termOf
    rw [if_neg (by simp [nestEx]), ps1, d1, c0, l1]
    show FOps.exp (FOps.add FOps.zero (FOps.mul FOps.one FOps.zero)) = _
    rw [m1 0 _ rfl, a0]; exact e0
  have top : (topSum nestEx true u).v = .fin 2 := by
    unfold topSum
    rw [htp]
    show (FOps.add (FOps.add FOps.zero (term nestEx true u 0)) (term nestEx true u 2)).v = _
    rw [t0, t2, a0]
    show rnd (1 + 1) = .fin 2
    have := rnd_dyadic 2 0 (by norm_num) (by norm_num) (by norm_num)
    norm_num at this ⊢
    exact this
  have hr := nested_eq nestEx_wf ([FOps.zero, FOps.zero, FOps.zero, FOps.negInf] : List F64) true true
  simp only at hr
  have hpos : FOps.le (topSum nestEx true u) (FOps.zero : F64) = false := by
    show XR.le (topSum nestEx true u).v (.fin 0) = false
    rw [top]; simp [XR.le]
  rw [show (fun i => ([FOps.zero, FOps.zero, FOps.zero, FOps.negInf] : List F64).getD i FOps.zero) = u from rfl, hpos] at hr
  simp only [Bool.false_and, Bool.false_eq_true, if_false] at hr
  refine ⟨_, _, _, hr, top, ?_⟩
  have := (C60_sum (R := R64) rfl nestEx nestEx_wf hsc _ _ _ _ _ _ hr 2 top (by norm_num) (by simp [nestEx])).2.2
  simpa [nestEx] using this

end Cheval
