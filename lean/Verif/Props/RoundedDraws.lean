import Verif.Props.RoundedMnl
import Verif.Props.Sampling
import Mathlib.Order.Interval.Finset.Nat

/-!
# C59: how often each choice is drawn, in double precision

NumPy's and Numba's uniform draws are the numbers `k / 2^53` with `0 <= k < 2^53`, all equally likely. (`uniform(tiny, 1)` turns 0 into the
smallest normal number; sampling does the same: `C01_small_draw`.)
-/
namespace Cheval
open FOps B64 Spec
variable {R : Rounding}

/-- counting the integers in an interval -/
theorem count_Ioc (N : ℕ) (hN : 0 < N) (P : Fin N → Prop) [DecidablePred P] (a b : ℝ) (ha : 0 ≤ a) (hab : a ≤ b) (hb : b ≤ N)
    (h : ∀ k : Fin N, 0 < k.val → (P k ↔ a < (k.val : ℝ) ∧ (k.val : ℝ) ≤ b)) :
    |((Finset.univ.filter P).card : ℝ) - (b - a)| ≤ 2 := by
  set M := min ⌊b⌋₊ (N - 1) with hM
  set A := (Finset.univ.filter P).image (fun k : Fin N => k.val) with hA
  have hcard : (Finset.univ.filter P).card = A.card := by
    rw [hA, Finset.card_image_of_injective _ Fin.val_injective]
  have hsub1 : A ⊆ insert 0 (Finset.Ioc ⌊a⌋₊ M) := by
    intro x hx
    obtain ⟨k, hk, rfl⟩ := Finset.mem_image.mp hx
    have hPk := (Finset.mem_filter.mp hk).2
    rcases Nat.eq_zero_or_pos k.val with h0 | h0
    · rw [h0]; exact Finset.mem_insert_self _ _
    · obtain ⟨h1, h2⟩ := (h k h0).mp hPk
      refine Finset.mem_insert_of_mem (Finset.mem_Ioc.mpr ⟨?_, ?_⟩)
      · exact (Nat.floor_lt ha).mpr h1
      · exact le_min (Nat.le_floor h2) (by have := k.isLt; omega)
  have hsub2 : Finset.Ioc ⌊a⌋₊ M ⊆ A := by
    intro x hx
    obtain ⟨h1, h2⟩ := Finset.mem_Ioc.mp hx
    have hxN : x < N := by have := h2.trans (min_le_right _ _); omega
    have hx1 : a < (x : ℝ) := (Nat.floor_lt ha).mp h1
    have hx2 : (x : ℝ) ≤ b := by
      have : x ≤ ⌊b⌋₊ := h2.trans (min_le_left _ _)
      exact (Nat.le_floor_iff (ha.trans hab)).mp this
    refine Finset.mem_image.mpr ⟨⟨x, hxN⟩, Finset.mem_filter.mpr ⟨Finset.mem_univ _, ?_⟩, rfl⟩
    refine (h ⟨x, hxN⟩ ?_).mpr ⟨hx1, hx2⟩
    have : (0 : ℝ) < x := lt_of_le_of_lt ha hx1
    exact_mod_cast this
  have hI : (Finset.Ioc ⌊a⌋₊ M).card = M - ⌊a⌋₊ := Nat.card_Ioc _ _
  have hup : A.card ≤ M - ⌊a⌋₊ + 1 := by
    have := Finset.card_le_card hsub1
    have h2 := Finset.card_insert_le 0 (Finset.Ioc ⌊a⌋₊ M)
    omega
  have hlo : M - ⌊a⌋₊ ≤ A.card := by rw [← hI]; exact Finset.card_le_card hsub2
  have fa1 : a - 1 < ⌊a⌋₊ := Nat.sub_one_lt_floor a
  have fa2 : (⌊a⌋₊ : ℝ) ≤ a := Nat.floor_le ha
  have hMb : (M : ℝ) ≤ b := by
    have : (M : ℝ) ≤ ⌊b⌋₊ := by exact_mod_cast min_le_left _ _
    exact this.trans (Nat.floor_le (ha.trans hab))
  have hMlo : b - 1 ≤ M := by
    rcases min_choice ⌊b⌋₊ (N - 1) with e | e
    · rw [hM, e]; exact (Nat.sub_one_lt_floor b).le
    · rw [hM, e]
      have : ((N - 1 : ℕ) : ℝ) = N - 1 := by
        rw [Nat.cast_sub (by omega)]; simp
      rw [this]; linarith
  have hsubR : (M : ℝ) - ⌊a⌋₊ ≤ ((M - ⌊a⌋₊ : ℕ) : ℝ) := by
    have : M ≤ M - ⌊a⌋₊ + ⌊a⌋₊ := by omega
    have h2 : (M : ℝ) ≤ ((M - ⌊a⌋₊ : ℕ) : ℝ) + ⌊a⌋₊ := by exact_mod_cast this
    linarith
  have hupR : (A.card : ℝ) ≤ ((M - ⌊a⌋₊ : ℕ) : ℝ) + 1 := by exact_mod_cast hup
  have hloR : ((M - ⌊a⌋₊ : ℕ) : ℝ) ≤ A.card := by exact_mod_cast hlo
  rw [hcard, abs_le]
  constructor
  · linarith
  · by_cases hc : ⌊a⌋₊ ≤ M
    · rw [Nat.cast_sub hc] at hupR
      linarith
    · have : M - ⌊a⌋₊ = 0 := by omega
      rw [this] at hupR
      simp only [Nat.cast_zero, zero_add] at hupR
      linarith

theorem rpos_le_four {x : ℝ} (h0 : 0 ≤ x) (h : x ≤ 4) : rpos x ≤ 4 := by
  have h4 : rpos 4 = 4 := by simpa using rpos_dyadic 4 0 (by norm_num) (by norm_num)
  rw [← h4]; exact rpos_mono h0 h

theorem rnd_fin_of_le {x : ℝ} (h0 : 0 ≤ x) (h : x ≤ 4) : rnd x = .fin (rpos x) := by
  rw [rnd_nonneg h0, if_neg]
  push Not
  refine lt_of_le_of_lt (rpos_le_four h0 h) ?_
  unfold big
  calc (4 : ℝ) = 2 ^ 2 := by norm_num
    _ < 2 ^ 1024 := pow_lt_pow_right₀ (by norm_num) (by norm_num)

/-- sums of finite non-negative numbers do not overflow if the exact sum is small -/
theorem foldl_add_fin_of_le (hR : R.rnd = B64.rnd) : ∀ (ws : List (Rnd R)) (c : Rnd R), c.FinNonneg → (∀ w ∈ ws, w.FinNonneg) →
    (1 + uro) ^ ws.length * (c.val + (ws.map Rnd.val).sum) ≤ 4 → (ws.foldl FOps.add c).FinNonneg
  | [], c, hc, _, _ => hc
  | w :: ws, c, hc, hws, h => by
    have hw := hws w (List.mem_cons_self ..)
    have hsum : 0 ≤ (ws.map Rnd.val).sum := List.sum_nonneg (by
      intro x hx
      obtain ⟨y, hy, rfl⟩ := List.mem_map.mp hx
      exact (hws y (List.mem_cons_of_mem _ hy)).nonneg)
    have hcw := add_nonneg hc.nonneg hw.nonneg
    have hp : (1 : ℝ) ≤ (1 + uro) ^ ws.length := one_le_pow₀ (by linarith [uro_pos])
    rw [List.length_cons, pow_succ, List.map_cons, List.sum_cons] at h
    have hle : c.val + w.val ≤ 4 := by
      refine le_trans ?_ h
      have h1 : (1 : ℝ) ≤ (1 + uro) ^ ws.length * (1 + uro) := by
        have := uro_pos
        nlinarith
      nlinarith
    have hv : (FOps.add c w).v = .fin (rpos (c.val + w.val)) := by
      show R.rndX (XR.add c.v w.v) = _
      rw [hc.v, hw.v]
      show R.rnd (c.val + w.val) = _
      rw [hR]; exact rnd_fin_of_le hcw hle
    have hfn : (FOps.add c w).FinNonneg := ⟨_, hv, rpos_nonneg hcw⟩
    refine foldl_add_fin_of_le hR ws (FOps.add c w) hfn (fun x hx => hws x (List.mem_cons_of_mem _ hx)) (le_trans ?_ h)
    rw [mul_assoc]
    refine mul_le_mul_of_nonneg_left ?_ (by linarith)
    have hrc : rpos c.val = c.val := rnd_fin hc.nonneg (by rw [← hR]; exact c.rep _ hc.v)
    have hrw : rpos w.val = w.val := rnd_fin hw.nonneg (by rw [← hR]; exact w.rep _ hw.v)
    have he := rpos_add c.val w.val hc.nonneg hw.nonneg hrc hrw
    rw [abs_le] at he
    rw [Rnd.val_fin hv]
    have : 0 ≤ uro * (ws.map Rnd.val).sum := mul_nonneg uro_pos.le hsum
    nlinarith [he.2]

theorem FinNonneg.le_zero {a : Rnd R} (h : a.FinNonneg) : FOps.le (FOps.zero : Rnd R) a = true := by
  show XR.le (.fin 0) a.v = true
  rw [h.v]; simpa [XR.le] using h.nonneg

theorem sumF_take_succ (ps : List (Rnd R)) (i : Nat) (h : i < ps.length) :
    sumF (ps.take (i + 1)) = FOps.add (sumF (ps.take i)) ps[i] := by
  unfold sumF
  rw [List.take_succ_eq_append_getElem h, List.foldl_append]
  rfl

/-- the running totals of a row of probabilities that sum to 1 up to `d`: finite, increasing by the probabilities up to rounding -/
theorem totals (hR : R.rnd = B64.rnd) (ps : List (Rnd R)) (hne : ps ≠ []) (hps : ∀ p ∈ ps, p.FinNonneg) (hn : ps.length ≤ 2 ^ 50)
    (d : ℝ) (hd : d ≤ 1 / 2) (hsum : |(ps.map Rnd.val).sum - 1| ≤ d) :
    (∀ i, i ≤ ps.length → (sumF (ps.take i)).FinNonneg) ∧
    (∀ i (h : i < ps.length), (sumF (ps.take i)).val ≤ (sumF (ps.take (i + 1))).val ∧
      |(sumF (ps.take (i + 1))).val - (sumF (ps.take i)).val - ps[i].val| ≤ 2 * uro) ∧
    |(sumF ps).val - 1| ≤ d + 2 * ps.length * uro := by
  have hd0 : 0 ≤ d := (abs_nonneg _).trans hsum
  have hnR : (ps.length : ℝ) ≤ 2 ^ 50 := by exact_mod_cast hn
  have hnu : (ps.length : ℝ) * uro ≤ 1 / 8 := by
    calc _ ≤ 2 ^ 50 * uro := mul_le_mul_of_nonneg_right hnR uro_pos.le
      _ ≤ 1 / 8 := by unfold uro; norm_num
  rw [abs_le] at hsum
  set a := (ps.length : ℝ) * uro with ha
  have ha0 : 0 ≤ a := mul_nonneg (Nat.cast_nonneg _) uro_pos.le
  have hpw : ∀ j, j ≤ ps.length → (1 + uro) ^ j ≤ 1 + 8 / 7 * a := by
    intro j hj
    have hb : 1 - (j : ℝ) * uro ≤ (1 - uro) ^ j := by
      have := one_add_mul_le_pow (a := -uro) (by unfold uro; norm_num) j
      have e1 : (1 : ℝ) + j * -uro = 1 - j * uro := by ring
      have e2 : (1 : ℝ) + -uro = 1 - uro := by ring
      rwa [e1, e2] at this
    have hja : (j : ℝ) * uro ≤ a := mul_le_mul_of_nonneg_right (by exact_mod_cast hj) uro_pos.le
    have hprod : (1 - uro) ^ j * (1 + uro) ^ j ≤ 1 := by
      rw [← mul_pow]
      refine pow_le_one₀ ?_ ?_
      · unfold uro; norm_num
      · nlinarith [uro_pos]
    have hp0 : (0 : ℝ) ≤ (1 + uro) ^ j := pow_nonneg (by linarith [uro_pos]) j
    have h3 : (1 - a) * (1 + uro) ^ j ≤ 1 := by
      refine le_trans (mul_le_mul_of_nonneg_right ?_ hp0) hprod
      linarith
    by_contra hc
    push Not at hc
    nlinarith
  have hpre : ∀ i, i ≤ ps.length → ((ps.take i).map Rnd.val).sum ≤ (ps.map Rnd.val).sum := by
    intro i _
    have e : (ps.map Rnd.val).sum = ((ps.take i).map Rnd.val).sum + ((ps.drop i).map Rnd.val).sum := by
      rw [← List.sum_append, ← List.map_append, List.take_append_drop]
    have : 0 ≤ ((ps.drop i).map Rnd.val).sum := List.sum_nonneg (by
      intro x hx
      obtain ⟨y, hy, rfl⟩ := List.mem_map.mp hx
      exact (hps y (List.mem_of_mem_drop hy)).nonneg)
    linarith
  have hz : (FOps.zero : Rnd R).FinNonneg := ⟨0, rfl, le_refl _⟩
  have hz0 : (FOps.zero : Rnd R).val = 0 := rfl
  have hfin : ∀ i, i ≤ ps.length → (sumF (ps.take i)).FinNonneg := by
    intro i hi
    refine foldl_add_fin_of_le hR _ _ hz (fun w hw => hps w (List.mem_of_mem_take hw)) ?_
    rw [hz0, zero_add, List.length_take, min_eq_left hi]
    have h1 := hpw i hi
    have h2 := hpre i hi
    have h3 : (1 + uro) ^ i * ((ps.take i).map Rnd.val).sum ≤ (1 + 8 / 7 * a) * (1 + d) :=
      mul_le_mul h1 (by linarith [hsum.2]) (List.sum_nonneg (by
        intro x hx
        obtain ⟨y, hy, rfl⟩ := List.mem_map.mp hx
        exact (hps y (List.mem_of_mem_take hy)).nonneg)) (by linarith)
    nlinarith
  have hnn : ∀ p ∈ ps, XR.le (.fin 0) p.v = true ∨ p.v = .nan := fun p hp => Or.inl (FinNonneg.le_zero (hps p hp))
  have htot : |(sumF ps).val - 1| ≤ d + 2 * ps.length * uro := by
    have hf := hfin ps.length (le_refl _)
    rw [List.take_length] at hf
    obtain ⟨-, h1, h2⟩ := sumF_acc hR ps hne hnn _ hf.v
    have hb : 1 - a ≤ (1 - uro) ^ (ps.length - 1) := by
      have := one_add_mul_le_pow (a := -uro) (by unfold uro; norm_num) (ps.length - 1)
      have e2 : (1 : ℝ) + -uro = 1 - uro := by ring
      rw [e2] at this
      refine le_trans ?_ this
      have h3 : ((ps.length - 1 : ℕ) : ℝ) * uro ≤ a :=
        mul_le_mul_of_nonneg_right (by exact_mod_cast Nat.sub_le _ _) uro_pos.le
      linarith
    have hc := hpw (ps.length - 1) (Nat.sub_le _ _)
    have hs0 : 0 ≤ (ps.map Rnd.val).sum := by linarith
    have e : d + 2 * (ps.length : ℝ) * uro = d + 2 * a := by rw [ha]; ring
    rw [e, abs_le]
    constructor
    · have : (1 - a) * (ps.map Rnd.val).sum ≤ (sumF ps).val := le_trans (mul_le_mul_of_nonneg_right hb hs0) h1
      nlinarith
    · have : (sumF ps).val ≤ (1 + 8 / 7 * a) * (ps.map Rnd.val).sum := le_trans h2 (mul_le_mul_of_nonneg_right hc hs0)
      nlinarith
  refine ⟨hfin, ?_, htot⟩
  intro i hi
  have hs := sumF_take_succ ps i hi
  have hc := hfin i hi.le
  have hp := hps ps[i] (List.getElem_mem hi)
  have hc' := hfin (i + 1) hi
  rw [hs] at hc' ⊢
  obtain ⟨-, -, h3⟩ := add_fin_parts (Or.inl (FinNonneg.le_zero hc)) (Or.inl (FinNonneg.le_zero hp)) hc'.v
  rw [hR] at h3
  have he := rnd_add_err hc.nonneg hp.nonneg (by rw [← hR]; exact (sumF (ps.take i)).rep _ hc.v) (by rw [← hR]; exact (ps[i]).rep _ hp.v) h3
  have hmono : (sumF (ps.take i)).val ≤ (FOps.add (sumF (ps.take i)) ps[i]).val := by
    have h4 : XR.le (sumF (ps.take i)).v (FOps.add (sumF (ps.take i)) ps[i]).v = true :=
      FLaws.le_add _ _ (FinNonneg.le_zero hc) (FinNonneg.le_zero hp)
    rw [hc.v, hc'.v] at h4
    simpa [XR.le] using h4
  refine ⟨hmono, ?_⟩
  have hcle : (sumF (ps.take i)).val + ps[i].val ≤ 2 := by
    -- the rounded sum is at most `(1 + u)^n` times the exact one
    have h5 := hfin (i + 1) hi
    obtain ⟨h6, h7, -⟩ := foldl_add_acc hR (ps.take i) FOps.zero (Or.inl (FinNonneg.le_zero hz))
      (fun w hw => hnn w (List.mem_of_mem_take hw)) _ hc.v
    have h8 := (foldl_add_acc hR (ps.take i) FOps.zero (Or.inl (FinNonneg.le_zero hz))
      (fun w hw => hnn w (List.mem_of_mem_take hw)) _ hc.v).2.2.2
    rw [hz0, zero_add, List.length_take, min_eq_left hi.le] at h8
    have h9 := hpre (i + 1) hi
    have h10 : ((ps.take (i + 1)).map Rnd.val).sum = ((ps.take i).map Rnd.val).sum + ps[i].val := by
      rw [List.take_succ_eq_append_getElem hi, List.map_append, List.sum_append]; simp
    have h11 := hpw i hi.le
    have h12 : 0 ≤ ((ps.take i).map Rnd.val).sum := List.sum_nonneg (by
      intro x hx
      obtain ⟨y, hy, rfl⟩ := List.mem_map.mp hx
      exact (hps y (List.mem_of_mem_take hy)).nonneg)
    have h13 : (1 + uro) ^ i * ((ps.take i).map Rnd.val).sum ≤ (1 + 8 / 7 * a) * ((ps.take i).map Rnd.val).sum :=
      mul_le_mul_of_nonneg_right h11 h12
    have h14 := hp.nonneg
    nlinarith
  have hpos := add_nonneg hc.nonneg hp.nonneg
  rw [abs_le] at he ⊢
  have : uro * ((sumF (ps.take i)).val + ps[i].val) ≤ uro * 2 := mul_le_mul_of_nonneg_left hcle uro_pos.le
  constructor <;> linarith [he.1, he.2]

/-- the draw `k / 2^53` -/
noncomputable def uniformDraw (hR : R.rnd = B64.rnd) (k : Fin (2 ^ 53)) : Rnd R :=
  ⟨.fin ((k.val : ℝ) / 2 ^ 53), by
    intro y h
    simp only [XR.fin.injEq] at h
    subst h
    have := rnd_dyadic k.val (-53) k.isLt (by norm_num) (by norm_num)
    have e : ((k.val : ℝ)) * 2 ^ (-53 : ℤ) = (k.val : ℝ) / 2 ^ 53 := by rw [zpow_neg, div_eq_mul_inv]; rfl
    rw [e] at this
    rw [hR]; exact this⟩

/-- the share of the `2^53` equally likely draws for which position `i` is sampled -/
noncomputable def drawShare (hR : R.rnd = B64.rnd) (ps : List (Rnd R)) (i : Nat) : ℝ :=
  ((Finset.univ.filter fun k : Fin (2 ^ 53) => sampleOnce ps (uniformDraw hR k) = (i : Int)).card : ℝ) / 2 ^ 53

theorem tiny_le_draw (hR : R.rnd = B64.rnd) (k : Fin (2 ^ 53)) (hk : 0 < k.val) : FOps.le (FOps.tiny : Rnd R) (uniformDraw hR k) = true := by
  show XR.le (.fin _) (.fin _) = true
  simp only [XR.le, decide_eq_true_eq]
  have h1 : (1 : ℝ) ≤ k.val := by exact_mod_cast hk
  calc ((1 : ℝ) / 2) ^ 1022 ≤ (1 / 2) ^ 53 := pow_le_pow_of_le_one (by norm_num) (by norm_num) (by norm_num)
    _ = 1 / 2 ^ 53 := by norm_num
    _ ≤ _ := div_le_div_of_nonneg_right h1 (by positivity)

/-- a row of finite non-negative probabilities that sum to 1 up to `d`: position `i` is sampled for a share of the draws that differs from
its probability by at most `d + (n + 2) * 2^-52` -/
theorem draw_share (hR : R.rnd = B64.rnd) (ps : List (Rnd R)) (hps : ∀ p ∈ ps, ∃ x : ℝ, p.v = .fin x ∧ 0 ≤ x) (hn : ps.length ≤ 2 ^ 50)
    (d : ℝ) (hd : d ≤ 1 / 2) (hsum : |(ps.map Rnd.val).sum - 1| ≤ d) (i : Nat) (hi : i < ps.length) :
    |drawShare hR ps i - ps[i].val| ≤ d + (ps.length + 2) * (1 / 2 ^ 52) := by
  have hd0 : 0 ≤ d := (abs_nonneg _).trans hsum
  have hne : ps ≠ [] := by rintro rfl; simp at hi
  obtain ⟨t1, t2, t3⟩ := totals hR ps hne hps hn d hd hsum
  have hc := t1 i hi.le
  have hc' := t1 (i + 1) hi
  obtain ⟨hmono, hstep⟩ := t2 i hi
  set c := (sumF (ps.take i)).val with hcdef
  set c' := (sumF (ps.take (i + 1))).val with hcdef'
  set top : ℝ := if i + 1 = ps.length then 1 else min c' 1 with htop
  have hc0 : 0 ≤ c := hc.nonneg
  have hc0' : 0 ≤ c' := hc'.nonneg
  have htop1 : top ≤ 1 := by rw [htop]; split_ifs; exacts [le_refl _, min_le_right _ _]
  have htopc : min c 1 ≤ top := by
    rw [htop]; split_ifs
    · exact min_le_right _ _
    · exact min_le_min hmono (le_refl _)
  have hchar : ∀ k : Fin (2 ^ 53), 0 < k.val →
      (sampleOnce ps (uniformDraw hR k) = (i : Int) ↔ min c 1 * 2 ^ 53 < (k.val : ℝ) ∧ (k.val : ℝ) ≤ top * 2 ^ 53) := by
    intro k hk
    have hkN : (k.val : ℝ) < 2 ^ 53 := by exact_mod_cast k.isLt
    have hr1 : (k.val : ℝ) / 2 ^ 53 < 1 := by rw [div_lt_one (by positivity)]; exact hkN
    rw [(C01_single_draw ps (uniformDraw hR k) hne (fun p hp => FinNonneg.le_zero (hps p hp)) (tiny_le_draw hR k hk)).2 i hi]
    have h1 : (FOps.lt (sumF (ps.take i)) (uniformDraw hR k) = true) ↔ c < (k.val : ℝ) / 2 ^ 53 := by
      show XR.lt (sumF (ps.take i)).v (.fin _) = true ↔ _
      rw [hc.v]; simp [XR.lt, hcdef]
    have h2 : (FOps.le (uniformDraw hR k) (sumF (ps.take (i + 1))) = true) ↔ (k.val : ℝ) / 2 ^ 53 ≤ c' := by
      show XR.le (.fin _) (sumF (ps.take (i + 1))).v = true ↔ _
      rw [hc'.v]; simp [XR.le, hcdef']
    rw [h1, h2]
    have h3 : c < (k.val : ℝ) / 2 ^ 53 ↔ min c 1 * 2 ^ 53 < (k.val : ℝ) := by
      rw [← lt_div_iff₀ (by positivity), min_lt_iff]
      constructor
      · exact Or.inl
      · rintro (h | h)
        · exact h
        · linarith
    have h4 : ((k.val : ℝ) / 2 ^ 53 ≤ c' ∨ i + 1 = ps.length) ↔ (k.val : ℝ) ≤ top * 2 ^ 53 := by
      rw [← div_le_iff₀ (by positivity), htop]
      split_ifs with hl
      · simp [hl, hr1.le]
      · rw [le_min_iff]
        constructor
        · rintro (h | h)
          · exact ⟨h, hr1.le⟩
          · exact absurd h hl
        · exact fun h => Or.inl h.1
    rw [h3, h4]
  have hcount := count_Ioc (2 ^ 53) (by positivity) (fun k : Fin (2 ^ 53) => sampleOnce ps (uniformDraw hR k) = (i : Int))
    (min c 1 * 2 ^ 53) (top * 2 ^ 53) (mul_nonneg (le_min hc0 (by norm_num)) (by positivity))
    (mul_le_mul_of_nonneg_right htopc (by positivity))
    (by
      have h1 : top * 2 ^ 53 ≤ 1 * 2 ^ 53 := mul_le_mul_of_nonneg_right htop1 (by positivity)
      rw [one_mul] at h1
      have h2 : ((2 ^ 53 : ℕ) : ℝ) = 2 ^ 53 := by norm_num
      rw [h2]; exact h1) hchar
  have hshare : |drawShare hR ps i - (top - min c 1)| ≤ 2 * uro := by
    have e : drawShare hR ps i - (top - min c 1)
        = (((Finset.univ.filter fun k : Fin (2 ^ 53) => sampleOnce ps (uniformDraw hR k) = (i : Int)).card : ℝ)
            - (top * 2 ^ 53 - min c 1 * 2 ^ 53)) / 2 ^ 53 := by
      unfold drawShare; ring
    rw [e, abs_div, abs_of_pos (show (0 : ℝ) < 2 ^ 53 by positivity), div_le_iff₀ (by positivity)]
    refine hcount.trans ?_
    unfold uro; norm_num
  have hlen : (1 : ℝ) ≤ ps.length := by
    have : 1 ≤ ps.length := by omega
    exact_mod_cast this
  have hdev : |(top - min c 1) - ps[i].val| ≤ d + 2 * ps.length * uro + 2 * uro := by
    have hp0 : 0 ≤ ps[i].val := (hps _ (List.getElem_mem hi)).imp (fun x hx => hx) |>.elim fun x hx => by rw [Rnd.val_fin hx.1]; exact hx.2
    -- every running total is at most the last one
    have hle : c' ≤ 1 + (d + 2 * ps.length * uro) := by
      have hm : ∀ d, i + 1 + d ≤ ps.length → c' ≤ (sumF (ps.take (i + 1 + d))).val := by
        intro d
        induction d with
        | zero => intro _; exact le_refl _
        | succ d ih =>
          intro hd
          exact (ih (by omega)).trans (t2 (i + 1 + d) (by omega)).1
      have := hm (ps.length - (i + 1)) (by omega)
      rw [show i + 1 + (ps.length - (i + 1)) = ps.length by omega, List.take_length] at this
      rw [abs_le] at t3
      linarith [t3.2]
    have hu := uro_pos
    have hnu : 0 ≤ d + 2 * (ps.length : ℝ) * uro := by positivity
    rw [abs_le] at hstep ⊢
    rw [htop]
    split_ifs with hl
    · have e : sumF (ps.take (i + 1)) = sumF ps := by rw [hl, List.take_length]
      have hc1 : |c' - 1| ≤ d + 2 * ps.length * uro := by rw [hcdef', e]; exact t3
      rw [abs_le] at hc1
      rcases le_total c 1 with h | h
      · rw [min_eq_left h]; constructor <;> linarith [hstep.1, hstep.2, hc1.1, hc1.2]
      · rw [min_eq_right h]; constructor <;> linarith [hstep.1, hstep.2, hc1.1, hc1.2]
    · rcases le_total c' 1 with h | h
      · rw [min_eq_left h, min_eq_left (hmono.trans h)]; constructor <;> linarith [hstep.1, hstep.2]
      · rw [min_eq_right h]
        rcases le_total c 1 with h5 | h5
        · rw [min_eq_left h5]; constructor <;> linarith [hstep.1, hstep.2]
        · rw [min_eq_right h5]; constructor <;> linarith [hstep.1, hstep.2]
  have e : d + ((ps.length : ℝ) + 2) * (1 / 2 ^ 52) = (d + 2 * ps.length * uro + 2 * uro) + 2 * uro := by unfold uro; norm_num; ring
  rw [e]
  rw [abs_le] at hshare hdev ⊢
  constructor <;> linarith [hshare.1, hshare.2, hdev.1, hdev.2]

/-- **C59** In double precision: for a row of finite non-negative probabilities whose exact sum differs from 1 by at most `n * 2^-52`
(as those of C57 do), position `i` is sampled for a share of the draws that differs from its probability by at most `(2 n + 2) * 2^-52`. -/
theorem C59_frequency (hR : R.rnd = B64.rnd) (ps : List (Rnd R)) (hps : ∀ p ∈ ps, ∃ x : ℝ, p.v = .fin x ∧ 0 ≤ x) (hn : ps.length ≤ 2 ^ 50)
    (hsum : |(ps.map Rnd.val).sum - 1| ≤ ps.length * (1 / 2 ^ 52)) (i : Nat) (hi : i < ps.length) :
    |drawShare hR ps i - ps[i].val| ≤ (2 * ps.length + 2) * (1 / 2 ^ 52) := by
  have hnR : (ps.length : ℝ) ≤ 2 ^ 50 := by exact_mod_cast hn
  refine (draw_share hR ps hps hn _ ?_ hsum i hi).trans (le_of_eq (by ring))
  calc (ps.length : ℝ) * (1 / 2 ^ 52) ≤ 2 ^ 50 * (1 / 2 ^ 52) := mul_le_mul_of_nonneg_right hnR (by positivity)
    _ ≤ 1 / 2 := by norm_num

/-- **C59 (several draws)** The binary search used for several draws gives the same shares. -/
theorem C59_search (hR : R.rnd = B64.rnd) (ps : List (Rnd R)) (hne : ps ≠ []) (hps : ∀ p ∈ ps, ∃ x : ℝ, p.v = .fin x ∧ 0 ≤ x)
    (k : Fin (2 ^ 53)) (i : Nat) : logSearch (uniformDraw hR k) (nbfCumsum ps) = some i ↔ sampleOnce ps (uniformDraw hR k) = (i : Int) := by
  have hnn : ∀ p ∈ ps, FOps.le FOps.zero p = true := fun p hp => FinNonneg.le_zero (hps p hp)
  have : ∃ j : Nat, logSearch (uniformDraw hR k) (nbfCumsum ps) = some j ∧ sampleOnce ps (uniformDraw hR k) = (j : Int) := by
    rcases Nat.eq_zero_or_pos k.val with h | h
    · have e : uniformDraw hR k = FOps.zero := by
        show (⟨_, _⟩ : Rnd R) = ⟨_, _⟩
        congr 1
        rw [h]; simp
      rw [e]; exact C02_zero_draw ps hne hnn
    · exact C02_search_eq_scan ps _ hne hnn (tiny_le_draw hR k h)
  obtain ⟨j, h1, h2⟩ := this
  rw [h1, h2]
  constructor
  · intro h; simp only [Option.some.injEq] at h; rw [h]
  · intro h; congr 1; exact_mod_cast h

/-- **C59 (zero probabilities)** A choice whose computed probability is 0 is sampled for at most `(2 n + 2) * 2^-52` of the draws (C03: the
share need not be 0). -/
theorem C59_zero (hR : R.rnd = B64.rnd) (ps : List (Rnd R)) (hps : ∀ p ∈ ps, ∃ x : ℝ, p.v = .fin x ∧ 0 ≤ x) (hn : ps.length ≤ 2 ^ 50)
    (hsum : |(ps.map Rnd.val).sum - 1| ≤ ps.length * (1 / 2 ^ 52)) (i : Nat) (hi : i < ps.length) (h0 : ps[i].val = 0) :
    drawShare hR ps i ≤ (2 * ps.length + 2) * (1 / 2 ^ 52) := by
  have := C59_frequency hR ps hps hn hsum i hi
  rw [h0, sub_zero] at this
  exact (le_abs_self _).trans this

/-- **C59 (multinomial models)** From utilities to draws: with an `exp` of relative error `ε`, choice `i` is drawn for a share of the draws
that differs from `exp(u_i) / sum of exp(u_j)` by at most `3 ε + (3 n + 2) * 2^-52`. -/
theorem C59_multinomial (hR : R.rnd = B64.rnd) (ε : ℝ) (hε : 0 ≤ ε) (hε1 : ε ≤ 1 / 100) (hexp : ExpAcc R ε) (us : List (Rnd R)) (check : Bool)
    (ps : List (Rnd R)) (ls : Rnd R) (terms : List (Rnd R)) (h : multinomial us check = .ok (ps, ls, terms)) (S : ℝ) (hS : ls.v = .fin S)
    (hpos : 0 < S) (hn : us.length ≤ 2 ^ 50) (hbig : ∃ u ∈ us, ∃ x : ℝ, u.v = .fin x ∧ -620 ≤ x) (i : Nat) (hi : i < us.length) :
    |drawShare hR ps i - exactWeight us[i] / (us.map exactWeight).sum| ≤ 3 * ε + (3 * us.length + 2) * (1 / 2 ^ 52) := by
  obtain ⟨h1, h2, h3⟩ := C57_sum hR us check ps ls terms h S hS hpos hn
  have hi' : i < ps.length := by omega
  have h4 := C59_frequency hR ps h2 (by omega) (by rw [h1]; exact h3) i hi'
  have h5 := C58_accuracy hR ε hε hε1 hexp us check ps ls terms h S hS hpos hn hbig i hi hi'
  rw [h1] at h4
  rw [abs_le] at *
  constructor <;> linarith [h4.1, h4.2, h5.1, h5.2]

/-- two equally likely choices and an unavailable one: all hypotheses hold -/
example : ∃ (ps : List F64), (∃ ls terms, multinomial [FOps.zero, FOps.zero, FOps.negInf] true = .ok (ps, ls, terms)) ∧
    |drawShare (R := R64) rfl ps 0 - 1 / 2| ≤ 1 / 2 ^ 47 := by
  have hs := f64_sum_example
  have hr := multinomial_eq ([FOps.zero, FOps.zero, FOps.negInf] : List F64) true
  rw [if_neg (by show ¬ XR.le _ _ = true; rw [hs]; norm_num [XR.le, FOps.zero])] at hr
  refine ⟨_, ⟨_, _, hr⟩, ?_⟩
  have := C59_multinomial (R := R64) rfl (1 / 2 ^ 53) (by positivity) (by norm_num) expAcc_R64 _ _ _ _ _ hr 2 hs (by norm_num) (by norm_num)
    ⟨FOps.zero, by simp, 0, rfl, by norm_num⟩ 0 (by simp)
  have w1 : exactWeight (FOps.zero : F64) = 1 := by show Real.exp 0 = 1; exact Real.exp_zero
  have w2 : exactWeight (FOps.negInf : F64) = 0 := rfl
  have e : exactWeight ([FOps.zero, FOps.zero, FOps.negInf] : List F64)[0] / (([FOps.zero, FOps.zero, FOps.negInf] : List F64).map exactWeight).sum = 1 / 2 := by
    simp [w1, w2]; norm_num
  rw [e] at this
  refine this.trans ?_
  norm_num

/-! ### The draws as computed: `uniform(MIN_RANDOM_VALUE, 1.0)` is `low + (high - low) * k/2^53` -/

theorem roundEven_near (z : ℝ) (m : ℤ) (h : |z - m| < 1 / 2) : roundEven z = m := by
  have h1 := roundEven_err z
  rw [abs_lt] at h
  rw [abs_le] at h1
  have h2 : ((roundEven z - m : ℤ) : ℝ) < 1 := by push_cast; linarith [h.1, h.2, h1.1, h1.2]
  have h3 : (-1 : ℝ) < ((roundEven z - m : ℤ) : ℝ) := by push_cast; linarith [h.1, h.2, h1.1, h1.2]
  have h4 : roundEven z - m < 1 := by exact_mod_cast h2
  have h5 : -1 < roundEven z - m := by exact_mod_cast h3
  omega

/-- a number closer to a multiple of its unit in the last place than half of it rounds to that multiple -/
theorem rpos_near (x : ℝ) (m : ℤ) (h : |x - m * 2 ^ qexp x| < 2 ^ qexp x / 2) : rpos x = m * 2 ^ qexp x := by
  have hp := two_zpow_pos (qexp x)
  unfold rpos
  rw [roundEven_near _ m]
  have e : x / 2 ^ qexp x - m = (x - m * 2 ^ qexp x) / 2 ^ qexp x := by field_simp
  rw [e, abs_div, abs_of_pos hp, div_lt_iff₀ hp]
  linarith

theorem qexp_unit (x : ℝ) (h1 : (1 : ℝ) / 2 ^ 53 ≤ x) (h2 : x < 1) : -105 ≤ qexp x ∧ qexp x ≤ -53 := by
  have hx : 0 < x := lt_of_lt_of_le (by positivity) h1
  have ha : -53 ≤ Int.log 2 x := by
    rw [← Int.zpow_le_iff_le_log (by norm_num) hx]
    rw [zpow_neg, ← one_div]; exact_mod_cast h1
  have hb : Int.log 2 x < 0 := by
    rw [← Int.lt_zpow_iff_log_lt (by norm_num) hx]; simpa using h2
  unfold qexp
  omega

/-- adding something tiny to a draw does not change it -/
theorem rpos_add_tiny (k : ℕ) (hk : 0 < k) (hk2 : k < 2 ^ 53) (e : ℝ) (he : |e| ≤ 1 / 2 ^ 110) (hlow : (1 : ℝ) / 2 ^ 53 ≤ (k : ℝ) / 2 ^ 53 + e)
    (hup : (k : ℝ) / 2 ^ 53 + e < 1) : rpos ((k : ℝ) / 2 ^ 53 + e) = (k : ℝ) / 2 ^ 53 := by
  obtain ⟨h1, h2⟩ := qexp_unit _ hlow hup
  set x := (k : ℝ) / 2 ^ 53 + e with hx
  have es := zpow_split (-53) (qexp x) h2
  have e1 : (k : ℝ) / 2 ^ 53 = ((k * 2 ^ (-53 - qexp x).toNat : ℤ) : ℝ) * 2 ^ qexp x := by
    have e2 : (k : ℝ) / 2 ^ 53 = k * 2 ^ (-53 : ℤ) := by rw [zpow_neg, div_eq_mul_inv]; rfl
    rw [e2, es]; push_cast; ring
  have hd : x - (k : ℝ) / 2 ^ 53 = e := by rw [hx]; ring
  have := rpos_near x (k * 2 ^ (-53 - qexp x).toNat) (by
    rw [← e1, hd]
    refine lt_of_le_of_lt he ?_
    have : (2 : ℝ) ^ (-105 : ℤ) ≤ 2 ^ qexp x := zpow_le_zpow_right₀ (by norm_num) h1
    have h3 : (2 : ℝ) ^ (-105 : ℤ) = 1 / 2 ^ 105 := by rw [zpow_neg, one_div]; rfl
    rw [h3] at this
    refine lt_of_lt_of_le ?_ (div_le_div_of_nonneg_right this (by norm_num))
    norm_num)
  rw [this, ← e1]

theorem tiny_small : ((1 : ℝ) / 2) ^ 1022 ≤ 1 / 2 ^ 110 := by
  calc ((1 : ℝ) / 2) ^ 1022 ≤ (1 / 2) ^ 110 := pow_le_pow_of_le_one (by norm_num) (by norm_num) (by norm_num)
    _ = 1 / 2 ^ 110 := by norm_num

/-- `1.0 - MIN_RANDOM_VALUE` is `1.0` -/
theorem one_sub_tiny : rnd (1 - (1 / 2 : ℝ) ^ (1022 : ℕ)) = .fin 1 := by
  have ht := tiny_small
  have ht0 : (0 : ℝ) < (1 / 2) ^ 1022 := by positivity
  set τ := ((1 : ℝ) / 2) ^ 1022 with hτ
  have h110 : (1 : ℝ) / 2 ^ 110 ≤ 1 / 4 := by norm_num
  have h0 : 0 ≤ 1 - τ := by linarith
  have hq : qexp (1 - τ) = -53 := by
    have hx : 0 < 1 - τ := by linarith
    have ha : -1 ≤ Int.log 2 (1 - τ) := by
      rw [← Int.zpow_le_iff_le_log (by norm_num) hx]
      have : ((2 : ℕ) : ℝ) ^ (-1 : ℤ) = 1 / 2 := by norm_num
      rw [this]; linarith
    have hb : Int.log 2 (1 - τ) < 0 := by
      rw [← Int.lt_zpow_iff_log_lt (by norm_num) hx]
      have : ((2 : ℕ) : ℝ) ^ (0 : ℤ) = 1 := by norm_num
      rw [this]; linarith
    unfold qexp; omega
  have e1 : ((2 ^ 53 : ℤ) : ℝ) * 2 ^ qexp (1 - τ) = 1 := by
    rw [hq]; norm_num
  have hr : rpos (1 - τ) = 1 := by
    rw [rpos_near (1 - τ) (2 ^ 53) (by
      rw [e1, hq]
      have e2 : (1 : ℝ) - τ - 1 = -τ := by ring
      rw [e2, abs_neg, abs_of_pos ht0]
      refine lt_of_le_of_lt ht ?_
      norm_num), e1]
  rw [rnd_nonneg h0, hr, if_neg]
  push Not
  unfold big
  exact one_lt_pow₀ (by norm_num) (by norm_num)

/-- the draw computed by `np.random.uniform(MIN_RANDOM_VALUE, 1.0)` (core.py:101, 117, 313) from the `k`-th of the `2^53` values of the
generator: `low + (high - low) * k/2^53`, with `high - low` rounded -/
noncomputable def computedDraw (hR : R.rnd = B64.rnd) (k : Fin (2 ^ 53)) : Rnd R :=
  FOps.add FOps.tiny (FOps.mul ⟨R.rnd (1 - (1 / 2 : ℝ) ^ (1022 : ℕ)), fun y h => R.idem _ y h⟩ (uniformDraw hR k))

theorem computedDraw_v (hR : R.rnd = B64.rnd) (k : Fin (2 ^ 53)) :
    (computedDraw hR k).v = if k.val = 0 then .fin ((1 / 2 : ℝ) ^ (1022 : ℕ)) else .fin ((k.val : ℝ) / 2 ^ 53) := by
  have hm : (FOps.mul (⟨R.rnd (1 - (1 / 2 : ℝ) ^ (1022 : ℕ)), fun y h => R.idem _ y h⟩ : Rnd R) (uniformDraw hR k)).v
      = .fin ((k.val : ℝ) / 2 ^ 53) := by
    show R.rndX (XR.mul (R.rnd _) (.fin _)) = _
    rw [hR, one_sub_tiny]
    show R.rnd (1 * _) = _
    rw [one_mul]
    exact (uniformDraw hR k).rep _ rfl
  have ha : (computedDraw hR k).v = R.rnd ((1 / 2 : ℝ) ^ (1022 : ℕ) + (k.val : ℝ) / 2 ^ 53) := by
    show R.rndX (XR.add (.fin _) (FOps.mul _ (uniformDraw hR k) : Rnd R).v) = _
    rw [hm]
    rfl
  rw [ha]
  split_ifs with h
  · rw [h, Nat.cast_zero, zero_div, add_zero]; exact R.tiny
  · have hk : 0 < k.val := Nat.pos_of_ne_zero h
    have ht := tiny_small
    have ht0 : (0 : ℝ) < (1 / 2) ^ 1022 := by positivity
    have hkN : (k.val : ℝ) ≤ 2 ^ 53 - 1 := by
      have : k.val + 1 ≤ 2 ^ 53 := k.isLt
      have : (k.val : ℝ) + 1 ≤ 2 ^ 53 := by exact_mod_cast this
      linarith
    have hk1 : (1 : ℝ) ≤ k.val := by exact_mod_cast hk
    have h110 : (1 : ℝ) / 2 ^ 110 < 1 / 2 ^ 53 := by norm_num
    have hlow : (1 : ℝ) / 2 ^ 53 ≤ (k.val : ℝ) / 2 ^ 53 := div_le_div_of_nonneg_right hk1 (by positivity)
    have hup : (k.val : ℝ) / 2 ^ 53 ≤ 1 - 1 / 2 ^ 53 := by
      rw [div_le_iff₀ (by positivity)]
      have : ((1 : ℝ) - 1 / 2 ^ 53) * 2 ^ 53 = 2 ^ 53 - 1 := by norm_num
      rw [this]; exact hkN
    have hr := rpos_add_tiny k.val hk k.isLt ((1 / 2 : ℝ) ^ 1022) (by rw [abs_of_pos ht0]; exact ht)
      (by generalize ((1 : ℝ) / 2) ^ 1022 = τ at *; linarith) (by generalize ((1 : ℝ) / 2) ^ 1022 = τ at *; linarith)
    rw [add_comm, hR, rnd_nonneg (by positivity), hr, if_neg]
    push Not
    have : (k.val : ℝ) / 2 ^ 53 < 1 := by
      have : (0 : ℝ) < 1 / 2 ^ 53 := by positivity
      linarith
    refine this.trans ?_
    unfold big
    exact one_lt_pow₀ (by norm_num) (by norm_num)

/-- **C59 (the generator's arithmetic)** `uniform(MIN_RANDOM_VALUE, 1.0)` returns `k/2^53` itself, or `MIN_RANDOM_VALUE` for `k = 0`, so
that both sampling functions select as for the draw `k/2^53`. -/
theorem C59_uniform (hR : R.rnd = B64.rnd) (ps : List (Rnd R)) (k : Fin (2 ^ 53)) :
    sampleOnce ps (computedDraw hR k) = sampleOnce ps (uniformDraw hR k) ∧
    logSearch (computedDraw hR k) (nbfCumsum ps) = logSearch (uniformDraw hR k) (nbfCumsum ps) := by
  have hv := computedDraw_v hR k
  have ext : ∀ a b : Rnd R, a.v = b.v → a = b := by
    rintro ⟨a, _⟩ ⟨b, _⟩ h; cases h; rfl
  by_cases h : k.val = 0
  · rw [if_pos h] at hv
    have e1 : computedDraw hR k = FOps.tiny := ext _ _ hv
    have e2 : uniformDraw hR k = FOps.zero := by
      apply ext
      show XR.fin _ = XR.fin 0
      rw [h]; simp
    rw [e1, e2]
    constructor
    · have m1 : pyMax (FOps.tiny : Rnd R) FOps.tiny = FOps.tiny := by unfold pyMax; split_ifs <;> rfl
      have m2 : pyMax (FOps.zero : Rnd R) FOps.tiny = FOps.tiny := by
        unfold pyMax
        rw [if_neg (by rw [((FLaws.lt_iff _ _).mp FLaws.tiny_pos).2.2]; simp)]
      unfold sampleOnce
      rw [m1, m2]
    · have h1 : (FOps.le (FOps.zero : Rnd R) FOps.zero && FOps.le (FOps.zero : Rnd R) FOps.zero) = true := by
        rw [FLaws.le_refl _ FLaws.zero_notNan]; rfl
      have h2 : FOps.le (FOps.tiny : Rnd R) FOps.zero = false := ((FLaws.lt_iff _ _).mp FLaws.tiny_pos).2.2
      unfold logSearch
      simp only [h1, h2, if_true, Bool.false_and, Bool.false_eq_true, if_false]
  · rw [if_neg h] at hv
    rw [ext (computedDraw hR k) (uniformDraw hR k) hv]
    exact ⟨rfl, rfl⟩

end Cheval
