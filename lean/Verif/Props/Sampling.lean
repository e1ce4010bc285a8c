import Verif.Core.SamplingLemmas
import Verif.Num.XRLemmas
import Mathlib.MeasureTheory.Measure.Lebesgue.Basic

/-!
# C01-C04 : sampling a choice from a row of probabilities

`F` ranges over every carrier satisfying the order laws `FLaws` (exact reals, any monotonically rounded arithmetic).
`sumF (ps.take i)` is the running total of the first `i` probabilities as the program computes it (left to right).
-/
set_option linter.unusedSectionVars false
namespace Cheval
open FOps
open XR (fin tinyR tiny_def pyMax_fin sumF_fin tinyR_pos tinyR_lt_one)

section generic
variable {F : Type} [FOps F] [FLaws F]

theorem nbfCumsum_getElem (ps : List F) (j : Nat) (h : j < (nbfCumsum ps).length) :
    (nbfCumsum ps)[j] = sumF (ps.take (j + 1)) := cumsumFrom_getElem _ _ _ h

theorem nbfCumsum_length (ps : List F) : (nbfCumsum ps).length = ps.length := cumsumFrom_length _ _

omit [FLaws F] in
theorem pyMax_of_le {r : F} (h : le (tiny : F) r = true) : pyMax r tiny = r := by simp [pyMax, h]

/-- **C01** For every non-empty row of non-negative probabilities and every draw `r` (clamped from below at the smallest
normal number), the sampled position is valid, and it is `i` exactly when the running total before `i` is below the draw
and the running total including `i` reaches it (or `i` is the last position). -/
theorem C01_single_draw (ps : List F) (r : F) (hne : ps ≠ []) (hps : ∀ p ∈ ps, le zero p = true)
    (hr : le (tiny : F) r = true) :
    (0 ≤ sampleOnce ps r ∧ sampleOnce ps r < ps.length) ∧
    ∀ i : Nat, i < ps.length →
      (sampleOnce ps r = (i : Int) ↔
        (lt (sumF (ps.take i)) r = true ∧ (le r (sumF (ps.take (i + 1))) = true ∨ i + 1 = ps.length))) := by
  obtain ⟨k, hk, hsp⟩ := sampleOnce_spec ps r hne
  rw [pyMax_of_le hr] at hsp
  have hlen := nbfCumsum_length ps
  have hkl : k < ps.length := by have := hsp.1; omega
  have hnan : isNan r = false := (FLaws.le_notNan _ _ hr).2
  have hz : le (zero : F) zero = true := FLaws.le_refl _ FLaws.zero_notNan
  have hsum : ∀ i, le zero (sumF (ps.take i)) = true := fun i =>
    (foldl_add_nonneg zero (ps.take i) hz (fun p hp => hps p (List.mem_of_mem_take hp))).1
  have hltz : lt (zero : F) r = true := by
    rw [FLaws.lt_iff]
    refine ⟨FLaws.zero_notNan, hnan, ?_⟩
    cases h : le r zero with
    | false => rfl
    | true =>
      have := FLaws.le_trans _ _ _ hr h
      have h2 := (FLaws.lt_iff _ _).mp (FLaws.tiny_pos (F := F))
      rw [this] at h2
      simp at h2
  refine ⟨by rw [hk]; omega, ?_⟩
  intro i hi
  have key : IsFirstReach r (nbfCumsum ps) i ↔
      (lt (sumF (ps.take i)) r = true ∧ (le r (sumF (ps.take (i + 1))) = true ∨ i + 1 = ps.length)) := by
    constructor
    · rintro ⟨h1, h2, h3⟩
      refine ⟨?_, ?_⟩
      · cases i with
        | zero => simpa [sumF] using hltz
        | succ i =>
          have hh := h2 i (by omega) (by omega)
          rw [nbfCumsum_getElem] at hh
          rw [FLaws.lt_iff]
          exact ⟨(FLaws.le_notNan _ _ (hsum (i + 1))).2, hnan, hh⟩
      · rcases h3 with h3 | ⟨h, h3⟩
        · right; omega
        · left; rwa [nbfCumsum_getElem] at h3
    · rintro ⟨h1, h2⟩
      refine ⟨by omega, ?_, ?_⟩
      · intro j hj hji
        have h1' := ((FLaws.lt_iff _ _).mp h1).2.2
        cases i with
        | zero => omega
        | succ i =>
          have hm := cumsum_mono ps hps j i (by omega) hj (by omega)
          rw [nbfCumsum_getElem ps i] at hm
          exact not_le_trans hnan hm h1'
      · rcases h2 with h2 | h2
        · right; exact ⟨by omega, by rwa [nbfCumsum_getElem]⟩
        · left; omega
  rw [← key]
  constructor
  · intro h
    have : k = i := by rw [hk] at h; exact_mod_cast h
    rwa [← this]
  · intro h
    rw [hk, hsp.unique h]

/-- **C01 (clamp)** A draw below the smallest normal number is treated as that number. -/
theorem C01_small_draw (ps : List F) (r : F) (hr : le (tiny : F) r = false) :
    sampleOnce ps r = sampleOnce ps tiny := by
  have h2 : le (tiny : F) tiny = true :=
    FLaws.le_refl _ ((FLaws.lt_iff _ _).mp (FLaws.tiny_pos (F := F))).2.1
  simp [sampleOnce, pyMax, hr, h2]

/-- **C02 (one draw)** The binary search over running totals returns the position found by the sequential scan. -/
theorem C02_search_eq_scan (ps : List F) (r : F) (hne : ps ≠ []) (hps : ∀ p ∈ ps, le zero p = true)
    (hr : le (tiny : F) r = true) :
    ∃ k, logSearch r (nbfCumsum ps) = some k ∧ sampleOnce ps r = (k : Int) := by
  obtain ⟨k, hk, hsp⟩ := sampleOnce_spec ps r hne
  rw [pyMax_of_le hr] at hsp
  have hnan : isNan r = false := (FLaws.le_notNan _ _ hr).2
  have hcl : clampZero r = r := by
    unfold clampZero
    have : le r zero = false := by
      cases h : le r zero with
      | false => rfl
      | true =>
        have := FLaws.le_trans _ _ _ hr h
        have h2 := (FLaws.lt_iff _ _).mp (FLaws.tiny_pos (F := F))
        rw [this] at h2
        simp at h2
    simp [this]
  obtain ⟨k', hk', hsp'⟩ := logSearch_spec r (nbfCumsum ps)
    (by intro h; apply hne; have := congrArg List.length h; rw [nbfCumsum_length] at this; simpa using this)
    (by rw [hcl]; exact hnan)
    (fun i j hi hj hij => cumsum_mono ps hps i j hij hi hj)
  rw [hcl] at hsp'
  exact ⟨k', hk', by rw [hk, hsp.unique hsp']⟩

/-- **C02 (zero draw)** The exact draw `0` is also handled identically by both paths. -/
theorem C02_zero_draw (ps : List F) (hne : ps ≠ []) (hps : ∀ p ∈ ps, le zero p = true) :
    ∃ k, logSearch zero (nbfCumsum ps) = some k ∧ sampleOnce ps zero = (k : Int) := by
  have h2 : le (tiny : F) tiny = true :=
    FLaws.le_refl _ ((FLaws.lt_iff _ _).mp (FLaws.tiny_pos (F := F))).2.1
  have hz : le (zero : F) zero = true := FLaws.le_refl _ FLaws.zero_notNan
  have htz : le (tiny : F) zero = false := ((FLaws.lt_iff _ _).mp (FLaws.tiny_pos (F := F))).2.2
  obtain ⟨k, hk, hk'⟩ := C02_search_eq_scan ps tiny hne hps h2
  refine ⟨k, ?_, by rw [C01_small_draw ps zero htz, hk']⟩
  rw [← hk]
  simp [logSearch, hz, htz]

/-- **C02 (n draws)** Sampling `n` times with a seed succeeds, returns `n` positions, and the `i`-th one is the position
single-draw sampling returns for the `i`-th draw of that seed. -/
theorem C02_multi_draw (g : Rng F) (ps : List F) (n : Nat) (seed : Int) (outLen : Option Nat)
    (hout : outLen = none ∨ outLen = some n)
    (hne : ps ≠ []) (hps : ∀ p ∈ ps, le zero p = true)
    (hg : ∀ i < n, le (tiny : F) (g.uniform seed i) = true) :
    ∃ out, sampleMulti g ps n seed outLen = .ok out ∧ out.length = n ∧
      ∀ i (h : i < out.length), (out[i] : Int) = sampleOnce ps (g.uniform seed i) := by
  have hd : outLen.getD n = n := by rcases hout with rfl | rfl <;> rfl
  have main : ∀ l : List Nat, (∀ i ∈ l, le (tiny : F) (g.uniform seed i) = true) →
      ∃ out : List Nat, (l.mapM fun i => match logSearch (g.uniform seed i) (nbfCumsum ps) with
          | none => (Except.error Err.oob : Except Err Nat)
          | some k => .ok k) = .ok out ∧ out.map (fun k : Nat => (k : Int)) = l.map (fun i => sampleOnce ps (g.uniform seed i)) := by
    intro l
    induction l with
    | nil => intro _; exact ⟨[], rfl, rfl⟩
    | cons a l ih =>
      intro hl
      obtain ⟨out, h1, h2⟩ := ih (fun i hi => hl i (by simp [hi]))
      obtain ⟨k, hk, hk'⟩ := C02_search_eq_scan ps (g.uniform seed a) hne hps (hl a (by simp))
      refine ⟨k :: out, ?_, by simp [h2, hk']⟩
      simp only [List.mapM_cons, hk, h1]
      rfl
  obtain ⟨out, h1, h2⟩ := main (List.range n) (fun i hi => hg i (List.mem_range.mp hi))
  have hlen : out.length = n := by simpa using congrArg List.length h2
  refine ⟨out, ?_, hlen, ?_⟩
  · unfold sampleMulti
    simp only [hd, ne_eq, not_true_eq_false, if_false]
    exact h1
  · intro i hi
    have := congrArg (fun l => l[i]?) h2
    simp only [List.getElem?_map, List.getElem?_eq_getElem hi, Option.map_some] at this
    rw [List.getElem?_range (by omega)] at this
    simpa using this

/-- **C02 (guard)** A caller-supplied output array of another length is rejected. -/
theorem C02_out_length (g : Rng F) (ps : List F) (n m : Nat) (seed : Int) (h : m ≠ n) :
    sampleMulti g ps n seed (some m) = .error .assertion := by
  simp [sampleMulti, h]

/-- **C03 (partial)** If the draw does not exceed the total, the sampled choice has strictly positive probability; by C02
the same holds for multi-draw sampling. Missing for the full claim: draws above the (rounded) total, see
`C03_zero_probability_refuted`. -/
theorem C03_positive_partial (ps : List F) (r : F) (hne : ps ≠ []) (hps : ∀ p ∈ ps, le zero p = true)
    (hr : le (tiny : F) r = true) (htot : le r (sumF ps) = true) :
    ∃ (k : Nat) (h : k < ps.length), sampleOnce ps r = (k : Int) ∧ logSearch r (nbfCumsum ps) = some k ∧
      lt zero ps[k] = true := by
  obtain ⟨k, hks, hk⟩ := C02_search_eq_scan ps r hne hps hr
  obtain ⟨⟨_, hlt⟩, hiff⟩ := C01_single_draw ps r hne hps hr
  have hkl : k < ps.length := by rw [hk] at hlt; exact_mod_cast hlt
  refine ⟨k, hkl, hk, hks, ?_⟩
  obtain ⟨h1, h2⟩ := (hiff k hkl).mp hk
  have h2' : le r (sumF (ps.take (k + 1))) = true := by
    rcases h2 with h2 | h2
    · exact h2
    · rw [h2, List.take_length]; exact htot
  have hp : le zero ps[k] = true := hps _ (List.getElem_mem hkl)
  rw [FLaws.lt_iff]
  refine ⟨FLaws.zero_notNan, (FLaws.le_notNan _ _ hp).2, ?_⟩
  cases h : le ps[k] zero with
  | false => rfl
  | true =>
    exfalso
    have hz : le (zero : F) zero = true := FLaws.le_refl _ FLaws.zero_notNan
    have hs : le zero (sumF (ps.take k)) = true :=
      (foldl_add_nonneg zero (ps.take k) hz (fun p hp => hps p (List.mem_of_mem_take hp))).1
    have he : sumF (ps.take (k + 1)) = add (sumF (ps.take k)) ps[k] := by
      unfold sumF; rw [List.take_succ_eq_append_getElem hkl, List.foldl_append]; rfl
    rw [he] at h2'
    have := FLaws.le_trans _ _ _ h2' (FLaws.add_zero _ _ hs h hp)
    rw [((FLaws.lt_iff _ _).mp h1).2.2] at this
    cases this

end generic

/-! ### Exact arithmetic -/

theorem take_sum_mono (ps : List ℝ) (hps : ∀ p ∈ ps, 0 ≤ p) (i : Nat) (hi : i < ps.length) :
    (ps.take i).sum + ps[i] = (ps.take (i + 1)).sum := by
  rw [List.take_succ_eq_append_getElem hi, List.sum_append, List.sum_singleton]

/-- **C01 (exact reals)** -/
theorem C01_single_draw_exact (ps : List ℝ) (r : ℝ) (hne : ps ≠ []) (hps : ∀ p ∈ ps, 0 ≤ p) (i : Nat)
    (hi : i < ps.length) :
    sampleOnce (ps.map fin) (fin r) = (i : Int) ↔
      ((ps.take i).sum < max r tinyR ∧ (max r tinyR ≤ (ps.take (i + 1)).sum ∨ i + 1 = ps.length)) := by
  have hps' : ∀ p ∈ ps.map fin, le (zero : XR) p = true := by
    intro p hp
    obtain ⟨x, hx, rfl⟩ := List.mem_map.mp hp
    simpa using hps x hx
  have hne' : ps.map fin ≠ [] := by simpa using hne
  have hs : sampleOnce (ps.map fin) (fin r) = sampleOnce (ps.map fin) (fin (max r tinyR)) := by
    unfold sampleOnce
    simp [tiny_def, pyMax_fin]
  rw [hs]
  have := (C01_single_draw (ps.map fin) (fin (max r tinyR)) hne' hps' (by simp [tiny_def])).2 i (by simpa using hi)
  rw [this, ← List.map_take, ← List.map_take, sumF_fin, sumF_fin]
  simp

open MeasureTheory in
/-- **C04** If the probabilities sum to 1 and the draw is uniform on `(0,1]`, choice `i` is selected with probability `p_i`,
up to the clamping of draws at `2^-1022`; exactly `p_i` when the clamp is not involved. -/
theorem C04_frequency (ps : List ℝ) (hps : ∀ p ∈ ps, 0 ≤ p) (hsum : ps.sum = 1) (i : Nat) (hi : i < ps.length) :
    |(volume {r : ℝ | r ∈ Set.Ioc 0 1 ∧ sampleOnce (ps.map fin) (fin r) = (i : Int)}).toReal - ps[i]| ≤ tinyR ∧
    ((tinyR ≤ (ps.take i).sum ∨ ((ps.take i).sum = 0 ∧ tinyR ≤ ps[i])) →
      volume {r : ℝ | r ∈ Set.Ioc 0 1 ∧ sampleOnce (ps.map fin) (fin r) = (i : Int)} = ENNReal.ofReal ps[i]) := by
  have hne : ps ≠ [] := by rintro rfl; simp at hi
  have hC := take_sum_mono ps hps i hi
  set A := (ps.take i).sum with hA
  set B := (ps.take (i + 1)).sum with hB
  have hp : 0 ≤ ps[i] := hps _ (List.getElem_mem hi)
  have hA0 : 0 ≤ A := List.sum_nonneg (fun x hx => hps x (List.mem_of_mem_take hx))
  have hB1 : B ≤ 1 := by
    have : B + (ps.drop (i + 1)).sum = 1 := by rw [hB, ← List.sum_append, List.take_append_drop, hsum]
    have : 0 ≤ (ps.drop (i + 1)).sum := List.sum_nonneg (fun x hx => hps x (List.mem_of_mem_drop hx))
    linarith
  have hlast : i + 1 = ps.length → B = 1 := by
    intro h; rw [hB, h, List.take_length, hsum]
  have ht0 := tinyR_pos
  have ht1 := tinyR_lt_one
  have hset : {r : ℝ | r ∈ Set.Ioc 0 1 ∧ sampleOnce (ps.map fin) (fin r) = (i : Int)} =
      {r : ℝ | (0 < r ∧ r ≤ 1) ∧ A < max r tinyR ∧ max r tinyR ≤ B} := by
    ext r
    simp only [Set.mem_setOf_eq, Set.mem_Ioc]
    rw [C01_single_draw_exact ps r hne hps i hi]
    constructor
    · rintro ⟨h1, h2, h3 | h3⟩
      · exact ⟨h1, h2, h3⟩
      · exact ⟨h1, h2, by rw [hlast h3]; exact max_le h1.2 ht1.le⟩
    · rintro ⟨h1, h2, h3⟩
      exact ⟨h1, h2, Or.inl h3⟩
  rw [hset]
  by_cases hBt : B < tinyR
  · have : {r : ℝ | (0 < r ∧ r ≤ 1) ∧ A < max r tinyR ∧ max r tinyR ≤ B} = ∅ := by
      ext r
      simp only [Set.mem_setOf_eq, Set.mem_empty_iff_false, iff_false]
      rintro ⟨_, _, h⟩
      have := le_max_right r tinyR
      linarith
    rw [this]
    refine ⟨?_, ?_⟩
    · simp only [measure_empty, ENNReal.toReal_zero, zero_sub, abs_neg]
      rw [abs_of_nonneg hp]; linarith
    · rintro (h | ⟨h, h'⟩) <;> exfalso <;> linarith
  · push Not at hBt
    by_cases hAt : A < tinyR
    · have : {r : ℝ | (0 < r ∧ r ≤ 1) ∧ A < max r tinyR ∧ max r tinyR ≤ B} = Set.Ioc 0 B := by
        ext r
        simp only [Set.mem_setOf_eq, Set.mem_Ioc]
        constructor
        · rintro ⟨h1, _, h3⟩
          exact ⟨h1.1, (le_max_left _ _).trans h3⟩
        · rintro ⟨h1, h2⟩
          exact ⟨⟨h1, h2.trans hB1⟩, lt_of_lt_of_le hAt (le_max_right _ _), max_le h2 hBt⟩
      rw [this, Real.volume_Ioc, sub_zero]
      refine ⟨?_, ?_⟩
      · rw [ENNReal.toReal_ofReal (by linarith), ← hC]
        rw [show A + ps[i] - ps[i] = A by ring, abs_of_nonneg hA0]
        exact hAt.le
      · rintro (h | ⟨h, h'⟩)
        · linarith
        · rw [← hC, h, zero_add]
    · push Not at hAt
      have : {r : ℝ | (0 < r ∧ r ≤ 1) ∧ A < max r tinyR ∧ max r tinyR ≤ B} = Set.Ioc A B := by
        ext r
        simp only [Set.mem_setOf_eq, Set.mem_Ioc]
        constructor
        · rintro ⟨_, h2, h3⟩
          refine ⟨?_, (le_max_left _ _).trans h3⟩
          rcases lt_max_iff.mp h2 with h | h
          · exact h
          · linarith
        · rintro ⟨h1, h2⟩
          exact ⟨⟨by linarith, by linarith⟩, lt_of_lt_of_le h1 (le_max_left _ _), max_le h2 hBt⟩
      rw [this, Real.volume_Ioc]
      have hBA : B - A = ps[i] := by linarith
      rw [hBA]
      refine ⟨?_, fun _ => rfl⟩
      rw [ENNReal.toReal_ofReal hp]; simp [ht0.le]

/-! ### Non-vacuity: a concrete row with zeros inside meets the hypotheses of C01-C04 -/
example : ∃ ps : List ℝ, ps = [0, 1/4, 0, 3/4] ∧ ps ≠ [] ∧ (∀ p ∈ ps, 0 ≤ p) ∧ ps.sum = 1 ∧
    sampleOnce (ps.map fin) (fin (1/4)) = 1 ∧ sampleOnce (ps.map fin) (fin (1/2)) = 3 := by
  refine ⟨_, rfl, by simp, ?_, by norm_num, ?_, ?_⟩
  · intro p hp; simp at hp; rcases hp with rfl | rfl | rfl | rfl <;> norm_num
  · have := C01_single_draw_exact [0, 1/4, 0, 3/4] (1/4) (by simp)
      (by intro p hp; simp at hp; rcases hp with rfl | rfl | rfl | rfl <;> norm_num) 1 (by simp)
    rw [show ((1:Int)) = ((1:Nat):Int) by rfl, this]
    have h : tinyR ≤ 1/4 := by unfold tinyR; exact (pow_le_pow_of_le_one (by norm_num) (by norm_num) (show 2 ≤ 1022 by norm_num)).trans (by norm_num)
    rw [max_eq_left h]; norm_num
  · have := C01_single_draw_exact [0, 1/4, 0, 3/4] (1/2) (by simp)
      (by intro p hp; simp at hp; rcases hp with rfl | rfl | rfl | rfl <;> norm_num) 3 (by simp)
    rw [show ((3:Int)) = ((3:Nat):Int) by rfl, this]
    have h : tinyR ≤ 1/2 := by unfold tinyR; exact (pow_le_pow_of_le_one (by norm_num) (by norm_num) (show 1 ≤ 1022 by norm_num)).trans (by norm_num)
    rw [max_eq_left h]; norm_num

end Cheval
