import Verif.Props.Sampling
import Verif.Core.Logit

/-!
# C04 for weights (cheval/core.py:126-128, 243-253): sampling from weights that need not sum to one
-/
namespace Cheval
open FOps XR

/-- the probabilities computed from weights are the weights over their total -/
theorem simpleProbabilities_fin (w : List ℝ) (h : w.sum ≠ 0) :
    simpleProbabilities (w.map fin) = (w.map fun x => x / w.sum).map fin := by
  unfold simpleProbabilities
  rw [sumF_fin, List.map_map, List.map_map]
  exact List.map_congr_left fun x _ => div_fin x _ h

theorem sum_shares (w : List ℝ) (h : w.sum ≠ 0) : (w.map fun x => x / w.sum).sum = 1 := by
  have : ∀ l : List ℝ, ∀ c : ℝ, (l.map fun x => x / c).sum = l.sum / c := by
    intro l c
    induction l with
    | nil => simp
    | cons a l ih => simp [ih, add_div]
  rw [this, div_self h]

open MeasureTheory in
/-- **C04 (weights)** With non-negative weights of positive total, whatever that total is, a draw uniform on `(0,1]` selects
choice `i` with probability `w_i / Σ w`, up to the clamping of draws at `2^-1022`; exactly so when the clamp is not involved. -/
theorem C04_weights (w : List ℝ) (hw : ∀ x ∈ w, 0 ≤ x) (hpos : 0 < w.sum) (i : Nat) (hi : i < w.length) :
    |(volume {r : ℝ | r ∈ Set.Ioc 0 1 ∧ simpleSample (w.map fin) (fin r) = (i : Int)}).toReal - w[i] / w.sum| ≤ tinyR ∧
    ((tinyR * w.sum ≤ (w.take i).sum ∨ ((w.take i).sum = 0 ∧ tinyR * w.sum ≤ w[i])) →
      volume {r : ℝ | r ∈ Set.Ioc 0 1 ∧ simpleSample (w.map fin) (fin r) = (i : Int)} = ENNReal.ofReal (w[i] / w.sum)) := by
  have hs := simpleProbabilities_fin w hpos.ne'
  have hdiv : ∀ l : List ℝ, (l.map fun x => x / w.sum).sum = l.sum / w.sum := by
    intro l
    induction l with
    | nil => simp
    | cons a l ih => simp [ih, add_div]
  have := C04_frequency (w.map fun x => x / w.sum)
    (by intro p hp; obtain ⟨x, hx, rfl⟩ := List.mem_map.mp hp; exact div_nonneg (hw x hx) hpos.le)
    (sum_shares w hpos.ne') i (by simpa using hi)
  simp only [List.getElem_map, ← List.map_take, hdiv] at this
  simp only [simpleSample, hs]
  refine ⟨this.1, fun h => this.2 ?_⟩
  rcases h with h | ⟨h, h'⟩
  · exact Or.inl ((le_div_iff₀ hpos).mpr h)
  · exact Or.inr ⟨by rw [h, zero_div], (le_div_iff₀ hpos).mpr h'⟩

/-- **C02 (weights)** Sampling `n` times from weights with a seed gives, draw by draw, what single sampling from the same
weights gives for the draws of that seed. -/
theorem C02_weights (g : Rng XR) (w : List ℝ) (n : Nat) (seed : Int) (outLen : Option Nat)
    (hout : outLen = none ∨ outLen = some n) (hw : ∀ x ∈ w, 0 ≤ x) (hpos : 0 < w.sum)
    (hg : ∀ i < n, FOps.le (tiny : XR) (g.uniform seed i) = true) :
    ∃ out, simpleMultisample g (w.map fin) n seed outLen = .ok out ∧ out.length = n ∧
      ∀ i (h : i < out.length), (out[i] : Int) = simpleSample (w.map fin) (g.uniform seed i) := by
  have hs := simpleProbabilities_fin w hpos.ne'
  unfold simpleMultisample simpleSample
  rw [hs]
  refine C02_multi_draw g _ n seed outLen hout ?_ ?_ hg
  · intro h
    have : w = [] := by simpa using h
    rw [this] at hpos; simp at hpos
  · intro p hp
    obtain ⟨y, hy, rfl⟩ := List.mem_map.mp hp
    obtain ⟨x, hx, rfl⟩ := List.mem_map.mp hy
    simpa using div_nonneg (hw x hx) hpos.le

/-! ### Weights whose total is zero

`weights / weights.sum()` (core.py:128) then divides zero by zero. Nothing checks for it. -/

theorem sampleLoop_nan (r : XR) (ps : List XR) (i : Nat) : sampleLoop r ps XR.nan i = none := by
  induction ps generalizing i with
  | nil => rfl
  | cons p ps ih =>
    have e : FOps.add XR.nan p = (XR.nan : XR) := by cases p <;> rfl
    have l : FOps.le r (XR.nan : XR) = false := by cases r <;> rfl
    simp only [sampleLoop, e, l]
    simpa using ih (i + 1)

theorem cumsumFrom_nan (c : XR) (ps : List XR) (h : ∀ p ∈ ps, p = XR.nan) : cumsumFrom c ps = ps := by
  induction ps generalizing c with
  | nil => rfl
  | cons p ps ih =>
    have hp : p = XR.nan := h p (by simp)
    subst hp
    have e : FOps.add c XR.nan = (XR.nan : XR) := by cases c <;> rfl
    simp only [cumsumFrom, e]
    rw [ih _ fun p hp => h p (by simp [hp])]

theorem searchLoop_nan (r : XR) (cps : List XR) (h : ∀ p ∈ cps, p = XR.nan) (lower upper : Nat) (hu : upper < cps.length)
    (hl : lower ≤ upper) : ∃ l, searchLoop r cps lower upper = some (l, upper) ∧ l ≤ upper := by
  induction hd : upper - lower using Nat.strong_induction_on generalizing lower with
  | _ d ih =>
    unfold searchLoop
    by_cases hg : upper - lower > 1
    · have hm : (upper + lower) / 2 < cps.length := by omega
      have e : cps[(upper + lower) / 2]? = some XR.nan := by
        rw [List.getElem?_eq_getElem hm, h _ (List.getElem_mem hm)]
      have l : FOps.le r (XR.nan : XR) = false := by cases r <;> rfl
      simp only [hg, if_true, e, l, Bool.false_eq_true, if_false]
      exact ih (upper - (upper + lower) / 2) (by omega) _ (by omega) rfl
    · simp only [hg, if_false]
      exact ⟨lower, rfl, hl⟩

theorem logSearch_nan (r : XR) (cps : List XR) (h : ∀ p ∈ cps, p = XR.nan) (hne : cps ≠ []) :
    logSearch r cps = some (cps.length - 1) := by
  have hpos : 0 < cps.length := List.length_pos_iff.mpr hne
  have h0 : ¬ cps.length = 0 := by omega
  unfold logSearch
  simp only [h0, if_false]
  obtain ⟨l, e, hl⟩ := searchLoop_nan (if (FOps.le r (zero : XR) && FOps.le (zero : XR) r) = true then tiny else r) cps h 0
    (cps.length - 1) (by omega) (by omega)
  rw [e]
  have hm : l < cps.length := by omega
  have e2 : cps[l]? = some XR.nan := by rw [List.getElem?_eq_getElem hm, h _ (List.getElem_mem hm)]
  have l2 : ∀ x : XR, FOps.le x (XR.nan : XR) = false := by intro x; cases x <;> rfl
  simp only [e2, l2, Bool.false_eq_true, if_false]

/-- **C04 (all-zero weights, code defect)** When every weight is zero the probabilities are all NaN, no error is raised, and every
draw, single or multiple and whatever the generator, selects the *last* choice. -/
theorem C04_zero_weights (g : Rng XR) (w : List ℝ) (hne : w ≠ []) (hz : ∀ x ∈ w, x = 0) (n : Nat) (seed : Int) :
    (∀ p ∈ simpleProbabilities (w.map fin), p = XR.nan) ∧
    (∀ r : XR, simpleSample (w.map fin) r = (w.length : Int) - 1) ∧
    simpleMultisample g (w.map fin) n seed none = .ok (List.replicate n (w.length - 1)) := by
  have hs : w.sum = 0 := List.sum_eq_zero hz
  have hn : ∀ p ∈ simpleProbabilities (w.map fin), p = XR.nan := by
    intro p hp
    obtain ⟨y, hy, rfl⟩ := List.mem_map.mp hp
    obtain ⟨x, hx, rfl⟩ := List.mem_map.mp hy
    rw [sumF_fin, hs, hz x hx]
    show XR.div (fin 0) (fin 0) = XR.nan
    simp [XR.div]
  have hlen : (simpleProbabilities (w.map fin)).length = w.length := by simp [simpleProbabilities]
  have hne' : simpleProbabilities (w.map fin) ≠ [] := by
    intro h; rw [h] at hlen; exact hne (List.length_eq_zero_iff.mp hlen.symm)
  refine ⟨hn, fun r => ?_, ?_⟩
  · unfold simpleSample sampleOnce
    obtain ⟨p, ps, e⟩ := List.exists_cons_of_ne_nil hne'
    have hp : p = XR.nan := hn p (by rw [e]; simp)
    have e1 : sampleLoop (pyMax r tiny) (simpleProbabilities (w.map fin)) zero 0 = none := by
      rw [e, hp]
      have l : FOps.le (pyMax r tiny) (XR.nan : XR) = false := by cases (pyMax r tiny) <;> rfl
      have a : FOps.add (zero : XR) XR.nan = (XR.nan : XR) := rfl
      simp only [sampleLoop, a, l]
      simpa using sampleLoop_nan _ ps 1
    rw [e1, hlen]
  · unfold simpleMultisample sampleMulti
    have hc : nbfCumsum (simpleProbabilities (w.map fin)) = simpleProbabilities (w.map fin) := cumsumFrom_nan _ _ hn
    simp only [hc, Option.getD_none, ne_eq, not_true_eq_false, if_false, logSearch_nan _ _ hn hne', hlen]
    have : ∀ l : List Nat, l.mapM (fun _ => (Except.ok (w.length - 1) : Except Err Nat)) =
        .ok (List.replicate l.length (w.length - 1)) := by
      intro l
      induction l with
      | nil => rfl
      | cons a l ih => rw [List.mapM_cons, ih]; rfl
    simpa using this (List.range n)

/-- three zero weights: any draw takes the third choice -/
example (g : Rng XR) : simpleSample (([0, 0, 0] : List ℝ).map fin) (fin (1 / 10)) = 2 ∧
    simpleMultisample g (([0, 0, 0] : List ℝ).map fin) 4 7 none = .ok [2, 2, 2, 2] := by
  have h := C04_zero_weights g [0, 0, 0] (by simp) (by simp) 4 7
  exact ⟨by rw [h.2.1]; norm_num, by rw [h.2.2]; rfl⟩

/-! ### Non-vacuity: the weights `[0, 2, 0, 6]` -/
example : ∃ w : List ℝ, w = [0, 2, 0, 6] ∧ (∀ x ∈ w, 0 ≤ x) ∧ 0 < w.sum ∧ w.sum ≠ 1 ∧
    MeasureTheory.volume {r : ℝ | r ∈ Set.Ioc 0 1 ∧ simpleSample (w.map fin) (fin r) = ((1 : Nat) : Int)} = ENNReal.ofReal (1 / 4) := by
  have hw : ∀ x ∈ ([0, 2, 0, 6] : List ℝ), 0 ≤ x := by
    intro x hx; simp at hx; rcases hx with rfl | rfl | rfl | rfl <;> norm_num
  have hpos : 0 < ([0, 2, 0, 6] : List ℝ).sum := by norm_num
  refine ⟨_, rfl, hw, hpos, by norm_num, ?_⟩
  have ht : tinyR ≤ 1/4 := by unfold tinyR; exact (pow_le_pow_of_le_one (by norm_num) (by norm_num) (show 2 ≤ 1022 by norm_num)).trans (by norm_num)
  have := (C04_weights [0, 2, 0, 6] hw hpos 1 (by simp)).2
    (Or.inr ⟨by norm_num, by
      have : ([0, 2, 0, 6] : List ℝ).sum = 8 := by norm_num
      rw [this]; show tinyR * 8 ≤ 2; linarith⟩)
  rw [this]
  norm_num

end Cheval
