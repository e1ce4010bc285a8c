import Verif.Num.Binary64
import Verif.Props.Sampling
import Mathlib.Tactic.Ring

/-!
# C03, violated part: in binary64 arithmetic a choice with probability exactly 0 can be sampled
-/
namespace Cheval
open FOps B64

/-- the binary64 number `m * 2^k` -/
noncomputable def dy (m : ℕ) (k : ℤ) (hm : m < 2 ^ 53) (hk : -1074 ≤ k) (hk2 : k ≤ 0) : F64 :=
  ⟨.fin (m * 2 ^ k), by intro y h; simp only [XR.fin.injEq] at h; subst h; exact rnd_dyadic m k hm hk hk2⟩

theorem f64_add (a b : F64) (x y z : ℝ) (ha : a.v = .fin x) (hb : b.v = .fin y) (h : rnd (x + y) = .fin z) :
    (FOps.add a b).v = .fin z := by
  show R64.rndX (XR.add a.v b.v) = _
  rw [ha, hb]
  exact h

/-- `1/2 + 2^-54` rounds to `1/2` (tie, even) -/
theorem rnd_tie : rnd (1/2 + (1/2)^54) = .fin (1/2) := by
  have hlog : Int.log 2 ((1/2 : ℝ) + (1/2)^54) = -1 := by
    have hx : (0:ℝ) < 1/2 + (1/2)^54 := by positivity
    apply le_antisymm
    · have : Int.log 2 ((1/2 : ℝ) + (1/2)^54) < 0 := by
        rw [← Int.lt_zpow_iff_log_lt (by norm_num) hx]; norm_num
      omega
    · rw [← Int.zpow_le_iff_le_log (by norm_num) hx]; norm_num
  have hq : qexp ((1/2 : ℝ) + (1/2)^54) = -53 := by unfold qexp; rw [hlog]; norm_num
  have hr : rpos ((1/2 : ℝ) + (1/2)^54) = 1/2 := by
    unfold rpos
    rw [hq]
    have e : ((1/2 : ℝ) + (1/2)^54) / 2 ^ (-53 : ℤ) = (2^52 : ℤ) + 1/2 := by
      rw [zpow_neg]; norm_num
    rw [e]
    have hf : ⌊((2^52 : ℤ) : ℝ) + 1/2⌋ = 2^52 := by
      rw [Int.floor_eq_iff]; constructor <;> norm_num
    have hre : roundEven (((2^52 : ℤ) : ℝ) + 1/2) = 2^52 := by
      unfold roundEven
      rw [hf]
      have h1 : ((2^52 : ℤ) : ℝ) + 1/2 - ((2^52 : ℤ) : ℝ) = 1/2 := by ring
      rw [h1, if_neg (lt_irrefl _), if_neg (lt_irrefl _), if_pos]
      decide
    rw [hre, zpow_neg]
    norm_num
  rw [rnd_nonneg (by positivity), hr, if_neg]
  push Not
  calc (1/2 : ℝ) < 1 := by norm_num
    _ ≤ big := by unfold big; exact one_le_pow₀ (by norm_num)

/-- 7 choices: `1/2`, four times `2^-54`, `1/2 - 2^-52`, and one with probability 0. -/
noncomputable def badRow : List F64 :=
  [dy 1 (-1) (by norm_num) (by norm_num) (by norm_num),
   dy 1 (-54) (by norm_num) (by norm_num) (by norm_num), dy 1 (-54) (by norm_num) (by norm_num) (by norm_num),
   dy 1 (-54) (by norm_num) (by norm_num) (by norm_num), dy 1 (-54) (by norm_num) (by norm_num) (by norm_num),
   dy (2^51 - 1) (-52) (by norm_num) (by norm_num) (by norm_num), zero]

/-- the largest double below 1, a possible value of `np.random.uniform(tiny, 1)` -/
noncomputable def badDraw : F64 := dy (2^53 - 1) (-53) (by norm_num) (by norm_num) (by norm_num)

/-- real value of a finite double -/
noncomputable def F64.toReal (a : F64) : ℝ := match a.v with | .fin x => x | _ => 0

/-- **C03 (violated)** There is a row of binary64 probabilities, all non-negative and with exact sum 1, and a binary64
draw in `[tiny, 1)`, such that both sampling paths return a choice whose probability is exactly 0: the rounded running
total stays below the draw and the last position is returned. -/
theorem C03_zero_probability_refuted :
    ∃ (ps : List F64) (r : F64) (k : Nat) (hk : k < ps.length),
      (∀ p ∈ ps, FOps.le FOps.zero p = true) ∧ (ps.map F64.toReal).sum = 1 ∧
      FOps.le FOps.tiny r = true ∧ FOps.lt r FOps.one = true ∧
      ps[k] = FOps.zero ∧ sampleOnce ps r = (k : Int) ∧ logSearch r (nbfCumsum ps) = some k := by
  have hnn : ∀ p ∈ badRow, FOps.le FOps.zero p = true := by
    intro p hp
    have aux : ∀ m k h1 h2 h3, FOps.le (FOps.zero : F64) (dy m k h1 h2 h3) = true := by
      intro m k h1 h2 h3
      show XR.le (.fin 0) (.fin _) = true
      simp only [XR.le, decide_eq_true_eq]
      exact mul_nonneg (by positivity) (two_zpow_pos k).le
    simp only [badRow, List.mem_cons, List.not_mem_nil, or_false] at hp
    rcases hp with rfl | rfl | rfl | rfl | rfl | rfl | rfl
    · exact aux _ _ _ _ _
    · exact aux _ _ _ _ _
    · exact aux _ _ _ _ _
    · exact aux _ _ _ _ _
    · exact aux _ _ _ _ _
    · exact aux _ _ _ _ _
    · exact FLaws.le_refl _ FLaws.zero_notNan
  have e1 : ((1:ℕ):ℝ) * 2 ^ (-1:ℤ) = 1/2 := by norm_num
  have e54 : ((1:ℕ):ℝ) * 2 ^ (-54:ℤ) = (1/2)^54 := by rw [zpow_neg]; norm_num
  have e52 : ((2^51 - 1 : ℕ):ℝ) * 2 ^ (-52:ℤ) = 1/2 - (1/2)^52 := by rw [zpow_neg]; norm_num
  have e53 : ((2^53 - 1 : ℕ):ℝ) * 2 ^ (-53:ℤ) = 1 - (1/2)^53 := by rw [zpow_neg]; norm_num
  have hhalf : rnd (1/2) = .fin (1/2) := by
    have := rnd_dyadic 1 (-1) (by norm_num) (by norm_num) (by norm_num)
    rwa [e1] at this
  have htot : rnd (1 - (1/2)^52) = .fin (1 - (1/2)^52) := by
    have := rnd_dyadic (2^52 - 1) (-52) (by norm_num) (by norm_num) (by norm_num)
    have e : ((2^52 - 1 : ℕ):ℝ) * 2 ^ (-52:ℤ) = 1 - (1/2)^52 := by rw [zpow_neg]; norm_num
    rwa [e] at this
  have htiny : FOps.le (FOps.tiny : F64) badDraw = true := by
    show XR.le (.fin _) (.fin _) = true
    rw [e53]
    simp only [XR.le, decide_eq_true_eq]
    calc ((1:ℝ)/2)^1022 ≤ (1/2)^1 := pow_le_pow_of_le_one (by norm_num) (by norm_num) (by norm_num)
      _ ≤ 1 - (1/2)^53 := by norm_num
  refine ⟨badRow, badDraw, 6, by simp [badRow], hnn, ?_, htiny, ?_, rfl, ?_⟩
  · simp only [badRow, List.map_cons, List.map_nil, List.sum_cons, List.sum_nil, F64.toReal, dy, e1, e54, e52]
    show _ + (_ + (_ + (_ + (_ + (_ + ((0:ℝ) + 0)))))) = _
    norm_num
  · show XR.lt (.fin _) (.fin _) = true
    rw [e53]
    simp only [XR.lt, decide_eq_true_eq]
    norm_num
  · have hmain : sampleOnce badRow badDraw = ((6 : Nat) : Int) := by
      rw [(C01_single_draw badRow badDraw (by simp [badRow]) hnn htiny).2 6 (by simp [badRow])]
      refine ⟨?_, Or.inr (by simp [badRow])⟩
      have hsum : (sumF (badRow.take 6)).v = .fin (1 - (1/2)^52) := by
        simp only [badRow, List.take_succ_cons, List.take_zero, sumF, List.foldl_cons, List.foldl_nil]
        apply f64_add _ _ (1/2) (1/2 - (1/2)^52) _ _ (by simp only [dy, e52]) (by rw [← htot]; congr 1; ring)
        apply f64_add _ _ (1/2) ((1/2)^54) _ _ (by simp only [dy, e54]) rnd_tie
        apply f64_add _ _ (1/2) ((1/2)^54) _ _ (by simp only [dy, e54]) rnd_tie
        apply f64_add _ _ (1/2) ((1/2)^54) _ _ (by simp only [dy, e54]) rnd_tie
        apply f64_add _ _ (1/2) ((1/2)^54) _ _ (by simp only [dy, e54]) rnd_tie
        apply f64_add _ _ 0 (1/2) _ rfl (by simp only [dy, e1])
        rw [zero_add]; exact hhalf
      show XR.lt (sumF (badRow.take 6)).v badDraw.v = true
      rw [hsum]
      simp only [badDraw, dy, e53, XR.lt, decide_eq_true_eq]
      norm_num
    refine ⟨hmain, ?_⟩
    obtain ⟨k, hk, hk'⟩ := C02_search_eq_scan badRow badDraw (by simp [badRow]) hnn htiny
    rw [hmain] at hk'
    have : k = 6 := by exact_mod_cast hk'.symm
    rw [hk, this]

end Cheval
