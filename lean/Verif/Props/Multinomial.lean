import Verif.Core.NestedSpecLemmas
import Verif.Core.SamplingLemmas

/-!
# C05-C07, C14 (multinomial part) : multinomial logit

Specification: `Spec.expw` (`exp`, 0 for `-inf`). A row of utilities is a `List Util`; `us.map util` is what the program gets.
-/
set_option linter.unusedSectionVars false
namespace Cheval
open FOps Spec

theorem mnlLoop_eq {F : Type} [FOps F] (us : List F) (t : F) (p l : List F) :
    mnlLoop us (t, p, l) = ((us.map FOps.exp).foldl FOps.add t, p ++ us.map FOps.exp, l ++ us.map FOps.exp) := by
  induction us generalizing t p l with
  | nil => simp [mnlLoop]
  | cons u us ih => simp [mnlLoop, ih]

theorem multinomial_eq {F : Type} [FOps F] (us : List F) (check : Bool) :
    multinomial us check =
      if FOps.le (sumF (us.map FOps.exp)) FOps.zero then
        if check then .error .utilityBounds
        else .ok (us.map fun _ => FOps.zero, sumF (us.map FOps.exp), us.map FOps.exp)
      else .ok (us.map fun u => FOps.div (FOps.exp u) (sumF (us.map FOps.exp)), sumF (us.map FOps.exp), us.map FOps.exp) := by
  unfold multinomial
  rw [mnlLoop_eq]
  simp [sumF, Function.comp_def]

theorem sum_expw_nonneg (us : List Util) : 0 ≤ (us.map expw).sum :=
  List.sum_nonneg (by intro x hx; obtain ⟨u, _, rfl⟩ := List.mem_map.mp hx; exact expw_nonneg u)

theorem sum_expw_pos (us : List Util) : 0 < (us.map expw).sum ↔ ∃ u ∈ us, u ≠ none := by
  induction us with
  | nil => simp
  | cons u us ih =>
    have h1 := expw_nonneg u
    have h2 := sum_expw_nonneg us
    simp only [List.map_cons, List.sum_cons, List.mem_cons, exists_eq_or_imp]
    constructor
    · intro h
      by_cases hu : u = none
      · right; apply ih.mp; have := (expw_eq_zero u).mpr hu; linarith
      · left; exact hu
    · rintro (h | h)
      · have : expw u ≠ 0 := fun h0 => h ((expw_eq_zero u).mp h0)
        have : 0 < expw u := lt_of_le_of_ne h1 (Ne.symm this)
        linarith
      · have := ih.mpr h; linarith

theorem multinomial_exact (us : List Util) (check : Bool) :
    multinomial (us.map util) check =
      if (us.map expw).sum ≤ 0 then
        if check then .error .utilityBounds
        else .ok (us.map (fun _ => .fin 0), .fin (us.map expw).sum, us.map fun u => .fin (expw u))
      else .ok (us.map (fun u => .fin (expw u / (us.map expw).sum)), .fin (us.map expw).sum,
        us.map fun u => .fin (expw u)) := by
  rw [multinomial_eq]
  have e : (us.map util).map FOps.exp = (us.map expw).map XR.fin := by
    simp [Function.comp_def, exp_util]
  rw [e, XR.sumF_fin]
  simp only [XR.zero_def, XR.le_fin, List.map_map]
  by_cases h : (us.map expw).sum ≤ 0
  · simp [h, Function.comp_def]
  · have hne : (us.map expw).sum ≠ 0 := by intro h0; exact h h0.le
    rw [if_neg h, if_neg h]
    congr 2
    apply List.map_congr_left
    intro u _
    simp only [Function.comp, exp_util]
    rw [XR.div_fin _ _ hne]

/-- **C05 (formula)** With at least one finite utility, the probability of each choice is `exp(u_i) / Σ exp(u_j)`, the
logsum is `Σ exp(u_j)` and the logsum terms are `exp(u_i)`. -/
theorem C05_formula (us : List Util) (check : Bool) (h : ∃ u ∈ us, u ≠ none) :
    multinomial (us.map util) check =
      .ok (us.map (fun u => .fin (expw u / (us.map expw).sum)), .fin (us.map expw).sum, us.map fun u => .fin (expw u)) := by
  rw [multinomial_exact, if_neg (not_le.mpr ((sum_expw_pos us).mpr h))]

/-- **C05 (distribution)** The returned probabilities are reals in `[0,1]` with sum exactly 1, one per choice, and a
probability is 0 exactly when the choice's utility is `-inf`. -/
theorem C05_distribution (us : List Util) (check : Bool) (h : ∃ u ∈ us, u ≠ none) :
    ∃ (ps : List ℝ) (ls : XR) (terms : List XR), multinomial (us.map util) check = .ok (ps.map .fin, ls, terms) ∧
      ps.length = us.length ∧ ps.sum = 1 ∧ (∀ p ∈ ps, 0 ≤ p ∧ p ≤ 1) ∧
      ∀ i (hi : i < ps.length) (hu : i < us.length), ps[i] = 0 ↔ us[i] = none := by
  have hpos := (sum_expw_pos us).mpr h
  refine ⟨us.map (fun u => expw u / (us.map expw).sum), .fin (us.map expw).sum, us.map fun u => .fin (expw u), ?_, by simp,
    ?_, ?_, ?_⟩
  · rw [C05_formula us check h]; simp [Function.comp_def]
  · have : ∀ (l : List Util) (c : ℝ), (l.map (fun u => expw u / c)).sum = (l.map expw).sum / c := by
      intro l c
      induction l with
      | nil => simp
      | cons u l ih => simp only [List.map_cons, List.sum_cons, add_div, ih]
    rw [this, div_self hpos.ne']
  · intro p hp
    obtain ⟨u, hu, rfl⟩ := List.mem_map.mp hp
    refine ⟨div_nonneg (expw_nonneg u) hpos.le, ?_⟩
    rw [div_le_one hpos]
    exact List.single_le_sum (by intro x hx; obtain ⟨u, _, rfl⟩ := List.mem_map.mp hx; exact expw_nonneg u) _
      (List.mem_map_of_mem hu)
  · intro i hi hu
    simp only [List.getElem_map]
    rw [div_eq_zero_iff]
    simp [hpos.ne', expw_eq_zero]

/-- **C06 (check on)** A row is rejected iff every utility is `-inf`. -/
theorem C06_check (us : List Util) :
    multinomial (us.map util) true = .error .utilityBounds ↔ ∀ u ∈ us, u = none := by
  rw [multinomial_exact]
  have := sum_expw_pos us
  by_cases h : (us.map expw).sum ≤ 0
  · rw [if_pos h]
    simp only [if_true, true_iff]
    intro u hu
    by_contra hne
    exact absurd (this.mpr ⟨u, hu, hne⟩) (not_lt.mpr h)
  · rw [if_neg h]
    simp only [reduceCtorEq, false_iff, not_forall]
    obtain ⟨u, hu, hne⟩ := this.mp (not_le.mp h)
    exact ⟨u, hu, hne⟩

/-- **C06 (check off)** Such a row yields all zeros and logsum 0. -/
theorem C06_nocheck (us : List Util) (h : ∀ u ∈ us, u = none) :
    multinomial (us.map util) false = .ok (us.map (fun _ => .fin 0), .fin 0, us.map (fun _ => .fin 0)) := by
  have e : us.map expw = us.map (fun _ => (0:ℝ)) := List.map_congr_left fun u hu => by rw [h u hu]; rfl
  have e2 : us.map (fun u => XR.fin (expw u)) = us.map (fun _ => XR.fin 0) :=
    List.map_congr_left fun u hu => by rw [h u hu]; rfl
  rw [multinomial_exact, e2, e]
  simp

/-- **C06 (flag)** The flag does not affect rows with an available choice. -/
theorem C06_flag (us : List Util) (h : ∃ u ∈ us, u ≠ none) :
    multinomial (us.map util) true = multinomial (us.map util) false := by
  rw [C05_formula us true h, C05_formula us false h]

/-- **C07 (translation)** Adding a constant to every utility changes no probability (and no rejection). -/
theorem C07_translation (us : List Util) (c : ℝ) (check : Bool) :
    (multinomial ((us.map (Option.map (· + c))).map util) check).map (·.1) =
      (multinomial (us.map util) check).map (·.1) := by
  have hw : ∀ u : Util, expw (u.map (· + c)) = Real.exp c * expw u := by
    intro u; cases u with
    | none => simp [expw]
    | some x => simp [expw, Real.exp_add, mul_comm]
  have hsum : ((us.map (Option.map (· + c))).map expw).sum = Real.exp c * (us.map expw).sum := by
    induction us with
    | nil => simp
    | cons u us ih => simp only [List.map_cons, List.sum_cons, ih, hw]; ring
  have hc := Real.exp_pos c
  rw [multinomial_exact, multinomial_exact, hsum]
  have hiff : Real.exp c * (us.map expw).sum ≤ 0 ↔ (us.map expw).sum ≤ 0 := by
    constructor
    · intro h; by_contra hn; exact absurd (mul_pos hc (not_le.mp hn)) (not_lt.mpr h)
    · intro h; exact mul_nonpos_of_nonneg_of_nonpos hc.le h
  by_cases h : (us.map expw).sum ≤ 0
  · rw [if_pos (hiff.mpr h), if_pos h]
    cases check <;> simp [Except.map, Function.comp_def]
  · rw [if_neg (fun h' => h (hiff.mp h')), if_neg h]
    simp only [Except.map, List.map_map, Function.comp_def, hw]
    congr 1
    apply List.map_congr_left
    intro u _
    congr 1
    exact mul_div_mul_left _ _ hc.ne'

/-- **C07 (independence of irrelevant alternatives)** The odds of two available choices are `exp(u_i - u_j)` in every row
containing them, whatever the other utilities are. -/
theorem C07_odds (us : List Util) (check : Bool) (ps : List ℝ) (ls : XR) (terms : List XR)
    (hr : multinomial (us.map util) check = .ok (ps.map .fin, ls, terms)) (i j : Nat) (x y : ℝ)
    (hi : us[i]? = some (some x)) (hj : us[j]? = some (some y)) :
    ∃ (p q : ℝ), ps[i]? = some p ∧ ps[j]? = some q ∧ 0 < q ∧ p / q = Real.exp (x - y) := by
  have h : ∃ u ∈ us, u ≠ none := ⟨some x, List.mem_of_getElem? hi, by simp⟩
  have hpos := (sum_expw_pos us).mpr h
  rw [C05_formula us check h] at hr
  simp only [Except.ok.injEq, Prod.mk.injEq] at hr
  have hps : ps = us.map (fun u => expw u / (us.map expw).sum) := by
    have h1 := congrArg (List.map realOf) hr.1
    simpa [Function.comp_def, realOf] using h1.symm
  refine ⟨Real.exp x / (us.map expw).sum, Real.exp y / (us.map expw).sum, ?_, ?_, ?_, ?_⟩
  · rw [hps]; simp [hi, expw]
  · rw [hps]; simp [hj, expw]
  · exact div_pos (Real.exp_pos y) hpos
  · rw [Real.exp_sub, div_div_div_cancel_right₀ hpos.ne']

theorem sum_set (us : List Util) (i : Nat) (hi : i < us.length) (v : Util) :
    ((us.set i v).map expw).sum = (us.map expw).sum - expw us[i] + expw v := by
  induction us generalizing i with
  | nil => simp at hi
  | cons u us ih =>
    cases i with
    | zero => simp; ring
    | succ i =>
      simp only [List.set_cons_succ, List.map_cons, List.sum_cons, List.getElem_cons_succ]
      rw [ih i (by simpa using hi)]; ring

/-- **C07 (monotonicity)** Raising one choice's utility (also from `-inf`) does not lower its probability and does not
raise any other choice's probability. -/
theorem C07_monotone (us : List Util) (i : Nat) (hi : i < us.length) (y : ℝ)
    (hy : ∀ x, us[i] = some x → x ≤ y) (hfeas : ∃ u ∈ us, u ≠ none) (check : Bool)
    (ps ps' : List ℝ) (ls ls' : XR) (terms terms' : List XR)
    (hr : multinomial (us.map util) check = .ok (ps.map .fin, ls, terms))
    (hr' : multinomial ((us.set i (some y)).map util) check = .ok (ps'.map .fin, ls', terms')) :
    ∀ j (h : j < ps.length) (h' : j < ps'.length), (j = i → ps[j] ≤ ps'[j]) ∧ (j ≠ i → ps'[j] ≤ ps[j]) := by
  have hpos := (sum_expw_pos us).mpr hfeas
  have hfeas' : ∃ u ∈ us.set i (some y), u ≠ none :=
    ⟨some y, List.mem_set hi _, by simp⟩
  have hpos' := (sum_expw_pos _).mpr hfeas'
  rw [C05_formula us check hfeas] at hr
  rw [C05_formula _ check hfeas'] at hr'
  simp only [Except.ok.injEq, Prod.mk.injEq] at hr hr'
  have hps : ps = us.map (fun u => expw u / (us.map expw).sum) := by
    have h1 := congrArg (List.map realOf) hr.1
    simpa [Function.comp_def, realOf] using h1.symm
  have hps' : ps' = (us.set i (some y)).map (fun u => expw u / ((us.set i (some y)).map expw).sum) := by
    have h1 := congrArg (List.map realOf) hr'.1
    simpa only [List.map_map, Function.comp_def, realOf, List.map_id'] using h1.symm
  subst hps hps'
  have hs := sum_set us i hi (some y)
  have hge : expw us[i] ≤ expw (some y) := by
    cases hu : us[i] with
    | none => simpa [expw] using (Real.exp_pos y).le
    | some x => simpa [expw] using hy x hu
  set S := (us.map expw).sum with hS
  set S' := ((us.set i (some y)).map expw).sum with hS'
  have hle : expw us[i] ≤ S := by
    rw [hS]
    exact List.single_le_sum (by intro x hx; obtain ⟨u, _, rfl⟩ := List.mem_map.mp hx; exact expw_nonneg u) _
      (List.mem_map_of_mem (List.getElem_mem hi))
  intro j h h'
  simp only [List.getElem_map]
  constructor
  · rintro rfl
    simp only [List.getElem_set_self]
    rw [div_le_div_iff₀ hpos hpos', hs]
    have := expw_nonneg us[j]
    nlinarith
  · intro hne
    rw [List.getElem_set_ne (Ne.symm hne)]
    exact div_le_div_of_nonneg_left (expw_nonneg _) hpos (by linarith)

/-- **C07 (permutation)** Reordering the choices reorders the probabilities in the same way. -/
theorem C07_permutation {n : Nat} (u : Fin n → Util) (σ : Equiv.Perm (Fin n)) (check : Bool) (p : Fin n → ℝ)
    (ls : XR) (terms : List XR)
    (hr : multinomial ((List.ofFn u).map util) check = .ok (List.ofFn (fun i => XR.fin (p i)), ls, terms)) :
    ∃ terms', multinomial ((List.ofFn (u ∘ σ)).map util) check =
      .ok (List.ofFn (fun i => XR.fin (p (σ i))), ls, terms') := by
  have hsum : ((List.ofFn (u ∘ σ)).map expw).sum = ((List.ofFn u).map expw).sum := by
    simp only [List.map_ofFn, List.sum_ofFn, Function.comp]
    exact Equiv.sum_comp σ (fun i => expw (u i))
  rw [multinomial_exact] at hr ⊢
  rw [hsum]
  by_cases h : ((List.ofFn u).map expw).sum ≤ 0
  · rw [if_pos h] at hr ⊢
    cases check with
    | true => simp at hr
    | false =>
      simp only [Bool.false_eq_true, if_false, Except.ok.injEq, Prod.mk.injEq, List.map_ofFn] at hr ⊢
      obtain ⟨h1, h2, h3⟩ := hr
      refine ⟨_, ?_, h2, rfl⟩
      have := List.ofFn_injective h1
      congr 1
      funext i
      exact congrFun this (σ i)
  · rw [if_neg h] at hr ⊢
    simp only [Except.ok.injEq, Prod.mk.injEq, List.map_ofFn] at hr ⊢
    obtain ⟨h1, h2, h3⟩ := hr
    refine ⟨_, ?_, h2, rfl⟩
    have := List.ofFn_injective h1
    congr 1
    funext i
    exact congrFun this (σ i)

/-! ### Rounded arithmetic -/
section rounded
variable {F : Type} [FOps F] [FLaws F]

theorem le_foldl_add_of_mem (c : F) (ws : List F) (hc : FOps.le FOps.zero c = true)
    (hws : ∀ w ∈ ws, FOps.le FOps.zero w = true) (w : F) (hw : w ∈ ws) :
    FOps.le w (ws.foldl FOps.add c) = true := by
  induction ws generalizing c with
  | nil => simp at hw
  | cons a ws ih =>
    have ha := hws a (by simp)
    have hca := FLaws.le_trans _ _ _ hc (FLaws.le_add c a hc ha)
    have hrest : ∀ w ∈ ws, FOps.le FOps.zero w = true := fun w h => hws w (by simp [h])
    simp only [List.foldl_cons]
    rcases List.mem_cons.mp hw with rfl | hw
    · exact FLaws.le_trans _ _ _ (FLaws.le_add' c w hc ha) (foldl_add_nonneg _ ws hca hrest).2
    · exact ih _ hca hrest hw

/-- **C14 (multinomial)** In any monotonically rounded arithmetic: if no utility is NaN and the computed logsum did not
overflow, every probability is in `[0,1]` and a choice with utility `-inf` has probability exactly 0. -/
theorem C14_multinomial (us : List F) (check : Bool) (ps : List F) (ls : F) (terms : List F)
    (hnan : ∀ u ∈ us, FOps.isNan u = false) (hr : multinomial us check = .ok (ps, ls, terms))
    (hfin : FOps.lt ls FOps.posInf = true) :
    ps.length = us.length ∧
    (∀ p ∈ ps, FOps.le FOps.zero p = true ∧ FOps.le p FOps.one = true) ∧
    ∀ i (h : i < us.length) (h' : i < ps.length), us[i] = FOps.negInf → ps[i] = FOps.zero := by
  have hexp : ∀ w ∈ us.map FOps.exp, FOps.le FOps.zero w = true := by
    intro w hw; obtain ⟨u, hu, rfl⟩ := List.mem_map.mp hw; exact FLaws.exp_nonneg u (hnan u hu)
  have hz : FOps.le (FOps.zero : F) FOps.zero = true := FLaws.le_refl _ FLaws.zero_notNan
  rw [multinomial_eq] at hr
  by_cases h : FOps.le (sumF (us.map FOps.exp)) FOps.zero = true
  · rw [if_pos h] at hr
    cases check with
    | true => simp at hr
    | false =>
      simp only [Bool.false_eq_true, if_false, Except.ok.injEq, Prod.mk.injEq] at hr
      obtain ⟨rfl, rfl, rfl⟩ := hr
      refine ⟨by simp, ?_, ?_⟩
      · intro p hp
        obtain ⟨u, _, rfl⟩ := List.mem_map.mp hp
        exact ⟨hz, FLaws.zero_le_one⟩
      · intro i h h' _; simp
  · have hf : FOps.le (sumF (us.map FOps.exp)) FOps.zero = false := by simpa using h
    rw [if_neg h] at hr
    simp only [Except.ok.injEq, Prod.mk.injEq] at hr
    obtain ⟨rfl, rfl, rfl⟩ := hr
    have hnn := (foldl_add_nonneg (FOps.zero : F) (us.map FOps.exp) hz hexp).1
    have hpos : FOps.lt (FOps.zero : F) (sumF (us.map FOps.exp)) = true := by
      rw [FLaws.lt_iff]; exact ⟨FLaws.zero_notNan, (FLaws.le_notNan _ _ hnn).2, hf⟩
    refine ⟨by simp, ?_, ?_⟩
    · intro p hp
      obtain ⟨u, hu, rfl⟩ := List.mem_map.mp hp
      exact FLaws.div_unit _ _ (hexp _ (List.mem_map_of_mem hu))
        (le_foldl_add_of_mem _ _ hz hexp _ (List.mem_map_of_mem hu)) hpos hfin
    · intro i h h' hu
      simp only [List.getElem_map, hu, FLaws.exp_negInf]
      exact FLaws.div_zero_num _ hpos

end rounded

/-! ### Non-vacuity -/
/-- a row with one unavailable choice: probabilities 1/3, 2/3, 0 -/
example : ∃ ls terms, multinomial (([some 0, some (Real.log 2), none] : List Util).map util) true =
    .ok ([XR.fin (1/3), XR.fin (2/3), XR.fin 0], ls, terms) := by
  refine ⟨.fin 3, [.fin 1, .fin 2, .fin 0], ?_⟩
  rw [C05_formula _ _ ⟨some 0, by simp, by simp⟩]
  have h2 : Real.exp (Real.log 2) = 2 := Real.exp_log (by norm_num)
  simp [expw, h2]
  norm_num

private noncomputable def mnRow : List Util := [some 0, some (Real.log 2), none]

private theorem mnRow_ok (check : Bool) : multinomial (mnRow.map util) check =
    .ok ([1/3, 2/3, 0].map .fin, .fin 3, [.fin 1, .fin 2, .fin 0]) := by
  rw [C05_formula _ _ ⟨some 0, by simp [mnRow], by simp⟩]
  have h2 : Real.exp (Real.log 2) = 2 := Real.exp_log (by norm_num)
  simp [mnRow, expw, h2]
  norm_num

/-- C05_distribution and C06_flag on this row -/
example : (∃ (ps : List ℝ) (ls : XR) (terms : List XR), multinomial (mnRow.map util) true = .ok (ps.map .fin, ls, terms) ∧
    ps.length = 3 ∧ ps.sum = 1) ∧ multinomial (mnRow.map util) true = multinomial (mnRow.map util) false := by
  have h : ∃ u ∈ mnRow, u ≠ none := ⟨some 0, by simp [mnRow], by simp⟩
  obtain ⟨ps, ls, terms, h1, h2, h3, _⟩ := C05_distribution mnRow true h
  exact ⟨⟨ps, ls, terms, h1, h2, h3⟩, C06_flag mnRow h⟩

/-- C06_check and C06_nocheck: the row `-inf, -inf` is rejected, or yields zeros; the row above is not rejected -/
example : multinomial (([none, none] : List Util).map util) true = .error .utilityBounds ∧
    multinomial (([none, none] : List Util).map util) false = .ok ([.fin 0, .fin 0], .fin 0, [.fin 0, .fin 0]) ∧
    multinomial (mnRow.map util) true ≠ .error .utilityBounds := by
  refine ⟨(C06_check _).mpr (by simp), C06_nocheck [none, none] (by simp), fun h => ?_⟩
  have := (C06_check mnRow).mp h (some 0) (by simp [mnRow])
  cases this

/-- C07_translation: all utilities raised by 5 -/
example : (multinomial (([some 5, some (Real.log 2 + 5), none] : List Util).map util) true).map (·.1) =
    .ok [.fin (1/3), .fin (2/3), .fin 0] := by
  have := C07_translation mnRow 5 true
  rw [mnRow_ok] at this
  simpa [mnRow, Except.map] using this

/-- C07_odds: the odds of the first two choices -/
example : ∃ p q : ℝ, ([1/3, 2/3, 0] : List ℝ)[0]? = some p ∧ ([1/3, 2/3, 0] : List ℝ)[1]? = some q ∧ 0 < q ∧
    p / q = Real.exp (0 - Real.log 2) :=
  C07_odds mnRow true _ _ _ (mnRow_ok true) 0 1 0 (Real.log 2) rfl rfl

/-- C07_monotone: making the third choice available (utility 0) gives 1/4, 1/2, 1/4 -/
example : ∀ j (_ : j < ([1/3, 2/3, 0] : List ℝ).length) (_ : j < ([1/4, 1/2, 1/4] : List ℝ).length),
    (j = 2 → ([1/3, 2/3, 0] : List ℝ)[j] ≤ ([1/4, 1/2, 1/4] : List ℝ)[j]) ∧
    (j ≠ 2 → ([1/4, 1/2, 1/4] : List ℝ)[j] ≤ ([1/3, 2/3, 0] : List ℝ)[j]) := by
  refine C07_monotone mnRow 2 (by simp [mnRow]) 0 (by simp [mnRow]) ⟨some 0, by simp [mnRow], by simp⟩ true _ _ _ (.fin 4) _
    [.fin 1, .fin 2, .fin 1] (mnRow_ok true) ?_
  rw [C05_formula _ _ ⟨some 0, by simp [mnRow], by simp⟩]
  have h2 : Real.exp (Real.log 2) = 2 := Real.exp_log (by norm_num)
  simp [mnRow, expw, h2]
  norm_num

/-- C07_permutation: the first two choices swapped -/
example : ∃ terms', multinomial (([some (Real.log 2), some 0, none] : List Util).map util) true =
    .ok ([.fin (2/3), .fin (1/3), .fin 0], .fin 3, terms') := by
  have h := C07_permutation (n := 3) ![some 0, some (Real.log 2), none] (Equiv.swap 0 1) true ![1/3, 2/3, 0] (.fin 3)
    [.fin 1, .fin 2, .fin 0] (by simpa [mnRow, List.ofFn_succ] using mnRow_ok true)
  obtain ⟨t, h⟩ := h
  refine ⟨t, ?_⟩
  simpa [List.ofFn_succ, Equiv.swap_apply_def] using h

end Cheval
