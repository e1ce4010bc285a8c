import Verif.Core.Logit

/-! Helper lemmas about the sampling functions (no property statements here). -/
set_option linter.unusedSectionVars false
namespace Cheval
open FOps
variable {F : Type} [FOps F]

/-- first position whose entry reaches `r`, or the last position -/
def IsFirstReach (r : F) (cps : List F) (k : Nat) : Prop :=
  k < cps.length ∧ (∀ j (h : j < cps.length), j < k → le r cps[j] = false) ∧
    (k + 1 = cps.length ∨ ∃ h : k < cps.length, le r cps[k] = true)

theorem IsFirstReach.unique {r : F} {cps : List F} {k k' : Nat}
    (h : IsFirstReach r cps k) (h' : IsFirstReach r cps k') : k = k' := by
  obtain ⟨hl, hb, he⟩ := h
  obtain ⟨hl', hb', he'⟩ := h'
  rcases Nat.lt_trichotomy k k' with hlt | heq | hgt
  · have := hb' k hl hlt
    rcases he with he | ⟨_, he⟩
    · omega
    · simp [he] at this
  · exact heq
  · have := hb k' hl' hgt
    rcases he' with he | ⟨_, he⟩
    · omega
    · simp [he] at this

theorem cumsumFrom_length (c : F) (ps : List F) : (cumsumFrom c ps).length = ps.length := by
  induction ps generalizing c with
  | nil => rfl
  | cons p ps ih => simp [cumsumFrom, ih]

theorem cumsumFrom_getElem (c : F) (ps : List F) (j : Nat) (h : j < (cumsumFrom c ps).length) :
    (cumsumFrom c ps)[j] = (ps.take (j + 1)).foldl add c := by
  induction ps generalizing c j with
  | nil => simp [cumsumFrom] at h
  | cons p ps ih =>
    cases j with
    | zero => simp [cumsumFrom]
    | succ j =>
      simp only [cumsumFrom, List.getElem_cons_succ, List.take_succ_cons, List.foldl_cons]
      exact ih _ _ _

theorem sampleLoop_eq (r : F) (ps : List F) (c : F) (i : Nat) :
    sampleLoop r ps c i = ((cumsumFrom c ps).findIdx? (fun x => le r x)).map (· + i) := by
  induction ps generalizing c i with
  | nil => simp [sampleLoop, cumsumFrom]
  | cons p ps ih =>
    simp only [sampleLoop, cumsumFrom, List.findIdx?_cons]
    split
    · simp
    · rw [ih]
      simp only [Option.map_map]
      congr 1
      funext x
      simp; omega

/-- `sample_once` returns the first position whose running sum reaches the (clamped) draw, or the last one. -/
theorem sampleOnce_spec (ps : List F) (r : F) (hne : ps ≠ []) :
    ∃ k : Nat, sampleOnce ps r = k ∧ IsFirstReach (pyMax r tiny) (nbfCumsum ps) k := by
  have hlen : 0 < ps.length := List.length_pos_iff.mpr hne
  unfold sampleOnce
  rw [sampleLoop_eq]
  cases hf : (cumsumFrom zero ps).findIdx? (fun x => le (pyMax r tiny) x) with
  | none =>
    refine ⟨ps.length - 1, by simp; omega, ?_⟩
    rw [List.findIdx?_eq_none_iff] at hf
    refine ⟨by simp [nbfCumsum, cumsumFrom_length]; omega, ?_, Or.inl ?_⟩
    · intro j hj _
      exact hf _ (List.getElem_mem hj)
    · simp [nbfCumsum, cumsumFrom_length]; omega
  | some k =>
    refine ⟨k, by simp, ?_⟩
    rw [List.findIdx?_eq_some_iff_getElem] at hf
    obtain ⟨hk, h1, h2⟩ := hf
    refine ⟨hk, ?_, Or.inr ⟨hk, h1⟩⟩
    intro j hj hjk
    have := h2 j hjk
    cases hh : le (pyMax r tiny) (nbfCumsum ps)[j] with
    | false => rfl
    | true => exact absurd hh this

section laws
variable [FLaws F]

theorem not_le_trans {r a b : F} (_hr : isNan r = false) (hab : le a b = true) (h : le r b = false) : le r a = false := by
  cases hh : le r a with
  | false => rfl
  | true => rw [FLaws.le_trans _ _ _ hh hab] at h; cases h

theorem foldl_add_nonneg (c : F) (ps : List F) (hc : le zero c = true) (hps : ∀ p ∈ ps, le zero p = true) :
    le zero (ps.foldl add c) = true ∧ le c (ps.foldl add c) = true := by
  induction ps generalizing c with
  | nil => exact ⟨hc, FLaws.le_refl _ (FLaws.le_notNan _ _ hc).2⟩
  | cons p ps ih =>
    have hp : le zero p = true := hps p (by simp)
    have h1 := FLaws.le_add c p hc hp
    have h2 := FLaws.le_trans _ _ _ hc h1
    obtain ⟨h3, h4⟩ := ih (add c p) h2 (fun q hq => hps q (by simp [hq]))
    exact ⟨h3, FLaws.le_trans _ _ _ h1 h4⟩

/-- running sums of non-negative numbers are non-decreasing -/
theorem cumsum_mono (ps : List F) (hps : ∀ p ∈ ps, le zero p = true) (i j : Nat) (hij : i ≤ j)
    (hi : i < (nbfCumsum ps).length) (hj : j < (nbfCumsum ps).length) :
    le (nbfCumsum ps)[i] (nbfCumsum ps)[j] = true := by
  have e : ∀ (c : F) (k : Nat) (h : k < (cumsumFrom c ps).length), _ := fun c k h => cumsumFrom_getElem c ps k h
  simp only [nbfCumsum, e]
  have h0 := (foldl_add_nonneg (zero : F) (ps.take (i + 1)) (FLaws.le_refl _ FLaws.zero_notNan)
    (fun p hp => hps p (List.mem_of_mem_take hp))).1
  have hsplit : ps.take (j + 1) = ps.take (i + 1) ++ (ps.take (j + 1)).drop (i + 1) := by
    have : ps.take (i + 1) = (ps.take (j + 1)).take (i + 1) := by
      rw [List.take_take]; congr 1; omega
    rw [this, List.take_append_drop]
  rw [hsplit, List.foldl_append]
  exact (foldl_add_nonneg _ _ h0 (fun p hp =>
    hps p (List.mem_of_mem_take (List.mem_of_mem_drop hp)))).2

theorem searchLoop_spec (r : F) (cps : List F) :
    ∀ (d lo up : Nat), up - lo = d → lo ≤ up → up < cps.length →
      (lo = 0 ∨ ∃ h : lo < cps.length, le r cps[lo] = false) →
      (up + 1 = cps.length ∨ ∃ h : up < cps.length, le r cps[up] = true) →
      ∃ lo' up', searchLoop r cps lo up = some (lo', up') ∧ lo' ≤ up' ∧ up' < cps.length ∧ up' - lo' ≤ 1 ∧
        (up - lo ≥ 1 → up' - lo' = 1) ∧
        (lo' = 0 ∨ ∃ h : lo' < cps.length, le r cps[lo'] = false) ∧
        (up' + 1 = cps.length ∨ ∃ h : up' < cps.length, le r cps[up'] = true) := by
  intro d
  induction d using Nat.strong_induction_on with
  | _ d ih =>
    intro lo up hd hle hup hlo hupc
    rw [searchLoop]
    by_cases hgt : up - lo > 1
    · have hmid : (up + lo) / 2 < cps.length := by omega
      simp only [hgt, if_true, List.getElem?_eq_getElem hmid]
      cases hc : le r cps[(up + lo) / 2] with
      | true =>
        simp only [if_true]
        obtain ⟨lo', up', h1, h2, h3, h4, h5, h6, h7⟩ :=
          ih ((up + lo) / 2 - lo) (by omega) lo ((up + lo) / 2) rfl (by omega) hmid hlo (Or.inr ⟨hmid, hc⟩)
        exact ⟨lo', up', h1, h2, h3, h4, fun _ => h5 (by omega), h6, h7⟩
      | false =>
        obtain ⟨lo', up', h1, h2, h3, h4, h5, h6, h7⟩ :=
          ih (up - (up + lo) / 2) (by omega) ((up + lo) / 2) up rfl (by omega) hup (Or.inr ⟨hmid, hc⟩) hupc
        refine ⟨lo', up', ?_, h2, h3, h4, fun _ => h5 (by omega), h6, h7⟩
        simpa using h1
    · refine ⟨lo, up, by simp [hgt], hle, hup, by omega, by intro; omega, hlo, hupc⟩

/-- the clamp at the start of `logarithmic_search` -/
def clampZero (r : F) : F := if le r zero && le zero r then tiny else r

theorem logSearch_spec (r : F) (cps : List F) (hne : cps ≠ []) (hr : isNan (clampZero r) = false)
    (hmono : ∀ (i j : Nat) (hi : i < cps.length) (hj : j < cps.length), i ≤ j → le cps[i] cps[j] = true) :
    ∃ k, logSearch r cps = some k ∧ IsFirstReach (clampZero r) cps k := by
  have hlen : 0 < cps.length := List.length_pos_iff.mpr hne
  obtain ⟨lo, up, h1, h2, h3, h4, h5, h6, h7⟩ :=
    searchLoop_spec (clampZero r) cps _ 0 (cps.length - 1) rfl (by omega) (by omega) (Or.inl rfl) (Or.inl (by omega))
  have hlo : lo < cps.length := by omega
  unfold logSearch
  change ∃ k, (if cps.length = 0 then none else match searchLoop (clampZero r) cps 0 (cps.length - 1) with
    | none => none
    | some (lower, upper) => match cps[lower]? with
      | none => none
      | some c => if le (clampZero r) c then some lower else some upper) = some k ∧ _
  rw [h1]
  simp only [Nat.pos_iff_ne_zero.mp hlen, if_false, List.getElem?_eq_getElem hlo]
  cases hc : le (clampZero r) cps[lo] with
  | true =>
    refine ⟨lo, by simp, hlo, ?_, Or.inr ⟨hlo, hc⟩⟩
    intro j hj hjl
    rcases h6 with h6 | ⟨_, h6⟩
    · omega
    · simp [hc] at h6
  | false =>
    refine ⟨up, by simp, h3, ?_, h7⟩
    intro j hj hju
    exact not_le_trans hr (hmono j lo hj hlo (by omega)) hc

end laws
end Cheval
