import Verif.Core.Dict

/-! # Laws of dictionaries -/
namespace Cheval
variable {K V : Type} [DecidableEq K]

theorem dictGet_cons (e : K × V) (d : List (K × V)) (k : K) :
    dictGet (e :: d) k = if e.1 = k then some e.2 else dictGet d k := by
  unfold dictGet
  rw [List.find?_cons]
  by_cases h : e.1 = k <;> simp [h]

theorem dictGet_nil (k : K) : dictGet ([] : List (K × V)) k = none := rfl

theorem dictGet_append (d₁ d₂ : List (K × V)) (k : K) : dictGet (d₁ ++ d₂) k = (dictGet d₁ k).or (dictGet d₂ k) := by
  induction d₁ with
  | nil => simp [dictGet_nil]
  | cons e d ih =>
    rw [List.cons_append, dictGet_cons, dictGet_cons, ih]
    by_cases h : e.1 = k <;> simp [h]

theorem dictGet_dictSet (d : List (K × V)) (k k' : K) (v : V) :
    dictGet (dictSet d k v) k' = if k' = k then some v else dictGet d k' := by
  unfold dictSet
  by_cases hm : k ∈ d.map (·.1)
  · rw [if_pos hm]
    induction d with
    | nil => simp at hm
    | cons e d ih =>
      rw [List.map_cons, dictGet_cons, dictGet_cons]
      by_cases he : e.1 = k
      · rw [if_pos he]
        by_cases hk : k' = k
        · simp [hk]
        · have hk2 : ¬ k = k' := fun h => hk h.symm
          simp only [he, hk, hk2, if_false]
          by_cases hmd : k ∈ d.map (·.1)
          · rw [ih hmd, if_neg hk]
          · have : d.map (fun e => if e.1 = k then (k, v) else e) = d := by
              conv_rhs => rw [← List.map_id d]
              apply List.map_congr_left
              intro a ha
              rw [if_neg]; rfl
              intro hc; exact hmd (hc ▸ List.mem_map_of_mem ha)
            rw [this]
      · rw [if_neg he]
        have hmd : k ∈ d.map (·.1) := by
          rcases List.mem_cons.mp hm with h | h
          · exact absurd h.symm he
          · exact h
        rw [ih hmd]
        by_cases hk : k' = k
        · have : ¬ e.1 = k' := fun h => he (h.trans hk)
          simp [hk, he]
        · simp [hk]
  · rw [if_neg hm, dictGet_append]
    by_cases hk : k' = k
    · subst hk
      rw [dictGet_eq_none.mpr hm, dictGet_cons]; simp
    · have hk2 : ¬ k = k' := fun h => hk h.symm
      rw [dictGet_cons]; simp [hk, hk2, dictGet_nil]

theorem dictGet_dictDel (d : List (K × V)) (k k' : K) :
    dictGet (dictDel d k) k' = if k' = k then none else dictGet d k' := by
  induction d with
  | nil => simp [dictDel, dictGet_nil]
  | cons e d ih =>
    have hd : dictDel (e :: d) k = if e.1 = k then dictDel d k else e :: dictDel d k := by
      unfold dictDel
      rw [List.filter_cons]
      by_cases h : e.1 = k <;> simp [h]
    rw [hd]
    by_cases h : e.1 = k
    · rw [if_pos h, ih, dictGet_cons]
      by_cases hk : k' = k
      · simp [hk]
      · have : ¬ e.1 = k' := fun hc => hk (hc.symm.trans h)
        simp [hk, this]
    · rw [if_neg h, dictGet_cons, dictGet_cons, ih]
      by_cases hk : k' = k
      · subst hk; simp [h]
      · simp [hk]

theorem dictGet_isSome_iff (d : List (K × V)) (k : K) : (dictGet d k).isSome ↔ k ∈ d.map (·.1) := by
  rw [Option.isSome_iff_ne_none, ne_eq, dictGet_eq_none, not_not]

theorem dictGet_mem {d : List (K × V)} {k : K} {v : V} (h : dictGet d k = some v) : (k, v) ∈ d := by
  unfold dictGet at h
  cases hf : d.find? (fun e => decide (e.1 = k)) with
  | none => simp [hf] at h
  | some e =>
    have h1 := List.mem_of_find?_eq_some hf
    have h2 := List.find?_some hf
    simp only [hf, Option.map_some, Option.some.injEq] at h
    simp only [decide_eq_true_eq] at h2
    rw [← h, ← h2]; exact h1

theorem dictSet_keys (d : List (K × V)) (k : K) (v : V) (x : K) :
    x ∈ (dictSet d k v).map (·.1) ↔ x = k ∨ x ∈ d.map (·.1) := by
  rw [← dictGet_isSome_iff, ← dictGet_isSome_iff, dictGet_dictSet]
  by_cases h : x = k <;> simp [h]

end Cheval
