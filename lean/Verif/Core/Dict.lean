import Mathlib.Data.List.Nodup

/-!
# Python dictionaries
Insertion-ordered association lists with unique keys.
-/
namespace Cheval
variable {K V : Type} [DecidableEq K]

/-- `d[k] = v` : an existing key keeps its position -/
def dictSet (d : List (K × V)) (k : K) (v : V) : List (K × V) :=
  if k ∈ d.map (·.1) then d.map (fun e => if e.1 = k then (k, v) else e) else d ++ [(k, v)]

/-- `del d[k]` / `d.pop(k)` for a present key -/
def dictDel (d : List (K × V)) (k : K) : List (K × V) := d.filter (fun e => decide (e.1 ≠ k))

/-- `d.get(k)` -/
def dictGet (d : List (K × V)) (k : K) : Option V := (d.find? (fun e => decide (e.1 = k))).map (·.2)

theorem dictSet_of_not_mem {d : List (K × V)} {k : K} {v : V} (h : k ∉ d.map (·.1)) : dictSet d k v = d ++ [(k, v)] := by
  simp only [dictSet, if_neg h]

theorem dictDel_of_not_mem {d : List (K × V)} {k : K} (h : k ∉ d.map (·.1)) : dictDel d k = d := by
  unfold dictDel
  rw [List.filter_eq_self]
  intro e he
  simp only [decide_eq_true_eq]
  rintro rfl
  exact h (List.mem_map_of_mem he)

theorem dictDel_not_mem (d : List (K × V)) (k : K) : k ∉ (dictDel d k).map (·.1) := by
  simp [dictDel]

theorem dictGet_eq_some {d : List (K × V)} (hnd : (d.map (·.1)).Nodup) {k : K} {v : V} :
    dictGet d k = some v ↔ (k, v) ∈ d := by
  unfold dictGet
  constructor
  · intro h
    simp only [Option.map_eq_some_iff] at h
    obtain ⟨e, he, rfl⟩ := h
    have h1 := List.find?_some he
    have h2 := List.mem_of_find?_eq_some he
    simp only [decide_eq_true_eq] at h1
    rw [← h1]; exact h2
  · intro h
    induction d with
    | nil => simp at h
    | cons e d ih =>
      simp only [List.map_cons, List.nodup_cons] at hnd
      simp only [List.find?_cons]
      rcases List.mem_cons.mp h with rfl | h
      · simp
      · have : e.1 ≠ k := by
          rintro rfl
          exact hnd.1 (List.mem_map.mpr ⟨_, h, rfl⟩)
        simp only [this, decide_false]
        exact ih hnd.2 h

theorem dictGet_eq_none {d : List (K × V)} {k : K} : dictGet d k = none ↔ k ∉ d.map (·.1) := by
  simp only [dictGet, Option.map_eq_none_iff, List.find?_eq_none, decide_eq_true_eq, List.mem_map, not_exists, not_and]

theorem dictSet_keys_nodup {d : List (K × V)} (h : (d.map (·.1)).Nodup) (k : K) (v : V) :
    ((dictSet d k v).map (·.1)).Nodup := by
  unfold dictSet
  split
  · have : (d.map (fun e => if e.1 = k then (k, v) else e)).map (·.1) = d.map (·.1) := by
      rw [List.map_map]
      apply List.map_congr_left
      intro e _
      simp only [Function.comp]
      split
      · rename_i h; simp [h]
      · rfl
    rw [this]; exact h
  · rename_i hk
    rw [List.map_append, List.map_singleton, List.nodup_append]
    refine ⟨h, by simp, ?_⟩
    intro a ha b hb
    simp only [List.mem_singleton] at hb
    subst hb
    rintro rfl
    exact hk ha

theorem mem_dictSet {d : List (K × V)} {k : K} {v : V} {e : K × V} :
    e ∈ dictSet d k v ↔ e = (k, v) ∨ (e ∈ d ∧ e.1 ≠ k) := by
  unfold dictSet
  split
  · rename_i hk
    simp only [List.mem_map] at hk ⊢
    constructor
    · rintro ⟨a, ha, rfl⟩
      by_cases h : a.1 = k
      · left; simp [h]
      · right; simp [h, ha]
    · rintro (rfl | ⟨h1, h2⟩)
      · obtain ⟨a, ha, hk⟩ := hk
        exact ⟨a, ha, by simp [hk]⟩
      · exact ⟨e, h1, by simp [h2]⟩
  · rename_i hk
    simp only [List.mem_append, List.mem_singleton]
    constructor
    · rintro (h | h)
      · right
        refine ⟨h, ?_⟩
        rintro rfl
        exact hk (List.mem_map_of_mem h)
      · exact .inl h
    · rintro (h | h)
      · exact .inr h
      · exact .inl h.1

end Cheval
