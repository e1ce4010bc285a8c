import Verif.Props.Tree
import Verif.Spec.Choices

/-!
# The columns of models built by any clean history

Connects the hypothesis `Labelled` of C27, C28, C35 with histories of `add_choice` calls.
-/
namespace Cheval
open FOps Spec
variable {F : Type} [FOps F]

theorem made_legal (ops : List (TreeOp F)) (s : Choices F)
    (h : ∀ p ∈ s.made, p ≠ [] ∧ ∀ n ∈ p, '.' ∉ n ∧ n ≠ ['_']) :
    ∀ p ∈ (s.run ops).made, p ≠ [] ∧ ∀ n ∈ p, '.' ∉ n ∧ n ≠ ['_'] := by
  induction ops generalizing s with
  | nil => exact h
  | cons op ops ih =>
    refine ih (s.step op).1 ?_
    have hadd : ∀ q n sc, (∀ m ∈ q, '.' ∉ m ∧ m ≠ ['_']) →
        ∀ p ∈ (s.add (q ++ [n]) n sc).1.made, p ≠ [] ∧ ∀ n ∈ p, '.' ∉ n ∧ n ≠ ['_'] := by
      intro q n sc hq p hp
      unfold Choices.add at hp
      split at hp
      · rename_i hl
        rcases List.mem_append.mp hp with hp | hp
        · exact h p hp
        · obtain rfl := List.mem_singleton.mp hp
          refine ⟨by simp, fun m hm => ?_⟩
          rcases List.mem_append.mp hm with hm | hm
          · exact hq m hm
          · obtain rfl := List.mem_singleton.mp hm; exact ⟨hl.1, hl.2.1⟩
      · exact h p hp
    cases op with
    | addTop n sc => exact hadd [] n sc (by simp)
    | addChild k n sc =>
      refine hadd _ n sc ?_
      intro m hm
      rw [List.getD_eq_getElem?_getD] at hm
      cases hk : s.made[k]? with
      | none => simp [hk] at hm
      | some q => rw [hk] at hm; exact (h q (List.mem_of_getElem? hk)).2 m hm
    | setScale k v =>
      intro p hp
      simp only [Choices.step] at hp
      split at hp <;> exact h p hp

/-- the columns after a clean history -/
theorem labelled_after (ops : List (TreeOp F)) (hc : CleanRun Choices.empty ops) (hv : validateTree (after ops) = .ok ()) :
    ∃ labels, choices (after ops) = .ok labels ∧
      Labelled ((expected ops).live.map (·.path)) (expected ops).depth labels := by
  obtain ⟨h1, h2, _, _, h5, h6⟩ := C15_choices ops hc hv
  have hrel := rel_after ops hc
  refine ⟨_, h1, by rw [List.map_map]; rfl, hrel.live_nodup, ?_, ⟨?_, ?_⟩, ?_⟩
  · obtain ⟨r, hr, _⟩ := h5
    intro hn
    have := List.mem_map_of_mem (f := (·.path)) hr
    rw [hn] at this; simp at this
  · intro p hp
    obtain ⟨r, hr, rfl⟩ := List.mem_map.mp hp
    exact h6 r hr
  · obtain ⟨r, hr, e⟩ := h5
    exact ⟨r.path, List.mem_map_of_mem hr, e⟩
  · intro p hp
    obtain ⟨r, hr, rfl⟩ := List.mem_map.mp hp
    exact made_legal ops Choices.empty (by simp [Choices.empty]) _ (List.mem_of_getElem? (hrel.live_made r hr))

end Cheval
