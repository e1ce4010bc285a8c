import Verif.Core.TreeObs
import Verif.Props.Nested

/-!
# C15-C19: the choice tree
-/
set_option linter.unusedSectionVars false
namespace Cheval
open FOps Spec
variable {F : Type} [FOps F]

/-- the model's tree after a history -/
abbrev after (ops : List (TreeOp F)) : TreeSt F := treeRun TreeSt.empty ops
/-- what a user expects after the history -/
noncomputable abbrev expected (ops : List (TreeOp F)) : Choices F := Choices.empty.run ops

theorem rel_after (ops : List (TreeOp F)) (hc : CleanRun Choices.empty ops) : TreeRel (after ops) (expected ops) :=
  TreeRel.empty.run ops hc

/-! ## C19 -/

theorem validateTree_iff {st : TreeSt F} {s : Choices F} (h : TreeRel st s) :
    (validateTree st = .ok () ↔
      2 ≤ (s.live.filter (fun r => decide (r.path.length = 1))).length ∧ ∀ r ∈ s.live, (s.kids r).length ≠ 1) ∧
    (validateTree st = .ok () ∨ validateTree st = .error .modelNotReady) := by
  have hany : (st.all.any (fun e => decide (nChildren st e.2 = 1))) = true ↔ ∃ r ∈ s.live, (s.kids r).length = 1 := by
    rw [h.all, List.any_map, List.any_eq_true]
    constructor
    · rintro ⟨r, hr, e⟩
      simp only [Function.comp, decide_eq_true_eq] at e
      exact ⟨r, hr, by rw [← h.nChildren_eq hr, e]⟩
    · rintro ⟨r, hr, e⟩
      exact ⟨r, hr, by simpa [h.nChildren_eq hr] using e⟩
  unfold validateTree
  rw [h.top_length]
  split
  · rename_i h1
    refine ⟨⟨(fun hc => by cases hc), fun hc => by omega⟩, .inr rfl⟩
  · rename_i h1
    split
    · rename_i h2
      refine ⟨⟨(fun hc => by cases hc), fun hc => ?_⟩, .inr rfl⟩
      obtain ⟨r, hr, e⟩ := hany.mp h2
      exact absurd e (hc.2 r hr)
    · rename_i h2
      refine ⟨⟨fun _ => ⟨by omega, fun r hr e => h2 (hany.mpr ⟨r, hr, e⟩)⟩, fun _ => rfl⟩, .inl rfl⟩

/-- **C19** The tree of a model is accepted iff it has at least two top-level choices and no choice has exactly one nested
choice; otherwise ModelNotReadyError is raised. -/
theorem C19_validate (ops : List (TreeOp F)) (hc : CleanRun Choices.empty ops) :
    let s := expected ops
    (validateTree (after ops) = .ok () ↔
      2 ≤ (s.live.filter (fun r => decide (r.path.length = 1))).length ∧ ∀ r ∈ s.live, (s.kids r).length ≠ 1) ∧
    (validateTree (after ops) = .ok () ∨ validateTree (after ops) = .error .modelNotReady) :=
  validateTree_iff (rel_after ops hc)

/-! ## C15 -/

theorem live_ne_of_valid {st : TreeSt F} {s : Choices F} (h : TreeRel st s) (hv : validateTree st = .ok ()) : s.live ≠ [] := by
  intro hc
  have := ((validateTree_iff h).1.mp hv).1
  rw [hc] at this
  simp at this

theorem choices_eq {st : TreeSt F} {s : Choices F} (h : TreeRel st s) (hv : validateTree st = .ok ()) :
    choices st = .ok (s.live.map fun r => pad s.depth r.path) := by
  have hne := live_ne_of_valid h hv
  unfold choices
  rw [hv, h.depth_eq hne]
  simp only [bind, Except.bind, pure, Except.pure]
  split
  · rename_i hd
    rw [h.all, List.map_map]
    congr 1
    apply List.map_congr_left
    intro r hr
    have h1 := s.le_depth hr
    have h2 := List.length_pos_iff.mpr (h.live_ok hr).1
    obtain ⟨n, hn⟩ := List.length_eq_one_iff.mp (show r.path.length = 1 by omega)
    simp [hn, pad, hd]
  · rw [h.all, List.map_map]
    congr 1
    apply List.map_congr_left
    intro r hr
    exact nestedId_eq h.heap _ _ _ (h.live_made r hr) (s.le_depth hr)

open Classical in
theorem elemental_eq {st : TreeSt F} {s : Choices F} (h : TreeRel st s) (hv : validateTree st = .ok ()) :
    elementalChoices st =
      .ok ((s.live.filter fun r => decide (¬ ∃ c ∈ s.live, IsChild r c)).map fun r => pad s.depth r.path) := by
  have hne := live_ne_of_valid h hv
  unfold elementalChoices
  rw [h.depth_eq hne]
  simp only [bind, Except.bind, pure, Except.pure]
  split
  · rename_i hd
    rw [choices_eq h hv]
    congr 2
    rw [eq_comm, List.filter_eq_self]
    intro r hr
    simp only [decide_eq_true_eq]
    rintro ⟨c, hc, n, e⟩
    have h1 := s.le_depth hc
    have h2 := List.length_pos_iff.mpr (h.live_ok hr).1
    rw [e] at h1
    simp at h1; omega
  · rw [h.all, List.filter_map, List.map_map]
    congr 1
    have : s.live.filter ((fun e : Name × Nat => !isParent st e.2) ∘ fun r => (joinDots r.path, r.handle)) =
        s.live.filter (fun r => decide (¬ ∃ c ∈ s.live, IsChild r c)) := by
      apply List.filter_congr
      intro r hr
      simp only [Function.comp]
      rw [Bool.eq_iff_iff]
      simp only [Bool.not_eq_true', decide_eq_true_eq, ← h.isParent_iff hr, Bool.not_eq_true]
    rw [this]
    apply List.map_congr_left
    intro r hr
    have hr' := List.mem_of_mem_filter hr
    exact nestedId_eq h.heap _ _ _ (h.live_made r hr') (s.le_depth hr')

theorem labels_nodup {st : TreeSt F} {s : Choices F} (h : TreeRel st s) : (s.live.map fun r => pad s.depth r.path).Nodup := by
  have hlive : s.live.Nodup := List.Nodup.of_map _ h.live_nodup
  rw [List.nodup_map_iff_inj_on hlive]
  intro a ha b hb e
  exact h.live_inj ha hb (pad_inj (h.live_ok ha).2 (h.live_ok hb).2 e (s.le_depth ha) (s.le_depth hb))

open Classical in
/-- **C15** After a clean history, `choices` lists the choices of the model in the order of creation, labelled with their
paths padded with "." to the depth of the model; the labels are pairwise distinct; `elemental_choices` lists those without
nested choices, in the same order. -/
theorem C15_choices (ops : List (TreeOp F)) (hc : CleanRun Choices.empty ops) (hv : validateTree (after ops) = .ok ()) :
    let s := expected ops
    choices (after ops) = .ok (s.live.map fun r => pad s.depth r.path) ∧
    (s.live.map fun r => pad s.depth r.path).Nodup ∧
    elementalChoices (after ops) =
      .ok ((s.live.filter fun r => decide (¬ ∃ c ∈ s.live, IsChild r c)).map fun r => pad s.depth r.path) ∧
    depth (after ops) = .ok s.depth ∧ (∃ r ∈ s.live, r.path.length = s.depth) ∧ (∀ r ∈ s.live, r.path.length ≤ s.depth) := by
  have h := rel_after ops hc
  refine ⟨choices_eq h hv, labels_nodup h, elemental_eq h hv, h.depth_eq (live_ne_of_valid h hv), ?_,
    fun r hr => Choices.le_depth _ hr⟩
  by_contra hcon
  simp only [not_exists, not_and] at hcon
  have hne := live_ne_of_valid h hv
  set s := expected ops
  have hle : ∀ r ∈ s.live, r.path.length ≤ s.depth - 1 := by
    intro r hr
    have h1 := s.le_depth hr
    have h2 := hcon r hr
    omega
  have := s.depth_le hle
  obtain ⟨r, hr⟩ := List.exists_mem_of_ne_nil _ hne
  have h1 := s.le_depth hr
  have h2 := List.length_pos_iff.mpr (h.live_ok hr).1
  omega

/-- **C15 (no name reused)** If no path is ever created twice, the choices are all the created ones, in order of creation. -/
theorem C15_insertion_order (ops : List (TreeOp F)) (hnd : (expected ops).made.Nodup) :
    (expected ops).live.map (·.path) = (expected ops).made := by
  have key : ∀ (ops : List (TreeOp F)) (s : Choices F), (s.made.Nodup → s.live.map (·.path) = s.made) →
      ((s.run ops).made.Nodup → (s.run ops).live.map (·.path) = (s.run ops).made) := by
    intro ops
    induction ops with
    | nil => intro s h; exact h
    | cons op ops ih =>
      intro s h
      refine ih (s.step op).1 ?_
      have hadd : ∀ p n sc, ((s.add p n sc).1.made.Nodup → (s.add p n sc).1.live.map (·.path) = (s.add p n sc).1.made) := by
        intro p n sc
        unfold Choices.add
        split
        · intro hn
          rw [List.nodup_append] at hn
          have e := h hn.1
          have : s.live.filter (fun r => decide (r.path ≠ p)) = s.live := by
            rw [List.filter_eq_self]
            intro r hr
            simp only [decide_eq_true_eq]
            intro hc
            exact hn.2.2 r.path (by rw [← e]; exact List.mem_map_of_mem hr) p (by simp) hc
          simp only [this, List.map_append, e, List.map_cons, List.map_nil]
        · exact h
      cases op with
      | addTop n sc => exact hadd _ _ _
      | addChild k n sc => exact hadd _ _ _
      | setScale k v =>
        unfold Choices.step
        simp only
        split
        · intro hn
          have e := h hn
          rw [← e, List.map_map]
          apply List.map_congr_left
          intro r _
          simp only [Function.comp]
          split <;> rfl
        · exact h
  exact key ops Choices.empty (by simp [Choices.empty]) hnd

/-- **C15 (results)** Every clean call returns what the user expects: a new handle, or AssertionError for an illegal name or
scale. -/
theorem C15_results (ops : List (TreeOp F)) (op : TreeOp F) (hc : CleanRun Choices.empty ops) (h1 : Clean (expected ops) op) :
    (treeStep (after ops) op).2 = ((expected ops).step op).2 :=
  ((rel_after ops hc).step op h1).2

/-! ## C16 -/

theorem flat_wf {st : TreeSt F} {s : Choices F} (h : TreeRel st s) (hne : s.live ≠ []) : (flatUpto s s.live.length).WF := by
  classical
  have hget : ∀ i (hi : i < s.live.length), (flatUpto s s.live.length).parent i =
      if s.live[i].path.length ≤ 1 then -1 else (posOf s s.live[i].path.dropLast : Int) := by
    intro i hi
    simp [flatUpto, hi]
  have hlev : ∀ i (hi : i < s.live.length), (flatUpto s s.live.length).level i = s.live[i].path.length - 1 := by
    intro i hi
    simp [flatUpto, hi]
  have hpos : ∀ (r : Rec F), r ∈ s.live → ∃ hp : posOf s r.path < s.live.length, s.live[posOf s r.path] = r := by
    intro r hr
    obtain ⟨k, hk, e⟩ := List.mem_iff_getElem.mp hr
    subst e
    rw [h.posOf_getElem k hk]
    exact ⟨hk, rfl⟩
  have hchild : ∀ i j (hi : i < s.live.length) (hj : j < s.live.length),
      ((flatUpto s s.live.length).parent j = (i : Int) ↔ IsChild s.live[i] s.live[j]) := by
    intro i j hi hj
    rw [hget j hj]
    constructor
    · intro e
      split at e
      · omega
      · rename_i hl
        obtain ⟨r', hr', hp', hc'⟩ := h.parent_rec (List.getElem_mem hj) (by omega)
        rw [← hp'] at e
        obtain ⟨hlt, e2⟩ := hpos r' hr'
        have e3 : posOf s r'.path = i := by exact_mod_cast e
        simp only [e3] at e2
        rw [e2]; exact hc'
    · rintro ⟨n, e⟩
      have h2 := List.length_pos_iff.mpr (h.live_ok (List.getElem_mem hi)).1
      have hl : ¬ s.live[j].path.length ≤ 1 := by rw [e, List.length_append, List.length_singleton]; omega
      rw [if_neg hl, e, List.dropLast_concat]
      exact_mod_cast h.posOf_getElem i hi
  refine ⟨List.length_pos_iff.mpr hne, ?_, ?_⟩
  · intro i hi
    have hi' : i < s.live.length := hi
    have h2 := List.length_pos_iff.mpr (h.live_ok (List.getElem_mem hi')).1
    by_cases hl : s.live[i].path.length ≤ 1
    · left
      rw [hget i hi', if_pos hl, hlev i hi']
      exact ⟨rfl, by omega⟩
    · right
      obtain ⟨r', hr', hp', n, hc'⟩ := h.parent_rec (List.getElem_mem hi') (by omega)
      obtain ⟨hlt, e2⟩ := hpos r' hr'
      refine ⟨posOf s r'.path, hlt, ?_, ?_⟩
      · rw [hget i hi', if_neg hl, hp']
      · rw [hlev i hi', hlev _ hlt, e2, hc']
        have := List.length_pos_iff.mpr (h.live_ok hr').1
        simp; omega
  · intro i hi
    have hi' : i < s.live.length := hi
    have hb : (flatUpto s s.live.length).bottom i = true ↔ ¬ ∃ c ∈ s.live, IsChild s.live[i] c := by
      simp only [flatUpto, hi', if_true, List.getElem?_eq_getElem hi']
      split
      · rename_i hc; simp only [Bool.false_eq_true, false_iff, not_not]; exact hc
      · rename_i hc; simp only [true_iff]; exact hc
    rw [hb]
    constructor
    · intro hno j hj e
      exact hno ⟨_, List.getElem_mem hj, (hchild i j hi' hj).mp e⟩
    · rintro hall ⟨c, hc, hic⟩
      obtain ⟨j, hj, rfl⟩ := List.mem_iff_getElem.mp hc
      exact hall j hj ((hchild i j hi' hj).mpr hic)

open Classical in
/-- **C16** After a clean history, the arrays handed to the computation hold, for each choice position: the position of the
choice it is nested in (-1 at the top), its level minus 1, its scale (1 for elemental choices) and whether it is
elemental. -/
theorem C16_flatten (ops : List (TreeOp F)) (hc : CleanRun Choices.empty ops) (hd : 1 < (expected ops).depth) :
    let s := expected ops
    ∃ fl, flatten (after ops) = .ok fl ∧ fl.WF ∧ fl.n = s.live.length ∧
      ∀ i (hi : i < s.live.length),
        (s.live[i].path.length = 1 → fl.parent i = -1) ∧
        (∀ j (hj : j < s.live.length), fl.parent i = (j : Int) ↔ IsChild s.live[j] s.live[i]) ∧
        fl.level i = s.live[i].path.length - 1 ∧
        (fl.bottom i = true ↔ ¬ ∃ c ∈ s.live, IsChild s.live[i] c) ∧
        fl.scale i = (if ∃ c ∈ s.live, IsChild s.live[i] c then s.live[i].scale else one) := by
  intro s
  have h := rel_after ops hc
  have hne : s.live ≠ [] := by
    intro hcon
    have : (expected ops).depth = 0 := by
      have hcon' : (expected ops).live = [] := hcon
      simp [Choices.depth, hcon']
    omega
  have wf := flat_wf h hne
  refine ⟨_, h.flatten_eq hd, wf, rfl, fun i hi => ⟨?_, ?_, ?_, ?_, ?_⟩⟩
  · intro hl
    simp [flatUpto, hi, s, hl] 
  · intro j hj
    have hget : (flatUpto s s.live.length).parent i =
        if s.live[i].path.length ≤ 1 then -1 else (posOf s s.live[i].path.dropLast : Int) := by
      simp [flatUpto, hi]
    rw [hget]
    constructor
    · intro e
      split at e
      · omega
      · rename_i hl
        obtain ⟨r', hr', hp', hc'⟩ := h.parent_rec (List.getElem_mem hi) (by omega)
        obtain ⟨k, hk, e2⟩ := List.mem_iff_getElem.mp hr'
        have e1 : posOf s s.live[i].path.dropLast = j := by exact_mod_cast e
        rw [← hp', ← e2, h.posOf_getElem k hk] at e1
        subst e1
        rw [e2]; exact hc'
    · rintro ⟨n, e⟩
      have h2 := List.length_pos_iff.mpr (h.live_ok (List.getElem_mem hj)).1
      have hl : ¬ s.live[i].path.length ≤ 1 := by rw [e, List.length_append, List.length_singleton]; omega
      rw [if_neg hl, e, List.dropLast_concat]
      exact_mod_cast h.posOf_getElem j hj
  · simp [flatUpto, hi, s]
  · simp only [flatUpto, s, hi, if_true, List.getElem?_eq_getElem hi]
    split
    · rename_i hc; simp only [Bool.false_eq_true, false_iff, not_not]; exact hc
    · rename_i hc; simp only [true_iff]; exact hc
  · simp [flatUpto, hi, s]

/-- **C16 (any other depth)** A model without nested choices is never flattened: the call raises AssertionError. -/
theorem C16_flat_model (ops : List (TreeOp F)) (hc : CleanRun Choices.empty ops) (hne : (expected ops).live ≠ [])
    (hd : (expected ops).depth ≤ 1) : flatten (after ops) = .error .assertion := by
  unfold flatten
  rw [(rel_after ops hc).depth_eq hne]
  simp only [bind, Except.bind, if_pos hd]

end Cheval
