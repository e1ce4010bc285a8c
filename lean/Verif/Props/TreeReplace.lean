import Verif.Props.TreeHistory

/-!
# C17, C18, C54: replaced choices, rejected choices, `add_choices`
-/
set_option linter.unusedSectionVars false
set_option linter.defProp false
set_option linter.unusedSimpArgs false
namespace Cheval
open FOps Spec
variable {F : Type} [FOps F]

/-- Two trees that no call of the API (other than through node handles) can tell apart. -/
def SameView (a b : TreeSt F) : Prop :=
  validateTree a = validateTree b ∧ depth a = depth b ∧ choices a = choices b ∧
    elementalChoices a = elementalChoices b ∧ flatten a = flatten b

/-- the visible part of a list of choices: paths and scales in order -/
def Visible (s : Choices F) : List (List Name × F) := s.live.map fun r => (r.path, r.scale)

private def erased (s : Choices F) : Choices F := ⟨[], s.live.map fun r => ⟨0, r.path, r.scale⟩⟩

private theorem erased_eq {s s' : Choices F} (h : Visible s = Visible s') : erased s = erased s' := by
  unfold erased
  have : ∀ s : Choices F, s.live.map (fun r => (⟨0, r.path, r.scale⟩ : Rec F)) =
      (Visible s).map fun e => ⟨0, e.1, e.2⟩ := by
    intro s; simp [Visible]
  rw [this s, this s', h]

private theorem erased_depth (s : Choices F) : (erased s).depth = s.depth := by
  simp [Choices.depth, erased, List.foldl_map]

private theorem erased_child (s : Choices F) (r : Rec F) :
    (∃ c ∈ (erased s).live, IsChild (⟨0, r.path, r.scale⟩ : Rec F) c) ↔ ∃ c ∈ s.live, IsChild r c := by
  simp [erased, IsChild]

private theorem erased_kids (s : Choices F) (r : Rec F) :
    ((erased s).kids (⟨0, r.path, r.scale⟩ : Rec F)).length = (s.kids r).length := by
  classical
  simp only [Choices.kids, erased, List.filter_map, List.length_map]
  rfl

private theorem erased_flat (s : Choices F) : flatUpto (erased s) (erased s).live.length = flatUpto s s.live.length := by
  classical
  have hlen : (erased s).live.length = s.live.length := by simp [erased]
  have hget : ∀ i : Nat, (erased s).live[i]? = (s.live[i]?).map fun r => ⟨0, r.path, r.scale⟩ := by
    intro i; simp [erased]
  have hpos : ∀ p, posOf (erased s) p = posOf s p := by
    intro p; simp [posOf, erased, Function.comp_def]
  unfold flatUpto
  rw [hlen]
  congr 1
  · funext i
    rw [hget]
    cases s.live[i]? <;> simp [hpos]
  · funext i
    rw [hget]
    cases s.live[i]? <;> simp
  · funext i
    rw [hget]
    cases s.live[i]? with
    | none => simp
    | some r => simp only [Option.map_some, erased_child]
  · funext i
    rw [hget]
    cases s.live[i]? with
    | none => simp
    | some r => simp only [Option.map_some, erased_child]

private theorem sameView_of_rel {st st' : TreeSt F} {s s' : Choices F} (h : TreeRel st s) (h' : TreeRel st' s')
    (hv : Visible s = Visible s') : SameView st st' := by
  classical
  have he := erased_eq hv
  have hd : s.depth = s'.depth := by rw [← erased_depth s, ← erased_depth s', he]
  have hlive : s.live = [] ↔ s'.live = [] := by
    have := congrArg List.length hv
    simp only [Visible, List.length_map] at this
    rw [← List.length_eq_zero_iff, ← List.length_eq_zero_iff, this]
  have hpaths : s.live.map (·.path) = s'.live.map (·.path) := by
    have := congrArg (List.map Prod.fst) hv
    simpa [Visible, Function.comp_def] using this
  have hkid : ∀ P : Nat → Prop, (∀ r ∈ s.live, P (s.kids r).length) ↔ (∀ r ∈ (erased s).live, P ((erased s).kids r).length) := by
    intro P
    simp only [show (erased s).live = s.live.map fun r => (⟨0, r.path, r.scale⟩ : Rec F) from rfl, List.forall_mem_map,
      erased_kids]
  have hkid' : ∀ P : Nat → Prop, (∀ r ∈ s'.live, P (s'.kids r).length) ↔ (∀ r ∈ (erased s').live, P ((erased s').kids r).length) := by
    intro P
    simp only [show (erased s').live = s'.live.map fun r => (⟨0, r.path, r.scale⟩ : Rec F) from rfl, List.forall_mem_map,
      erased_kids]
  have htop : (s.live.filter (fun r => decide (r.path.length = 1))).length =
      (s'.live.filter (fun r => decide (r.path.length = 1))).length := by
    have key : ∀ s : Choices F, (s.live.filter (fun r => decide (r.path.length = 1))).length =
        ((s.live.map (·.path)).filter (fun p => decide (p.length = 1))).length := by
      intro s; rw [List.filter_map, List.length_map]; rfl
    rw [key, key, hpaths]
  have hval : validateTree st = validateTree st' := by
    obtain ⟨i1, o1⟩ := validateTree_iff h
    obtain ⟨i2, o2⟩ := validateTree_iff h'
    have : validateTree st = .ok () ↔ validateTree st' = .ok () := by
      rw [i1, i2, htop, hkid (· ≠ 1), hkid' (· ≠ 1), he]
    rcases o1 with o1 | o1 <;> rcases o2 with o2 | o2
    · rw [o1, o2]
    · rw [this.mp o1]; exact o1
    · rw [this.mpr o2, o2]
    · rw [o1, o2]
  have hdep : depth st = depth st' := by
    by_cases hne : s.live = []
    · have h1 : st.all = [] := by rw [h.all, hne]; rfl
      have h2 : st'.all = [] := by rw [h'.all, hlive.mp hne]; rfl
      simp [depth, h1, h2]
    · rw [h.depth_eq hne, h'.depth_eq (fun hc => hne (hlive.mpr hc)), hd]
  have hch : choices st = choices st' := by
    rcases (validateTree_iff h).2 with o | o
    · rw [choices_eq h o, choices_eq h' (hval ▸ o), hd]
      congr 1
      have key : ∀ (s : Choices F) (d : Nat), s.live.map (fun r => pad d r.path) = (s.live.map (·.path)).map (pad d) := by
        intro s d; rw [List.map_map]; rfl
      rw [key, key, hpaths]
    · unfold choices
      rw [← hval, o]
      rfl
  refine ⟨hval, hdep, hch, ?_, ?_⟩
  · by_cases hne : s.live = []
    · have h1 : st.all = [] := by rw [h.all, hne]; rfl
      have h2 : st'.all = [] := by rw [h'.all, hlive.mp hne]; rfl
      simp only [elementalChoices, depth, h1, h2]
      rfl
    · have hd1 := h.depth_eq hne
      unfold elementalChoices
      rw [← hdep, hd1, hch]
      simp only [bind, Except.bind, pure, Except.pure]
      split
      · rfl
      · congr 1
        have key : ∀ (st : TreeSt F) (s : Choices F), TreeRel st s →
            (st.all.filter (fun e => !isParent st e.2)).map (fun e => nestedId st.nodes s.depth e.2) =
            ((erased s).live.filter (fun r => decide (¬ ∃ c ∈ (erased s).live, IsChild r c))).map
              (fun r => pad (erased s).depth r.path) := by
          intro st s h
          rw [h.all, List.filter_map, List.map_map]
          rw [show (erased s).live.filter (fun r => decide (¬ ∃ c ∈ (erased s).live, IsChild r c)) =
            (s.live.filter (fun r => decide (¬ ∃ c ∈ s.live, IsChild r c))).map (fun r => (⟨0, r.path, r.scale⟩ : Rec F)) from ?_]
          · rw [List.map_map]
            have : s.live.filter ((fun e : Name × Nat => !isParent st e.2) ∘ fun r => (joinDots r.path, r.handle)) =
                s.live.filter (fun r => decide (¬ ∃ c ∈ s.live, IsChild r c)) := by
              apply List.filter_congr
              intro r hr
              simp only [Function.comp]
              rw [Bool.eq_iff_iff]
              simp only [Bool.not_eq_true', decide_eq_true_eq, ← h.isParent_iff hr, Bool.not_eq_true]
            rw [this]
            apply List.map_congr_left
            intro r hr
            have hr' := List.mem_of_mem_filter hr
            simp only [Function.comp, erased_depth]
            exact nestedId_eq h.heap _ _ _ (h.live_made r hr') (s.le_depth hr')
          · conv_lhs => rw [show (erased s).live = s.live.map fun r => (⟨0, r.path, r.scale⟩ : Rec F) from rfl]
            rw [List.filter_map]
            congr 1
            apply List.filter_congr
            intro r _
            simp only [Function.comp]
            congr 1
            rw [eq_iff_iff, not_iff_not]
            exact erased_child s r
        rw [key st s h, hd, key st' s' h', he]
  · by_cases hne : s.live = []
    · have h1 : st.all = [] := by rw [h.all, hne]; rfl
      have h2 : st'.all = [] := by rw [h'.all, hlive.mp hne]; rfl
      simp only [flatten, depth, h1, h2]
      rfl
    · by_cases hd2 : 1 < s.depth
      · rw [h.flatten_eq hd2, h'.flatten_eq (hd ▸ hd2), ← erased_flat s, ← erased_flat s', he]
      · unfold flatten
        rw [← hdep, h.depth_eq hne]
        simp only [bind, Except.bind]
        rw [if_pos (by omega), if_pos (by omega)]

/-- **C17 (what counts)** Everything the model does depends only on the list of (path, scale) of its choices: two clean
histories leading to the same list give models that behave identically. -/
theorem C17_visible_state (ops ops' : List (TreeOp F)) (hc : CleanRun Choices.empty ops) (hc' : CleanRun Choices.empty ops')
    (hv : Visible (expected ops) = Visible (expected ops')) : SameView (after ops) (after ops') :=
  sameView_of_rel (rel_after ops hc) (rel_after ops' hc') hv

/-- the call adds choice `path`, whose name is `n`, with scale `sc` -/
def Adds (s : Choices F) (op : TreeOp F) (path : List Name) (n : Name) (sc : F) : Prop :=
  (op = .addTop n sc ∧ path = [n]) ∨ (∃ h, op = .addChild h n sc ∧ path = s.made.getD h [] ++ [n])

private theorem run_append (s : Choices F) (ops : List (TreeOp F)) (op : TreeOp F) :
    s.run (ops ++ [op]) = ((s.run ops).step op).1 := by
  simp [Choices.run, List.foldl_append]

/-- **C17 (childless choices)** Re-adding an existing choice in which nothing is nested gives a model that behaves as if the
old choice had never been added: it behaves like any model (`ops'`) that lacks the old choice and has the new one added. -/
theorem C17_replaces_partial (ops ops' : List (TreeOp F)) (op op' : TreeOp F) (p : List Name) (n : Name) (sc : F)
    (hc : CleanRun Choices.empty (ops ++ [op])) (hc' : CleanRun Choices.empty (ops' ++ [op']))
    (ha : Adds (expected ops) op p n sc) (ha' : Adds (expected ops') op' p n sc)
    (hwithout : Visible (expected ops') = (Visible (expected ops)).filter (fun e => decide (e.1 ≠ p))) :
    SameView (after (ops ++ [op])) (after (ops' ++ [op'])) := by
  apply C17_visible_state _ _ hc hc'
  have step : ∀ (s : Choices F) (op : TreeOp F), Adds s op p n sc →
      Visible (s.step op).1 = if nodeLegal n sc then (Visible s).filter (fun e => decide (e.1 ≠ p)) ++ [(p, sc)]
        else Visible s := by
    intro s op ha
    have e : (s.step op).1 = (s.add p n sc).1 := by
      rcases ha with ⟨rfl, rfl⟩ | ⟨h, rfl, rfl⟩ <;> rfl
    rw [e]
    unfold Choices.add
    by_cases hl : Legal n sc
    · rw [if_pos hl, if_pos ((nodeLegal_iff n sc).mpr hl)]
      simp [Visible, List.filter_map, Function.comp_def]
    · rw [if_neg hl, if_neg (fun hh => hl ((nodeLegal_iff n sc).mp hh))]
  rw [expected, expected, run_append, run_append, step _ _ ha, step _ _ ha', hwithout]
  by_cases hl : nodeLegal n sc = true
  · rw [if_pos hl, if_pos hl, List.filter_filter]
    simp
  · rw [if_neg hl, if_neg hl]
    -- a rejected clean addition: the choice is not in the model
    rw [eq_comm, List.filter_eq_self]
    intro e he
    obtain ⟨r, hr, rfl⟩ := List.mem_map.mp he
    have hcl : CleanAdd (expected ops) p n sc := by
      have key : ∀ (ops : List (TreeOp F)) (s : Choices F), CleanRun s (ops ++ [op]) → Clean (s.run ops) op := by
        intro ops
        induction ops with
        | nil => intro s h; exact h.1
        | cons o ops ih => intro s h; exact ih _ h.2
      have := key ops Choices.empty hc
      rcases ha with ⟨rfl, rfl⟩ | ⟨h, rfl, rfl⟩
      · exact this
      · exact this.2
    simp only [decide_eq_true_eq]
    intro hc
    exact hcl.2 (fun hh => hl ((nodeLegal_iff n sc).mpr hh)) r hr (by rw [hc])

/-! ### the violation -/

private def nmA : Name := ['A']
private def nmB : Name := ['B']
private def nmC : Name := ['C']
private def nmX : Name := ['x']
private def nmY : Name := ['y']

section refute
private def np0 (l : List (Node F)) := nodePath.eq_1 l 0
private def np1 (l : List (Node F)) := nodePath.eq_1 l 1
private def np2 (l : List (Node F)) := nodePath.eq_1 l 2
private def np3 (l : List (Node F)) := nodePath.eq_1 l 3
private def np4 (l : List (Node F)) := nodePath.eq_1 l 4
private def np5 (l : List (Node F)) := nodePath.eq_1 l 5
private def ni0 (l : List (Node F)) (d : Nat) := nestedId.eq_1 l d 0
private def ni1 (l : List (Node F)) (d : Nat) := nestedId.eq_1 l d 1
private def ni2 (l : List (Node F)) (d : Nat) := nestedId.eq_1 l d 2
private def ni3 (l : List (Node F)) (d : Nat) := nestedId.eq_1 l d 3
private def ni4 (l : List (Node F)) (d : Nat) := nestedId.eq_1 l d 4
private def ni5 (l : List (Node F)) (d : Nat) := nestedId.eq_1 l d 5

variable (h01 : lt (zero : F) one = true) (h11 : le (one : F) one = true)

/-- B, C, and the nest A with x and y -/
def historyNest : List (TreeOp F) :=
  [.addTop nmB one, .addTop nmC one, .addTop nmA one, .addChild 2 nmX one, .addChild 2 nmY one]

include h01 h11

private theorem orphan_state : after (historyNest ++ [.addTop nmA one] : List (TreeOp F)) =
    ⟨[⟨nmB, none, one, 1, []⟩, ⟨nmC, none, one, 1, []⟩, ⟨nmA, none, one, 1, [(nmX, 3), (nmY, 4)]⟩,
      ⟨nmX, some 2, one, 2, []⟩, ⟨nmY, some 2, one, 2, []⟩, ⟨nmA, none, one, 1, []⟩],
     [(nmB, 0), (nmC, 1), (['A', '.', 'x'], 3), (['A', '.', 'y'], 4), (nmA, 5)], [0, 1, 5]⟩ := by
  simp [after, historyNest, treeRun, treeStep, addTop, addChild, createNode, finishCreate, nodeLegal, h01, h11, TreeSt.empty, nmA, nmB,
    nmC, nmX, nmY, dictGet, dictSet, dictDel, expectedName, fullName, joinDots, newLevel, np0, np1, np2, np3, np4, np5, List.modify,
    List.modifyTailIdx, List.modifyTailIdx.go, List.modifyHead, List.intercalate]

/-- **C17 violated** After B, C and a nest A with the choices x and y, adding A again leaves x and y in the model: they are
still listed as choices below A, although A now is an elemental choice itself; the arrays handed to the computation are
contradictory (A is the parent of x and y, and is marked as elemental). -/
theorem C17_orphans_refuted :
    validateTree (after (historyNest ++ [.addTop nmA one] : List (TreeOp F))) = .ok () ∧
    choices (after (historyNest ++ [.addTop nmA one] : List (TreeOp F))) =
      .ok [[nmB, ['.']], [nmC, ['.']], [nmA, nmX], [nmA, nmY], [nmA, ['.']]] ∧
    elementalChoices (after (historyNest ++ [.addTop nmA one] : List (TreeOp F))) =
      .ok [[nmB, ['.']], [nmC, ['.']], [nmA, nmX], [nmA, nmY], [nmA, ['.']]] ∧
    choices (after ([.addTop nmB one, .addTop nmC one, .addTop nmA one] : List (TreeOp F))) = .ok [[nmB], [nmC], [nmA]] ∧
    ∃ fl, flatten (after (historyNest ++ [.addTop nmA one] : List (TreeOp F))) = .ok fl ∧ fl.n = 5 ∧
      fl.parent 2 = 4 ∧ fl.parent 3 = 4 ∧ fl.bottom 4 = true := by
  rw [orphan_state h01 h11]
  refine ⟨?_, ?_, ?_, ?_, ?_⟩
  · simp [validateTree, nChildren]
  · simp [choices, validateTree, nChildren, depth, levelOf, ni0, ni1, ni2, ni3, ni4, ni5, bind, Except.bind, pure, Except.pure]
  · simp [elementalChoices, isParent, nChildren, depth, levelOf, ni0, ni1, ni2, ni3, ni4, ni5, bind, Except.bind, pure, Except.pure]
  · simp [after, treeRun, treeStep, addTop, createNode, finishCreate, nodeLegal, h01, h11, TreeSt.empty, nmA, nmB, nmC, dictGet, dictSet,
      expectedName, newLevel, choices, validateTree, nChildren, depth, levelOf, bind, Except.bind, pure, Except.pure]
  · have : ∃ fl, flatten (⟨[⟨nmB, none, one, 1, []⟩, ⟨nmC, none, one, 1, []⟩, ⟨nmA, none, one, 1, [(nmX, 3), (nmY, 4)]⟩,
      ⟨nmX, some 2, one, 2, []⟩, ⟨nmY, some 2, one, 2, []⟩, ⟨nmA, none, one, 1, []⟩],
     [(nmB, 0), (nmC, 1), (['A', '.', 'x'], 3), (['A', '.', 'y'], 4), (nmA, 5)], [0, 1, 5]⟩ : TreeSt F) = .ok fl := by
      simp [flatten, depth, levelOf, nodePositions, flattenNode, fullName, joinDots, np0, np1, np2, np3, np4, np5, nmA, nmB, nmC, nmX, nmY,
        dictGet, dictSet, isParent, nChildren, bind, Except.bind, List.zipIdx, List.intercalate, Except.map, List.foldlM, pure, Except.pure]
    obtain ⟨fl, hfl⟩ := this
    refine ⟨fl, hfl, ?_⟩
    simp [flatten, depth, levelOf, nodePositions, flattenNode, fullName, joinDots, np0, np1, np2, np3, np4, np5, nmA, nmB, nmC, nmX, nmY,
        dictGet, dictSet, isParent, nChildren, bind, Except.bind, List.zipIdx, List.intercalate, Except.map, List.foldlM, pure, Except.pure] at hfl
    subst hfl
    simp [upd]

end refute

/-- the hypotheses on the numbers hold -/
example : lt (zero : XR) one = true ∧ le (one : XR) one = true := by simp [lt, le, zero, one, XR.lt, XR.le]

/-- and the hypotheses of `C17_replaces_partial` are met by re-adding the childless choice C of B, C and the nest A -/
example : ∃ (ops ops' : List (TreeOp XR)) (op : TreeOp XR), CleanRun Choices.empty (ops ++ [op]) ∧
    CleanRun Choices.empty (ops' ++ [op]) ∧ Adds (expected ops) op [nmC] nmC one ∧ Adds (expected ops') op [nmC] nmC one ∧
    Visible (expected ops') = (Visible (expected ops)).filter (fun e => decide (e.1 ≠ [nmC])) ∧
    [nmC] ∈ (expected ops).live.map (·.path) := by
  refine ⟨[.addTop nmB one, .addTop nmC one], [.addTop nmB one], .addTop nmC one, ?_, ?_, .inl ⟨rfl, rfl⟩, .inl ⟨rfl, rfl⟩, ?_, ?_⟩ <;>
    simp [CleanRun, Clean, CleanAdd, Choices.step, Choices.add, Choices.empty, expected, Choices.run, Visible, Legal, nmB, nmC,
      lt, le, zero, one, XR.lt, XR.le]

/-! ## C18 -/

/-- **C18 (name not in use)** A rejected call whose choice does not exist yet leaves the model unchanged, from any state. -/
theorem C18_rejected_partial (st : TreeSt F) (op : TreeOp F) (e : Err) (he : (treeStep st op).2 = .error e)
    (hfree : match op with
      | .addTop n _ => n ∉ st.all.map (·.1)
      | .addChild h n _ => fullName st.nodes h ++ ['.'] ++ n ∉ st.all.map (·.1)
      | .setScale _ _ => True) :
    (treeStep st op).1 = st := by
  cases op with
  | addTop n sc =>
    simp only at hfree
    simp only [treeStep, addTop, createNode, dictGet_eq_none.mpr hfree, finishCreate] at he ⊢
    by_cases hl : nodeLegal n sc = true
    · simp [hl] at he
    · simp [hl]
  | addChild h n sc =>
    simp only at hfree
    simp only [treeStep, addChild, createNode, expectedName, dictDel_of_not_mem hfree, finishCreate] at he ⊢
    by_cases hl : nodeLegal n sc = true
    · simp [hl] at he
    · simp [hl]
  | setScale h v =>
    simp only [treeStep, setScale] at he ⊢
    split
    · rename_i hl; simp [hl] at he
    · rfl

/-- **C18 (exact)** After a clean history, a clean call is rejected only for an illegal name or scale. -/
theorem C18_only_illegal (ops : List (TreeOp F)) (op : TreeOp F) (hc : CleanRun Choices.empty ops)
    (h1 : Clean (expected ops) op) (e : Err) (he : (treeStep (after ops) op).2 = .error e) :
    e = .assertion ∧ (match op with
      | .addTop n sc => ¬ Legal n sc
      | .addChild _ n sc => ¬ Legal n sc
      | .setScale _ v => ¬ (lt zero v = true ∧ le v one = true)) := by
  rw [C15_results ops op hc h1] at he
  cases op with
  | addTop n sc =>
    simp only [Choices.step, Choices.add] at he ⊢
    split at he
    · cases he
    · rename_i hl; simp only [Except.error.injEq] at he; exact ⟨he.symm, hl⟩
  | addChild h n sc =>
    simp only [Choices.step, Choices.add] at he ⊢
    split at he
    · cases he
    · rename_i hl; simp only [Except.error.injEq] at he; exact ⟨he.symm, hl⟩
  | setScale h v =>
    simp only [Choices.step] at he ⊢
    split at he
    · cases he
    · rename_i hl; simp only [Except.error.injEq] at he; exact ⟨he.symm, hl⟩

/-- **C18 violated** Re-adding an existing choice with an illegal scale raises, and the existing choice is gone. -/
theorem C18_rejected_refuted (h01 : lt (zero : F) one = true) (h11 : le (one : F) one = true) (h00 : lt (zero : F) zero = false) :
    let ops : List (TreeOp F) := [.addTop nmB one, .addTop nmC one, .addTop nmA one]
    (treeStep (after ops) (.addTop nmA zero)).2 = .error .assertion ∧
    choices (after ops) = .ok [[nmB], [nmC], [nmA]] ∧
    choices (treeStep (after ops) (.addTop nmA zero)).1 = .ok [[nmB], [nmC]] := by
  refine ⟨?_, ?_, ?_⟩ <;>
  simp [after, treeRun, treeStep, addTop, createNode, finishCreate, nodeLegal, h01, h11, h00, TreeSt.empty, nmA, nmB, nmC, dictGet, dictSet,
      dictDel, expectedName, newLevel, choices, validateTree, nChildren, depth, levelOf, bind, Except.bind, pure, Except.pure]

/-- **C18 violated, another way** A top-level name containing a dot that spells the path of a nested choice is rejected (with
KeyError instead of AssertionError) and removes that nested choice from the model. -/
theorem C18_dotted_refuted (h01 : lt (zero : F) one = true) (h11 : le (one : F) one = true) :
    let ops : List (TreeOp F) := historyNest
    (treeStep (after ops) (.addTop ['A', '.', 'x'] one)).2 = .error .key ∧
    (after ops).all.map (·.1) = [nmB, nmC, nmA, ['A', '.', 'x'], ['A', '.', 'y']] ∧
    (treeStep (after ops) (.addTop ['A', '.', 'x'] one)).1.all.map (·.1) = [nmB, nmC, nmA, ['A', '.', 'y']] := by
  have hst : after (historyNest : List (TreeOp F)) =
    ⟨[⟨nmB, none, one, 1, []⟩, ⟨nmC, none, one, 1, []⟩, ⟨nmA, none, one, 1, [(nmX, 3), (nmY, 4)]⟩,
      ⟨nmX, some 2, one, 2, []⟩, ⟨nmY, some 2, one, 2, []⟩],
     [(nmB, 0), (nmC, 1), (nmA, 2), (['A', '.', 'x'], 3), (['A', '.', 'y'], 4)], [0, 1, 2]⟩ := by
    simp [after, historyNest, treeRun, treeStep, addTop, addChild, createNode, finishCreate, nodeLegal, h01, h11, TreeSt.empty, nmA, nmB,
      nmC, nmX, nmY, dictGet, dictSet, dictDel, expectedName, fullName, joinDots, newLevel, np0, np1, np2, np3, np4, List.modify,
      List.modifyTailIdx, List.modifyTailIdx.go, List.modifyHead, List.intercalate]
  intro ops
  simp only [ops, hst]
  refine ⟨?_, ?_, ?_⟩ <;>
  simp [treeStep, addTop, createNode, nmA, nmB, nmC, nmX, nmY, dictGet, dictDel]

example : lt (zero : XR) zero = false := by simp [lt, zero, XR.lt]

/-! ## C54: add_choices -/

/-- calls one after the other, until one raises -/
def addAll (st : TreeSt F) : List (Name × F) → Outcome F (List Nat)
  | [] => (st, .ok [])
  | (n, s) :: rest =>
    match treeStep st (.addTop n s) with
    | (st, .error e) => (st, .error e)
    | (st, .ok id) => match addAll st rest with
      | (st, .error e) => (st, .error e)
      | (st, .ok ids) => (st, .ok (id :: ids))

/-- **C54** `add_choices(names, scales)` is `add_choice` on each name in turn with its scale, stopping at the first rejected
one; without scales they are 1 - provided the names are a re-iterable collection or scales are given. -/
theorem C54_add_choices_partial (st : TreeSt F) (names : List Name) (scales : List F) :
    addChoices st (.seq names) none = addAll st (names.map fun n => (n, one)) ∧
    addChoices st (.seq names) (some scales) = addAll st (names.zip scales) ∧
    addChoices st (.oneShot names) (some scales) = addAll st (names.zip scales) := by
  have key : ∀ (l : List (Name × F)) (st : TreeSt F) (acc : List Nat), addChoicesLoop st l acc =
      match addAll st l with
      | (st, .error e) => (st, .error e)
      | (st, .ok ids) => (st, .ok (acc ++ ids)) := by
    intro l
    induction l with
    | nil => intro st acc; simp [addChoicesLoop, addAll]
    | cons a l ih =>
      obtain ⟨n, s⟩ := a
      intro st acc
      simp only [addChoicesLoop, addAll, treeStep]
      rcases addTop st n s with ⟨st1, e | id⟩
      · rfl
      · simp only [ih]
        rcases addAll st1 l with ⟨st2, e | ids⟩ <;> simp
  have key0 : ∀ (l : List (Name × F)) (st : TreeSt F), addChoicesLoop st l [] = addAll st l := by
    intro l st
    rw [key]
    rcases addAll st l with ⟨st2, e | ids⟩ <;> rfl
  have hz : names.zip (names.map fun _ => (one : F)) = names.map fun n => (n, one) := by
    induction names with
    | nil => rfl
    | cons a l ih => simp only [List.map_cons, List.zip_cons_cons, ih]
  refine ⟨?_, ?_, ?_⟩
  · simp only [addChoices, key0, hz]
  · simp only [addChoices, key0]
  · simp only [addChoices, key0]

/-- **C54 violated** When the names come from a one-shot iterator (a generator, say) and no scales are given, `add_choices`
succeeds and adds nothing. -/
theorem C54_generator_refuted (st : TreeSt F) (names : List Name) : addChoices st (.oneShot names) none = (st, .ok []) := rfl

end Cheval
