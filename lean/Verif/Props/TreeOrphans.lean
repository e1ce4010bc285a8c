import Verif.Props.TreeHistory
import Verif.Props.TreeReplace

/-!
# C17: what re-adding a choice with nested choices does, for every model
-/
set_option linter.unusedSectionVars false
namespace Cheval
open FOps Spec
variable {F : Type} [FOps F] {st : TreeSt F} {s : Choices F}

private theorem dictSet_length {K V : Type} [DecidableEq K] (d : List (K × V)) (k : K) (v : V) (h : k ∈ d.map (·.1)) :
    (dictSet d k v).length = d.length := by
  simp only [dictSet, if_pos h, List.length_map]

/-- the state after re-adding the live choice at `p` -/
private theorem readd_state (h : TreeRel st s) (op : TreeOp F) (p : List Name) (n : Name) (sc : F) (ha : Adds s op p n sc)
    (hh : ∀ q n' sc', op = .addChild q n' sc' → ∃ r ∈ s.live, r.handle = q) (hl : Legal n sc) (rA : Rec F) (hA : rA ∈ s.live) (hp : rA.path = p) :
    (treeStep st op).2 = .ok s.made.length ∧
    (treeStep st op).1.all = dictDel st.all (joinDots p) ++ [(joinDots p, s.made.length)] ∧
    HeapOk (treeStep st op).1.nodes (s.made ++ [p]) ∧
    (∀ r ∈ s.live, nChildren (treeStep st op).1 r.handle = nChildren st r.handle) ∧
    nChildren (treeStep st op).1 s.made.length = 0 ∧ (treeStep st op).1.top.length = st.top.length := by
  have hlt : ∀ r ∈ s.live, r.handle < st.nodes.length := by
    intro r hr; rw [h.len]; exact getElem?_lt (h.live_made r hr)
  have hb := (nodeLegal_iff n sc).mpr hl
  rcases ha with ⟨rfl, rfl⟩ | ⟨q, rfl, rfl⟩
  · have hmem : (n, rA.handle) ∈ st.all := by
      rw [h.all]
      exact List.mem_map.mpr ⟨rA, hA, by rw [hp, joinDots_singleton]⟩
    have hg := (dictGet_eq_some h.keys_nodup).mpr hmem
    have htop : rA.handle ∈ st.top := (h.top_mem _).mpr ⟨rA, hA, rfl, by simp [hp]⟩
    have hdel : n ∉ (dictDel st.all n).map (·.1) := dictDel_not_mem _ _
    have e : treeStep st (.addTop n sc) = (⟨st.nodes ++ [⟨n, none, sc, 1, []⟩], dictDel st.all n ++ [(n, s.made.length)],
        st.top.filter (fun i => decide (i ≠ rA.handle)) ++ [s.made.length]⟩, .ok s.made.length) := by
      simp only [treeStep, addTop, createNode, hg, htop, if_true, finishCreate, hb, expectedName, newLevel, h.len]
      rw [dictSet_of_not_mem hdel]
    rw [e, joinDots_singleton]
    refine ⟨rfl, rfl, h.heap.append n sc hl.1 none [n] rfl, ?_, ?_, ?_⟩
    · intro r hr
      simp only [nChildren, List.getElem?_append_left (hlt r hr)]
    · simp [nChildren, ← h.len]
    · rw [List.length_append, List.length_singleton]
      have e1 : st.top.filter (fun i => decide (i ≠ rA.handle)) = st.top.erase rA.handle := by
        rw [h.top_nodup.erase_eq_filter]
        apply List.filter_congr
        intro i _
        by_cases hi : i = rA.handle <;> simp [hi]
      rw [e1, List.length_erase_of_mem htop]
      have := List.length_pos_of_mem htop
      omega
  · obtain ⟨rp, hrp, hq⟩ := hh q n sc rfl
    have hmade : s.made[q]? = some rp.path := by rw [← hq]; exact h.live_made rp hrp
    have hgetD : s.made.getD q [] = rp.path := by rw [List.getD_eq_getElem?_getD, hmade]; rfl
    rw [hgetD] at hp ⊢
    have hrok := h.live_ok hrp
    have hname : expectedName st.nodes n (some q) = joinDots (rp.path ++ [n]) := by
      rw [expectedName, h.heap.fullName_eq hmade, joinDots_snoc _ hrok.1]
    have hdel : joinDots (rp.path ++ [n]) ∉ (dictDel st.all (joinDots (rp.path ++ [n]))).map (·.1) := dictDel_not_mem _ _
    have e : treeStep st (.addChild q n sc) = (⟨(st.nodes ++ [(⟨n, some q, sc, newLevel st.nodes (some q), []⟩ : Node F)]).modify q
          (fun nd => { nd with children := dictSet nd.children n s.made.length }),
        dictDel st.all (joinDots (rp.path ++ [n])) ++ [(joinDots (rp.path ++ [n]), s.made.length)], st.top⟩, .ok s.made.length) := by
      simp only [treeStep, addChild, createNode, hname, finishCreate, hb, if_true, h.len]
      rw [dictSet_of_not_mem hdel]
    rw [e]
    refine ⟨rfl, rfl, ?_, ?_, ?_, rfl⟩
    · refine (h.heap.append n sc hl.1 (some q) (rp.path ++ [n]) ⟨_, hmade, rfl⟩).congr ?_
      intro i
      rw [List.getElem?_modify]
      cases (st.nodes ++ [(⟨n, some q, sc, newLevel st.nodes (some q), []⟩ : Node F)])[i]? with
      | none => simp
      | some nd => by_cases hqi : q = i <;> simp [hqi]
    · intro r hr
      simp only [nChildren, List.getElem?_modify, List.getElem?_append_left (hlt r hr)]
      obtain ⟨nd, hnd, _⟩ := h.get hr
      rw [hnd]
      by_cases hqi : q = r.handle
      · simp only [hqi, if_true, Option.map_some]
        apply dictSet_length
        have hrr : r = rp := h.live_inj_handle hr hrp (by rw [hq, hqi])
        exact List.mem_map.mpr ⟨(n, rA.handle), (h.child r hr nd hnd n _).mpr ⟨rA, hA, rfl, by rw [hp, hrr]⟩, rfl⟩
      · simp [hqi]
    · have hne : q ≠ s.made.length := by
        have := getElem?_lt hmade; omega
      simp only [nChildren, List.getElem?_modify, ← h.len]
      rw [List.getElem?_append_right (Nat.le_refl _)]
      simp [h.len, hne]

/-- the labels of the choices, from the heap -/
private theorem pad_filter (h : TreeRel st s) (p : List Name) (rA : Rec F) (hA : rA ∈ s.live) (hp : rA.path = p) (l : List (Rec F)) (hl : ∀ r ∈ l, r ∈ s.live) :
    (l.filter (fun r => decide (r.path ≠ p))).map (fun r => pad s.depth r.path) =
      (l.map fun r => pad s.depth r.path).filter (fun q => decide (q ≠ pad s.depth p)) := by
  rw [List.filter_map]
  congr 1
  apply List.filter_congr
  intro r hr
  simp only [Function.comp]
  congr 1
  rw [eq_iff_iff, not_iff_not]
  constructor
  · intro e; rw [e]
  · intro e
    have hr' := hl r hr
    rw [← hp] at e ⊢
    exact pad_inj (h.live_ok hr').2 (h.live_ok hA).2 e (s.le_depth hr') (s.le_depth hA)

/-- **C17 violated** for every model: re-adding an existing choice that has choices nested in it succeeds, and the model is accepted as before, but
no nested choice disappears: the choice merely moves to the end of the list of choices. And while its old nested choices are still listed as elemental choices, the
choice itself is now listed as an elemental choice as well. -/
theorem C17_nested_refuted (ops : List (TreeOp F)) (op : TreeOp F) (p : List Name) (n : Name) (sc : F) (hc : CleanRun Choices.empty ops)
    (hv : validateTree (after ops) = .ok ()) (ha : Adds (expected ops) op p n sc)
    (hh : ∀ q n' sc', op = .addChild q n' sc' → ∃ r ∈ (expected ops).live, r.handle = q) (hl : Legal n sc)
    (rA rC : Rec F) (hA : rA ∈ (expected ops).live) (hp : rA.path = p) (hC : rC ∈ (expected ops).live) (hch : IsChild rA rC) :
    ∃ id L E, choices (after ops) = .ok L ∧ elementalChoices (after ops) = .ok E ∧
      (treeStep (after ops) op).2 = .ok id ∧
      validateTree (after (ops ++ [op])) = .ok () ∧
      pad (expected ops).depth p ∈ L ∧ pad (expected ops).depth rC.path ∈ L ∧ pad (expected ops).depth p ∉ E ∧
      choices (after (ops ++ [op])) = .ok (L.filter (fun q => decide (q ≠ pad (expected ops).depth p)) ++ [pad (expected ops).depth p]) ∧
      elementalChoices (after (ops ++ [op])) = .ok (E ++ [pad (expected ops).depth p]) := by
  classical
  have h := rel_after ops hc
  have hst : after (ops ++ [op]) = (treeStep (after ops) op).1 := by
    simp [after, treeRun, List.foldl_append]
  obtain ⟨h1, h2, h3, h4, h5, h6⟩ := readd_state h op p n sc ha hh hl rA hA hp
  rw [hst]
  generalize hs : expected ops = s at *
  generalize after ops = st at *
  generalize (treeStep st op).1 = st' at *
  have hpok := h.live_ok hA
  rw [hp] at hpok
  rw [h.del hpok.1 hpok.2] at h2
  have hlive' : ∀ r ∈ s.live.filter (fun r => decide (r.path ≠ p)), r ∈ s.live := fun r hr => List.mem_of_mem_filter hr
  have hmade' : ∀ r ∈ s.live, (s.made ++ [p])[r.handle]? = some r.path := by
    intro r hr
    rw [List.getElem?_append_left (getElem?_lt (h.live_made r hr))]
    exact h.live_made r hr
  have hmadeN : (s.made ++ [p])[s.made.length]? = some p := by simp
  have hlevel : ∀ (i : Nat) q, (s.made ++ [p])[i]? = some q → levelOf st' i = q.length := by
    intro i q hi
    have hlt : i < st'.nodes.length := by rw [h3.len]; exact getElem?_lt hi
    obtain ⟨q', e1, _, e2, _⟩ := h3.node i _ (List.getElem?_eq_getElem hlt)
    rw [hi] at e1
    simp only [levelOf, List.getElem?_eq_getElem hlt, e2, Option.some.inj e1]
  have hne := live_ne_of_valid h hv
  have hdepth : depth st' = .ok s.depth := by
    unfold depth
    rw [if_neg (by rw [h2]; simp), h2, List.foldl_append, List.foldl_map]
    congr 1
    rw [foldl_max_congr _ _ (fun r : Rec F => r.path.length) (fun r hr => hlevel _ _ (hmade' r (hlive' r hr)))]
    simp only [List.foldl_cons, List.foldl_nil]
    rw [hlevel _ _ hmadeN]
    apply Nat.le_antisymm
    · apply max_le
      · exact Choices.depth_le ⟨s.made, s.live.filter (fun r => decide (r.path ≠ p))⟩ (fun r hr => s.le_depth (hlive' r hr))
      · rw [← hp]; exact s.le_depth hA
    · apply Choices.depth_le
      intro r hr
      by_cases hrp : r.path = p
      · rw [hrp]; exact le_max_right _ _
      · exact le_trans (Choices.le_depth ⟨s.made, s.live.filter (fun r => decide (r.path ≠ p))⟩
          (List.mem_filter.mpr ⟨hr, by simpa using hrp⟩)) (le_max_left _ _)
  have hd1 : s.depth ≠ 1 := by
    have e1 := s.le_depth hC
    obtain ⟨m, hm⟩ := hch
    have e2 := List.length_pos_iff.mpr hpok.1
    rw [hm, hp] at e1
    simp at e1; omega
  have hval : validateTree st' = .ok () := by
    unfold validateTree at hv ⊢
    rw [h6]
    split at hv
    · cases hv
    · rename_i hlen
      rw [if_neg hlen]
      split at hv
      · cases hv
      · rename_i hany
        rw [if_neg]
        rw [h2, h.all] at *
        simp only [List.any_append, List.any_map, Bool.or_eq_true, List.any_eq_true, List.any_cons, List.any_nil, Bool.or_false,
          decide_eq_true_eq, Function.comp, h5] at hany ⊢
        rintro (⟨r, hr, e⟩ | e)
        · rw [h4 r (hlive' r hr)] at e
          exact hany ⟨r, hlive' r hr, e⟩
        · omega
  have hid : ∀ r ∈ s.live, nestedId st'.nodes s.depth r.handle = pad s.depth r.path := fun r hr =>
    nestedId_eq (st := st') (s := ⟨s.made ++ [p], []⟩) h3 _ _ _ (hmade' r hr) (s.le_depth hr)
  have hidN : nestedId st'.nodes s.depth s.made.length = pad s.depth p :=
    nestedId_eq (st := st') (s := ⟨s.made ++ [p], []⟩) h3 _ _ _ hmadeN (by rw [← hp]; exact s.le_depth hA)
  have hparA : ¬ ¬ ∃ c ∈ s.live, IsChild rA c := fun hc => hc ⟨rC, hC, hch⟩
  have hE : s.live.filter (fun r => decide (¬ ∃ c ∈ s.live, IsChild r c)) =
      (s.live.filter (fun r => decide (r.path ≠ p))).filter (fun r => decide (¬ ∃ c ∈ s.live, IsChild r c)) := by
    rw [List.filter_filter]
    apply List.filter_congr
    intro r hr
    by_cases hrp : r.path = p
    · have : r = rA := h.live_inj hr hA (by rw [hrp, hp])
      subst this
      simp only [hrp, ne_eq, not_true, decide_false, Bool.and_false, decide_eq_false_iff_not]
      exact hparA
    · simp [hrp]
  refine ⟨s.made.length, _, _, choices_eq h hv, elemental_eq h hv, h1, hval, ?_, ?_, ?_, ?_, ?_⟩
  · exact List.mem_map.mpr ⟨rA, hA, by rw [hp]⟩
  · exact List.mem_map.mpr ⟨rC, hC, rfl⟩
  · intro hc'
    obtain ⟨r, hr, e⟩ := List.mem_map.mp hc'
    obtain ⟨hr1, hr2⟩ := List.mem_filter.mp hr
    have hrp : r.path = rA.path := by
      rw [← hp] at e
      exact pad_inj (h.live_ok hr1).2 (h.live_ok hA).2 e (s.le_depth hr1) (s.le_depth hA)
    have : r = rA := h.live_inj hr1 hA hrp
    subst this
    exact hparA (by simpa using hr2)
  · unfold choices
    rw [hval, hdepth]
    simp only [bind, Except.bind, pure, Except.pure, if_neg hd1]
    rw [← pad_filter h p rA hA hp s.live (fun r hr => hr), h2, List.map_append, List.map_map]
    congr 2
    · apply List.map_congr_left
      intro r hr
      exact hid r (hlive' r hr)
    · simp only [List.map_cons, List.map_nil, hidN]
  · unfold elementalChoices
    rw [hdepth]
    simp only [bind, Except.bind, pure, Except.pure, if_neg hd1]
    rw [h2, List.filter_append, List.map_append, List.filter_map, List.map_map, hE]
    congr 2
    · have : (s.live.filter (fun r => decide (r.path ≠ p))).filter ((fun e : Name × Nat => !isParent st' e.2) ∘ fun r => (joinDots r.path, r.handle)) =
          (s.live.filter (fun r => decide (r.path ≠ p))).filter (fun r => decide (¬ ∃ c ∈ s.live, IsChild r c)) := by
        apply List.filter_congr
        intro r hr
        have e1 : isParent st' r.handle = isParent st r.handle := by
          unfold isParent; rw [h4 r (hlive' r hr)]
        simp only [Function.comp, e1]
        rw [Bool.eq_iff_iff]
        simp only [Bool.not_eq_true', decide_eq_true_eq, ← h.isParent_iff (hlive' r hr), Bool.not_eq_true]
      rw [this]
      apply List.map_congr_left
      intro r hr
      exact hid r (hlive' r (List.mem_of_mem_filter hr))
    · have : isParent st' s.made.length = false := by simp [isParent, h5]
      simp [this, hidN]

/-- B, C and a nest A holding x and y -/
def orphanHist : List (TreeOp F) := [.addTop ['B'] one, .addTop ['C'] one, .addTop ['A'] one, .addChild 2 ['x'] one, .addChild 2 ['y'] one]

/-- the hypotheses are met by a model with a nest A holding x and y, to which A is added again -/
example (h01 : lt (zero : F) one = true) (h11 : le (one : F) one = true) :
    ∃ (op : TreeOp F) (p : List Name) (n : Name) (rA rC : Rec F), CleanRun Choices.empty (orphanHist (F := F)) ∧
      validateTree (after (orphanHist (F := F))) = .ok () ∧ Adds (expected (orphanHist (F := F))) op p n one ∧
      (∀ q n' sc', op = .addChild q n' sc' → ∃ r ∈ (expected (orphanHist (F := F))).live, r.handle = q) ∧ Legal n (one : F) ∧
      rA ∈ (expected (orphanHist (F := F))).live ∧ rA.path = p ∧ rC ∈ (expected (orphanHist (F := F))).live ∧ IsChild rA rC := by
  have hc : CleanRun Choices.empty (orphanHist (F := F)) := by
    simp [orphanHist, CleanRun, Clean, CleanAdd, Choices.step, Choices.add, Choices.empty, Legal, h01, h11, joinDots, List.intercalate]
  have he : (expected (orphanHist (F := F))).live = [⟨0, [['B']], one⟩, ⟨1, [['C']], one⟩, ⟨2, [['A']], one⟩, ⟨3, [['A'], ['x']], one⟩, ⟨4, [['A'], ['y']], one⟩] := by
    simp [orphanHist, expected, Choices.run, Choices.step, Choices.add, Choices.empty, Legal, h01, h11]
    
  refine ⟨.addTop ['A'] one, [['A']], ['A'], ⟨2, [['A']], one⟩, ⟨3, [['A'], ['x']], one⟩, hc, ?_, .inl ⟨rfl, rfl⟩, by simp, ?_, ?_, rfl, ?_, ⟨['x'], rfl⟩⟩
  · rw [(C19_validate _ hc).1, he]
    simp [Choices.kids, IsChild, he]
  · simp [Legal, h01, h11]
  · simp [he]
  · simp [he]

end Cheval
