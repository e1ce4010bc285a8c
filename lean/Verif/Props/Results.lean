import Verif.Core.Results
import Verif.Props.Tree
import Verif.Props.Nested
import Verif.Props.Multinomial
import Verif.Props.Parallel
import Verif.Props.Sampling

/-!
# C16 (probabilities of a model built with the API) and C20 (labels of the results)
-/
set_option linter.unusedSectionVars false
namespace Cheval
open FOps Spec

open Classical in
/-- the tree of a list of choices: positions as nodes, the parent being the choice one name shorter. (The scale of an
elemental choice has no meaning: 1.) -/
noncomputable def Spec.Choices.tree (s : Choices XR) : Tree where
  n := s.live.length
  parent i := match s.live[i]? with
    | none => none
    | some r => if r.path.length ≤ 1 then none else some ((s.live.map (·.path)).idxOf r.path.dropLast)
  θ i := match s.live[i]? with
    | none => 1
    | some r => if ∃ c ∈ s.live, IsChild r c then realOf r.scale else 1

theorem realOf_scale {x : XR} (h0 : lt zero x = true) (h1 : le x one = true) : x = .fin (realOf x) ∧ 0 < realOf x ∧ realOf x ≤ 1 := by
  cases x with
  | nan => cases h1
  | ninf => cases h0
  | pinf => cases h1
  | fin x =>
    refine ⟨rfl, ?_, ?_⟩
    · simpa [lt, zero, XR.lt, realOf] using h0
    · simpa [le, one, XR.le, realOf] using h1

theorem flat_spec (s : Choices XR) : (flatUpto s s.live.length).spec s.tree.θ = s.tree := by
  unfold Flat.spec Choices.tree
  congr 1
  funext i
  simp only [flatUpto]
  by_cases hi : i < s.live.length
  · simp only [hi, if_true, List.getElem?_eq_getElem hi]
    by_cases hl : s.live[i].path.length ≤ 1
    · simp [hl]
    · simp only [if_neg hl, posOf]
      rw [if_neg (by omega)]
      rfl
  · simp [hi]

theorem flat_scales {st : TreeSt XR} {s : Choices XR} (h : TreeRel st s) :
    (flatUpto s s.live.length).HasScales s.tree.θ := by
  classical
  intro i hi
  have hi' : i < s.live.length := hi
  simp only [flatUpto, hi', if_true, Choices.tree, List.getElem?_eq_getElem hi']
  by_cases hc : ∃ c ∈ s.live, IsChild s.live[i] c
  · obtain ⟨h0, h1⟩ := h.scale_ok _ (List.getElem_mem hi')
    obtain ⟨e, hp, _⟩ := realOf_scale h0 h1
    rw [if_pos hc, if_pos hc]
    exact ⟨e, hp⟩
  · rw [if_neg hc, if_neg hc]
    exact ⟨rfl, one_pos⟩

theorem flat_leaf {st : TreeSt XR} {s : Choices XR} (h : TreeRel st s) (hne : s.live ≠ []) (i : Nat) (hi : i < s.live.length) :
    s.tree.Leaf i ↔ ¬ ∃ c ∈ s.live, IsChild s.live[i] c := by
  classical
  have wf := flat_wf h hne
  have hb : (flatUpto s s.live.length).bottom i = true ↔ ¬ ∃ c ∈ s.live, IsChild s.live[i] c := by
    simp only [flatUpto, hi, if_true, List.getElem?_eq_getElem hi]
    split
    · rename_i hc; simp only [Bool.false_eq_true, false_iff, not_not]; exact hc
    · rename_i hc; simp only [true_iff]; exact hc
  rw [← hb, wf.bottom i hi, ← flat_spec s]
  unfold Tree.Leaf
  rw [Finset.eq_empty_iff_forall_notMem]
  simp only [Tree.children, Finset.mem_filter, Finset.mem_range, not_and]
  constructor
  · intro hall j hj e
    exact hall j hj ((spec_parent_some wf j i hj).mpr e)
  · intro hall j hj e
    exact hall j hj ((spec_parent_some wf j i hj).mp e)

section nestedmodel
variable (ops : List (TreeOp XR)) (hc : CleanRun Choices.empty ops) (hd : 1 < (expected ops).depth)
include hc hd

private theorem live_ne : (expected ops).live ≠ [] := by
  intro hcon
  have : (expected ops).depth = 0 := by simp [Choices.depth, hcon]
  omega

open Classical in
/-- **C16 (probabilities)** For every nested model built by a clean history and every row of utilities with an available
elemental choice, the program computes the textbook nested logit of the tree of its choices: probabilities in [0,1] that
are 0 on nests and sum to 1 over the elemental choices. -/
theorem C16_probabilities (scaled check : Bool) (u : Nat → Util)
    (hfeas : ∃ l < (expected ops).live.length, (expected ops).tree.Leaf l ∧ (expected ops).tree.Open u l) :
    ∃ fl T P, flatten (after ops) = .ok fl ∧ fl.n = (expected ops).live.length ∧
      (expected ops).tree.IsNestedLogit scaled u T P ∧
      nested (row (expected ops).live.length u) fl scaled check = .ok
        (arr (expected ops).live.length (fun i => .fin (if (expected ops).tree.Leaf i then P i else 0)),
         .fin (∑ i ∈ (expected ops).tree.tops, T i), arr (expected ops).live.length (fun i => .fin (T i))) ∧
      (∀ i < (expected ops).live.length, (expected ops).tree.Leaf i → 0 ≤ P i ∧ P i ≤ 1) ∧
      ∑ i ∈ (Finset.range (expected ops).live.length).filter (fun i => (expected ops).tree.Leaf i), P i = 1 := by
  have h := rel_after ops hc
  have hne := live_ne ops hc hd
  have wf := flat_wf h hne
  have hs := flat_scales h
  obtain ⟨T, P, hspec, _⟩ := C09_spec_unique wf hs scaled u
  have m := nl_of wf hs scaled u
  have hP : ∀ i < (expected ops).live.length, P i = absR _ (expected ops).tree.θ scaled u i :=
    fun i hi => (IsNestedLogit_unique wf scaled u hspec m.is i hi).2
  have htext := C09_textbook wf hs scaled check u T P hspec
  have hpos := m.feasible_iff.mpr (by rw [flat_spec]; exact hfeas)
  have htops : ∑ i ∈ ((flatUpto (expected ops) (expected ops).live.length).spec (expected ops).tree.θ).tops, T i =
      ∑ i ∈ ((flatUpto (expected ops) (expected ops).live.length).spec (expected ops).tree.θ).tops, termR _ scaled u i :=
    Finset.sum_congr rfl fun i hi =>
      (IsNestedLogit_unique wf scaled u hspec m.is i (Finset.mem_range.mp (Finset.mem_filter.mp hi).1)).1
  rw [if_neg (by rw [htops]; exact fun hh => hpos.ne' hh.1)] at htext
  have hleaf := m.leaf_sum (absR _ (expected ops).tree.θ scaled u) (fun j hj hl => m.P_children j hj hl)
  rw [m.P_tops hpos] at hleaf
  rw [flat_spec] at htext hspec hleaf
  have hleaf' : ∑ i ∈ (Finset.range (expected ops).live.length).filter (fun i => (expected ops).tree.Leaf i), P i = 1 := by
    rw [← hleaf]
    apply Finset.sum_congr rfl
    intro i hi
    exact hP i (Finset.mem_range.mp (Finset.mem_filter.mp hi).1)
  refine ⟨_, T, P, h.flatten_eq hd, rfl, hspec, htext, ?_, hleaf'⟩
  have hnn : ∀ i < (expected ops).live.length, 0 ≤ P i := fun i hi => by rw [hP i hi]; exact m.P_nonneg i hi
  intro i hi hl
  refine ⟨hnn i hi, ?_⟩
  rw [← hleaf']
  exact Finset.single_le_sum (f := P) (fun j hj => hnn j (Finset.mem_range.mp (Finset.mem_filter.mp hj).1))
    (Finset.mem_filter.mpr ⟨Finset.mem_range.mpr hi, hl⟩)

end nestedmodel

/-! ## C20 -/

section positions
variable {st : TreeSt XR} {s : Choices XR}

open Classical in
theorem keep_eq (h : TreeRel st s) (hne : s.live ≠ []) :
    keepPositions (s.live.map fun r => pad s.depth r.path)
      ((s.live.filter fun r => decide (¬ ∃ c ∈ s.live, IsChild r c)).map fun r => pad s.depth r.path) =
    (List.range s.live.length).filter (fun j => decide (s.tree.Leaf j)) := by
  unfold keepPositions
  rw [List.length_map]
  apply List.filter_congr
  intro j hj
  have hj' : j < s.live.length := List.mem_range.mp hj
  have hg : (s.live.map fun r => pad s.depth r.path).getD j [] = pad s.depth s.live[j].path := by simp [hj']
  rw [hg, decide_eq_decide, flat_leaf h hne j hj', List.mem_map]
  constructor
  · rintro ⟨r, hr, e⟩
    obtain ⟨hr1, hr2⟩ := List.mem_filter.mp hr
    have hlive : s.live.Nodup := List.Nodup.of_map _ h.live_nodup
    have : r = s.live[j] := (List.nodup_map_iff_inj_on hlive).mp (labels_nodup h) r hr1 _ (List.getElem_mem hj') e
    subst this
    exact of_decide_eq_true hr2
  · intro hno
    exact ⟨_, List.mem_filter.mpr ⟨List.getElem_mem hj', decide_eq_true hno⟩, rfl⟩

open Classical in
theorem keep_labels (h : TreeRel st s) (hne : s.live ≠ []) :
    ((List.range s.live.length).filter (fun j => decide (s.tree.Leaf j))).map
      (fun j => (s.live.map fun r => pad s.depth r.path).getD j []) =
    (s.live.filter fun r => decide (¬ ∃ c ∈ s.live, IsChild r c)).map fun r => pad s.depth r.path := by
  obtain ⟨d, hd⟩ := List.exists_mem_of_ne_nil _ hne
  have e : s.live = (List.range s.live.length).map (fun j => s.live.getD j d) := by
    apply List.ext_getElem
    · simp
    · intro i h1 h2; simp [h1]
  have e2 : (s.live.filter fun r => decide (¬ ∃ c ∈ s.live, IsChild r c)) =
      ((List.range s.live.length).filter (fun j => decide (s.tree.Leaf j))).map (fun j => s.live.getD j d) := by
    conv_lhs => arg 2; rw [e]
    rw [List.filter_map]
    congr 1
    apply List.filter_congr
    intro j hj
    have hj' : j < s.live.length := List.mem_range.mp hj
    simp only [Function.comp]
    rw [decide_eq_decide, flat_leaf h hne j hj']
    simp [hj']
  rw [e2, List.map_map]
  apply List.map_congr_left
  intro j hj
  have hj' : j < s.live.length := List.mem_range.mp (List.mem_of_mem_filter hj)
  simp [hj']

end positions

section nestedstage
variable (ops : List (TreeOp XR)) (hc : CleanRun Choices.empty ops) (hd : 1 < (expected ops).depth)
  (hv : validateTree (after ops) = .ok ())
include hc hd hv

open Classical in
/-- **C20 (probabilities of a nested model)** The columns of the probability table are exactly the elemental choices, each
holding the textbook probability of the choice with this label; the logsum terms are labelled with all choices; the
probabilities of every decision unit sum to 1. For every schedule of the parallel loop. -/
theorem C20_stochastic_nested (scaled check : Bool) (m : Nat) (U : Nat → Nat → Util)
    (hfeas : ∀ i < m, ∃ l < (expected ops).live.length, (expected ops).tree.Leaf l ∧ (expected ops).tree.Open (U i) l)
    (out : Except Err (Frame XR × (Nat → XR) × Frame XR))
    (h : StochasticStage (after ops) ((List.range m).map fun i => row (expected ops).live.length (U i)) scaled check out) :
    ∃ fr ls nls, out = .ok (fr, ls, nls) ∧ elementalChoices (after ops) = .ok fr.cols ∧
      choices (after ops) = .ok nls.cols ∧
      ∀ i < m, ∃ T P, (expected ops).tree.IsNestedLogit scaled (U i) T P ∧
        (∀ j (_ : j < fr.cols.length), ∃ k, ∃ _ : k < (expected ops).live.length,
          fr.cols[j] = pad (expected ops).depth (expected ops).live[k].path ∧ (expected ops).tree.Leaf k ∧
          fr.val i j = .fin (P k)) ∧
        (∀ k < (expected ops).live.length, nls.val i k = .fin (T k)) ∧
        ls i = .fin (∑ k ∈ (expected ops).tree.tops, T k) ∧
        ∑ j ∈ Finset.range fr.cols.length, realOf (fr.val i j) = 1 := by
  have hr := rel_after ops hc
  have hne := live_ne ops hc hd
  have hch := choices_eq hr hv
  have hel := elemental_eq hr hv
  have hdep := hr.depth_eq hne
  unfold StochasticStage at h
  rw [hdep] at h
  simp only [if_pos hd] at h
  rw [hr.flatten_eq hd] at h
  obtain ⟨res, hw, hout⟩ := h
  have hprob : ∀ i < m, ∃ T P, (expected ops).tree.IsNestedLogit scaled (U i) T P ∧
      nested (row (expected ops).live.length (U i)) (flatUpto (expected ops) (expected ops).live.length) scaled check = .ok
        (arr (expected ops).live.length (fun i => .fin (if (expected ops).tree.Leaf i then P i else 0)),
         .fin (∑ i ∈ (expected ops).tree.tops, T i), arr (expected ops).live.length (fun i => .fin (T i))) ∧
      ∑ i ∈ (Finset.range (expected ops).live.length).filter (fun i => (expected ops).tree.Leaf i), P i = 1 := by
    intro i hi
    obtain ⟨fl, T, P, hfl, _, hspec, heq, _, hsum⟩ := C16_probabilities ops hc hd scaled check (U i) (hfeas i hi)
    rw [hr.flatten_eq hd] at hfl
    cases hfl
    exact ⟨T, P, hspec, heq, hsum⟩
  have hget : ∀ i (hi : i < m), ((List.range m).map fun i => row (expected ops).live.length (U i))[i]'(by simpa using hi) =
      row (expected ops).live.length (U i) := by intro i hi; simp
  rcases C12_nested_probabilities _ _ _ _ _ hw with ⟨mem, rfl, hrows⟩ | ⟨u, hu, e, he, rfl⟩
  swap
  · obtain ⟨i, hi, rfl⟩ := List.mem_map.mp hu
    obtain ⟨T, P, _, heq, _⟩ := hprob i (List.mem_range.mp hi)
    simp only [heq] at he; cases he
  rw [hel, hch] at hout
  simp only at hout
  rw [keep_eq hr hne] at hout
  have hlab := keep_labels hr hne
  generalize hkeep : (List.range (expected ops).live.length).filter (fun j => decide ((expected ops).tree.Leaf j)) = keep
    at hout hlab
  have hkm : ∀ j (hj : j < keep.length), keep[j] < (expected ops).live.length ∧ (expected ops).tree.Leaf keep[j] := by
    intro j hj
    have hmem := List.getElem_mem hj
    simp only [← hkeep, List.mem_filter, List.mem_range, decide_eq_true_eq] at hmem
    simpa only [← hkeep] using hmem
  refine ⟨_, _, _, hout, ?_, hch, ?_⟩
  · rw [hel]; simp only; rw [hlab]
  intro i hi
  obtain ⟨T, P, hspec, heq, hsum⟩ := hprob i hi
  obtain ⟨p, ls, terms, hrow, h1, h2, h3⟩ := hrows i (by simpa using hi)
  simp only [hget i hi, heq] at hrow
  cases hrow
  have hread : ∀ k < (expected ops).live.length, (expected ops).tree.Leaf k → readNum mem (aRes, i, k) = .fin (P k) := by
    intro k hk hl
    have := h1 k (by simpa [arr] using hk)
    simp only [readNum, this]
    simp [arr, hl]
  refine ⟨T, P, hspec, ?_, ?_, ?_, ?_⟩
  · intro j hj
    simp only [List.length_map] at hj
    obtain ⟨hk, hl⟩ := hkm j hj
    refine ⟨keep[j], hk, ?_, hl, ?_⟩
    · simp [hk]
    · have : keep.getD j 0 = keep[j] := by simp [hj]
      simp only [this]
      exact hread _ hk hl
  · intro k hk
    have := h3 k (by simpa [arr] using hk)
    simp only [readNum, this]
    simp [arr]
  · simp only [readNum, h2]
  · simp only [List.length_map]
    rw [← hsum]
    have e := sum_range_filter (expected ops).live.length (fun j => decide ((expected ops).tree.Leaf j)) P
    simp only [decide_eq_true_eq] at e
    rw [← e, hkeep]
    rw [Finset.sum_range, ← List.sum_ofFn]
    congr 1
    apply List.ext_getElem
    · simp
    · intro j hj1 hj2
      have hj : j < keep.length := by simpa using hj1
      simp [hj, hread _ (hkm j hj).1 (hkm j hj).2, realOf]

end nestedstage

/-! ### sampling -/

/-- a distribution as an array: a draw in [tiny, 1] yields a position with positive probability, by scan and by search -/
theorem sample_positive (ps : List ℝ) (hnn : ∀ p ∈ ps, 0 ≤ p) (hsum : ps.sum = 1) (r : XR) (h0 : le tiny r = true)
    (h1 : le r one = true) :
    ∃ (k : Nat) (h : k < ps.length), sampleOnce (ps.map XR.fin) r = (k : Int) ∧ 0 < ps[k] := by
  have hne : ps.map XR.fin ≠ [] := by
    intro h
    rw [List.map_eq_nil_iff] at h
    rw [h] at hsum; simp at hsum
  obtain ⟨k, hk, h2, _, h3⟩ := C03_positive_partial (ps.map XR.fin) r hne (by
      intro p hp
      obtain ⟨x, hx, rfl⟩ := List.mem_map.mp hp
      show XR.le (.fin 0) (.fin x) = true
      simpa [XR.le] using hnn x hx) h0 (by rw [XR.sumF_fin, hsum]; exact h1)
  refine ⟨k, by simpa using hk, h2, ?_⟩
  have h4 : XR.lt (.fin 0) ((ps.map XR.fin)[k]) = true := h3
  simpa [XR.lt] using h4

/-- every draw of the generator is in [MIN_RANDOM_VALUE, 1] -/
def Rng.InUnit (g : Rng XR) : Prop := ∀ s k, le tiny (g.uniform s k) = true ∧ le (g.uniform s k) one = true

theorem sample_rows (f : List XR → Except Err (List XR × XR × List XR)) (g : Rng XR) (hg : g.InUnit)
    (one' : List XR → XR → Except Err (Int × XR)) (multi : List XR → Int → Except Err (List Nat × XR)) (n : Nat) (hn : 1 ≤ n)
    (seed : Int)
    (h1 : ∀ u r p ls t, f u = .ok (p, ls, t) → one' u r = .ok (sampleOnce p r, ls))
    (h2 : ∀ u s p ls t ks, f u = .ok (p, ls, t) → sampleMulti g p n s (some n) = .ok ks → multi u s = .ok (ks, ls))
    (rows : List (List XR)) (ps : Nat → List ℝ) (L : Nat → XR)
    (hrow : ∀ i (hi : i < rows.length), ∃ t, f rows[i] = .ok ((ps i).map .fin, L i, t))
    (hps : ∀ i < rows.length, (∀ p ∈ ps i, 0 ≤ p) ∧ (ps i).sum = 1)
    (out : Except Err (Mem XR)) (h : SampleOutcome one' multi g rows n seed out) :
    ∃ mem, out = .ok mem ∧ ∀ i < rows.length, mem (aLs, i, 0) = .num (L i) ∧
      ∀ c < n, ∃ (k : Nat) (hk : k < (ps i).length), mem (aRes, i, c) = .idx k ∧ 0 < (ps i)[k] := by
  have hmul : ∀ i (hi : i < rows.length), ∀ s, ∃ ks : List Nat, ks.length = n ∧ multi rows[i] s = .ok (ks, L i) ∧
      ∀ c (hcn : c < ks.length), ∃ (hk : ks[c] < (ps i).length), 0 < (ps i)[ks[c]] := by
    intro i hi s
    obtain ⟨t, ht⟩ := hrow i hi
    obtain ⟨hnn, hsum⟩ := hps i hi
    have hne : (ps i).map XR.fin ≠ [] := by
      intro hcon
      rw [List.map_eq_nil_iff] at hcon
      rw [hcon] at hsum; simp at hsum
    obtain ⟨ks, hks, hlen, hval⟩ := C02_multi_draw g ((ps i).map XR.fin) n s (some n) (.inr rfl) hne (by
      intro p hp
      obtain ⟨x, hx, rfl⟩ := List.mem_map.mp hp
      show XR.le (.fin 0) (.fin x) = true
      simpa [XR.le] using hnn x hx) (fun c _ => (hg s c).1)
    refine ⟨ks, hlen, h2 _ _ _ _ _ _ ht hks, ?_⟩
    intro c hcn
    obtain ⟨k, hk, e, hpos⟩ := sample_positive (ps i) hnn hsum (g.uniform s c) (hg s c).1 (hg s c).2
    have e2 : ks[c] = k := by
      have := hval c hcn
      rw [e] at this
      exact_mod_cast this
    subst e2
    exact ⟨hk, hpos⟩
  rcases h with ⟨mem, rfl, hm⟩ | ⟨i, hi, e, rfl, he⟩
  · refine ⟨mem, rfl, fun i hi => ?_⟩
    obtain ⟨t, ht⟩ := hrow i hi
    obtain ⟨hnn, hsum⟩ := hps i hi
    obtain ⟨ha, hb⟩ := hm i hi
    rcases Nat.lt_or_ge 1 n with hn1 | hn1
    · obtain ⟨ks, ls, hk, hr, hl⟩ := hb hn1
      obtain ⟨ks', hlen, hk', hpos⟩ := hmul i hi (g.randint seed i)
      rw [hk'] at hk
      cases hk
      refine ⟨hl, fun c hcn => ?_⟩
      have hcl : c < ks.length := by omega
      obtain ⟨h3, h4⟩ := hpos c hcl
      refine ⟨ks[c], h3, ?_, h4⟩
      have := hr c (by simpa using hcl)
      simpa using this
    · obtain ⟨k, ls, hk, hr, hl⟩ := ha hn1
      rw [h1 _ _ _ _ _ ht] at hk
      cases hk
      refine ⟨hl, fun c hcn => ?_⟩
      have : c = 0 := by omega
      subst this
      obtain ⟨k, hk, e, hpos⟩ := sample_positive (ps i) hnn hsum (g.uniform seed i) (hg _ _).1 (hg _ _).2
      exact ⟨k, hk, by rw [hr, e], hpos⟩
  · exfalso
    obtain ⟨t, ht⟩ := hrow i hi
    rcases he with ⟨_, he⟩ | ⟨_, he⟩
    · rw [h1 _ _ _ _ _ ht] at he; cases he
    · obtain ⟨ks, _, hk, _⟩ := hmul i hi (g.randint seed i)
      rw [hk] at he; cases he

section nesteddiscrete
variable (ops : List (TreeOp XR)) (hc : CleanRun Choices.empty ops) (hd : 1 < (expected ops).depth)
  (hv : validateTree (after ops) = .ok ())
include hc hd hv

open Classical in
/-- **C20 (sampled choices of a nested model)** Every sampled label is an elemental choice with positive probability, is the
label at the sampled position, and there are `n` of them per decision unit. For every schedule and every random stream
with draws in [MIN_RANDOM_VALUE, 1]. Exact arithmetic. -/
theorem C20_discrete_nested (g : Rng XR) (hg : g.InUnit) (scaled : Bool) (n : Nat) (hn : 1 ≤ n) (seed : Int) (m : Nat)
    (U : Nat → Nat → Util)
    (hfeas : ∀ i < m, ∃ l < (expected ops).live.length, (expected ops).tree.Leaf l ∧ (expected ops).tree.Open (U i) l)
    (out : Except Err (Discrete XR))
    (h : DiscreteStage g (after ops) ((List.range m).map fun i => row (expected ops).live.length (U i)) n seed scaled out) :
    ∃ d el, out = .ok d ∧ d.nDraws = n ∧ elementalChoices (after ops) = .ok el ∧
      ∀ i < m, ∃ T P, (expected ops).tree.IsNestedLogit scaled (U i) T P ∧
        d.logsum i = .fin (∑ k ∈ (expected ops).tree.tops, T k) ∧
        ∀ c < n, ∃ k, ∃ _ : k < (expected ops).live.length, d.pos i c = k ∧
          d.label i c = some (pad (expected ops).depth (expected ops).live[k].path) ∧
          pad (expected ops).depth (expected ops).live[k].path ∈ el ∧ (expected ops).tree.Leaf k ∧ 0 < P k := by
  have hr := rel_after ops hc
  have hne := live_ne ops hc hd
  have hch := choices_eq hr hv
  have hel := elemental_eq hr hv
  have hdep := hr.depth_eq hne
  have hprob : ∀ i < m, ∃ T P, (expected ops).tree.IsNestedLogit scaled (U i) T P ∧
      nested (row (expected ops).live.length (U i)) (flatUpto (expected ops) (expected ops).live.length) scaled true = .ok
        (arr (expected ops).live.length (fun i => .fin (if (expected ops).tree.Leaf i then P i else 0)),
         .fin (∑ i ∈ (expected ops).tree.tops, T i), arr (expected ops).live.length (fun i => .fin (T i))) ∧
      (∀ i < (expected ops).live.length, (expected ops).tree.Leaf i → 0 ≤ P i) ∧
      ∑ i ∈ (Finset.range (expected ops).live.length).filter (fun i => (expected ops).tree.Leaf i), P i = 1 := by
    intro i hi
    obtain ⟨fl, T, P, hfl, _, hspec, heq, hnn, hsum⟩ := C16_probabilities ops hc hd scaled true (U i) (hfeas i hi)
    rw [hr.flatten_eq hd] at hfl
    cases hfl
    exact ⟨T, P, hspec, heq, fun i hi hl => (hnn i hi hl).1, hsum⟩
  choose! T P hspec heq hnn hsum using hprob
  unfold DiscreteStage at h
  simp only at h
  rw [hdep] at h
  simp only [if_pos hd] at h
  rw [hr.flatten_eq hd] at h
  obtain ⟨res, hw, hout⟩ := h
  have hso := C12_nested_sample _ _ _ _ _ _ _ hw
  have hget : ∀ i (hi : i < m), ((List.range m).map fun i => row (expected ops).live.length (U i))[i]'(by simpa using hi) =
      row (expected ops).live.length (U i) := by intro i hi; simp
  obtain ⟨mem, rfl, hmem⟩ := sample_rows (fun u => nested u (flatUpto (expected ops) (expected ops).live.length) scaled true)
    g hg _ _ n hn seed (by intro u r p ls t he; unfold nestedSample; rw [he]; rfl)
    (by intro u s p ls t ks he hk; unfold nestedMultisample; rw [he]; simp only [bind, Except.bind]; rw [hk]; rfl)
    _ (fun i => (List.range (expected ops).live.length).map fun k => if (expected ops).tree.Leaf k then P i k else 0)
    (fun i => .fin (∑ k ∈ (expected ops).tree.tops, T i k))
    (by
      intro i hi
      have hi' : i < m := by simpa using hi
      refine ⟨arr (expected ops).live.length (fun k => .fin (T i k)), ?_⟩
      simp only [hget i hi', heq i hi', List.map_map]
      rfl)
    (by
      intro i hi
      have hi' : i < m := by simpa using hi
      constructor
      · intro p hp
        obtain ⟨k, hk, rfl⟩ := List.mem_map.mp hp
        split
        · exact hnn i hi' k (List.mem_range.mp hk) ‹_›
        · exact le_refl _
      · rw [← hsum i hi', ← List.sum_toFinset _ List.nodup_range, List.toFinset_range, Finset.sum_filter])
    _ hso
  rw [hch] at hout
  refine ⟨_, _, hout, rfl, hel, fun i hi => ⟨T i, P i, hspec i hi, ?_, ?_⟩⟩
  · simp only [readNum, (hmem i (by simpa using hi)).1]
  intro c hcn
  obtain ⟨k, hk, hm1, hpos⟩ := (hmem i (by simpa using hi)).2 c hcn
  have hk' : k < (expected ops).live.length := by simpa using hk
  simp only [List.getElem_map, List.getElem_range] at hpos
  have hl : (expected ops).tree.Leaf k := by
    by_contra hcon
    rw [if_neg hcon] at hpos; exact lt_irrefl _ hpos
  rw [if_pos hl] at hpos
  refine ⟨k, hk', by simp only [readIdx, hm1], ?_, ?_, hl, hpos⟩
  · simp only [readIdx, hm1, takeLabel]
    simp [hk']
  · exact List.mem_map.mpr ⟨_, List.mem_filter.mpr ⟨List.getElem_mem hk',
      decide_eq_true ((flat_leaf hr hne k hk').mp hl)⟩, rfl⟩

end nesteddiscrete

/-! ### models without nests -/
section flatmodel
variable (ops : List (TreeOp XR)) (hc : CleanRun Choices.empty ops) (hd : (expected ops).depth ≤ 1)
  (hv : validateTree (after ops) = .ok ())
include hc hd hv

/-- **C20 (probabilities of a model without nests)** The columns of the probability table are the choices; cell (i, k) holds
the multinomial logit probability of choice k for unit i. -/
theorem C20_stochastic_flat (scaled check : Bool) (us : List (List Util)) (hfeas : ∀ u ∈ us, ∃ x ∈ u, x ≠ none)
    (out : Except Err (Frame XR × (Nat → XR) × Frame XR))
    (h : StochasticStage (after ops) (us.map fun u => u.map util) scaled check out) :
    ∃ fr ls nls, out = .ok (fr, ls, nls) ∧ elementalChoices (after ops) = .ok fr.cols ∧
      choices (after ops) = .ok fr.cols ∧ choices (after ops) = .ok nls.cols ∧
      ∀ i (hi : i < us.length), ls i = .fin (us[i].map expw).sum ∧ ∀ k (hk : k < us[i].length),
        fr.val i k = .fin (expw us[i][k] / (us[i].map expw).sum) ∧ nls.val i k = .fin (expw us[i][k]) := by
  have hr := rel_after ops hc
  have hne := live_ne_of_valid hr hv
  have hch := choices_eq hr hv
  have hdep := hr.depth_eq hne
  have hel : elementalChoices (after ops) = choices (after ops) := by
    unfold elementalChoices
    rw [hdep]
    simp only [bind, Except.bind]
    rw [if_pos (by
      obtain ⟨r, hr1⟩ := List.exists_mem_of_ne_nil _ hne
      have h1 := (expected ops).le_depth hr1
      have h2 := List.length_pos_iff.mpr (hr.live_ok hr1).1
      omega)]
  unfold StochasticStage at h
  rw [hdep] at h
  simp only [if_neg (not_lt.mpr hd)] at h
  obtain ⟨res, hw, hout⟩ := h
  rcases C12_multinomial_probabilities _ _ _ hw with ⟨mem, rfl, hrows⟩ | ⟨u, hu, e, he, rfl⟩
  swap
  · obtain ⟨v, hv2, rfl⟩ := List.mem_map.mp hu
    simp only [C05_formula v check (hfeas v hv2)] at he
    cases he
  rw [hch] at hout
  refine ⟨_, _, _, hout, by rw [hel, hch], hch, hch, fun i hi => ?_⟩
  obtain ⟨p, ls, terms, hrow, h1, h2, h3⟩ := hrows i (by simpa using hi)
  have hg : (us.map fun u => u.map util)[i]'(by simpa using hi) = us[i].map util := by simp
  simp only [hg, C05_formula us[i] check (hfeas _ (List.getElem_mem hi))] at hrow
  cases hrow
  refine ⟨by simp only [readNum, h2], fun k hk => ⟨?_, ?_⟩⟩
  · have := h1 k (by simpa using hk)
    simp only [readNum, this]
    simp
  · have := h3 k (by simpa using hk)
    simp only [readNum, this]
    simp

/-- **C20 (sampled choices of a model without nests)** -/
theorem C20_discrete_flat (g : Rng XR) (hg : g.InUnit) (scaled : Bool) (n : Nat) (hn : 1 ≤ n) (seed : Int)
    (us : List (List Util)) (hfeas : ∀ u ∈ us, ∃ x ∈ u, x ≠ none) (hlen : ∀ u ∈ us, u.length = (expected ops).live.length)
    (out : Except Err (Discrete XR))
    (h : DiscreteStage g (after ops) (us.map fun u => u.map util) n seed scaled out) :
    ∃ d ch, out = .ok d ∧ d.nDraws = n ∧ choices (after ops) = .ok ch ∧ ch.length = (expected ops).live.length ∧
      ∀ i (hi : i < us.length), d.logsum i = .fin (us[i].map expw).sum ∧
        ∀ c < n, ∃ (k : Nat) (_ : k < ch.length) (hk : k < us[i].length), d.pos i c = k ∧ d.label i c = some ch[k] ∧
          us[i][k] ≠ none := by
  have hr := rel_after ops hc
  have hne := live_ne_of_valid hr hv
  have hch := choices_eq hr hv
  have hdep := hr.depth_eq hne
  unfold DiscreteStage at h
  simp only at h
  rw [hdep] at h
  simp only [if_neg (not_lt.mpr hd)] at h
  obtain ⟨res, hw, hout⟩ := h
  have hso := C12_multinomial_sample _ _ _ _ _ hw
  obtain ⟨mem, rfl, hmem⟩ := sample_rows (fun u => multinomial u true)
    g hg _ _ n hn seed (by intro u r p ls t he; unfold multinomialSample; rw [he]; rfl)
    (by intro u s p ls t ks he hk; unfold multinomialMultisample; rw [he]; simp only [bind, Except.bind]; rw [hk]; rfl)
    _ (fun i => (us.getD i []).map fun u => expw u / ((us.getD i []).map expw).sum)
    (fun i => .fin ((us.getD i []).map expw).sum)
    (by
      intro i hi
      have hi' : i < us.length := by simpa using hi
      have hu : us.getD i [] = us[i] := by simp [hi']
      refine ⟨us[i].map (fun u => .fin (expw u)), ?_⟩
      have hg2 : (us.map fun u => u.map util)[i] = us[i].map util := by simp
      simp only [hg2, hu, C05_formula us[i] true (hfeas _ (List.getElem_mem hi')), List.map_map]
      rfl)
    (by
      intro i hi
      have hi' : i < us.length := by simpa using hi
      have hu : us.getD i [] = us[i] := by simp [hi']
      have hpos := (sum_expw_pos us[i]).mpr (hfeas _ (List.getElem_mem hi'))
      rw [hu]
      constructor
      · intro p hp
        obtain ⟨u, _, rfl⟩ := List.mem_map.mp hp
        exact div_nonneg (expw_nonneg u) hpos.le
      · have : ∀ (l : List Util) (c : ℝ), (l.map (fun u => expw u / c)).sum = (l.map expw).sum / c := by
          intro l c
          induction l with
          | nil => simp
          | cons u l ih => simp only [List.map_cons, List.sum_cons, add_div, ih]
        rw [this, div_self hpos.ne'])
    _ hso
  rw [hch] at hout
  refine ⟨_, _, hout, rfl, hch, by simp, fun i hi => ?_⟩
  have hu : us.getD i [] = us[i] := by simp [hi]
  obtain ⟨hl, hm⟩ := hmem i (by simpa using hi)
  refine ⟨by simp only [readNum, hl, hu], fun c hcn => ?_⟩
  obtain ⟨k, hk, hm1, hpos⟩ := hm c hcn
  simp only [hu, List.length_map] at hk
  have hk2 : k < (expected ops).live.length := by rw [← hlen _ (List.getElem_mem hi)]; exact hk
  refine ⟨k, by simpa using hk2, hk, by simp only [readIdx, hm1], ?_, ?_⟩
  · simp only [readIdx, hm1, takeLabel]
    simp [hk2]
  · intro hnone
    simp only [List.getElem_map, hu, hnone] at hpos
    simp [expw] at hpos

end flatmodel

/-! ### the hypotheses are met -/

/-- choices B, A and A.x, A.y nested in A with scale 1/2 -/
noncomputable def exampleOps : List (TreeOp XR) :=
  [.addTop ['B'] one, .addTop ['A'] (.fin (1 / 2)), .addChild 1 ['x'] one, .addChild 1 ['y'] one]

theorem exampleOps_expected : expected exampleOps =
    ⟨[[['B']], [['A']], [['A'], ['x']], [['A'], ['y']]],
     [⟨0, [['B']], one⟩, ⟨1, [['A']], .fin (1 / 2)⟩, ⟨2, [['A'], ['x']], one⟩, ⟨3, [['A'], ['y']], one⟩]⟩ := by
  have h2 : (2:ℝ)⁻¹ ≤ 1 := by norm_num
  simp [exampleOps, expected, Choices.run, Choices.step, Choices.add, Choices.empty, Legal, lt, le, zero, one, XR.lt, XR.le, h2]

theorem exampleOps_clean : CleanRun Choices.empty exampleOps := by
  have h2 : (2:ℝ)⁻¹ ≤ 1 := by norm_num
  simp [exampleOps, CleanRun, Clean, CleanAdd, Choices.step, Choices.add, Choices.empty, Legal, lt, le, zero, one, XR.lt, XR.le, h2]

theorem exampleOps_valid : validateTree (after exampleOps) = .ok () := by
  rw [(C19_validate exampleOps exampleOps_clean).1, exampleOps_expected]
  simp [Choices.kids, IsChild, List.filter_cons]

theorem exampleOps_depth : 1 < (expected exampleOps).depth := by
  rw [exampleOps_expected]; simp [Choices.depth]

/-- the hypotheses of the nested theorems of C16 and C20: every unit can choose B -/
example (U : Nat → Nat → Util) (hU : ∀ i, U i 0 ≠ none) :
    CleanRun Choices.empty exampleOps ∧ 1 < (expected exampleOps).depth ∧ validateTree (after exampleOps) = .ok () ∧
    ∀ i, ∃ l < (expected exampleOps).live.length, (expected exampleOps).tree.Leaf l ∧
      (expected exampleOps).tree.Open (U i) l := by
  refine ⟨exampleOps_clean, exampleOps_depth, exampleOps_valid, fun i => ⟨0, ?_, ?_, ?_⟩⟩
  · rw [exampleOps_expected]; simp
  · rw [flat_leaf (rel_after _ exampleOps_clean) (by rw [exampleOps_expected]; simp) 0 (by rw [exampleOps_expected]; simp)]
    simp only [exampleOps_expected]
    simp [IsChild]
  · refine .top 0 ?_ (hU i)
    rw [exampleOps_expected]
    simp [Choices.tree]

/-- a generator with all draws in range -/
example : (⟨fun _ _ => one, fun _ _ => 0⟩ : Rng XR).InUnit := by
  intro s k
  simp only [le, one, tiny, XR.le, decide_eq_true_eq]
  exact ⟨pow_le_one₀ (by norm_num) (by norm_num), le_refl _⟩

/-- the hypotheses of the theorems about models without nests -/
example : CleanRun Choices.empty [.addTop ['B'] one, .addTop ['A'] (one : XR)] ∧
    (expected [.addTop ['B'] one, .addTop ['A'] (one : XR)]).depth ≤ 1 ∧
    validateTree (after [.addTop ['B'] one, .addTop ['A'] (one : XR)]) = .ok () := by
  have hcl : CleanRun Choices.empty [.addTop ['B'] one, .addTop ['A'] (one : XR)] := by
    simp [CleanRun, Clean, CleanAdd, Choices.step, Choices.add, Choices.empty, Legal, lt, le, zero, one, XR.lt, XR.le]
  have he : expected [.addTop ['B'] one, .addTop ['A'] (one : XR)] =
      ⟨[[['B']], [['A']]], [⟨0, [['B']], one⟩, ⟨1, [['A']], one⟩]⟩ := by
    simp [expected, Choices.run, Choices.step, Choices.add, Choices.empty, Legal, lt, le, zero, one, XR.lt, XR.le]
  refine ⟨hcl, by rw [he]; simp [Choices.depth], ?_⟩
  rw [(C19_validate _ hcl).1, he]
  simp [Choices.kids, IsChild, List.filter_cons]

end Cheval
