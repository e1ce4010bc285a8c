import Verif.Props.WholeRuns
import Verif.Props.SubsetExamples
import Verif.Spec.Draws

/-!
# C70: run_discrete draws from the distribution that run_stochastic reports
-/
set_option linter.unusedSectionVars false
namespace Cheval
open FOps Spec

theorem takeSum_eq (n : Nat) (q : Nat → ℝ) (k : Nat) (hk : k ≤ n) :
    (((List.range n).map q).take k).sum = ((List.range k).map q).sum := by
  rw [← List.map_take, List.take_range, Nat.min_eq_left hk]

theorem filter_sum (l : List Nat) (L : Nat → Bool) (q : Nat → ℝ) (hq : ∀ k, L k = false → q k = 0) :
    ((l.filter L).map q).sum = (l.map q).sum := by
  induction l with
  | nil => rfl
  | cons a l ih =>
    rw [List.filter_cons]
    cases h : L a with
    | true => simp [ih]
    | false => simp [ih, hq a h]

/-- position `k`, if kept, is at place `j` of the kept positions and splits them like the whole range -/
theorem keep_split (n : Nat) (L : Nat → Bool) (k : Nat) (hk : k < n) (hl : L k = true) :
    ∃ rest, (List.range n).filter L = (List.range k).filter L ++ k :: rest := by
  obtain ⟨m, rfl⟩ : ∃ m, n = k + (m + 1) := ⟨n - k - 1, by omega⟩
  rw [List.range_add, List.filter_append, List.range_succ_eq_map]
  simp [hl]

theorem drawnBy_keep (n : Nat) (L : Nat → Bool) (q : Nat → ℝ) (hq : ∀ k, L k = false → q k = 0) (x : ℝ) (k : Nat) (hk : k < n)
    (hl : L k = true) (hd : DrawnBy ((List.range n).map q) x k) :
    ∃ (j : Nat) (h : j < ((List.range n).filter L).length), ((List.range n).filter L)[j] = k ∧
      DrawnBy (((List.range n).filter L).map q) x j := by
  obtain ⟨rest, e⟩ := keep_split n L k hk hl
  unfold DrawnBy at hd
  rw [takeSum_eq n q k hk.le, takeSum_eq n q (k + 1) hk] at hd
  refine ⟨((List.range k).filter L).length, by rw [e]; simp, by simp [e], ?_, ?_⟩
  · rw [e, ← List.map_take, List.take_left, filter_sum _ _ _ hq]
    exact hd.1
  · have : ((List.range k).filter L ++ k :: rest).take (((List.range k).filter L).length + 1) = (List.range k).filter L ++ [k] := by
      rw [List.take_append, List.take_of_length_le (by omega)]
      simp
    rw [e, ← List.map_take, this, List.map_append, List.sum_append, filter_sum _ _ _ hq]
    have h2 := hd.2
    rw [List.range_succ, List.map_append, List.sum_append] at h2
    exact h2

/-- the scan of a distribution inverts its distribution function -/
theorem sampleOnce_drawnBy (ps : List ℝ) (hnn : ∀ p ∈ ps, 0 ≤ p) (hsum : ps.sum = 1) (r : XR) (h0 : le tiny r = true)
    (h1 : le r one = true) :
    ∃ (x : ℝ) (k : Nat) (h : k < ps.length), r = .fin x ∧ sampleOnce (ps.map XR.fin) r = (k : Int) ∧ 0 < ps[k] ∧ DrawnBy ps x k := by
  obtain ⟨k, hk, e, hpos⟩ := sample_positive ps hnn hsum r h0 h1
  cases r with
  | nan => cases h1
  | ninf => cases h0
  | pinf => cases h1
  | fin x =>
    have hne : ps ≠ [] := by rintro rfl; simp at hsum
    have := (C01_single_draw_exact ps x hne hnn k hk).mp e
    have ht : max x XR.tinyR = x := by
      apply max_eq_left
      have : XR.le (.fin XR.tinyR) (.fin x) = true := h0
      simpa [XR.le] using this
    rw [ht] at this
    refine ⟨x, k, hk, rfl, e, hpos, this.1, ?_⟩
    rcases this.2 with h | h
    · exact h
    · rw [h, List.take_length, hsum]
      have : XR.le (.fin x) (.fin 1) = true := h1
      simpa [XR.le] using this

/-- The core of C70: a sampling worker and the corresponding probability worker on the same rows. `L` marks the positions of elemental
choices; `q i` are the probabilities of row `i` if it is feasible. -/
theorem draw_core (f : List XR → Except Err (List XR × XR × List XR)) (g : Rng XR) (hg : g.InUnit)
    (one' : List XR → XR → Except Err (Int × XR)) (multi : List XR → Int → Except Err (List Nat × XR)) (n : Nat) (hn : 1 ≤ n)
    (seed : Int)
    (h1 : ∀ u r, one' u r = (f u).map fun o => (sampleOnce o.1 r, o.2.1))
    (h2 : ∀ u s, multi u s = (f u).bind fun o => (sampleMulti g o.1 n s (some n)).map fun ks => (ks, o.2.1))
    (rows : List (List XR)) (N : Nat) (L : Nat → Bool) (feas : Nat → Prop) (q : Nat → Nat → ℝ) (lsum : Nat → XR)
    (hbad : ∀ i (hi : i < rows.length), ¬ feas i → f rows[i] = .error .utilityBounds)
    (hrow : ∀ i (hi : i < rows.length), feas i → ∃ t, f rows[i] = .ok (((List.range N).map (q i)).map .fin, lsum i, t))
    (hq : ∀ i < rows.length, feas i → (∀ k, L k = false → q i k = 0) ∧ (∀ k < N, 0 ≤ q i k) ∧ ((List.range N).map (q i)).sum = 1)
    (out out' : Except Err (Mem XR)) (h : SampleOutcome one' multi g rows n seed out) (h' : ProbOutcome f rows out') :
    ((∃ i < rows.length, ¬ feas i) ∧ out = .error .utilityBounds ∧ out' = .error .utilityBounds) ∨
    ∃ m m', out = .ok m ∧ out' = .ok m' ∧ (∀ i < rows.length, feas i) ∧ ∀ i < rows.length, m (aLs, i, 0) = m' (aLs, i, 0) ∧
      ∃ p : List ℝ, p.length = ((List.range N).filter L).length ∧
        (∀ j (hj : j < p.length), readNum m' (aRes, i, ((List.range N).filter L).getD j 0) = .fin p[j]) ∧ (∀ x ∈ p, 0 ≤ x) ∧ p.sum = 1 ∧
        ∀ c < n, ∃ (x : ℝ) (j : Nat) (hj : j < ((List.range N).filter L).length), numberFor g n seed i c = .fin x ∧ DrawnBy p x j ∧
          m (aRes, i, c) = .idx (((List.range N).filter L)[j] : Int) := by
  classical
  have hnn : ∀ i < rows.length, feas i → ∀ p ∈ (List.range N).map (q i), 0 ≤ p := by
    intro i hi hf p hp
    obtain ⟨k, hk, rfl⟩ := List.mem_map.mp hp
    exact (hq i hi hf).2.1 k (List.mem_range.mp hk)
  have hne : ∀ i < rows.length, feas i → ((List.range N).map (q i)).map XR.fin ≠ [] := by
    intro i hi hf hcon
    rw [List.map_eq_nil_iff] at hcon
    have := (hq i hi hf).2.2
    rw [hcon] at this; simp at this
  have hmul : ∀ i (hi : i < rows.length) (hf : feas i) s, ∃ ks : List Nat, ks.length = n ∧ multi rows[i] s = .ok (ks, lsum i) ∧
      ∀ c (hcn : c < ks.length), (ks[c] : Int) = sampleOnce (((List.range N).map (q i)).map .fin) (g.uniform s c) := by
    intro i hi hf s
    obtain ⟨t, ht⟩ := hrow i hi hf
    obtain ⟨ks, hks, hlen, hval⟩ := C02_multi_draw g (((List.range N).map (q i)).map XR.fin) n s (some n) (.inr rfl) (hne i hi hf) (by
      intro p hp
      obtain ⟨x, hx, rfl⟩ := List.mem_map.mp hp
      show XR.le (.fin 0) (.fin x) = true
      simpa [XR.le] using hnn i hi hf x hx) (fun c _ => (hg s c).1)
    refine ⟨ks, hlen, ?_, hval⟩
    rw [h2, ht]
    simp only [Except.bind]
    rw [hks]; rfl
  by_cases hall : ∀ i < rows.length, feas i
  swap
  · left
    push Not at hall
    obtain ⟨i0, hi0, hf0⟩ := hall
    refine ⟨⟨i0, hi0, hf0⟩, ?_, ?_⟩
    · have hb := hbad i0 hi0 hf0
      rcases h with ⟨m, rfl, hm⟩ | ⟨i, hi, e, rfl, he⟩
      · exfalso
        obtain ⟨ha, hb2⟩ := hm i0 hi0
        rcases Nat.lt_or_ge 1 n with hn1 | hn1
        · obtain ⟨ks, ls, hk, _⟩ := hb2 hn1
          rw [h2, hb] at hk; cases hk
        · obtain ⟨k, ls, hk, _⟩ := ha hn1
          rw [h1, hb] at hk; cases hk
      · by_cases hf : feas i
        · exfalso
          obtain ⟨t, ht⟩ := hrow i hi hf
          rcases he with ⟨_, he⟩ | ⟨_, he⟩
          · rw [h1, ht] at he; cases he
          · obtain ⟨ks, _, hk, _⟩ := hmul i hi hf (g.randint seed i)
            rw [hk] at he; cases he
        · have hb := hbad i hi hf
          rcases he with ⟨_, he⟩ | ⟨_, he⟩
          · rw [h1, hb] at he; cases he; rfl
          · rw [h2, hb] at he; cases he; rfl
    · rcases h' with ⟨m, rfl, hm⟩ | ⟨u, hu, e, he, rfl⟩
      · exfalso
        obtain ⟨p, ls, t, hk, _⟩ := hm i0 hi0
        rw [hbad i0 hi0 hf0] at hk; cases hk
      · obtain ⟨i, hi, rfl⟩ := List.mem_iff_getElem.mp hu
        by_cases hf : feas i
        · obtain ⟨t, ht⟩ := hrow i hi hf
          rw [ht] at he; cases he
        · rw [hbad i hi hf] at he; cases he; rfl
  right
  rcases h' with ⟨m', rfl, hm'⟩ | ⟨u, hu, e, he, rfl⟩
  swap
  · exfalso
    obtain ⟨i, hi, rfl⟩ := List.mem_iff_getElem.mp hu
    obtain ⟨t, ht⟩ := hrow i hi (hall i hi)
    rw [ht] at he; cases he
  rcases h with ⟨m, rfl, hm⟩ | ⟨i, hi, e, rfl, he⟩
  swap
  · exfalso
    obtain ⟨t, ht⟩ := hrow i hi (hall i hi)
    rcases he with ⟨_, he⟩ | ⟨_, he⟩
    · rw [h1, ht] at he; cases he
    · obtain ⟨ks, _, hk, _⟩ := hmul i hi (hall i hi) (g.randint seed i)
      rw [hk] at he; cases he
  refine ⟨m, m', rfl, rfl, hall, fun i hi => ?_⟩
  have hf := hall i hi
  obtain ⟨t, ht⟩ := hrow i hi hf
  obtain ⟨hz, hnn', hsum⟩ := hq i hi hf
  obtain ⟨p, ls, t', hp, hres, hls, _⟩ := hm' i hi
  rw [ht] at hp
  cases hp
  have hdraw : m (aLs, i, 0) = .num (lsum i) ∧ ∀ c < n, m (aRes, i, c) =
      .idx (sampleOnce (((List.range N).map (q i)).map .fin) (numberFor g n seed i c)) := by
    obtain ⟨ha, hb⟩ := hm i hi
    rcases Nat.lt_or_ge 1 n with hn1 | hn1
    · obtain ⟨ks, ls, hk, hr, hl⟩ := hb hn1
      obtain ⟨ks', hlen, hk', hval⟩ := hmul i hi hf (g.randint seed i)
      rw [hk'] at hk
      cases hk
      refine ⟨hl, fun c hcn => ?_⟩
      have hcl : c < ks.length := by omega
      have := hr c (by simpa using hcl)
      rw [this]
      simp only [List.getElem_map, numberFor, if_neg (not_le.mpr hn1)]
      rw [hval c hcl]
    · obtain ⟨k, ls, hk, hr, hl⟩ := ha hn1
      rw [h1, ht] at hk
      cases hk
      refine ⟨hl, fun c hcn => ?_⟩
      have : c = 0 := by omega
      subst this
      rw [hr]
      simp only [numberFor, if_pos hn1]
  refine ⟨by rw [hdraw.1, hls], ((List.range N).filter L).map (q i), by simp, ?_, ?_, ?_, ?_⟩
  · intro j hj
    have hj' : j < ((List.range N).filter L).length := by simpa using hj
    have hmem := List.getElem_mem hj'
    have hN : ((List.range N).filter L)[j] < N := List.mem_range.mp (List.mem_of_mem_filter hmem)
    have hgd : ((List.range N).filter L).getD j 0 = ((List.range N).filter L)[j] := by
      rw [List.getD_eq_getElem?_getD, List.getElem?_eq_getElem hj']; rfl
    rw [hgd]
    have := hres _ (by simpa using hN)
    simp only [readNum, this]
    simp
  · intro x hx
    obtain ⟨k, hk, rfl⟩ := List.mem_map.mp hx
    exact hnn' k (List.mem_range.mp (List.mem_of_mem_filter hk))
  · rw [filter_sum _ _ _ hz, hsum]
  · intro c hcn
    have hu : le tiny (numberFor g n seed i c) = true ∧ le (numberFor g n seed i c) one = true := by
      unfold numberFor; split <;> exact hg _ _
    obtain ⟨x, k, hk, hx, hso, hpos, hdb⟩ := sampleOnce_drawnBy _ (hnn i hi hf) hsum _ hu.1 hu.2
    have hkN : k < N := by simpa using hk
    have hL : L k = true := by
      cases hlk : L k with
      | true => rfl
      | false =>
        simp only [List.getElem_map, List.getElem_range] at hpos
        rw [hz k hlk] at hpos
        exact absurd hpos (lt_irrefl _)
    obtain ⟨j, hj, hjk, hdj⟩ := drawnBy_keep N L (q i) hz x k hkN hL hdb
    refine ⟨x, j, hj, hx, hdj, ?_⟩
    rw [hdraw.2 c hcn, hso, hjk]


section stages
variable (ops : List (TreeOp XR)) (hc : CleanRun Choices.empty ops) (hv : validateTree (after ops) = .ok ())
include hc hv

/-- the two stages that turn utilities into results, on the same utilities -/
def StagesAgree (g : Rng XR) (n : Nat) (seed : Int) (m : Nat) (ch : List (List Name)) (out : Except Err (Discrete XR))
    (out' : Except Err (Frame XR × (Nat → XR) × Frame XR)) : Prop :=
  (out = .error .utilityBounds ∧ out' = .error .utilityBounds) ∨
  ∃ d fr ls nls, out = .ok d ∧ out' = .ok (fr, ls, nls) ∧ d.nDraws = n ∧ (∀ i < m, d.logsum i = ls i) ∧
    DrawsFrom g n seed m fr fun i c l => ∃ k : Nat, d.pos i c = (k : Int) ∧ ch[k]? = some l

open Classical in
theorem stages_nested (hd : 1 < (expected ops).depth) (g : Rng XR) (hg : g.InUnit) (scaled : Bool) (n : Nat) (hn : 1 ≤ n) (seed : Int)
    (m : Nat) (U : Nat → Nat → Util) (out : Except Err (Discrete XR)) (out' : Except Err (Frame XR × (Nat → XR) × Frame XR))
    (h : DiscreteStage g (after ops) ((List.range m).map fun i => row (expected ops).live.length (U i)) n seed scaled out)
    (h' : StochasticStage (after ops) ((List.range m).map fun i => row (expected ops).live.length (U i)) scaled true out') :
    StagesAgree g n seed m ((expected ops).live.map fun r => pad (expected ops).depth r.path) out out' := by
  have hr := rel_after ops hc
  have hne := live_ne_of_valid hr hv
  have hch := choices_eq hr hv
  have hel := elemental_eq hr hv
  have hdep := hr.depth_eq hne
  let feas := fun i : Nat => ∃ l < (expected ops).live.length, (expected ops).tree.Leaf l ∧ (expected ops).tree.Open (U i) l
  have hprob : ∀ i, feas i → ∃ (T P : Nat → ℝ),
      nested (row (expected ops).live.length (U i)) (flatUpto (expected ops) (expected ops).live.length) scaled true = .ok
        (arr (expected ops).live.length (fun i => .fin (if (expected ops).tree.Leaf i then P i else 0)),
         .fin (∑ i ∈ (expected ops).tree.tops, T i), arr (expected ops).live.length (fun i => .fin (T i))) ∧
      (∀ i < (expected ops).live.length, (expected ops).tree.Leaf i → 0 ≤ P i) ∧
      ∑ i ∈ (Finset.range (expected ops).live.length).filter (fun i => (expected ops).tree.Leaf i), P i = 1 := by
    intro i hi
    obtain ⟨fl, T, P, hfl, _, hspec, heq, hnn, hsum⟩ := C16_probabilities ops hc hd scaled true (U i) hi
    rw [hr.flatten_eq hd] at hfl
    cases hfl
    exact ⟨T, P, heq, fun i hi hl => (hnn i hi hl).1, hsum⟩
  choose! T P heq hnn hsum using hprob
  unfold DiscreteStage at h
  unfold StochasticStage at h'
  simp only at h
  rw [hdep] at h h'
  simp only [if_pos hd] at h h'
  rw [hr.flatten_eq hd] at h h'
  obtain ⟨res, hw, hout⟩ := h
  obtain ⟨res', hw', hout'⟩ := h'
  have hget : ∀ i (hi : i < ((List.range m).map fun i => row (expected ops).live.length (U i)).length),
      ((List.range m).map fun i => row (expected ops).live.length (U i))[i] = row (expected ops).live.length (U i) := by
    intro i hi; simp
  have hbadrow : ∀ i, ¬ feas i →
      nested (row (expected ops).live.length (U i)) (flatUpto (expected ops) (expected ops).live.length) scaled true = .error .utilityBounds := by
    intro i hi
    have := (C10_infeasible_iff (flat_wf hr hne) (flat_scales hr) scaled (U i)).mpr
    rw [flat_spec] at this
    exact this hi
  have core := draw_core (fun u => nested u (flatUpto (expected ops) (expected ops).live.length) scaled true) g hg _ _ n hn seed
    (by intro u r; unfold nestedSample; cases nested u _ scaled true <;> rfl)
    (by
      intro u s; unfold nestedMultisample
      cases nested u _ scaled true with
      | error e => rfl
      | ok o => simp only [bind, Except.bind]; cases sampleMulti g o.1 n s (some n) <;> rfl)
    _ (expected ops).live.length (fun k => decide ((expected ops).tree.Leaf k)) feas
    (fun i k => if (expected ops).tree.Leaf k then P i k else 0) (fun i => .fin (∑ k ∈ (expected ops).tree.tops, T i k))
    (by intro i hi hf; rw [hget]; exact hbadrow i hf)
    (by
      intro i hi hf
      refine ⟨arr (expected ops).live.length (fun k => .fin (T i k)), ?_⟩
      rw [hget]
      simp only [heq i hf, List.map_map]
      rfl)
    (by
      intro i hi hf
      refine ⟨?_, ?_, ?_⟩
      · intro k hk; simp only [decide_eq_false_iff_not] at hk; simp [hk]
      · intro k hk
        split
        · exact hnn i hf k hk ‹_›
        · exact le_refl _
      · rw [← hsum i hf, ← List.sum_toFinset _ List.nodup_range, List.toFinset_range, Finset.sum_filter])
    _ _ (C12_nested_sample _ _ _ _ _ _ _ hw) (C12_nested_probabilities _ _ _ _ _ hw')
  rw [hch] at hout
  rw [hel, hch] at hout'
  rcases core with ⟨_, rfl, rfl⟩ | ⟨mem, mem', rfl, rfl, hall, hrows⟩
  · exact .inl ⟨hout, hout'⟩
  simp only at hout'
  rw [keep_eq hr hne] at hout'
  refine .inr ⟨_, _, _, _, hout, hout', rfl, ?_, ?_⟩
  · intro i hi
    have := (hrows i (by simpa using hi)).1
    simp only [readNum, this]
  intro i hi
  obtain ⟨_, p, hlen, hval, hp, hs, hdr⟩ := hrows i (by simpa using hi)
  refine ⟨p, by simpa using hlen, hval, hp, hs, fun c hcn => ?_⟩
  obtain ⟨x, j, hj, hx, hdb, hm⟩ := hdr c hcn
  refine ⟨x, j, by simpa using hj, hx, hdb,
    ((List.range (expected ops).live.length).filter fun k => decide ((expected ops).tree.Leaf k))[j], by simp only [readIdx, hm], ?_⟩
  have hlt : ((List.range (expected ops).live.length).filter fun k => decide ((expected ops).tree.Leaf k))[j] < (expected ops).live.length :=
    List.mem_range.mp (List.mem_of_mem_filter (List.getElem_mem hj))
  simp [hlt]

theorem stages_flat (hd : (expected ops).depth ≤ 1) (g : Rng XR) (hg : g.InUnit) (scaled : Bool) (n : Nat) (hn : 1 ≤ n) (seed : Int)
    (m : Nat) (U : Nat → Nat → Util) (out : Except Err (Discrete XR)) (out' : Except Err (Frame XR × (Nat → XR) × Frame XR))
    (h : DiscreteStage g (after ops) ((List.range m).map fun i => row (expected ops).live.length (U i)) n seed scaled out)
    (h' : StochasticStage (after ops) ((List.range m).map fun i => row (expected ops).live.length (U i)) scaled true out') :
    StagesAgree g n seed m ((expected ops).live.map fun r => pad (expected ops).depth r.path) out out' := by
  classical
  have hr := rel_after ops hc
  have hne := live_ne_of_valid hr hv
  have hch := choices_eq hr hv
  have hdep := hr.depth_eq hne
  generalize hN : (expected ops).live.length = N at *
  let us := fun i : Nat => (List.range N).map (U i)
  have hrow : ∀ i, row N (U i) = (us i).map util := by intro i; simp [row, arr, us]
  let feas := fun i : Nat => ∃ w ∈ us i, w ≠ none
  unfold DiscreteStage at h
  unfold StochasticStage at h'
  simp only at h
  rw [hdep] at h h'
  simp only [if_neg (not_lt.mpr hd)] at h h'
  obtain ⟨res, hw, hout⟩ := h
  obtain ⟨res', hw', hout'⟩ := h'
  have hget : ∀ i (hi : i < ((List.range m).map fun i => row N (U i)).length),
      ((List.range m).map fun i => row N (U i))[i] = (us i).map util := by
    intro i hi; simp [hrow]
  have core := draw_core (fun u => multinomial u true) g hg _ _ n hn seed
    (by intro u r; unfold multinomialSample; cases multinomial u true <;> rfl)
    (by
      intro u s; unfold multinomialMultisample
      cases multinomial u true with
      | error e => rfl
      | ok o => simp only [bind, Except.bind]; cases sampleMulti g o.1 n s (some n) <;> rfl)
    _ N (fun _ => true) feas
    (fun i k => expw (U i k) / ((us i).map expw).sum) (fun i => .fin ((us i).map expw).sum)
    (by
      intro i hi hf; rw [hget]
      refine (C06_check (us i)).mpr fun w hw => ?_
      by_contra hcon
      exact hf ⟨w, hw, hcon⟩)
    (by
      intro i hi hf
      refine ⟨(us i).map (fun u => .fin (expw u)), ?_⟩
      rw [hget]
      simp only [C05_formula (us i) true hf]
      simp [us])
    (by
      intro i hi hf
      have hpos := (sum_expw_pos (us i)).mpr hf
      refine ⟨(fun k hk => absurd hk (by simp)), fun k hk => div_nonneg (expw_nonneg _) hpos.le, ?_⟩
      have : ∀ (l : List Nat) (c : ℝ), (l.map (fun k => expw (U i k) / c)).sum = (l.map fun k => expw (U i k)).sum / c := by
        intro l c
        induction l with
        | nil => simp
        | cons u l ih => simp only [List.map_cons, List.sum_cons, add_div, ih]
      rw [this]
      have he : ((us i).map expw) = (List.range N).map fun k => expw (U i k) := by simp [us]
      rw [he] at hpos ⊢
      exact div_self hpos.ne')
    _ _ (C12_multinomial_sample _ _ _ _ _ hw) (C12_multinomial_probabilities _ _ _ hw')
  rw [hch] at hout hout'
  rcases core with ⟨_, rfl, rfl⟩ | ⟨mem, mem', rfl, rfl, hall, hrows⟩
  · exact .inl ⟨hout, hout'⟩
  have hfl : (List.range N).filter (fun _ => true) = List.range N := by simp
  rw [hfl] at hrows
  refine .inr ⟨_, _, _, _, hout, hout', rfl, ?_, ?_⟩
  · intro i hi
    have := (hrows i (by simpa using hi)).1
    simp only [readNum, this]
  intro i hi
  obtain ⟨_, p, hlen, hval, hp, hs, hdr⟩ := hrows i (by simpa using hi)
  have hlen' : p.length = N := by simpa using hlen
  refine ⟨p, by simpa [hN] using hlen', ?_, hp, hs, fun c hcn => ?_⟩
  · intro j hj
    have := hval j hj
    have hjN : j < N := by omega
    simpa [hjN] using this
  obtain ⟨x, j, hj, hx, hdb, hm⟩ := hdr c hcn
  have hjN : j < N := by simpa using hj
  refine ⟨x, j, by simpa [hN] using hjN, hx, hdb, (List.range N)[j], by simp only [readIdx, hm], ?_⟩
  simp [hN, hjN]

theorem stages_agree (g : Rng XR) (hg : g.InUnit) (scaled : Bool) (n : Nat) (hn : 1 ≤ n) (seed : Int)
    (m : Nat) (U : Nat → Nat → Util) (out : Except Err (Discrete XR)) (out' : Except Err (Frame XR × (Nat → XR) × Frame XR))
    (h : DiscreteStage g (after ops) ((List.range m).map fun i => row (expected ops).live.length (U i)) n seed scaled out)
    (h' : StochasticStage (after ops) ((List.range m).map fun i => row (expected ops).live.length (U i)) scaled true out') :
    StagesAgree g n seed m ((expected ops).live.map fun r => pad (expected ops).depth r.path) out out' := by
  rcases Nat.lt_or_ge 1 (expected ops).depth with hd | hd
  · exact stages_nested ops hc hv hd g hg scaled n hn seed m U out out' h h'
  · exact stages_flat ops hc hv hd g hg scaled n hn seed m U out out' h h'

end stages

theorem convertResult_cells {V : Type} (ch : List (List Name)) (rows n : Nat) (pos : Nat → Nat → Int) (t : AsType V) (squeeze : Bool)
    (ht : ∀ conv, t = .dtype conv → ∃ f, conv ch = .ok f) (hpos : ∀ i < rows, ∀ c < n, ∃ k : Nat, pos i c = k ∧ k < ch.length) :
    ∃ r, convertResult ch rows n pos t squeeze = .ok r ∧ ∀ i < rows, ∀ c < n, ∀ (k : Nat) l, pos i c = k → ch[k]? = some l →
      CellFor ch t (r.cell i c) l := by
  have hno : ¬ ∃ i < rows, ∃ c < n, takeAt ch.length (pos i c) = none := by
    rintro ⟨i, hi, c, hcn, hnone⟩
    obtain ⟨k, e, hk⟩ := hpos i hi c hcn
    rw [e, takeAt_nat hk] at hnone
    cases hnone
  have hlt : ∀ {k : Nat} {l : List Name}, ch[k]? = some l → k < ch.length := fun h => (List.getElem?_eq_some_iff.mp h).1
  have hgd : ∀ {k : Nat} {l : List Name}, ch[k]? = some l → ch.getD k [] = l := by
    intro k l h; rw [List.getD_eq_getElem?_getD, h]; rfl
  cases t with
  | index =>
    refine ⟨_, rfl, ?_⟩
    intro i hi c hcn k l e hl
    refine ⟨k, hl, ?_⟩
    split
    · rename_i hsq
      simp only [Bool.and_eq_true, decide_eq_true_eq] at hsq
      obtain rfl : c = 0 := by omega
      simp only [ResObj.cell, e]
    · simp only [ResObj.cell, e]
  | category =>
    unfold convertResult
    simp only [if_neg hno]
    refine ⟨_, rfl, ?_⟩
    intro i hi c hcn k l e hl
    show ResObj.cell _ i c = _
    split
    · rename_i hsq
      simp only [Bool.and_eq_true, decide_eq_true_eq] at hsq
      obtain rfl : c = 0 := by omega
      simp only [ResObj.cell, e, takeAt_nat (hlt hl), Option.getD_some, hgd hl]
    · simp only [ResObj.cell, e, takeAt_nat (hlt hl), Option.getD_some, hgd hl]
  | dtype conv =>
    obtain ⟨f, hf⟩ := ht conv rfl
    unfold convertResult
    simp only [hf, if_neg hno]
    refine ⟨_, rfl, ?_⟩
    intro i hi c hcn k l e hl
    refine ⟨f, hf, k, hl, ?_⟩
    split
    · rename_i hsq
      simp only [Bool.and_eq_true, decide_eq_true_eq] at hsq
      obtain rfl : c = 0 := by omega
      simp only [ResObj.cell, e, takeAt_nat (hlt hl), Option.getD_some]
    · simp only [ResObj.cell, e, takeAt_nat (hlt hl), Option.getD_some]

/-- **C70** On one model, whose utilities can be computed and are finite or -inf, run_discrete and run_stochastic (with the check for
infeasible units) either both report infeasible utilities, or both return, report the same top logsums, and every draw of run_discrete
is the inverse, at the unit's random number, of the distribution that run_stochastic reports for the unit. This holds for nested models
and models without nests, with every format of the results, and every way the parallel loops are scheduled. -/
theorem C70_draws {U R V : Type} (ops : List (TreeOp XR)) (hc : CleanRun Choices.empty ops) (s : Setting XR R) (hg : s.rng.InUnit)
    (m m' : CModel U XR) (hm : m.tree = after ops) (a : DiscreteArgs R V) (ch : List (List Name)) (hch : choices m.tree = .ok ch)
    (ha : ∀ conv, a.astype = .dtype conv → ∃ f, conv ch = .ok f) (seed' : SeedArg R) (seed : Int)
    (hseed : resolveSeed s.legacy s.fresh a.seed = (seed', .ok seed)) (hn : 1 ≤ a.nDraws) (u : Tab XR)
    (hu : m.runUtilities s.K none a.clear = (m', .ok u)) (h1 : 1 ≤ a.nThreads) (h2 : a.nThreads ≤ s.maxThreads)
    (hW : ∀ i < u.rows, ∀ j < u.cols, ∃ w : Util, u.val i j = util w)
    (threads : Int) (h3 : 1 ≤ threads) (h4 : threads ≤ s.maxThreads)
    (out : CModel U XR × SeedArg R × Except Err (ResObj V × (Nat → XR))) (h : RunDiscrete s m a out)
    (out' : CModel U XR × Except Err (Frame XR × (Nat → XR) × Frame XR))
    (h' : RunStochastic s m none threads a.clear a.scale true out') :
    (out = (m', seed', .error .utilityBounds) ∧ out' = (m', .error .utilityBounds)) ∨
    ∃ r lsum fr lsum' terms, out = (m', seed', .ok (r, lsum)) ∧ out' = (m', .ok (fr, lsum', terms)) ∧
      (∀ i < u.rows, lsum i = lsum' i) ∧
      DrawsFrom s.rng a.nDraws.toNat seed u.rows fr fun i c l => CellFor ch a.astype (r.cell i c) l := by
  classical
  obtain ⟨hv, _, ht, _, _, labels, hl1, hl2⟩ := runUtilities_ok hu
  have hvt := validateTree_of_validate hv
  rw [hch] at hl1
  cases hl1
  rw [hm] at hvt hch
  have hch' := choices_eq (rel_after ops hc) hvt
  have hcols : u.cols = (expected ops).live.length := by
    rw [hch'] at hch
    cases hch; simpa using hl2
  choose! W hW using hW
  unfold RunDiscrete at h
  simp only [hv, hseed, hu] at h
  rw [if_neg (by omega), if_neg (by omega)] at h
  obtain ⟨res, hst, ho⟩ := h
  unfold RunStochastic at h'
  simp only [hu] at h'
  rw [if_neg (by omega)] at h'
  obtain ⟨res', hst', rfl⟩ := h'
  rw [ht, hm, toRows_eq hcols hW] at hst hst'
  have key := stages_agree ops hc hvt s.rng hg a.scale a.nDraws.toNat (by omega) seed u.rows W res res' hst hst'
  rw [hch'] at hch
  cases hch
  rw [ht, hm, hch'] at ho
  rcases key with ⟨rfl, rfl⟩ | ⟨d, fr, ls, nls, rfl, rfl, hnd, hls, hdr⟩
  · exact .inl ⟨ho, rfl⟩
  right
  simp only [hnd] at ho
  obtain ⟨r, hr, hcell⟩ := convertResult_cells ((expected ops).live.map fun r => pad (expected ops).depth r.path) u.rows a.nDraws.toNat d.pos
    a.astype a.squeeze ha (by
      intro i hi c hcn
      obtain ⟨p, _, _, _, _, hd⟩ := hdr i hi
      obtain ⟨x, j, hj, _, _, k, e, hl⟩ := hd c hcn
      exact ⟨k, e, (List.getElem?_eq_some_iff.mp hl).1⟩)
  rw [hr] at ho
  refine ⟨r, d.logsum, fr, ls, nls, ho, rfl, hls, fun i hi => ?_⟩
  obtain ⟨p, e1, e2, e3, e4, hd⟩ := hdr i hi
  refine ⟨p, e1, e2, e3, e4, fun c hcn => ?_⟩
  obtain ⟨x, j, hj, hx, hdb, k, e, hl⟩ := hd c hcn
  exact ⟨x, j, hj, hx, hdb, hcell i hi c hcn k _ e hl⟩

/-- a random number draws at most one column of a table of nonnegative entries -/
theorem drawnBy_unique {p : List ℝ} (hp : ∀ x ∈ p, 0 ≤ x) {x : ℝ} {j k : Nat} (hj : DrawnBy p x j) (hk : DrawnBy p x k) : j = k := by
  have mono : ∀ a b, a ≤ b → (p.take a).sum ≤ (p.take b).sum := by
    intro a b hab
    obtain ⟨d, rfl⟩ := Nat.exists_eq_add_of_le hab
    rw [List.take_add, List.sum_append]
    have : 0 ≤ ((p.drop a).take d).sum :=
      List.sum_nonneg fun y hy => hp y (List.mem_of_mem_drop (List.mem_of_mem_take hy))
    linarith
  rcases lt_trichotomy j k with h | h | h
  · exact absurd (hj.2.trans (mono _ _ h)) (not_le.mpr hk.1)
  · exact h
  · exact absurd (hk.2.trans (mono _ _ h)) (not_le.mpr hj.1)

open MeasureTheory in
/-- **C70 (frequency)** Over a uniformly distributed random number, each column of the reported table is drawn with the reported
probability. -/
theorem C70_frequency (p : List ℝ) (j : Nat) (hj : j < p.length) :
    volume {x : ℝ | DrawnBy p x j} = ENNReal.ofReal p[j] := by
  have : {x : ℝ | DrawnBy p x j} = Set.Ioc (p.take j).sum (p.take (j + 1)).sum := rfl
  rw [this, Real.volume_Ioc, List.take_succ_eq_append_getElem hj, List.sum_append]
  simp

/-- **C70 (which numbers)** Every random number of the unit interval draws exactly one column of a reported distribution. -/
theorem C70_exactly_one (p : List ℝ) (hp : ∀ x ∈ p, 0 ≤ x) (hs : p.sum = 1) (x : ℝ) (h0 : 0 < x) (h1 : x ≤ 1) :
    ∃! j, j < p.length ∧ DrawnBy p x j := by
  have hex : ∃ j, x ≤ (p.take (j + 1)).sum := ⟨p.length, by rw [List.take_of_length_le (by omega), hs]; exact h1⟩
  classical
  have hspec := Nat.find_spec hex
  have hmin := fun k (hk : k < Nat.find hex) => Nat.find_min hex hk
  have hlt : Nat.find hex < p.length := by
    by_contra hcon
    have hpos : 0 < p.length := by
      rcases Nat.eq_zero_or_pos p.length with e | e
      · rw [List.length_eq_zero_iff] at e; subst e; simp at hs
      · exact e
    refine hmin (p.length - 1) (by omega) ?_
    rw [List.take_of_length_le (by omega), hs]; exact h1
  refine ⟨Nat.find hex, ⟨hlt, ?_, hspec⟩, fun k hk => drawnBy_unique hp hk.2 ?_⟩
  · rcases Nat.eq_zero_or_pos (Nat.find hex) with e | e
    · rw [e]; simpa using h0
    · have := hmin (Nat.find hex - 1) (by omega)
      rw [Nat.sub_add_cancel e] at this
      exact not_le.mp this
  · refine ⟨?_, hspec⟩
    rcases Nat.eq_zero_or_pos (Nat.find hex) with e | e
    · rw [e]; simpa using h0
    · have := hmin (Nat.find hex - 1) (by omega)
      rw [Nat.sub_add_cancel e] at this
      exact not_le.mp this

/-- C70_draws: the example model (nested, two decision units), three draws -/
example (env : PyEnv) (M : Arith XR) (V : Type) : ∃ m' seed' m'' r lsum fr lsum' terms,
    RunDiscrete (emSetting M) (emModel env) (⟨.state 5, 3, .category, true, 2, true, true⟩ : DiscreteArgs Nat V) (m', seed', .ok (r, lsum)) ∧
    RunStochastic (emSetting M) (emModel env) none 2 true true true (m'', .ok (fr, lsum', terms)) ∧
    DrawsFrom (emSetting M).rng 3 6 2 fr fun i c l => r.cell i c = .label l := by
  obtain ⟨u, h1, h2, h3, h4⟩ := em_run_state env M true
  obtain ⟨out, ho⟩ := C53_total (emSetting M) (emModel env) (⟨.state 5, 3, .category, true, 2, true, true⟩ : DiscreteArgs Nat V)
  obtain ⟨out', ho'⟩ := C12_run_stochastic_total (emSetting M) (emModel env) none 2 true true true
  have hW : ∀ i < u.rows, ∀ j < u.cols, u.val i j = util (some (100 * (i + 1) + if j = 2 then 2 else 0) : Util) := by
    intro i hi j hj
    rw [h4 i j (by omega) (by omega)]; rfl
  have hg : (emSetting M).rng.InUnit := by
    intro s k
    simp only [emSetting, le, one, tiny, XR.le, decide_eq_true_eq]
    exact ⟨pow_le_one₀ (by norm_num) (by norm_num), le_refl _⟩
  have hvt := validateTree_of_validate (runUtilities_ok h1).1
  have key := C70_draws exampleOps exampleOps_clean (emSetting M) hg (emModel env) _ rfl
    (⟨.state 5, 3, .category, true, 2, true, true⟩ : DiscreteArgs Nat V) _ (choices_eq (rel_after _ exampleOps_clean) hvt)
    (by intro conv h; cases h) _ _ rfl (by norm_num) u h1 (by norm_num) (by simp [emSetting]) (fun i hi j hj => ⟨_, hW i hi j hj⟩)
    2 (by norm_num) (by simp [emSetting]) out ho out' ho'
  rcases key with ⟨_, e⟩ | ⟨r, lsum, fr, lsum', terms, rfl, rfl, _, hd⟩
  · exfalso
    obtain ⟨fr, ls, nls, e', _⟩ := C20_run_stochastic_nested exampleOps exampleOps_clean exampleOps_depth (emSetting M) (emModel env) _ rfl
      none 2 true true true u h1 (by norm_num) (by simp [emSetting]) (fun i j => some (100 * (i + 1) + if j = 2 then 2 else 0)) hW (by
        intro i hi
        refine ⟨0, ?_, ?_, ?_⟩
        · rw [exampleOps_expected]; simp
        · rw [flat_leaf (rel_after _ exampleOps_clean) (by rw [exampleOps_expected]; simp) 0 (by rw [exampleOps_expected]; simp)]
          simp only [exampleOps_expected]
          simp [IsChild]
        · refine .top 0 ?_ (by simp)
          rw [exampleOps_expected]
          simp [Choices.tree]) out' ho'
    rw [e'] at e
    cases e
  · refine ⟨_, _, _, r, lsum, fr, lsum', terms, ho, ho', ?_⟩
    rw [h2] at hd
    exact hd

/-- C70_frequency, C70_exactly_one: a table with three columns -/
example : (MeasureTheory.volume {x : ℝ | DrawnBy [1/4, 1/2, 1/4] x 1} = ENNReal.ofReal (1/2)) ∧ DrawnBy [1/4, 1/2, 1/4] (3/5) 1 ∧
    ∃! j, j < 3 ∧ DrawnBy [1/4, 1/2, 1/4] (3/5) j := by
  refine ⟨C70_frequency [1/4, 1/2, 1/4] 1 (by simp), ?_, ?_⟩
  · constructor <;> norm_num
  · exact C70_exactly_one [1/4, 1/2, 1/4] (by intro x hx; simp at hx; rcases hx with rfl | rfl | rfl <;> norm_num) (by norm_num) _
      (by norm_num) (by norm_num)

end Cheval
