import Verif.Props.NestedLaws
import Verif.Props.WholeRuns
import Verif.Props.SubsetExamples

/-!
# C80 for whole calls of `run_stochastic`: the order in which choices were added does not matter
-/
namespace Cheval
open FOps Spec
variable {U U' R : Type}

/-- the same choices with the same logsum scales, added in whatever order -/
def Spec.SameChoices (s s' : Choices XR) : Prop :=
  ∀ path scale, (∃ r ∈ s.live, r.path = path ∧ r.scale = scale) ↔ ∃ r ∈ s'.live, r.path = path ∧ r.scale = scale

/-- the row of utilities, given by path -/
def utilRow (s : Choices XR) (V : List Name → Util) (k : Nat) : Util := match s.live[k]? with
  | none => none
  | some r => V r.path

/-- some elemental choice is available: neither its utility nor that of a nest around it is -inf -/
def Spec.Available (s : Choices XR) (V : List Name → Util) : Prop :=
  ∃ r ∈ s.live, (¬ ∃ c ∈ s.live, IsChild r c) ∧ ∀ q ∈ s.live, q.path <+: r.path → V q.path ≠ none

theorem utilRow_lt {s : Choices XR} {V : List Name → Util} {k : Nat} (hk : k < s.live.length) : utilRow s V k = V s.live[k].path := by
  simp [utilRow, hk]

section same
variable {s s' : Choices XR} {st st' : TreeSt XR}

theorem Spec.SameChoices.symm (h : SameChoices s s') : SameChoices s' s := fun p c => (h p c).symm

theorem Spec.SameChoices.path (h : SameChoices s s') {r : Rec XR} (hr : r ∈ s.live) :
    ∃ r' ∈ s'.live, r'.path = r.path ∧ r'.scale = r.scale := (h r.path r.scale).mp ⟨r, hr, rfl, rfl⟩

theorem Spec.SameChoices.depth (h : SameChoices s s') : s.depth = s'.depth := by
  have key : ∀ {a b : Choices XR}, SameChoices a b → a.depth ≤ b.depth := by
    intro a b hab
    refine a.depth_le fun r hr => ?_
    obtain ⟨r', hr', e, _⟩ := hab.path hr
    rw [← e]
    exact b.le_depth hr'
  exact le_antisymm (key h) (key h.symm)

theorem Spec.SameChoices.kids (h : SameChoices s s') {r r' : Rec XR} (e : r'.path = r.path) :
    (∃ c ∈ s'.live, IsChild r' c) ↔ ∃ c ∈ s.live, IsChild r c := by
  constructor
  · rintro ⟨c, hc, n, hn⟩
    obtain ⟨c', hc', e', _⟩ := h.symm.path hc
    exact ⟨c', hc', n, by rw [e', hn, e]⟩
  · rintro ⟨c, hc, n, hn⟩
    obtain ⟨c', hc', e', _⟩ := h.path hc
    exact ⟨c', hc', n, by rw [e', hn, e]⟩

theorem Spec.SameChoices.perm (h : SameChoices s s') (hr : TreeRel st s) (hr' : TreeRel st' s') :
    (s.live.map (·.path)).Perm (s'.live.map (·.path)) := by
  rw [List.perm_ext_iff_of_nodup hr.live_nodup hr'.live_nodup]
  intro p
  simp only [List.mem_map]
  constructor
  · rintro ⟨r, h1, rfl⟩; obtain ⟨r', h2, e, _⟩ := h.path h1; exact ⟨r', h2, e⟩
  · rintro ⟨r, h1, rfl⟩; obtain ⟨r', h2, e, _⟩ := h.symm.path h1; exact ⟨r', h2, e⟩

/-- where the choices of the first model are in the second -/
theorem same_positions (h : SameChoices s s') (hr : TreeRel st s) (hr' : TreeRel st' s') :
    ∃ σ : Equiv.Perm Nat, s'.live.length = s.live.length ∧ (∀ i, i < s.live.length ↔ σ i < s'.live.length) ∧
      ∀ i (hi : i < s.live.length), ∃ hj : σ i < s'.live.length, s'.live[σ i].path = s.live[i].path ∧
        s'.live[σ i].scale = s.live[i].scale := by
  have hlen : s'.live.length = s.live.length := by simpa using (h.perm hr hr').length_eq.symm
  have hpos : ∀ {a b : Choices XR} {ta tb : TreeSt XR}, SameChoices a b → TreeRel ta a → TreeRel tb b →
      ∀ i (hi : i < a.live.length), ∃ hj : posOf b a.live[i].path < b.live.length,
        b.live[posOf b a.live[i].path].path = a.live[i].path ∧ b.live[posOf b a.live[i].path].scale = a.live[i].scale := by
    intro a b ta tb hab _ hb i hi
    obtain ⟨r', hr', e1, e2⟩ := hab.path (List.getElem_mem hi)
    obtain ⟨k, hk, rfl⟩ := List.mem_iff_getElem.mp hr'
    have : posOf b a.live[i].path = k := by rw [← e1]; exact hb.posOf_getElem k hk
    refine ⟨by omega, ?_⟩
    simp only [this]
    exact ⟨e1, e2⟩
  have inv : ∀ {a b : Choices XR} {ta tb : TreeSt XR}, SameChoices a b → TreeRel ta a → TreeRel tb b →
      ∀ i (hi : i < a.live.length) (hj : posOf b a.live[i].path < b.live.length),
        posOf a b.live[posOf b a.live[i].path].path = i := by
    intro a b ta tb hab ha hb i hi hj
    rw [(hpos hab ha hb i hi).2.1]
    exact ha.posOf_getElem i hi
  let f : Nat → Nat := fun i => if hi : i < s.live.length then posOf s' s.live[i].path else i
  let g : Nat → Nat := fun i => if hi : i < s'.live.length then posOf s s'.live[i].path else i
  refine ⟨⟨f, g, fun i => ?_, fun i => ?_⟩, hlen, fun i => ?_, fun i hi => ?_⟩
  · by_cases hi : i < s.live.length
    · have h1 := (hpos h hr hr' i hi).1
      simp only [f, g, hi, dif_pos, h1]
      exact inv h hr hr' i hi h1
    · simp [f, g, hi, hlen]
  · by_cases hi : i < s'.live.length
    · have h1 := (hpos h.symm hr' hr i hi).1
      simp only [f, g, hi, dif_pos, h1]
      exact inv h.symm hr' hr i hi h1
    · have : ¬ i < s.live.length := by omega
      simp [f, g, hi, this]
  · show _ ↔ f i < _
    by_cases hi : i < s.live.length
    · simp only [f, hi, dif_pos, true_iff]; exact (hpos h hr hr' i hi).1
    · simp [f, hi, hlen]
  · obtain ⟨h1, h2⟩ := hpos h hr hr' i hi
    have e : f i = posOf s' s.live[i].path := by simp [f, hi]
    refine ⟨by show f i < _; rw [e]; exact h1, ?_⟩
    show s'.live[f i].path = _ ∧ s'.live[f i].scale = _
    simp only [e]
    exact h2

/-- the trees agree up to these positions -/
theorem same_tree (h : SameChoices s s') (hr : TreeRel st s) (hr' : TreeRel st' s') {σ : Equiv.Perm Nat}
    (hσ : ∀ i (hi : i < s.live.length), ∃ hj : σ i < s'.live.length, s'.live[σ i].path = s.live[i].path ∧
      s'.live[σ i].scale = s.live[i].scale) :
    (∀ i < s.live.length, s'.tree.parent (σ i) = (s.tree.parent i).map σ) ∧ ∀ i < s.live.length, s'.tree.θ (σ i) = s.tree.θ i := by
  classical
  refine ⟨fun i hi => ?_, fun i hi => ?_⟩
  · obtain ⟨hj, e1, _⟩ := hσ i hi
    simp only [Choices.tree, List.getElem?_eq_getElem hi, List.getElem?_eq_getElem hj, e1]
    by_cases hl : s.live[i].path.length ≤ 1
    · simp [hl]
    · simp only [if_neg hl, Option.map_some, Option.some.injEq]
      obtain ⟨q, hq, e, _⟩ := hr.parent_rec (List.getElem_mem hi) (by omega)
      obtain ⟨k, hk, rfl⟩ := List.mem_iff_getElem.mp hq
      obtain ⟨hjk, ek, _⟩ := hσ k hk
      have h1 : (s.live.map (·.path)).idxOf s.live[i].path.dropLast = k := by rw [← e]; exact hr.posOf_getElem k hk
      have h2 : (s'.live.map (·.path)).idxOf s.live[i].path.dropLast = σ k := by
        rw [← e, ← ek]; exact hr'.posOf_getElem (σ k) hjk
      rw [h1, h2]
  · obtain ⟨hj, e1, e2⟩ := hσ i hi
    simp only [Choices.tree, List.getElem?_eq_getElem hi, List.getElem?_eq_getElem hj, e2]
    have := h.kids (r := s.live[i]) (r' := s'.live[σ i]) e1
    by_cases hk : ∃ c ∈ s.live, IsChild s.live[i] c
    · rw [if_pos hk, if_pos (this.mpr hk)]
    · rw [if_neg hk, if_neg fun hh => hk (this.mp hh)]

/-- an available elemental choice, in terms of the tree -/
theorem open_of_available (hr : TreeRel st s) {V : List Name → Util} (ha : Available s V) :
    ∃ l < s.live.length, s.tree.Leaf l ∧ s.tree.Open (utilRow s V) l := by
  obtain ⟨r, hm, hnc, hav⟩ := ha
  obtain ⟨l, hl, rfl⟩ := List.mem_iff_getElem.mp hm
  have hne : s.live ≠ [] := List.ne_nil_of_mem hm
  refine ⟨l, hl, (flat_leaf hr hne l hl).mpr hnc, ?_⟩
  have key : ∀ n k (hk : k < s.live.length), s.live[k].path.length = n → s.live[k].path <+: s.live[l].path →
      s.tree.Open (utilRow s V) k := by
    intro n
    induction n with
    | zero => intro k hk e _; exact absurd (List.length_eq_zero_iff.mp e) (hr.live_ok (List.getElem_mem hk)).1
    | succ n ih =>
      intro k hk e hpre
      have hu : utilRow s V k ≠ none := by rw [utilRow_lt hk]; exact hav _ (List.getElem_mem hk) hpre
      by_cases hn : n = 0
      · exact .top k (by simp [Choices.tree, hk, e, hn]) hu
      · obtain ⟨q, hq, e', c, hc⟩ := hr.parent_rec (List.getElem_mem hk) (by omega)
        obtain ⟨p, hp, rfl⟩ := List.mem_iff_getElem.mp hq
        refine .child k p ?_ hu (ih p hp (by rw [e', List.length_dropLast, e]; rfl) ?_)
        · simp only [Choices.tree, List.getElem?_eq_getElem hk]
          rw [if_neg (by omega), ← e', ]
          exact congrArg some (hr.posOf_getElem p hp)
        · rw [e']; exact (List.dropLast_prefix _).trans hpre
  exact key _ l hl rfl (List.prefix_refl _)

theorem Spec.SameChoices.available (h : SameChoices s s') {V : List Name → Util} (ha : Available s V) : Available s' V := by
  obtain ⟨r, hm, hnc, hav⟩ := ha
  obtain ⟨r', hm', e, _⟩ := h.path hm
  refine ⟨r', hm', fun hh => hnc ((h.kids e).mp hh), fun q hq hpre => ?_⟩
  obtain ⟨q', hq', e', _⟩ := h.symm.path hq
  rw [← e']
  exact hav q' hq' (by rw [e', ← e]; exact hpre)

end same

open Classical in
/-- **C80 (order of additions)** Two models with the same choices and scales, added in different orders (or removed and added
again), whose utilities agree choice by choice, return the same probabilities, logsums and logsum terms label by label. -/
theorem C80_order (ops ops' : List (TreeOp XR)) (hc : CleanRun Choices.empty ops) (hc' : CleanRun Choices.empty ops')
    (hsame : SameChoices (expected ops) (expected ops')) (s s' : Setting XR R) (m m₁ : CModel U XR) (m' m₁' : CModel U' XR)
    (hm : m.tree = after ops) (hm' : m'.tree = after ops') (group group' : Option Nat) (threads threads' : Int)
    (clear clear' scaled check check' : Bool) (u u' : Tab XR) (hu : m.runUtilities s.K group clear = (m₁, .ok u))
    (hu' : m'.runUtilities s'.K group' clear' = (m₁', .ok u')) (h1 : 1 ≤ threads) (h2 : threads ≤ s.maxThreads)
    (h1' : 1 ≤ threads') (h2' : threads' ≤ s'.maxThreads) (hrows : u'.rows = u.rows) (V : Nat → List Name → Util)
    (hV : ∀ i < u.rows, ∀ j (_ : j < (expected ops).live.length), u.val i j = util (V i (expected ops).live[j].path))
    (hV' : ∀ i < u.rows, ∀ j (_ : j < (expected ops').live.length), u'.val i j = util (V i (expected ops').live[j].path))
    (hav : ∀ i < u.rows, Available (expected ops) (V i))
    (out : CModel U XR × Except Err (Frame XR × (Nat → XR) × Frame XR)) (h : RunStochastic s m group threads clear scaled check out)
    (out' : CModel U' XR × Except Err (Frame XR × (Nat → XR) × Frame XR))
    (h' : RunStochastic s' m' group' threads' clear' scaled check' out') :
    ∃ fr ls nls fr' ls' nls', out = (m₁, .ok (fr, ls, nls)) ∧ out' = (m₁', .ok (fr', ls', nls')) ∧
      (∀ l, l ∈ fr.cols ↔ l ∈ fr'.cols) ∧ (∀ l, l ∈ nls.cols ↔ l ∈ nls'.cols) ∧
      ∀ i < u.rows, ls i = ls' i ∧
        (∀ j j' (_ : j < fr.cols.length) (_ : j' < fr'.cols.length), fr.cols[j] = fr'.cols[j'] → fr.val i j = fr'.val i j') ∧
        ∀ j j' (_ : j < nls.cols.length) (_ : j' < nls'.cols.length), nls.cols[j] = nls'.cols[j'] → nls.val i j = nls'.val i j' := by
  have hr := rel_after ops hc
  have hr' := rel_after ops' hc'
  obtain ⟨hv, _, ht, _, _, labels, hl1, hl2⟩ := runUtilities_ok hu
  obtain ⟨hv', _, ht', _, _, labels', hl1', hl2'⟩ := runUtilities_ok hu'
  have hvt := validateTree_of_validate hv
  have hvt' := validateTree_of_validate hv'
  rw [hm] at hvt hl1
  rw [hm'] at hvt' hl1'
  have hch := choices_eq hr hvt
  have hch' := choices_eq hr' hvt'
  have hel := elemental_eq hr hvt
  have hel' := elemental_eq hr' hvt'
  have hcols : u.cols = (expected ops).live.length := by rw [hch] at hl1; cases hl1; simpa using hl2
  have hcols' : u'.cols = (expected ops').live.length := by rw [hch'] at hl1'; cases hl1'; simpa using hl2'
  have hne := live_ne_of_valid hr hvt
  have hne' := live_ne_of_valid hr' hvt'
  have hdep := hsame.depth
  obtain ⟨σ, hlen, hσ, hp⟩ := same_positions hsame hr hr'
  obtain ⟨hpar, hθ⟩ := same_tree hsame hr hr' hp
  set S := expected ops with hS
  set S' := expected ops' with hS'
  have hWu : ∀ i < u.rows, ∀ j < u.cols, u.val i j = util (utilRow S (V i) j) := by
    intro i hi j hj
    rw [hcols] at hj
    rw [hV i hi j hj, utilRow_lt hj]
  have hWu' : ∀ i < u'.rows, ∀ j < u'.cols, u'.val i j = util (utilRow S' (V i) j) := by
    intro i hi j hj
    rw [hcols'] at hj
    rw [hV' i (by omega) j hj, utilRow_lt hj]
  have hrow : ∀ i k, k < S.live.length → utilRow S' (V i) (σ k) = utilRow S (V i) k := by
    intro i k hk
    obtain ⟨hj, e, _⟩ := hp k hk
    rw [utilRow_lt hj, utilRow_lt hk, e]
  -- equal labels mean corresponding positions
  have hlab : ∀ k k' (hk : k < S.live.length) (hk' : k' < S'.live.length),
      pad S.depth S.live[k].path = pad S'.depth S'.live[k'].path → k' = σ k := by
    intro k k' hk hk' e
    obtain ⟨hj, e2, _⟩ := hp k hk
    rw [← e2, hdep] at e
    have hn := labels_nodup hr'
    have := (List.Nodup.getElem_inj_iff hn (i := σ k) (j := k') (hi := by simpa using hj) (hj := by simpa using hk')).mp (by simpa using e)
    exact this.symm
  have hmem : ∀ l, (l ∈ S.live.map fun r => pad S.depth r.path) ↔ l ∈ S'.live.map fun r => pad S'.depth r.path := by
    intro l
    simp only [List.mem_map, hdep]
    constructor
    · rintro ⟨r, a, rfl⟩; obtain ⟨r', b, e, _⟩ := hsame.path a; exact ⟨r', b, by rw [e]⟩
    · rintro ⟨r, a, rfl⟩; obtain ⟨r', b, e, _⟩ := hsame.symm.path a; exact ⟨r', b, by rw [e]⟩
  have hnls : ∀ c c' : List (List Name), (S.live.map fun r => pad S.depth r.path) = c → (S'.live.map fun r => pad S'.depth r.path) = c' →
      ∀ j j' (_ : j < c.length) (_ : j' < c'.length), c[j] = c'[j'] → j < S.live.length ∧ j' < S'.live.length ∧ j' = σ j := by
    rintro c c' rfl rfl j j' hj hj' e
    have hj1 : j < S.live.length := by simpa using hj
    have hj1' : j' < S'.live.length := by simpa using hj'
    exact ⟨hj1, hj1', hlab j j' hj1 hj1' (by simpa using e)⟩
  by_cases hd : 1 < S.depth
  · have hd' : 1 < S'.depth := by omega
    obtain ⟨fr, ls, nls, ho, c1, c2, hres⟩ := C20_run_stochastic_nested ops hc hd s m m₁ hm group threads clear scaled check u hu h1 h2
      (fun i => utilRow S (V i)) hWu (fun i hi => open_of_available hr (hav i hi)) out h
    obtain ⟨fr', ls', nls', ho', c1', c2', hres'⟩ := C20_run_stochastic_nested ops' hc' hd' s' m' m₁' hm' group' threads' clear' scaled
      check' u' hu' h1' h2' (fun i => utilRow S' (V i)) hWu'
      (fun i hi => open_of_available hr' (hsame.available (hav i (by omega)))) out' h'
    rw [hm, hel] at c1
    rw [hm', hel'] at c1'
    rw [hm, hch] at c2
    rw [hm', hch'] at c2'
    simp only [Except.ok.injEq] at c1 c1' c2 c2'
    refine ⟨fr, ls, nls, fr', ls', nls', ho, ho', fun l => ?_, fun l => ?_, fun i hi => ?_⟩
    · rw [← c1, ← c1']
      simp only [List.mem_map, List.mem_filter, decide_eq_true_eq]
      constructor
      · rintro ⟨r, ⟨a, b⟩, rfl⟩
        obtain ⟨r', a', e, _⟩ := hsame.path a
        exact ⟨r', ⟨a', fun hh => b ((hsame.kids e).mp hh)⟩, by rw [e, ← hdep]⟩
      · rintro ⟨r, ⟨a, b⟩, rfl⟩
        obtain ⟨r', a', e, _⟩ := hsame.symm.path a
        exact ⟨r', ⟨a', fun hh => b ((hsame.symm.kids e).mp hh)⟩, by rw [e, ← hdep]⟩
    · rw [← c2, ← c2']; exact hmem l
    · obtain ⟨T, P, sp, q1, q2, q3, _⟩ := hres i hi
      obtain ⟨T', P', sp', q1', q2', q3', _⟩ := hres' i (by omega)
      have wf := flat_wf hr hne
      have wf' := flat_wf hr' hne'
      have hsc := flat_scales hr
      have hsc' := flat_scales hr'
      obtain ⟨_, hcore, hsum⟩ := reorder_core wf hsc wf' hsc' σ hσ
        (by rw [flat_spec, flat_spec]; exact hpar) hθ scaled (utilRow S (V i)) (utilRow S' (V i)) (fun k hk => hrow i k hk)
      have un := IsNestedLogit_unique wf scaled _ (by rw [flat_spec]; exact sp) (nl_of wf hsc scaled (utilRow S (V i))).is
      have un' := IsNestedLogit_unique wf' scaled _ (by rw [flat_spec]; exact sp') (nl_of wf' hsc' scaled (utilRow S' (V i))).is
      have hTP : ∀ k < S.live.length, T' (σ k) = T k ∧ P' (σ k) = P k := by
        intro k hk
        obtain ⟨a, b⟩ := un k hk
        obtain ⟨a', b'⟩ := un' (σ k) ((hσ k).mp hk)
        rw [a, b, a', b']
        exact hcore k hk
      refine ⟨?_, ?_, ?_⟩
      · rw [q3, q3']
        congr 1
        rw [flat_spec, flat_spec] at hsum
        have a1 : ∑ k ∈ S.tree.tops, T k = ∑ k ∈ S.tree.tops, termR (flatUpto S S.live.length) scaled (utilRow S (V i)) k :=
          Finset.sum_congr rfl fun k hk => (un k (Finset.mem_range.mp (Finset.mem_filter.mp hk).1)).1
        have a2 : ∑ k ∈ S'.tree.tops, T' k = ∑ k ∈ S'.tree.tops, termR (flatUpto S' S'.live.length) scaled (utilRow S' (V i)) k :=
          Finset.sum_congr rfl fun k hk => (un' k (Finset.mem_range.mp (Finset.mem_filter.mp hk).1)).1
        exact a1.trans (hsum.symm.trans a2.symm)
      · intro j j' hj hj' e
        obtain ⟨k, hk, e1, _, e2⟩ := q1 j hj
        obtain ⟨k', hk', e1', _, e2'⟩ := q1' j' hj'
        rw [e1, e1'] at e
        rw [e2, e2', hlab k k' hk hk' e, (hTP k hk).2]
      · intro j j' hj hj' e
        obtain ⟨hk, hk', e⟩ := hnls nls.cols nls'.cols c2 c2' j j' hj hj' e
        rw [q2 j hk, q2' j' hk', e, (hTP j hk).1]
  · have hdf : S.depth ≤ 1 := by omega
    have hdf' : S'.depth ≤ 1 := by omega
    obtain ⟨fr, ls, nls, ho, c1, c2, hres⟩ := C20_run_stochastic_flat ops hc hdf s m m₁ hm group threads clear scaled check u hu h1
      h2 (fun i => utilRow S (V i)) hWu (fun i hi => by
        obtain ⟨r, hm, _, ha⟩ := hav i hi
        obtain ⟨k, hk, rfl⟩ := List.mem_iff_getElem.mp hm
        exact ⟨k, by omega, by rw [utilRow_lt hk]; exact ha _ hm (List.prefix_refl _)⟩) out h
    obtain ⟨fr', ls', nls', ho', c1', c2', hres'⟩ := C20_run_stochastic_flat ops' hc' hdf' s' m' m₁' hm' group' threads' clear'
      scaled check' u' hu' h1' h2' (fun i => utilRow S' (V i)) hWu' (fun i hi => by
        obtain ⟨r, hm, _, ha⟩ := hsame.available (hav i (by omega))
        obtain ⟨k, hk, rfl⟩ := List.mem_iff_getElem.mp hm
        exact ⟨k, by omega, by rw [utilRow_lt hk]; exact ha _ hm (List.prefix_refl _)⟩) out' h'
    rw [hm, hch] at c1 c2
    rw [hm', hch'] at c1' c2'
    simp only [Except.ok.injEq] at c1 c1' c2 c2'
    refine ⟨fr, ls, nls, fr', ls', nls', ho, ho', fun l => ?_, fun l => ?_, fun i hi => ?_⟩
    · rw [← c1, ← c1']; exact hmem l
    · rw [← c2, ← c2']; exact hmem l
    · obtain ⟨q1, q2⟩ := hres i hi
      obtain ⟨q1', q2'⟩ := hres' i (by omega)
      have hsum : ∑ j ∈ Finset.range u'.cols, expw (utilRow S' (V i) j) = ∑ j ∈ Finset.range u.cols, expw (utilRow S (V i) j) := by
        rw [hcols, hcols']
        symm
        refine Finset.sum_nbij σ (fun j hj => ?_) (fun _ _ _ _ e => σ.injective e) (fun k hk => ?_) fun j hj => ?_
        · exact Finset.mem_range.mpr ((hσ j).mp (Finset.mem_range.mp hj))
        · have hk' := Finset.mem_range.mp hk
          exact ⟨σ.symm k, Finset.mem_coe.mpr (Finset.mem_range.mpr ((hσ _).mpr (by simpa using hk'))), by simp⟩
        · rw [hrow i j (Finset.mem_range.mp hj)]
      rw [hsum] at q1' q2'
      refine ⟨by rw [q1, q1'], ?_, ?_⟩
      · intro j j' hj hj' e
        obtain ⟨hk, hk', e⟩ := hnls fr.cols fr'.cols c1 c1' j j' hj hj' e
        rw [(q2 j (by omega)).1, (q2' j' (by omega)).1, e, hrow i j hk]
      · intro j j' hj hj' e
        obtain ⟨hk, hk', e⟩ := hnls nls.cols nls'.cols c2 c2' j j' hj hj' e
        rw [(q2 j (by omega)).2, (q2' j' (by omega)).2, e, hrow i j hk]

section raise
variable {s : Choices XR} {st : TreeSt XR}

theorem tree_parent_iff (hr : TreeRel st s) {i p : Nat} (hi : i < s.live.length) :
    s.tree.parent i = some p ↔ ∃ hp : p < s.live.length, IsChild s.live[p] s.live[i] := by
  simp only [Choices.tree, List.getElem?_eq_getElem hi]
  constructor
  · intro e
    split at e
    · cases e
    · rename_i hl
      obtain ⟨q, hq, e', hc⟩ := hr.parent_rec (List.getElem_mem hi) (by omega)
      obtain ⟨k, hk, rfl⟩ := List.mem_iff_getElem.mp hq
      have h1 : (s.live.map (·.path)).idxOf s.live[i].path.dropLast = k := by rw [← e']; exact hr.posOf_getElem k hk
      rw [h1] at e
      obtain rfl := Option.some.inj e
      exact ⟨hk, hc⟩
  · rintro ⟨hp, n, hn⟩
    have h2 := List.length_pos_iff.mpr (hr.live_ok (List.getElem_mem hp)).1
    rw [if_neg (by rw [hn, List.length_append, List.length_singleton]; omega), hn, List.dropLast_concat]
    exact congrArg some (hr.posOf_getElem p hp)

/-- a node is above another if its path starts the other's -/
theorem above_iff_prefix (hr : TreeRel st s) {d : Nat} (hd : d < s.live.length) : ∀ {i : Nat} (hi : i < s.live.length),
    s.tree.Above d i ↔ s.live[d].path <+: s.live[i].path := by
  have key : ∀ n i (hi : i < s.live.length), s.live[i].path.length = n →
      (s.tree.Above d i ↔ s.live[d].path <+: s.live[i].path) := by
    intro n
    induction n with
    | zero => intro i hi e; exact absurd (List.length_eq_zero_iff.mp e) (hr.live_ok (List.getElem_mem hi)).1
    | succ n ih =>
      intro i hi e
      constructor
      · intro h
        cases h with
        | self => exact List.prefix_refl _
        | child _ p hp ha =>
          obtain ⟨hpl, c, hc⟩ := (tree_parent_iff hr hi).mp hp
          have := (ih p hpl (by rw [hc, List.length_append, List.length_singleton] at e; omega)).mp ha
          rw [hc]
          exact this.trans (List.prefix_append _ _)
      · intro h
        by_cases heq : s.live[d].path = s.live[i].path
        · have : d = i := by rw [← hr.posOf_getElem d hd, ← hr.posOf_getElem i hi, heq]
          rw [this]; exact .self
        · have hlen : 1 < s.live[i].path.length := by
            have h1 := List.length_pos_iff.mpr (hr.live_ok (List.getElem_mem hd)).1
            have h2 := h.length_le
            have h3 : s.live[d].path.length ≠ s.live[i].path.length := fun e => heq (h.eq_of_length e)
            omega
          obtain ⟨q, hq, e', c, hc⟩ := hr.parent_rec (List.getElem_mem hi) hlen
          obtain ⟨p, hp, rfl⟩ := List.mem_iff_getElem.mp hq
          refine .child i p ((tree_parent_iff hr hi).mpr ⟨hp, c, hc⟩) ((ih p hp ?_).mpr ?_)
          · rw [e', List.length_dropLast, e]; rfl
          · rw [hc] at h heq
            rcases List.prefix_concat_iff.mp h with h | h
            · exact absurd h heq
            · exact h
  intro i hi
  exact key _ i hi rfl

/-- `V'` is `V` with the utility of the choice or nest `d` raised, or made available -/
def Spec.RaisedAt (d : List Name) (V V' : List Name → Util) : Prop :=
  (∀ p, p ≠ d → V' p = V p) ∧ ∃ y, V' d = some y ∧ ∀ x, V d = some x → x ≤ y

theorem Spec.RaisedAt.available {d : List Name} {V V' : List Name → Util} (h : RaisedAt d V V') (ha : Available s V) : Available s V' := by
  obtain ⟨r, hm, hnc, hav⟩ := ha
  refine ⟨r, hm, hnc, fun q hq hp => ?_⟩
  by_cases e : q.path = d
  · obtain ⟨y, hy, _⟩ := h.2
    rw [e, hy]; simp
  · rw [h.1 _ e]; exact hav q hq hp

end raise

theorem leaf_above_self {t : Flat XR} {θ : Nat → ℝ} {scaled : Bool} {u : Nat → Util} {T P : Nat → ℝ} (m : NL t θ scaled u T P)
    {i x : Nat} (hl : (t.spec θ).Leaf i) (hx : (t.spec θ).Above i x) (hxn : x < t.n) : x = i := by
  induction hx with
  | self => rfl
  | child a b hab hb ih =>
    have := ih (m.parent_lt hxn hab).1
    subst this
    exact absurd hl (m.not_leaf_of_child hxn hab)

section raiseRun
variable (ops : List (TreeOp XR)) (hc : CleanRun Choices.empty ops) (hd : 1 < (expected ops).depth) (s s' : Setting XR R)
  (m m₁ : CModel U XR) (m' m₁' : CModel U' XR) (hm : m.tree = after ops) (hm' : m'.tree = after ops) (group group' : Option Nat)
  (threads threads' : Int) (clear clear' scaled check check' : Bool) (u u' : Tab XR)
  (hu : m.runUtilities s.K group clear = (m₁, .ok u)) (hu' : m'.runUtilities s'.K group' clear' = (m₁', .ok u'))
  (h1 : 1 ≤ threads) (h2 : threads ≤ s.maxThreads) (h1' : 1 ≤ threads') (h2' : threads' ≤ s'.maxThreads) (hrows : u'.rows = u.rows)
  (V V' : Nat → List Name → Util)
  (hV : ∀ i < u.rows, ∀ j (_ : j < (expected ops).live.length), u.val i j = util (V i (expected ops).live[j].path))
  (hV' : ∀ i < u.rows, ∀ j (_ : j < (expected ops).live.length), u'.val i j = util (V' i (expected ops).live[j].path))
  (hav : ∀ i < u.rows, Available (expected ops) (V i)) (d : Rec XR) (hdl : d ∈ (expected ops).live)
  (hraise : ∀ i < u.rows, RaisedAt d.path (V i) (V' i))
  (out : CModel U XR × Except Err (Frame XR × (Nat → XR) × Frame XR)) (h : RunStochastic s m group threads clear scaled check out)
  (out' : CModel U' XR × Except Err (Frame XR × (Nat → XR) × Frame XR))
  (h' : RunStochastic s' m' group' threads' clear' scaled check' out')
include hc hd hm hm' hu hu' h1 h2 h1' h2' hrows hV hV' hav hdl hraise h h'

open Classical in
/-- what the two calls return -/
private theorem raise_runs :
    ∃ fr ls nls fr' ls' nls', out = (m₁, .ok (fr, ls, nls)) ∧ out' = (m₁', .ok (fr', ls', nls')) ∧
      fr.cols = ((expected ops).live.filter fun r => decide (¬ ∃ c ∈ (expected ops).live, IsChild r c)).map
        (fun r => pad (expected ops).depth r.path) ∧ fr'.cols = fr.cols ∧
      ∃ δ, ∃ hδ : δ < (expected ops).live.length, (expected ops).live[δ] = d ∧
      ∀ i < u.rows, ∃ T P T' P', let t := flatUpto (expected ops) (expected ops).live.length
        NL t (expected ops).tree.θ scaled (utilRow (expected ops) (V i)) T P ∧
        NL t (expected ops).tree.θ scaled (utilRow (expected ops) (V' i)) T' P' ∧
        (∃ y, NL.Raised t.n (utilRow (expected ops) (V i)) (utilRow (expected ops) (V' i)) δ y) ∧
        ∀ j (_ : j < fr.cols.length), ∃ k, ∃ _ : k < (expected ops).live.length,
          fr.cols[j] = pad (expected ops).depth (expected ops).live[k].path ∧ (expected ops).tree.Leaf k ∧
          fr.val i j = .fin (P k) ∧ fr'.val i j = .fin (P' k) := by
  have hr := rel_after ops hc
  obtain ⟨hv, _, ht, _, _, labels, hl1, hl2⟩ := runUtilities_ok hu
  obtain ⟨hv', _, ht', _, _, labels', hl1', hl2'⟩ := runUtilities_ok hu'
  have hvt := validateTree_of_validate hv
  rw [hm] at hvt hl1
  rw [hm'] at hl1'
  have hch := choices_eq hr hvt
  have hel := elemental_eq hr hvt
  have hcols : u.cols = (expected ops).live.length := by rw [hch] at hl1; cases hl1; simpa using hl2
  have hcols' : u'.cols = (expected ops).live.length := by rw [hch] at hl1'; cases hl1'; simpa using hl2'
  have hne := live_ne_of_valid hr hvt
  have wf := flat_wf hr hne
  have hsc := flat_scales hr
  obtain ⟨δ, hδ, hδe⟩ := List.mem_iff_getElem.mp hdl
  obtain ⟨fr, ls, nls, ho, c1, c2, hres⟩ := C20_run_stochastic_nested ops hc hd s m m₁ hm group threads clear scaled check u hu h1 h2
    (fun i => utilRow (expected ops) (V i)) (fun i hi j hj => by rw [hV i hi j (by omega), utilRow_lt (by omega)])
    (fun i hi => open_of_available hr (hav i hi)) out h
  obtain ⟨fr', ls', nls', ho', c1', c2', hres'⟩ := C20_run_stochastic_nested ops hc hd s' m' m₁' hm' group' threads' clear' scaled
    check' u' hu' h1' h2' (fun i => utilRow (expected ops) (V' i)) (fun i hi j hj => by rw [hV' i (by omega) j (by omega), utilRow_lt (by omega)])
    (fun i hi => open_of_available hr ((hraise i (by omega)).available (hav i (by omega)))) out' h'
  rw [hm, hel] at c1
  rw [hm', hel] at c1'
  simp only [Except.ok.injEq] at c1 c1'
  refine ⟨fr, ls, nls, fr', ls', nls', ho, ho', c1.symm, by rw [← c1, ← c1'], δ, hδ, hδe, fun i hi => ?_⟩
  obtain ⟨T, P, sp, q1, _, _, _⟩ := hres i hi
  obtain ⟨T', P', sp', q1', _, _, _⟩ := hres' i (by omega)
  have mk : ∀ {W : Nat → Util} {T P : Nat → ℝ}, (expected ops).tree.IsNestedLogit scaled W T P →
      NL (flatUpto (expected ops) (expected ops).live.length) (expected ops).tree.θ scaled W T P := by
    intro W T P sp
    rw [← flat_spec] at sp
    refine ⟨wf, hsc, sp, fun k hk => ?_⟩
    rw [(IsNestedLogit_unique wf scaled _ sp (nl_of wf hsc scaled W).is k hk).1]
    exact (nl_of wf hsc scaled W).nonneg k hk
  obtain ⟨hsame, y, hy, hle⟩ := hraise i hi
  refine ⟨T, P, T', P', mk sp, mk sp', ⟨y, fun k hk hkd => ?_, ?_, fun x hx => ?_⟩, fun j hj => ?_⟩
  · have hk : k < (expected ops).live.length := hk
    rw [utilRow_lt hk, utilRow_lt hk]
    refine hsame _ fun e => hkd ?_
    rw [← hr.posOf_getElem k hk, ← hr.posOf_getElem δ hδ, e, hδe]
  · rw [utilRow_lt hδ, hδe, hy]
  · rw [utilRow_lt hδ, hδe] at hx
    exact hle x hx
  · obtain ⟨k, hk, e1, e2, e3⟩ := q1 j hj
    obtain ⟨k', hk', e1', _, e3'⟩ := q1' j (by rw [← c1', c1]; exact hj)
    refine ⟨k, hk, e1, e2, e3, ?_⟩
    have : k' = k := by
      have e : fr.cols[j] = fr'.cols[j]'(by rw [← c1', c1]; exact hj) := by congr 1; rw [← c1, ← c1']
      rw [e1, e1'] at e
      exact ((List.Nodup.getElem_inj_iff (labels_nodup hr) (i := k) (j := k') (hi := by simpa using hk)
        (hj := by simpa using hk')).mp (by simpa using e)).symm
    rw [e3', this]

/-- **C80 (own utility, whole calls)** If two calls of run_stochastic on models with the same nested choices differ only in the
utilities of one choice or nest `d`, raised in the second, no elemental choice `d` or inside `d` loses probability. -/
theorem C80_run_own :
    ∃ fr ls nls fr' ls' nls', out = (m₁, .ok (fr, ls, nls)) ∧ out' = (m₁', .ok (fr', ls', nls')) ∧ fr'.cols = fr.cols ∧
      ∀ i < u.rows, ∀ j (_ : j < fr.cols.length), ∀ r ∈ (expected ops).live, fr.cols[j] = pad (expected ops).depth r.path →
        d.path <+: r.path → realOf (fr.val i j) ≤ realOf (fr'.val i j) := by
  classical
  have hr := rel_after ops hc
  obtain ⟨fr, ls, nls, fr', ls', nls', ho, ho', hcol, hcol', δ, hδ, hδe, hrun⟩ := raise_runs ops hc hd s s' m m₁ m' m₁' hm hm' group
    group' threads threads' clear clear' scaled check check' u u' hu hu' h1 h2 h1' h2' hrows V V' hV hV' hav d hdl hraise out h out' h'
  refine ⟨fr, ls, nls, fr', ls', nls', ho, ho', hcol', fun i hi j hj r hrl hlab hpre => ?_⟩
  obtain ⟨T, P, T', P', n, n', ⟨y, hy⟩, hcell⟩ := hrun i hi
  obtain ⟨k, hk, e1, e2, e3, e4⟩ := hcell j hj
  rw [e3, e4]
  have hkr : (expected ops).live[k] = r := by
    rw [e1] at hlab
    exact List.inj_on_of_nodup_map (labels_nodup hr) (List.getElem_mem hk) hrl hlab
  refine n.raise_own n' hy hδ k hk (.inr ?_)
  rw [flat_spec, above_iff_prefix hr hδ hk, hδe, hkr]
  exact hpre

/-- **C80 (other utilities, whole calls)** … and no other elemental choice gains, provided (with scale_utilities) no nest around
`d` has a larger scale than the nest it is in. -/
theorem C80_run_cross_partial
    (hscale : scaled = true → ∀ r ∈ (expected ops).live, r.path <+: d.path → r.path ≠ d.path →
      ∀ q ∈ (expected ops).live, IsChild q r → realOf r.scale ≤ realOf q.scale) :
    ∃ fr ls nls fr' ls' nls', out = (m₁, .ok (fr, ls, nls)) ∧ out' = (m₁', .ok (fr', ls', nls')) ∧ fr'.cols = fr.cols ∧
      ∀ i < u.rows, ∀ j (_ : j < fr.cols.length), ∀ r ∈ (expected ops).live, fr.cols[j] = pad (expected ops).depth r.path →
        ¬ d.path <+: r.path → realOf (fr'.val i j) ≤ realOf (fr.val i j) := by
  classical
  have hr := rel_after ops hc
  obtain ⟨fr, ls, nls, fr', ls', nls', ho, ho', hcol, hcol', δ, hδ, hδe, hrun⟩ := raise_runs ops hc hd s s' m m₁ m' m₁' hm hm' group
    group' threads threads' clear clear' scaled check check' u u' hu hu' h1 h2 h1' h2' hrows V V' hV hV' hav d hdl hraise out h out' h'
  refine ⟨fr, ls, nls, fr', ls', nls', ho, ho', hcol', fun i hi j hj r hrl hlab hpre => ?_⟩
  obtain ⟨T, P, T', P', n, n', ⟨y, hy⟩, hcell⟩ := hrun i hi
  obtain ⟨k, hk, e1, e2, e3, e4⟩ := hcell j hj
  have hne : (expected ops).live ≠ [] := List.ne_nil_of_mem hrl
  rw [e3, e4]
  have hkr : (expected ops).live[k] = r := by
    rw [e1] at hlab
    exact List.inj_on_of_nodup_map (labels_nodup hr) (List.getElem_mem hk) hrl hlab
  have hnot : ¬ (expected ops).tree.Above δ k := by
    rw [above_iff_prefix hr hδ hk, hδe, hkr]; exact hpre
  refine n.raise_cross n' hy ?_ k hk ?_ (by rw [flat_spec]; exact hnot)
  · intro a ha hab had
    have ha : a < (expected ops).live.length := ha
    rw [flat_spec, above_iff_prefix hr ha hδ] at hab
    have hnot1 : ∀ (b : Nat) (hb : b < (expected ops).live.length), (expected ops).tree.θ b =
        if ∃ c ∈ (expected ops).live, IsChild (expected ops).live[b] c then realOf (expected ops).live[b].scale else 1 := by
      intro b hb
      simp only [Choices.tree, List.getElem?_eq_getElem hb]
    have hle1 : (expected ops).tree.θ a ≤ 1 := by
      rw [hnot1 a ha]
      split
      · exact (realOf_scale (hr.scale_ok _ (List.getElem_mem ha)).1 (hr.scale_ok _ (List.getElem_mem ha)).2).2.2
      · exact le_refl _
    show (expected ops).tree.θ a ≤ _
    rw [flat_spec]
    unfold Tree.θp
    cases hp : (expected ops).tree.parent a with
    | none => exact hle1
    | some q =>
      by_cases hsd : scaled = true
      · simp only [hsd, if_true]
        obtain ⟨hq, hcq⟩ := (tree_parent_iff hr ha).mp hp
        rw [hnot1 q hq, if_pos ⟨_, List.getElem_mem ha, hcq⟩, hnot1 a ha]
        rw [hδe] at hab
        have hne' : (expected ops).live[a].path ≠ d.path := by
          intro e
          apply had
          rw [← hr.posOf_getElem a ha, ← hr.posOf_getElem δ hδ, e, hδe]
        have hkid : ∃ c ∈ (expected ops).live, IsChild (expected ops).live[a] c := by
          by_contra hno
          have hleaf := (flat_leaf hr hne a ha).mpr hno
          have : (expected ops).tree.Above a δ := by rw [above_iff_prefix hr ha hδ, hδe]; exact hab
          rw [← flat_spec] at hleaf this
          exact had (leaf_above_self n hleaf this hδ).symm
        rw [if_pos hkid]
        exact hscale hsd _ (List.getElem_mem ha) hab hne' _ (List.getElem_mem hq) hcq
      · simp only [hsd]
        exact hle1
  · intro hab
    have hleaf := e2
    rw [← flat_spec] at hleaf
    have := leaf_above_self n hleaf hab hδ
    subst this
    exact hnot .self

end raiseRun

/-! ## concrete cases -/

/-- a model with the choices of `ops`, one decision unit, no expressions, and partial utilities given by path -/
noncomputable def byPath (ops : List (TreeOp XR)) (V : List Name → Util) : CModel Nat XR :=
  ⟨after ops, ExprGroup.empty, [], some [7], some ([7], ⟨1, (expected ops).live.length, fun _ j => util (utilRow (expected ops) V j)⟩), 8⟩

/-- its run returns these utilities -/
theorem byPath_run (ops : List (TreeOp XR)) (hc : CleanRun Choices.empty ops) (hv : validateTree (after ops) = .ok ())
    (V : List Name → Util) (K : Kernel XR) (env : PyEnv) : ∃ m' u, (byPath ops V).runUtilities K none false = (m', .ok u) ∧ u.rows = 1 ∧
      ∀ i < u.rows, ∀ j (_ : j < (expected ops).live.length), u.val i j = util (V (expected ops).live[j].path) := by
  have hcons : Consistent (byPath ops V) ((expected ops).live.map (·.path)) (expected ops).depth [7] := by
    refine ⟨rfl, labelled_after ops hc hv, (by intro e he; cases he), ?_⟩
    intro ix u h
    simp only [byPath, Option.some.injEq, Prod.mk.injEq] at h
    obtain ⟨-, rfl⟩ := h
    simp
  have hcont : (byPath ops V).container none = .ok ⟨[], [], []⟩ := by
    simp [CModel.container, byPath, ExprGroup.empty, ExprGroup.itersimple, ExprGroup.iterchained, ExprGroup.all]
  have hval : (byPath ops V).validate true true true true none = .ok () := by
    have ht : (byPath ops V).tree = after ops := rfl
    have hu : (byPath ops V).units = some [7] := rfl
    simp [CModel.validate, ht, hv, hcont, CModel.decisionUnits, hu, checkSymbols, bind, Except.bind]
  obtain ⟨ix, w, g1, g2, g3, -, -, g6⟩ := run_sound K hcons (Held.empty env emPy) hcont hval (srcs := []) .nil
    (by intro y hy; cases hy) (by intro i j _ _; rfl) false
  have hcell : ∀ i < w.rows, ∀ j (_ : j < (expected ops).live.length), w.val i j = util (V (expected ops).live[j].path) := by
    intro i hi j hj
    have := Option.some.inj (g3 i j (by rw [← g1]; exact hi) (by simpa using hj))
    rw [this]
    show util (utilRow (expected ops) V j) = _
    rw [utilRow_lt hj]
  have hn : hasNan w = false := by
    rw [Bool.eq_false_iff]
    intro hn
    obtain ⟨i, j, hi, hj, hx⟩ := (hasNan_iff w).mp hn
    rw [hcell i hi j (by rw [g2] at hj; simpa using hj)] at hx
    cases hV : V ((expected ops).live[j]'(by rw [g2] at hj; simpa using hj)).path <;>
      rw [hV] at hx <;> simp [util, isNan, XR.isNan] at hx
  rw [hn] at g6
  exact ⟨_, w, g6, by simpa using g1, hcell⟩

/-- the choices of the example model in another order: A, A.y, B, A.x -/
noncomputable def shuffledOps : List (TreeOp XR) :=
  [.addTop ['A'] (.fin (1 / 2)), .addChild 0 ['y'] one, .addTop ['B'] one, .addChild 0 ['x'] one]

theorem shuffledOps_expected : expected shuffledOps =
    ⟨[[['A']], [['A'], ['y']], [['B']], [['A'], ['x']]],
     [⟨0, [['A']], .fin (1 / 2)⟩, ⟨1, [['A'], ['y']], one⟩, ⟨2, [['B']], one⟩, ⟨3, [['A'], ['x']], one⟩]⟩ := by
  have h2 : (2:ℝ)⁻¹ ≤ 1 := by norm_num
  simp [shuffledOps, expected, Choices.run, Choices.step, Choices.add, Choices.empty, Legal, lt, le, zero, one, XR.lt, XR.le, h2]

theorem shuffledOps_clean : CleanRun Choices.empty shuffledOps := by
  have h2 : (2:ℝ)⁻¹ ≤ 1 := by norm_num
  simp [shuffledOps, CleanRun, Clean, CleanAdd, Choices.step, Choices.add, Choices.empty, Legal, lt, le, zero, one, XR.lt, XR.le, h2]

theorem shuffledOps_valid : validateTree (after shuffledOps) = .ok () := by
  rw [(C19_validate shuffledOps shuffledOps_clean).1, shuffledOps_expected]
  simp [Choices.kids, IsChild, List.filter_cons]

theorem shuffled_same : SameChoices (expected exampleOps) (expected shuffledOps) := by
  intro path scale
  rw [exampleOps_expected, shuffledOps_expected]
  simp only [List.mem_cons, List.not_mem_nil, or_false, exists_eq_or_imp, exists_eq_left]
  tauto

theorem example_available (V : List Name → Util) (hB : V [['B']] ≠ none) : Available (expected exampleOps) V := by
  rw [exampleOps_expected]
  refine ⟨⟨0, [['B']], one⟩, by simp, by simp [IsChild], ?_⟩
  intro q hq hp
  simp only [List.mem_cons, List.not_mem_nil, or_false] at hq
  rcases hq with rfl | rfl | rfl | rfl
  · exact hB
  · exact absurd hp (by decide)
  · exact absurd hp (by decide)
  · exact absurd hp (by decide)

/-- C80_order: whatever the utilities, as long as B is available, the two models give the same results -/
example (env : PyEnv) (M : Arith XR) (V : List Name → Util) (hB : V [['B']] ≠ none) :
    ∃ m₁ m₁' fr ls nls fr' ls' nls',
      RunStochastic (emSetting M) (byPath exampleOps V) none 2 false true true (m₁, .ok (fr, ls, nls)) ∧
      RunStochastic (emSetting M) (byPath shuffledOps V) none 3 false true false (m₁', .ok (fr', ls', nls')) ∧ ls 0 = ls' 0 ∧
      ∀ j j' (_ : j < fr.cols.length) (_ : j' < fr'.cols.length), fr.cols[j] = fr'.cols[j'] → fr.val 0 j = fr'.val 0 j' := by
  obtain ⟨m₁, u, hu, hr, hV⟩ := byPath_run exampleOps exampleOps_clean exampleOps_valid V (emKernel M) env
  obtain ⟨m₁', u', hu', hr', hV'⟩ := byPath_run shuffledOps shuffledOps_clean shuffledOps_valid V (emKernel M) env
  obtain ⟨out, ho⟩ := C12_run_stochastic_total (emSetting M) (byPath exampleOps V) none 2 false true true
  obtain ⟨out', ho'⟩ := C12_run_stochastic_total (emSetting M) (byPath shuffledOps V) none 3 false true false
  obtain ⟨fr, ls, nls, fr', ls', nls', rfl, rfl, _, _, h⟩ := C80_order exampleOps shuffledOps exampleOps_clean shuffledOps_clean shuffled_same
    (emSetting M) (emSetting M) (byPath exampleOps V) m₁ (byPath shuffledOps V) m₁' rfl rfl none none 2 3 false false true true false u u' hu hu'
    (by norm_num) (by simp [emSetting]) (by norm_num) (by simp [emSetting]) (by omega) (fun _ => V) hV
    (fun i hi => hV' i (by omega)) (fun i hi => example_available V hB) out ho out' ho'
  obtain ⟨e1, e2, _⟩ := h 0 (by omega)
  exact ⟨m₁, m₁', fr, ls, nls, fr', ls', nls', ho, ho', e1, e2⟩

/-- C80_run_own, C80_run_cross_partial: raising the utility of the nest A (its scale is 1/2) -/
example (env : PyEnv) (M : Arith XR) (V : List Name → Util) (hB : V [['B']] ≠ none) (x y : ℝ) (hx : V [['A']] = some x) (hxy : x ≤ y) :
    ∃ m₁ m₁' fr ls nls fr' ls' nls',
      RunStochastic (emSetting M) (byPath exampleOps V) none 2 false true true (m₁, .ok (fr, ls, nls)) ∧
      RunStochastic (emSetting M) (byPath exampleOps (Function.update V [['A']] (some y))) none 2 false true true
        (m₁', .ok (fr', ls', nls')) ∧
      (∀ j (_ : j < fr.cols.length), fr.cols[j] = [['A'], ['x']] → realOf (fr.val 0 j) ≤ realOf (fr'.val 0 j)) ∧
      ∀ j (_ : j < fr.cols.length), fr.cols[j] = [['B'], ['.']] → realOf (fr'.val 0 j) ≤ realOf (fr.val 0 j) := by
  set V' := Function.update V [['A']] (some y)
  obtain ⟨m₁, u, hu, hr, hV⟩ := byPath_run exampleOps exampleOps_clean exampleOps_valid V (emKernel M) env
  obtain ⟨m₁', u', hu', hr', hV'⟩ := byPath_run exampleOps exampleOps_clean exampleOps_valid V' (emKernel M) env
  obtain ⟨out, ho⟩ := C12_run_stochastic_total (emSetting M) (byPath exampleOps V) none 2 false true true
  obtain ⟨out', ho'⟩ := C12_run_stochastic_total (emSetting M) (byPath exampleOps V') none 2 false true true
  have hraise : RaisedAt [['A']] V V' := by
    refine ⟨fun p hp => Function.update_of_ne hp _ _, y, Function.update_self _ _ _, fun x' hx' => ?_⟩
    rw [hx] at hx'
    exact Option.some.inj hx' ▸ hxy
  have hdl : (⟨1, [['A']], .fin (1 / 2)⟩ : Rec XR) ∈ (expected exampleOps).live := by rw [exampleOps_expected]; simp
  obtain ⟨fr, ls, nls, fr', ls', nls', rfl, rfl, _, h⟩ := C80_run_own exampleOps exampleOps_clean exampleOps_depth
    (emSetting M) (emSetting M) (byPath exampleOps V) m₁ (byPath exampleOps V') m₁' rfl rfl none none 2 2 false false true true true u u' hu hu'
    (by norm_num) (by simp [emSetting]) (by norm_num) (by simp [emSetting]) (by omega) (fun _ => V) (fun _ => V') hV
    (fun i hi => hV' i (by omega)) (fun i hi => example_available V hB) _ hdl (fun _ _ => hraise) out ho out' ho'
  obtain ⟨fr2, ls2, nls2, fr2', ls2', nls2', e1, e2, _, h2⟩ := C80_run_cross_partial exampleOps exampleOps_clean exampleOps_depth
    (emSetting M) (emSetting M) (byPath exampleOps V) m₁ (byPath exampleOps V') m₁' rfl rfl none none 2 2 false false true true true u u' hu hu'
    (by norm_num) (by simp [emSetting]) (by norm_num) (by simp [emSetting]) (by omega) (fun _ => V) (fun _ => V') hV
    (fun i hi => hV' i (by omega)) (fun i hi => example_available V hB) _ hdl (fun _ _ => hraise) _ ho _ ho' (by
      intro _ r hr hp hne q hq hc
      exfalso
      obtain ⟨n, hn⟩ := hc
      have h1 := hp.length_le
      have h2 : q.path ≠ [] := ((rel_after _ exampleOps_clean).live_ok hq).1
      have h3 := List.length_pos_iff.mpr h2
      rw [hn, List.length_append, List.length_singleton] at h1
      have h4 : q.path.length + 1 ≤ 1 := h1
      omega)
  simp only [Prod.mk.injEq, Except.ok.injEq, true_and] at e1 e2
  obtain ⟨rfl, rfl, rfl⟩ := e1
  obtain ⟨rfl, rfl, rfl⟩ := e2
  refine ⟨m₁, m₁', fr, ls, nls, fr', ls', nls', ho, ho', fun j hj e => ?_, fun j hj e => ?_⟩
  · refine h 0 (by omega) j hj ⟨2, [['A'], ['x']], one⟩ (by rw [exampleOps_expected]; simp) ?_ (by simp)
    rw [e, exampleOps_expected]; simp [Choices.depth, pad]
  · refine h2 0 (by omega) j hj ⟨0, [['B']], one⟩ (by rw [exampleOps_expected]; simp) ?_ (by decide)
    rw [e, exampleOps_expected]; simp [Choices.depth, pad]

end Cheval
