import Verif.Props.SurplusRuns

/-!
# C82 for whole calls of `run_stochastic` on nested models
-/
set_option linter.unusedSectionVars false
namespace Cheval
open FOps Spec

variable {U U' R R' : Type} [DecidableEq U] [DecidableEq U'] [Inhabited R] [Inhabited R']

/-- the flattened tree of the choices a history leaves -/
noncomputable abbrev flatOf (ops : List (TreeOp XR)) : Flat XR := flatUpto (expected ops) (expected ops).live.length

section one
variable {ops : List (TreeOp XR)} {s : Setting XR R} {m : CModel U XR} {scaled check : Bool} {n : Nat} {V : Nat → List Name → Util}
  {fr nls : Frame XR} {ls : Nat → XR}

/-- the tables of a returned call, in terms of the textbook model of each row -/
theorem returned_nested (h : Returned ops s m scaled check n (fun i => utilRow (expected ops) (V i)) fr ls nls) (hd : 1 < (expected ops).depth)
    (hav : ∀ i < n, Available (expected ops) (V i)) :
    (flatOf ops).WF ∧ (flatOf ops).HasScales (expected ops).tree.θ ∧ ∀ i < n,
      ls i = .fin (∑ k ∈ (expected ops).tree.tops, termR (flatOf ops) scaled (utilRow (expected ops) (V i)) k) ∧
      ∀ j (_ : j < fr.cols.length), ∀ k (_ : k < (expected ops).live.length),
        fr.cols[j] = pad (expected ops).depth (expected ops).live[k].path → (expected ops).tree.Leaf k ∧
          fr.val i j = .fin (absR (flatOf ops) (expected ops).tree.θ scaled (utilRow (expected ops) (V i)) k) := by
  have hc := h.clean
  obtain ⟨m', u, group, threads, clear, hu, hrun, hrows, hW⟩ := h.call
  have hr := rel_after ops hc
  obtain ⟨hv, -⟩ := runUtilities_ok hu
  have hvt := validateTree_of_validate hv
  rw [h.tree] at hvt
  have wf := flat_wf hr (live_ne_of_valid hr hvt)
  have hsc := flat_scales hr
  obtain ⟨h1, h2⟩ := threads_of_ok hrun
  obtain ⟨fr', ls', nls', ho, -, -, hres⟩ := C20_run_stochastic_nested ops hc hd s m m' h.tree group threads clear scaled check u hu h1 h2
    (fun i => utilRow (expected ops) (V i)) hW (fun i hi => open_of_available hr (hav i (by omega))) _ hrun
  cases ho
  refine ⟨wf, hsc, fun i hi => ?_⟩
  obtain ⟨T, P, sp, hcell, -, hls, -⟩ := hres i (by omega)
  rw [← flat_spec] at sp
  have huniq := IsNestedLogit_unique wf scaled _ sp (nl_of wf hsc scaled _).is
  refine ⟨?_, fun j hj k hk e => ?_⟩
  · rw [hls]
    congr 1
    refine Finset.sum_congr rfl fun k hk => ?_
    rw [← flat_spec (expected ops)] at hk
    exact (huniq k (Finset.mem_range.mp (Finset.mem_filter.mp hk).1)).1
  · obtain ⟨k', hk', e1, e2, e3⟩ := hcell j hj
    have : k' = k := by
      rw [e] at e1
      exact ((List.Nodup.getElem_inj_iff (labels_nodup hr) (i := k) (j := k') (hi := by simpa using hk)
        (hj := by simpa using hk')).mp (by simpa using e1)).symm
    subst this
    exact ⟨e2, by rw [e3, (huniq k' hk').2]⟩

open Classical in
/-- the columns of the probabilities of a returned call -/
theorem returned_labels (h : Returned ops s m scaled check n (fun i => utilRow (expected ops) (V i)) fr ls nls) (hd : 1 < (expected ops).depth)
    (hav : ∀ i < n, Available (expected ops) (V i)) :
    fr.cols = ((expected ops).live.filter fun r => decide (¬ ∃ c ∈ (expected ops).live, IsChild r c)).map
      fun r => pad (expected ops).depth r.path := by
  obtain ⟨m', u, group, threads, clear, hu, hrun, hrows, hW⟩ := h.call
  have hr := rel_after ops h.clean
  obtain ⟨hv, -⟩ := runUtilities_ok hu
  have hvt := validateTree_of_validate hv
  rw [h.tree] at hvt
  obtain ⟨h1, h2⟩ := threads_of_ok hrun
  obtain ⟨fr', ls', nls', ho, c1, -, -⟩ := C20_run_stochastic_nested ops h.clean hd s m m' h.tree group threads clear scaled check u hu h1 h2
    (fun i => utilRow (expected ops) (V i)) hW (fun i hi => open_of_available hr (hav i (by omega))) _ hrun
  cases ho
  rw [h.tree, elemental_eq hr hvt] at c1
  simp only [Except.ok.injEq] at c1
  rw [← c1]
end one

/-- one utility changed: by choice and by position -/
theorem utilRow_update {ops : List (TreeOp XR)} (hc : CleanRun Choices.empty ops) (V : List Name → Util) {δ : Nat}
    (hδ : δ < (expected ops).live.length) (w : Util) :
    utilRow (expected ops) (Function.update V (expected ops).live[δ].path w) = Function.update (utilRow (expected ops) V) δ w := by
  have hr := rel_after ops hc
  funext k
  by_cases hk : k < (expected ops).live.length
  · rw [utilRow_lt hk]
    by_cases hkd : k = δ
    · subst hkd; rw [Function.update_self, Function.update_self]
    · rw [Function.update_of_ne hkd, utilRow_lt hk, Function.update_of_ne]
      intro e
      exact hkd (by rw [← hr.posOf_getElem k hk, ← hr.posOf_getElem δ hδ, e])
  · have hkd : k ≠ δ := by omega
    rw [Function.update_of_ne hkd]
    unfold utilRow
    rw [List.getElem?_eq_none (by omega)]

/-- a choice without an unavailable one around it is available, in terms of the tree -/
theorem open_of_path {st : TreeSt XR} {s : Choices XR} (hr : TreeRel st s) {V : List Name → Util} {l : Nat} (hl : l < s.live.length)
    (hav : ∀ q ∈ s.live, q.path <+: s.live[l].path → V q.path ≠ none) : s.tree.Open (utilRow s V) l := by
  have key : ∀ n k (hk : k < s.live.length), s.live[k].path.length = n → s.live[k].path <+: s.live[l].path →
      s.tree.Open (utilRow s V) k := by
    intro n
    induction n with
    | zero => intro k hk e _; exact absurd (List.length_eq_zero_iff.mp e) (hr.live_ok (List.getElem_mem hk)).1
    | succ n ih =>
      intro k hk e hpre
      have hu : utilRow s V k ≠ none := by rw [utilRow_lt hk]; exact hav _ (List.getElem_mem hk) hpre
      by_cases hn : n = 0
      · exact .top k (by simp [Choices.tree, hk, e, hn]) hu
      · obtain ⟨q, hq, e', c, hc⟩ := hr.parent_rec (List.getElem_mem hk) (by omega)
        obtain ⟨p, hp, rfl⟩ := List.mem_iff_getElem.mp hq
        refine .child k p ?_ hu (ih p hp (by rw [e', List.length_dropLast, e]; rfl) ?_)
        · simp only [Choices.tree, List.getElem?_eq_getElem hk]
          rw [if_neg (by omega), ← e', ]
          exact congrArg some (hr.posOf_getElem p hp)
        · rw [e']; exact (List.dropLast_prefix _).trans hpre
  exact key _ l hl rfl (List.prefix_refl _)

open Classical in
/-- the scales of the nests around a choice: by position and by name -/
theorem scales_around {ops : List (TreeOp XR)} {st : TreeSt XR} (hr : TreeRel st (expected ops)) (wf : (flatOf ops).WF)
    (hsc : (flatOf ops).HasScales (expected ops).tree.θ) {δ : Nat} (hδ : δ < (expected ops).live.length) :
    ∏ a ∈ (Finset.range (flatOf ops).n).filter (fun a => ((flatOf ops).spec (expected ops).tree.θ).Above a δ ∧ a ≠ δ), (expected ops).tree.θ a =
      ((expected ops).live.map fun r => if r.path <+: (expected ops).live[δ].path ∧ r.path ≠ (expected ops).live[δ].path then realOf r.scale else 1).prod := by
  have nl := nl_of wf hsc false fun _ => none
  rw [← Fin.prod_univ_fun_getElem, Finset.prod_filter]
  show ∏ a ∈ Finset.range (expected ops).live.length, _ = _
  rw [Finset.prod_range]
  refine Finset.prod_congr rfl fun a _ => ?_
  have ha : a.1 < (expected ops).live.length := a.2
  have h1 : ((flatOf ops).spec (expected ops).tree.θ).Above a.1 δ ↔ (expected ops).live[a.1].path <+: (expected ops).live[δ].path := by
    rw [flat_spec]; exact above_iff_prefix hr ha hδ
  have h2 : a.1 ≠ δ ↔ (expected ops).live[a.1].path ≠ (expected ops).live[δ].path := by
    refine not_congr ⟨fun hh => by simp only [hh], fun hh => ?_⟩
    rw [← hr.posOf_getElem a.1 ha, ← hr.posOf_getElem δ hδ, hh]
  by_cases hc : ((flatOf ops).spec (expected ops).tree.θ).Above a.1 δ ∧ a.1 ≠ δ
  · rw [if_pos hc]
    rw [if_pos (show _ ∧ _ from ⟨h1.mp hc.1, h2.mp hc.2⟩)]
    have hkid : ∃ c ∈ (expected ops).live, IsChild (expected ops).live[a.1] c := by
      by_contra hno
      refine hc.2 (leaf_above_self nl ?_ hc.1 hδ).symm
      rw [flat_spec]
      exact (flat_leaf hr (List.ne_nil_of_mem (List.getElem_mem hδ)) a.1 ha).mpr hno
    simp only [Choices.tree, List.getElem?_eq_getElem ha, if_pos hkid]
  · rw [if_neg hc]
    rw [if_neg (show ¬ (_ ∧ _) from fun hh => hc ⟨h1.mpr hh.1, h2.mpr hh.2⟩)]

section two
variable {ops : List (TreeOp XR)} {s : Setting XR R} {s' : Setting XR R'} {m : CModel U XR} {m' : CModel U' XR} {scaled check check' : Bool}
  {n n' : Nat} {V V' : Nat → List Name → Util} {fr fr' nls nls' : Frame XR} {ls ls' : Nat → XR}

/-- **C82 (run_stochastic, monotone)** Nested models: if the utilities of two decision units, of one call or of two, differ in one choice or nest, raised
for the second, the reported logsum of the second is at least that of the first. -/
theorem C82_run_monotone (h : Returned ops s m scaled check n (fun i => utilRow (expected ops) (V i)) fr ls nls)
    (h' : Returned ops s' m' scaled check' n' (fun i => utilRow (expected ops) (V' i)) fr' ls' nls') (hd : 1 < (expected ops).depth)
    (hav : ∀ i < n, Available (expected ops) (V i)) (hav' : ∀ i < n', Available (expected ops) (V' i)) (i i' : Nat) (hi : i < n) (hi' : i' < n')
    (d : Rec XR) (hdl : d ∈ (expected ops).live) (hraise : RaisedAt d.path (V i) (V' i')) :
    ∃ z z' : ℝ, ls i = .fin z ∧ ls' i' = .fin z' ∧ 0 < z ∧ z ≤ z' := by
  have hr := rel_after ops h.clean
  obtain ⟨wf, hsc, e⟩ := returned_nested h hd hav
  obtain ⟨-, -, e'⟩ := returned_nested h' hd hav'
  obtain ⟨δ, hδ, rfl⟩ := List.mem_iff_getElem.mp hdl
  obtain ⟨hsame, y, hy, hle⟩ := hraise
  refine ⟨_, _, (e i hi).1, (e' i' hi').1, ?_, ?_⟩
  · have := (nl_of wf hsc scaled (utilRow (expected ops) (V i))).feasible_iff
    rw [flat_spec] at this
    exact this.mpr (open_of_available hr (hav i hi))
  · have hrow : utilRow (expected ops) (V' i') = Function.update (utilRow (expected ops) (V i)) δ (some y) := by
      rw [← utilRow_update h.clean _ hδ]
      funext k
      by_cases hk : k < (expected ops).live.length
      · rw [utilRow_lt hk, utilRow_lt hk]
        by_cases hp : (expected ops).live[k].path = (expected ops).live[δ].path
        · rw [hp, Function.update_self, hy]
        · rw [Function.update_of_ne hp, hsame _ hp]
      · unfold utilRow
        rw [List.getElem?_eq_none (by omega)]
    rw [hrow]
    have hm := (nl_of wf hsc scaled (utilRow (expected ops) (V i))).raise_topSum
      (nl_of wf hsc scaled (Function.update (utilRow (expected ops) (V i)) δ (some y))) (d := δ) (y := y)
      ⟨fun k _ hk => by rw [Function.update_of_ne hk], by rw [Function.update_self], fun x hx => hle x (by rwa [utilRow_lt hδ] at hx)⟩
    rw [flat_spec] at hm
    exact hm

/-- **C82 (run_stochastic, common constant)** Nested models: if the utilities of the top-level choices and nests are higher by `c` for the second unit and
those inside nests are the same, the probabilities are the same and the composite utility (the logarithm of the logsum) is higher by `c`. -/
theorem C82_run_translation (h : Returned ops s m scaled check n (fun i => utilRow (expected ops) (V i)) fr ls nls)
    (h' : Returned ops s' m' scaled check' n' (fun i => utilRow (expected ops) (V' i)) fr' ls' nls') (hd : 1 < (expected ops).depth)
    (hav : ∀ i < n, Available (expected ops) (V i)) (hav' : ∀ i < n', Available (expected ops) (V' i)) (i i' : Nat) (hi : i < n) (hi' : i' < n')
    (c : ℝ) (hshift : ∀ r ∈ (expected ops).live, V' i' r.path = if r.path.length = 1 then (V i r.path).map (· + c) else V i r.path) :
    (∃ z z' : ℝ, ls i = .fin z ∧ ls' i' = .fin z' ∧ 0 < z ∧ 0 < z' ∧ Real.log z' = Real.log z + c) ∧
    ∀ j j' (_ : j < fr.cols.length) (_ : j' < fr'.cols.length), ∀ r ∈ (expected ops).live, fr.cols[j] = pad (expected ops).depth r.path →
      fr'.cols[j'] = pad (expected ops).depth r.path → fr'.val i' j' = fr.val i j := by
  have hr := rel_after ops h.clean
  obtain ⟨wf, hsc, e⟩ := returned_nested h hd hav
  obtain ⟨-, -, e'⟩ := returned_nested h' hd hav'
  obtain ⟨T', s1, htop⟩ := shifted_is wf hsc scaled (utilRow (expected ops) (V i)) c
  have hpos : 0 < ∑ k ∈ (expected ops).tree.tops, termR (flatOf ops) scaled (utilRow (expected ops) (V i)) k := by
    have := (nl_of wf hsc scaled (utilRow (expected ops) (V i))).feasible_iff
    rw [flat_spec] at this
    exact this.mpr (open_of_available hr (hav i hi))
  have hrow : (fun k => if ((flatOf ops).spec (expected ops).tree.θ).parent k = none then (utilRow (expected ops) (V i) k).map (· + c)
      else utilRow (expected ops) (V i) k) = utilRow (expected ops) (V' i') := by
    funext k
    by_cases hk : k < (expected ops).live.length
    · rw [flat_spec, utilRow_lt hk, utilRow_lt hk, hshift _ (List.getElem_mem hk)]
      have h2 : (expected ops).live[k].path.length ≠ 0 := fun e0 => (hr.live_ok (List.getElem_mem hk)).1 (List.length_eq_zero_iff.mp e0)
      have hpar : (expected ops).tree.parent k = none ↔ (expected ops).live[k].path.length = 1 := by
        simp only [Choices.tree, List.getElem?_eq_getElem hk]
        by_cases hp : (expected ops).live[k].path.length ≤ 1
        · rw [if_pos hp]
          exact ⟨fun _ => by omega, fun _ => rfl⟩
        · rw [if_neg hp]
          exact ⟨fun hh => (by cases hh), fun hh => by omega⟩
      by_cases hp : (expected ops).live[k].path.length = 1
      · rw [if_pos hp, if_pos (hpar.mpr hp)]
      · rw [if_neg hp, if_neg fun hh => hp (hpar.mp hh)]
    · have : ∀ V, utilRow (expected ops) V k = none := by
        intro V; unfold utilRow; rw [List.getElem?_eq_none (by omega)]
      rw [this, this]; simp
  rw [hrow] at s1
  have huniq := IsNestedLogit_unique wf scaled _ s1 (nl_of wf hsc scaled (utilRow (expected ops) (V' i'))).is
  refine ⟨⟨_, _, (e i hi).1, (e' i' hi').1, hpos, ?_⟩, ?_⟩
  · have hz : ∑ k ∈ (expected ops).tree.tops, termR (flatOf ops) scaled (utilRow (expected ops) (V' i')) k =
        Real.exp c * ∑ k ∈ (expected ops).tree.tops, termR (flatOf ops) scaled (utilRow (expected ops) (V i)) k := by
      rw [flat_spec] at htop
      rw [← htop]
      refine Finset.sum_congr rfl fun k hk => ?_
      rw [← flat_spec (expected ops)] at hk
      exact (huniq k (Finset.mem_range.mp (Finset.mem_filter.mp hk).1)).1.symm
    rw [hz]
    refine ⟨mul_pos (Real.exp_pos c) hpos, ?_⟩
    rw [Real.log_mul (Real.exp_pos c).ne' hpos.ne', Real.log_exp, add_comm]
  · intro j j' hj hj' r hrl e1 e1'
    obtain ⟨k, hk, rfl⟩ := List.mem_iff_getElem.mp hrl
    rw [((e i hi).2 j hj k hk e1).2, ((e' i' hi').2 j' hj' k hk e1').2, (huniq k hk).2]

end two

/-- **C82 (run_stochastic, slope)** Nested models, with scale_utilities: the probability reported for an available elemental choice is the slope of the
logarithm of the reported logsum in its utility. `Z y` is the logsum reported for every decision unit, in any call, whose utilities differ only in that the
choice has the utility `y`. -/
theorem C82_run_slope {ops : List (TreeOp XR)} {s : Setting XR R} {m : CModel U XR} {check : Bool} {n : Nat} {V : Nat → List Name → Util}
    {fr nls : Frame XR} {ls : Nat → XR}
    (h : Returned ops s m true check n (fun i => utilRow (expected ops) (V i)) fr ls nls) (hd : 1 < (expected ops).depth)
    (hav : ∀ i < n, Available (expected ops) (V i)) (i : Nat) (hi : i < n) (j : Nat) (hj : j < fr.cols.length)
    (d : Rec XR) (hdl : d ∈ (expected ops).live) (hlab : fr.cols[j] = pad (expected ops).depth d.path) (x : ℝ) (hx : V i d.path = some x)
    (hin : ∀ q ∈ (expected ops).live, q.path <+: d.path → V i q.path ≠ none) :
    ∃ Z : ℝ → ℝ, (∀ y, 0 < Z y) ∧ ls i = .fin (Z x) ∧ HasDerivAt (fun y => Real.log (Z y)) (realOf (fr.val i j)) x ∧
      ∀ (y : ℝ) (m' : CModel U XR) (s' : Setting XR R) (check' : Bool) (n' : Nat) (V' : Nat → List Name → Util) (fr' nls' : Frame XR) (ls' : Nat → XR),
        Returned ops s' m' true check' n' (fun i => utilRow (expected ops) (V' i)) fr' ls' nls' → (∀ i < n', Available (expected ops) (V' i)) →
        ∀ i' < n', V' i' = Function.update (V i) d.path (some y) → ls' i' = .fin (Z y) := by
  have hr := rel_after ops h.clean
  obtain ⟨wf, hsc, e⟩ := returned_nested h hd hav
  obtain ⟨δ, hδ, rfl⟩ := List.mem_iff_getElem.mp hdl
  obtain ⟨hl, hval⟩ := (e i hi).2 j hj δ hδ hlab
  have hrow : utilRow (expected ops) (V i) δ = some x := by rw [utilRow_lt hδ, hx]
  have hopen : ((flatOf ops).spec (expected ops).tree.θ).Open (utilRow (expected ops) (V i)) δ := by
    rw [flat_spec]
    exact open_of_path hr hδ fun q hq hp => hin q hq hp
  obtain ⟨Z, p, terms, z1, z2, z3, z4⟩ := C82_slope wf hsc true (utilRow (expected ops) (V i)) δ hδ (by rw [flat_spec]; exact hl) hopen x hrow
  have hself : Function.update (utilRow (expected ops) (V i)) δ (some x) = utilRow (expected ops) (V i) := by
    rw [← hrow, Function.update_eq_self]
  refine ⟨Z, z1, ?_, ?_, ?_⟩
  · rw [(e i hi).1, returned_logsum wf hsc z3, flat_spec]
  · rw [hval]
    show HasDerivAt _ (absR (flatOf ops) (expected ops).tree.θ true (utilRow (expected ops) (V i)) δ) x
    rw [← returned_prob (θ := (expected ops).tree.θ) wf hsc z3 hδ (by rw [flat_spec]; exact hl)]
    exact z4
  · intro y m' s' check' n' V' fr' nls' ls' h' hav' i' hi' hV
    obtain ⟨-, -, e'⟩ := returned_nested h' hd hav'
    obtain ⟨q, terms', hq⟩ := z2 y
    rw [(e' i' hi').1, returned_logsum wf hsc hq, flat_spec, hV, utilRow_update h.clean _ hδ]

open Classical in
/-- **C82 (run_stochastic, slope without scaling)** Nested models, scale_utilities=False: the slope is the reported probability times the scales of the nests
the choice is in. -/
theorem C82_run_slope_unscaled {ops : List (TreeOp XR)} {s : Setting XR R} {m : CModel U XR} {check : Bool} {n : Nat} {V : Nat → List Name → Util}
    {fr nls : Frame XR} {ls : Nat → XR}
    (h : Returned ops s m false check n (fun i => utilRow (expected ops) (V i)) fr ls nls) (hd : 1 < (expected ops).depth)
    (hav : ∀ i < n, Available (expected ops) (V i)) (i : Nat) (hi : i < n) (j : Nat) (hj : j < fr.cols.length)
    (d : Rec XR) (hdl : d ∈ (expected ops).live) (hlab : fr.cols[j] = pad (expected ops).depth d.path) (x : ℝ) (hx : V i d.path = some x)
    (hin : ∀ q ∈ (expected ops).live, q.path <+: d.path → V i q.path ≠ none) :
    ∃ Z : ℝ → ℝ, (∀ y, 0 < Z y) ∧ ls i = .fin (Z x) ∧
      HasDerivAt (fun y => Real.log (Z y)) (realOf (fr.val i j) *
        ((expected ops).live.map fun r => if r.path <+: d.path ∧ r.path ≠ d.path then realOf r.scale else 1).prod) x ∧
      ∀ (y : ℝ) (m' : CModel U XR) (s' : Setting XR R) (check' : Bool) (n' : Nat) (V' : Nat → List Name → Util) (fr' nls' : Frame XR) (ls' : Nat → XR),
        Returned ops s' m' false check' n' (fun i => utilRow (expected ops) (V' i)) fr' ls' nls' → (∀ i < n', Available (expected ops) (V' i)) →
        ∀ i' < n', V' i' = Function.update (V i) d.path (some y) → ls' i' = .fin (Z y) := by
  have hr := rel_after ops h.clean
  obtain ⟨wf, hsc, e⟩ := returned_nested h hd hav
  obtain ⟨δ, hδ, rfl⟩ := List.mem_iff_getElem.mp hdl
  obtain ⟨hl, hval⟩ := (e i hi).2 j hj δ hδ hlab
  have hrow : utilRow (expected ops) (V i) δ = some x := by rw [utilRow_lt hδ, hx]
  have hopen : ((flatOf ops).spec (expected ops).tree.θ).Open (utilRow (expected ops) (V i)) δ := by
    rw [flat_spec]
    exact open_of_path hr hδ fun q hq hp => hin q hq hp
  obtain ⟨Z, p, terms, z1, z2, z3, z4⟩ := C82_slope_unscaled wf hsc true (utilRow (expected ops) (V i)) δ hδ (by rw [flat_spec]; exact hl) hopen x hrow
  have hprod := scales_around hr wf hsc (ops := ops) hδ
  refine ⟨Z, z1, ?_, ?_, ?_⟩
  · rw [(e i hi).1, returned_logsum wf hsc z3, flat_spec]
  · rw [hval]
    show HasDerivAt _ (absR (flatOf ops) (expected ops).tree.θ false (utilRow (expected ops) (V i)) δ * _) x
    rw [← returned_prob (θ := (expected ops).tree.θ) wf hsc z3 hδ (by rw [flat_spec]; exact hl)]
    exact z4.congr_deriv (congrArg (p δ * ·) hprod)
  · intro y m' s' check' n' V' fr' nls' ls' h' hav' i' hi' hV
    obtain ⟨-, -, e'⟩ := returned_nested h' hd hav'
    obtain ⟨q, terms', hq⟩ := z2 y
    rw [(e' i' hi').1, returned_logsum wf hsc hq, flat_spec, hV, utilRow_update h.clean _ hδ]

/-! ## a case meeting the hypotheses -/

/-- the calls of the examples -/
theorem surplus_example_call (scaled : Bool) (env : PyEnv) (M : Arith XR) (V : List Name → Util) (hB : V [['B']] ≠ none) : ∃ fr ls nls,
    Returned exampleOps (emSetting M) (byPath exampleOps V) scaled true 1 (fun _ => utilRow (expected exampleOps) V) fr ls nls := by
  obtain ⟨m₁, u, hu, hr, hval⟩ := byPath_table exampleOps exampleOps_clean exampleOps_valid V (emKernel M) env
  obtain ⟨out, ho⟩ := C12_run_stochastic_total (emSetting M) (byPath exampleOps V) none 2 false scaled true
  obtain ⟨fr, ls, nls, e, -⟩ := (C10_run exampleOps exampleOps_clean exampleOps_depth (emSetting M) (byPath exampleOps V) m₁ rfl none 2 false
    scaled true u hu (by norm_num) (by simp [emSetting]) _ hval out ho).2 (by
      rintro ⟨-, i, hi, h⟩
      exact h ((example_reaches V).mpr (.inl hB)))
  subst e
  exact ⟨fr, ls, nls, exampleOps_clean, rfl, m₁, u, none, 2, false, hu, ho, hr, hval⟩

/-- C82_run_monotone and C82_run_translation for the example model: the utility of A.x rises from x to x'; A and B get 3 more -/
example (env : PyEnv) (M : Arith XR) (a b x x' y : ℝ) (hx : x ≤ x') : ∃ fr ls nls fr' ls' nls' fr'' ls'' nls'',
    Returned exampleOps (emSetting M) (byPath exampleOps fun p => if p = [['A']] then some a else if p = [['B']] then some b else
      if p = [['A'], ['x']] then some x else some y) true true 1 (fun _ => utilRow (expected exampleOps) fun p => if p = [['A']] then some a else
      if p = [['B']] then some b else if p = [['A'], ['x']] then some x else some y) fr ls nls ∧
    Returned exampleOps (emSetting M) (byPath exampleOps fun p => if p = [['A']] then some a else if p = [['B']] then some b else
      if p = [['A'], ['x']] then some x' else some y) true true 1 (fun _ => utilRow (expected exampleOps) fun p => if p = [['A']] then some a else
      if p = [['B']] then some b else if p = [['A'], ['x']] then some x' else some y) fr' ls' nls' ∧
    Returned exampleOps (emSetting M) (byPath exampleOps fun p => if p = [['A']] then some (a + 3) else if p = [['B']] then some (b + 3) else
      if p = [['A'], ['x']] then some x else some y) true true 1 (fun _ => utilRow (expected exampleOps) fun p => if p = [['A']] then some (a + 3)
      else if p = [['B']] then some (b + 3) else if p = [['A'], ['x']] then some x else some y) fr'' ls'' nls'' ∧
    ∃ z z' z'' : ℝ, ls 0 = .fin z ∧ ls' 0 = .fin z' ∧ ls'' 0 = .fin z'' ∧ z ≤ z' ∧ Real.log z'' = Real.log z + 3 := by
  have hne : ([['B']] : List Name) ≠ [['A']] := by decide
  have hne1 : ([['A'], ['x']] : List Name) ≠ [['A']] := by decide
  have hne2 : ([['A'], ['x']] : List Name) ≠ [['B']] := by decide
  obtain ⟨fr, ls, nls, h⟩ := surplus_example_call true env M (fun p => if p = [['A']] then some a else if p = [['B']] then some b else
      if p = [['A'], ['x']] then some x else some y) (by simp [hne])
  obtain ⟨fr', ls', nls', h'⟩ := surplus_example_call true env M (fun p => if p = [['A']] then some a else if p = [['B']] then some b else
      if p = [['A'], ['x']] then some x' else some y) (by simp [hne])
  obtain ⟨fr'', ls'', nls'', h''⟩ := surplus_example_call true env M (fun p => if p = [['A']] then some (a + 3) else if p = [['B']] then some (b + 3) else
      if p = [['A'], ['x']] then some x else some y) (by simp [hne])
  obtain ⟨z, z', e, e', -, hz⟩ := C82_run_monotone h h' exampleOps_depth (fun _ _ => example_available _ (by simp [hne]))
    (fun _ _ => example_available _ (by simp [hne])) 0 0 (by norm_num) (by norm_num) ⟨2, [['A'], ['x']], .fin 1⟩
    (by rw [exampleOps_expected]; simp) ⟨fun p hp => by
      have hp : p ≠ [['A'], ['x']] := hp
      simp [hp], x', by simp [hne1, hne2], fun w hw => by simp [hne1, hne2] at hw; linarith⟩
  obtain ⟨⟨z0, z'', e0, e'', -, -, hlog⟩, -⟩ := C82_run_translation h h'' exampleOps_depth (fun _ _ => example_available _ (by simp [hne]))
    (fun _ _ => example_available _ (by simp [hne])) 0 0 (by norm_num) (by norm_num) 3 (by
      rw [exampleOps_expected]
      simp)
  rw [e] at e0
  cases e0
  exact ⟨fr, ls, nls, fr', ls', nls', fr'', ls'', nls'', h, h', h'', z, z', z'', e, e', e'', hz, hlog⟩

/-- C82_run_slope for A.x in the example model: the column of A.x is there, and it holds the slope -/
example (env : PyEnv) (M : Arith XR) (a b x y : ℝ) : ∃ fr ls nls,
    Returned exampleOps (emSetting M) (byPath exampleOps fun p => if p = [['A']] then some a else if p = [['B']] then some b else
      if p = [['A'], ['x']] then some x else some y) true true 1 (fun _ => utilRow (expected exampleOps) fun p => if p = [['A']] then some a else
      if p = [['B']] then some b else if p = [['A'], ['x']] then some x else some y) fr ls nls ∧
    ∃ (j : Nat) (_ : j < fr.cols.length) (Z : ℝ → ℝ), fr.cols[j] = pad 2 [['A'], ['x']] ∧ ls 0 = .fin (Z x) ∧
      HasDerivAt (fun w => Real.log (Z w)) (realOf (fr.val 0 j)) x := by
  have hne : ([['B']] : List Name) ≠ [['A']] := by decide
  have hne1 : ([['A'], ['x']] : List Name) ≠ [['A']] := by decide
  have hne2 : ([['A'], ['x']] : List Name) ≠ [['B']] := by decide
  obtain ⟨fr, ls, nls, h⟩ := surplus_example_call true env M (fun p => if p = [['A']] then some a else if p = [['B']] then some b else
      if p = [['A'], ['x']] then some x else some y) (by simp [hne])
  have hav : ∀ i < 1, Available (expected exampleOps) ((fun _ => fun p => if p = [['A']] then some a else if p = [['B']] then some b else
      if p = [['A'], ['x']] then some x else some y : Nat → List Name → Util) i) := fun _ _ => example_available _ (by simp [hne])
  have hcols := returned_labels h exampleOps_depth hav
  have hmem : pad 2 [['A'], ['x']] ∈ fr.cols := by
    rw [hcols]
    refine List.mem_map.mpr ⟨⟨2, [['A'], ['x']], .fin 1⟩, List.mem_filter.mpr ⟨by rw [exampleOps_expected]; simp [FOps.one], ?_⟩, ?_⟩
    · rw [exampleOps_expected]
      simp [IsChild]
    · rw [exampleOps_expected]; rfl
  obtain ⟨j, hj, e⟩ := List.mem_iff_getElem.mp hmem
  obtain ⟨Z, -, h1, h2, -⟩ := C82_run_slope h exampleOps_depth hav 0 (by norm_num) j hj ⟨2, [['A'], ['x']], .fin 1⟩
    (by rw [exampleOps_expected]; simp [FOps.one]) (by rw [e, exampleOps_expected]; rfl) x (by simp [hne1, hne2]) (by
      intro q _ _
      show (if q.path = [['A']] then some a else if q.path = [['B']] then some b else if q.path = [['A'], ['x']] then some x else some y) ≠ none
      split_ifs <;> simp)
  exact ⟨fr, ls, nls, h, j, hj, Z, e, h1, h2⟩

/-- C82_run_slope_unscaled for A.x in the example model: the scale of A is 1/2 -/
example (env : PyEnv) (M : Arith XR) (a b x y : ℝ) : ∃ fr ls nls,
    Returned exampleOps (emSetting M) (byPath exampleOps fun p => if p = [['A']] then some a else if p = [['B']] then some b else
      if p = [['A'], ['x']] then some x else some y) false true 1 (fun _ => utilRow (expected exampleOps) fun p => if p = [['A']] then some a else
      if p = [['B']] then some b else if p = [['A'], ['x']] then some x else some y) fr ls nls ∧
    ∃ (j : Nat) (_ : j < fr.cols.length) (Z : ℝ → ℝ), fr.cols[j] = pad 2 [['A'], ['x']] ∧ ls 0 = .fin (Z x) ∧
      HasDerivAt (fun w => Real.log (Z w)) (realOf (fr.val 0 j) * (1 / 2)) x := by
  have hne : ([['B']] : List Name) ≠ [['A']] := by decide
  have hne1 : ([['A'], ['x']] : List Name) ≠ [['A']] := by decide
  have hne2 : ([['A'], ['x']] : List Name) ≠ [['B']] := by decide
  obtain ⟨fr, ls, nls, h⟩ := surplus_example_call false env M (fun p => if p = [['A']] then some a else if p = [['B']] then some b else
      if p = [['A'], ['x']] then some x else some y) (by simp [hne])
  have hav : ∀ i < 1, Available (expected exampleOps) ((fun _ => fun p => if p = [['A']] then some a else if p = [['B']] then some b else
      if p = [['A'], ['x']] then some x else some y : Nat → List Name → Util) i) := fun _ _ => example_available _ (by simp [hne])
  have hcols := returned_labels h exampleOps_depth hav
  have hmem : pad 2 [['A'], ['x']] ∈ fr.cols := by
    rw [hcols]
    refine List.mem_map.mpr ⟨⟨2, [['A'], ['x']], .fin 1⟩, List.mem_filter.mpr ⟨by rw [exampleOps_expected]; simp [FOps.one], ?_⟩, ?_⟩
    · rw [exampleOps_expected]
      simp [IsChild]
    · rw [exampleOps_expected]; rfl
  obtain ⟨j, hj, e⟩ := List.mem_iff_getElem.mp hmem
  obtain ⟨Z, -, h1, h2, -⟩ := C82_run_slope_unscaled h exampleOps_depth hav 0 (by norm_num) j hj ⟨2, [['A'], ['x']], .fin 1⟩
    (by rw [exampleOps_expected]; simp [FOps.one]) (by rw [e, exampleOps_expected]; rfl) x (by simp [hne1, hne2]) (by
      intro q _ _
      show (if q.path = [['A']] then some a else if q.path = [['B']] then some b else if q.path = [['A'], ['x']] then some x else some y) ≠ none
      split_ifs <;> simp)
  refine ⟨fr, ls, nls, h, j, hj, Z, e, h1, h2.congr_deriv ?_⟩
  congr 1
  rw [exampleOps_expected]
  have b1 : ¬ ([['B']] : List Name) <+: [['A'], ['x']] := by decide
  have b2 : ([['A']] : List Name) <+: [['A'], ['x']] := by decide
  have b3 : ([['A']] : List Name) ≠ [['A'], ['x']] := by decide
  have b4 : ¬ ([['A'], ['y']] : List Name) <+: [['A'], ['x']] := by decide
  simp [b1, b2, b4, realOf]

end Cheval
