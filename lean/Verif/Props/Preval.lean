import Verif.Props.NanUtil
import Mathlib.Data.List.Forall2
import Mathlib.Data.List.Perm.Basic

/-!
# C38, C39: pre-evaluating a group
-/
namespace Cheval
open Spec FOps
variable {U F : Type} [FOps F]

/-! ## histories keep the group names distinct -/

def DistinctGroups (g : ExprGroup) : Prop := (g.subgroups.map (·.1)).Nodup

theorem dictSet_nodup {K V : Type} [DecidableEq K] {d : List (K × V)} (h : (d.map (·.1)).Nodup) (k : K) (v : V) :
    ((dictSet d k v).map (·.1)).Nodup := by
  unfold dictSet
  split
  · have : (d.map fun e => if e.1 = k then (k, v) else e).map (·.1) = d.map (·.1) := by
      rw [List.map_map]
      apply List.map_congr_left
      intro e _
      simp only [Function.comp_apply]
      split
      · rename_i h; exact h.symm
      · rfl
    rw [this]; exact h
  · rename_i hk
    rw [List.map_append, List.nodup_append]
    exact ⟨h, by simp, by rintro a ha b hb rfl; simp at hb; subst hb; exact hk ha⟩

theorem distinctGroups_run (env : PyEnv) (py : PyParser) (g : ExprGroup) (hg : DistinctGroups g) (ops : List GroupOp) :
    DistinctGroups (groupRun env py g ops) := by
  unfold groupRun
  induction ops generalizing g with
  | nil => exact hg
  | cons op ops ih =>
    apply ih
    cases op with
    | append e k =>
      simp only [groupStep, ExprGroup.append]
      split
      · exact hg
      · split
        · exact dictSet_nodup hg _ _
        · exact hg
    | drop k =>
      simp only [groupStep, ExprGroup.dropGroup]
      split
      · exact hg
      · exact hg.sublist ((List.filter_sublist).map _)
    | clear => simp [groupStep, ExprGroup.clear, ExprGroup.empty, DistinctGroups]

theorem distinctGroups_copy (g : ExprGroup) (hg : DistinctGroups g) : DistinctGroups g.copy := by
  unfold DistinctGroups ExprGroup.copy
  rw [List.map_map]
  exact hg

/-! ## taking one group out -/

theorem dict_perm {K V : Type} [DecidableEq K] {d : List (K × V)} (hd : (d.map (·.1)).Nodup) {k : K} {v : V} (h : dictGet d k = some v) :
    d.Perm ((k, v) :: dictDel d k) := by
  induction d with
  | nil => cases h
  | cons e d ih =>
    rw [List.map_cons, List.nodup_cons] at hd
    rw [dictGet_cons] at h
    by_cases he : e.1 = k
    · simp only [he, if_true, Option.some.injEq] at h
      have hd' : dictDel (e :: d) k = d := by
        have : dictDel d k = d := dictDel_of_not_mem (he ▸ hd.1)
        unfold dictDel at this ⊢
        rw [List.filter_cons_of_neg (by simpa using he), this]
      rw [hd', ← h, ← he]
    · simp only [he, if_false] at h
      have hd' : dictDel (e :: d) k = e :: dictDel d k := by
        unfold dictDel
        rw [List.filter_cons_of_pos (by simpa using he)]
      rw [hd']
      exact ((ih hd.2 h).cons e).trans (.swap _ _ _)

theorem all_perm {g : ExprGroup} (hg : DistinctGroups g) {k : Nat} {sg : SubGroup} (h : dictGet g.subgroups k = some sg) :
    (sg.exprs ++ (g.dropGroup k).1.all).Perm g.all := by
  have hp := dict_perm hg h
  have h1 : (g.dropGroup k).1.all = g.ungrouped ++ (dictDel g.subgroups k).flatMap (·.2.exprs) := by
    simp [ExprGroup.dropGroup, h, ExprGroup.all]
  have h2 : (g.subgroups.flatMap (·.2.exprs)).Perm (sg.exprs ++ (dictDel g.subgroups k).flatMap (·.2.exprs)) := by
    have := hp.flatMap_right (·.2.exprs)
    simpa using this
  rw [h1]
  unfold ExprGroup.all
  refine List.Perm.trans ?_ (List.Perm.append_left _ h2.symm)
  rw [← List.append_assoc, ← List.append_assoc]
  exact List.Perm.append_right _ List.perm_append_comm

/-! ## deleting symbols -/

omit [FOps F] in
theorem delNames_get (scope : List (Str × Sym F)) (l : List Str) (y : Str) (s : Sym F) (h : dictGet (delNames scope l).1 y = some s) :
    dictGet scope y = some s := by
  induction l generalizing scope with
  | nil => exact h
  | cons x l ih =>
    unfold delNames at h
    split at h
    · have := ih _ h
      rw [dictGet_dictDel] at this
      split at this
      · cases this
      · exact this
    · exact h

omit [FOps F] in
theorem delNames_fits {n m : Nat} {scope : List (Str × Sym F)} (h : Fits n m scope) (l : List Str) : Fits n m (delNames scope l).1 :=
  fun e he => h e (delNames_sub scope l e he)

theorem checkSymbols_mono {scope : List (Str × Sym F)} {l l' : List Str} (h : checkSymbols scope true l = .ok ()) (hs : ∀ x ∈ l', x ∈ l) :
    checkSymbols scope true l' = .ok () := by
  have := checkSymbols_ok h
  have key : ∀ x ∈ l', x ∉ reserved → ∃ s, dictGet scope x = some s ∧ s.filled = true := fun x hx hr => by
    obtain ⟨s, h1, h2⟩ := this x (hs x hx) hr
    exact ⟨s, h1, h2 rfl⟩
  clear h this hs
  induction l' with
  | nil => rfl
  | cons x l' ih =>
    unfold checkSymbols
    split
    · exact ih (fun y hy => key y (by simp [hy]))
    · rename_i hr
      obtain ⟨s, h1, h2⟩ := key x (by simp) hr
      rw [h1]
      simp only [h2, Bool.not_true, Bool.and_false, Bool.false_eq_true, if_false]
      exact ih (fun y hy => key y (by simp [hy]))

/-- what `preval` does on a consistent model that validates: the kept table becomes the totals of the group's expressions; then
the symbols are deleted and the group is dropped -/
theorem preval_sound (K : Kernel F) {env : PyEnv} {py : PyParser} {m : CModel U F} {paths : List (List Name)} {depth : Nat}
    {units : List U} (hm : Consistent m paths depth units) (hheld : Held env py m.exprs) {k : Nat} {sg : SubGroup}
    (hk : dictGet m.exprs.subgroups k = some sg) (hv : m.validate true true true true (some k) = .ok ()) {srcs : List Source}
    (hready : List.Forall₂ (Ready env m.scope paths depth) srcs sg.exprs)
    (htab : ∀ y ∈ sg.simple, ∀ o ma al t, dictGet m.scope y ≠ some (.table o ma al t))
    (hval : ∀ i j (_ : i < units.length) (hj : j < paths.length), (cellTotal K m.scope paths[j] i j srcs (startAt m i j)).isSome)
    (drop clean : Bool) :
    ∃ u : Tab F, u.rows = units.length ∧ u.cols = paths.length ∧
      (∀ i j (_ : i < units.length) (hj : j < paths.length), some (u.val i j) = cellTotal K m.scope paths[j] i j srcs (startAt m i j)) ∧
      (hasNan u = true → (m.preval K k drop clean).2 = .error .utilityBounds) ∧
      (hasNan u = false → m.preval K k drop clean =
        (let d := if clean then delNames m.scope (toClear m.exprs sg) else (m.scope, .ok ())
         ({ m with cached := some (units, u), scope := d.1,
                   exprs := if drop && d.2.isOk then (m.exprs.dropGroup k).1 else m.exprs }, d.2))) := by
  have hc : m.container (some k) = .ok ⟨sg.simple, sg.chained, sg.exprs⟩ := by
    simp [CModel.container, ExprGroup.getGroup, hk, Except.map]
  have hr := runs_of_held hheld hc hready htab
  obtain ⟨hvt, _, hchk⟩ := validate_parts hc hv
  obtain ⟨ix, u, he, h1, h2, _, _, h3⟩ := evaluate_sound K hm hvt hr hchk hval
  have hg : m.exprs.getGroup k = .ok sg := by simp [ExprGroup.getGroup, hk]
  have hdrop : (m.exprs.dropGroup k).2 = .ok () := by simp [ExprGroup.dropGroup, hk]
  refine ⟨u, h1, h2, h3, ?_, ?_⟩
  · intro hn
    unfold CModel.preval
    simp only [hv, hg, he, hn, if_true]
  · intro hn
    unfold CModel.preval
    simp only [hv, hg, he, hn, Bool.false_eq_true, if_false, hm.unitsEq, Option.map_some]
    rcases (if clean = true then delNames m.scope (toClear m.exprs sg) else (m.scope, .ok ())) with ⟨sc, rd⟩
    cases rd with
    | error e => simp [Except.isOk, Except.toBool]
    | ok v => cases drop <;> simp [Except.isOk, Except.toBool, hdrop]

/-- adding NaN values keeps a NaN -/
theorem cellTotal_nan {K : Kernel F} (hK : NanAbsorbing K) (scope : List (Str × Sym F)) (p : List Name) (i j : Nat) (xs : List Source)
    (a b : F) (ha : isNan a = true) (h : cellTotal K scope p i j xs a = some b) : isNan b = true := by
  induction xs generalizing a with
  | nil => cases h; exact ha
  | cons x xs ih =>
    simp only [cellTotal, List.foldlM_cons, bind] at h
    rw [Option.bind_eq_some_iff] at h
    obtain ⟨c, h1, h2⟩ := h
    refine ih c ?_ h2
    unfold cellStep at h1
    split at h1
    · rw [Option.bind_eq_some_iff] at h1
      obtain ⟨v, _, hv⟩ := h1
      exact hK _ _ _ ha hv
    · cases h1; exact ha

/-- **C38** Pre-evaluating a group and then running the remaining expressions gives the utilities of one run of all expressions:
for every consistent, validated model (with or without utilities kept from before) whose expressions can be evaluated and do not
read `OUT`, every group of it, with or without clean-up, when addition is order free. If the model still validates after a
successful `preval`, the two runs agree in every cell and in their outcome. If `preval` reports NaN, so does the single run. -/
theorem C38_preval (K : Kernel F) (hK : OrderFree K) (hN : NanAbsorbing K) {env : PyEnv} {py : PyParser} {m : CModel U F}
    {paths : List (List Name)} {depth : Nat} {units : List U} (hm : Consistent m paths depth units) (hheld : Held env py m.exprs)
    (hgr : DistinctGroups m.exprs) (hres : ∀ n ∈ reserved, n ∉ m.scope.map (·.1)) {c : Container} (hc : m.container none = .ok c)
    (hv : m.validate true true true true none = .ok ()) {srcs : List Source}
    (hready : List.Forall₂ (Ready env m.scope paths depth) srcs c.exprs)
    (htab : ∀ y ∈ c.simple, ∀ o ma al t, dictGet m.scope y ≠ some (.table o ma al t))
    (hout : ∀ x ∈ srcs, ¬ Mentions outStr x.1)
    (hval : ∀ i j (_ : i < units.length) (hj : j < paths.length), (cellTotal K m.scope paths[j] i j srcs (startAt m i j)).isSome)
    (k : Nat) (hk : k ∈ m.exprs.subgroups.map (·.1)) (clean clear : Bool) :
    ((m.preval K k true clean).2 = .error .utilityBounds → (m.runUtilities K none clear).2 = .error .utilityBounds) ∧
    (∀ m1, m.preval K k true clean = (m1, .ok ()) → m1.validate true true true true none = .ok () →
      ∃ ix u ix' u', (m.runUtilities K none clear).1.cached = some (ix, u) ∧ (m1.runUtilities K none clear).1.cached = some (ix', u') ∧
        (∀ i j, i < units.length → j < paths.length → u.val i j = u'.val i j) ∧
        (((m.runUtilities K none clear).2 = .ok u ∧ (m1.runUtilities K none clear).2 = .ok u') ∨
         ((m.runUtilities K none clear).2 = .error .utilityBounds ∧ (m1.runUtilities K none clear).2 = .error .utilityBounds))) := by
  obtain ⟨sg, hsg⟩ := Option.isSome_iff_exists.mp ((dictGet_isSome_iff m.exprs.subgroups k).mpr hk)
  have hc' : c = ⟨m.exprs.itersimple, m.exprs.iterchained, m.exprs.all⟩ := by cases hc; rfl
  subst hc'
  -- the sources of the group and of the rest
  have hflip : List.Forall₂ (fun x src => Ready env m.scope paths depth src x) m.exprs.all srcs := hready.flip
  obtain ⟨w, hw, hwp⟩ := List.perm_comp_forall₂ (all_perm hgr hsg) hflip
  have hw1 := List.forall₂_take_append w sg.exprs (m.exprs.dropGroup k).1.all hw.flip
  have hw2 := List.forall₂_drop_append w sg.exprs (m.exprs.dropGroup k).1.all hw.flip
  set w1 := w.take sg.exprs.length with hw1d
  set w2 := w.drop sg.exprs.length with hw2d
  have hww : w = w1 ++ w2 := (List.take_append_drop _ _).symm
  have hsplit : ∀ p i j st, cellTotal K m.scope p i j srcs st =
      (cellTotal K m.scope p i j w1 st).bind (cellTotal K m.scope p i j w2) := by
    intro p i j st
    rw [cellTotal_perm K hK m.scope p i j hwp.symm hout st, hww, cellTotal_append]
  -- validation of the group
  have hmem := dictGet_mem hsg
  obtain ⟨hvt, _, hchk⟩ := validate_parts hc hv
  have hvk : m.validate true true true true (some k) = .ok () := by
    have : checkSymbols m.scope true (sg.simple ++ sg.chained) = .ok () := by
      apply checkSymbols_mono hchk
      intro x hx
      rcases List.mem_append.mp hx with hx | hx
      · exact List.mem_append_left _ (List.mem_append_right _ (List.mem_flatMap.mpr ⟨_, hmem, hx⟩))
      · exact List.mem_append_right _ (List.mem_append_right _ (List.mem_flatMap.mpr ⟨_, hmem, hx⟩))
    simp [CModel.validate, bind, Except.bind, hvt, CModel.decisionUnits, hm.unitsEq, CModel.container, ExprGroup.getGroup, hsg,
      Except.map, this]
  have htab1 : ∀ y ∈ sg.simple, ∀ o ma al t, dictGet m.scope y ≠ some (.table o ma al t) := by
    intro y hy
    exact htab y (List.mem_append_right _ (List.mem_flatMap.mpr ⟨_, hmem, hy⟩))
  have hval1 : ∀ i j (_ : i < units.length) (hj : j < paths.length), (cellTotal K m.scope paths[j] i j w1 (startAt m i j)).isSome := by
    intro i j hi hj
    have := hval i j hi hj
    rw [hsplit] at this
    cases h : cellTotal K m.scope paths[j] i j w1 (startAt m i j) with
    | none => rw [h] at this; cases this
    | some v => rfl
  obtain ⟨u0, hu1, hu2, hu3, hu4, hu5⟩ := preval_sound K hm hheld hsg hvk hw1 htab1 hval1 true clean
  obtain ⟨ix, u, hr1, hr2, hr3, _, _, hr6⟩ := run_sound K hm hheld hc hv hready htab hval clear
  have hcell : ∀ i j (hi : i < units.length) (hj : j < paths.length),
      some (u.val i j) = cellTotal K m.scope paths[j] i j w2 (u0.val i j) := by
    intro i j hi hj
    rw [hr3 i j hi hj, hsplit, ← hu3 i j hi hj]; rfl
  constructor
  · intro hp
    have hn : hasNan u0 = true := by
      by_contra hh
      have hh' : hasNan u0 = false := by simpa using hh
      rw [hu5 hh'] at hp
      simp only at hp
      cases clean with
      | false => simp at hp
      | true =>
        simp only [if_true] at hp
        have : ∀ (l : List Str) (sc : List (Str × Sym F)), (delNames sc l).2 ≠ .error .utilityBounds := by
          intro l
          induction l with
          | nil => intro sc h; cases h
          | cons x l ih =>
            intro sc h
            unfold delNames at h
            split at h
            · exact ih _ h
            · cases h
        exact this _ _ hp
    obtain ⟨i, j, hi, hj, hni⟩ := (hasNan_iff u0).mp hn
    rw [hu1] at hi; rw [hu2] at hj
    have hn2 : isNan (u.val i j) = true := cellTotal_nan hN m.scope paths[j] i j w2 _ _ hni (hcell i j hi hj).symm
    have : hasNan u = true := (hasNan_iff u).mpr ⟨i, j, hr1 ▸ hi, hr2 ▸ hj, hn2⟩
    rw [hr6, if_pos this]
  · intro m1 hp hv1
    have hn : hasNan u0 = false := by
      by_contra hh
      have := hu4 (by simpa using hh)
      rw [hp] at this; cases this
    have hpe := hu5 hn
    rw [hp] at hpe
    set d := (if clean = true then delNames m.scope (toClear m.exprs sg) else (m.scope, .ok ())) with hd
    simp only [Prod.mk.injEq] at hpe
    obtain ⟨hm1, hd2⟩ := hpe
    rw [← hd2] at hm1
    simp only [Except.isOk, Except.toBool, Bool.and_self, if_true] at hm1
    have hget : ∀ y s, dictGet d.1 y = some s → dictGet m.scope y = some s := by
      intro y s h
      cases clean with
      | false => simpa [hd] using h
      | true => rw [hd] at h; simp only [if_true] at h; exact delNames_get _ _ _ _ h
    have hfit : Fits units.length paths.length d.1 := by
      cases clean with
      | false => simpa [hd] using hm.fits
      | true => rw [hd]; simp only [if_true]; exact delNames_fits hm.fits _
    have hcons : Consistent m1 paths depth units := by
      rw [hm1]
      exact ⟨hm.unitsEq, hm.choices, hfit, by rintro ix' u' h; cases h; exact ⟨hu1, hu2⟩⟩
    have hheld1 : Held env py m1.exprs := by
      rw [hm1]
      have := hheld.step (.drop k)
      simpa [groupStep] using this
    have hsc1 : m1.scope = d.1 := by rw [hm1]
    have hex1 : m1.exprs = (m.exprs.dropGroup k).1 := by rw [hm1]
    have hst1 : ∀ i j, startAt m1 i j = u0.val i j := by intro i j; rw [hm1]; rfl
    have hc1 : m1.container none = .ok ⟨m1.exprs.itersimple, m1.exprs.iterchained, m1.exprs.all⟩ := rfl
    obtain ⟨_, _, hchk1⟩ := validate_parts hc1 hv1
    obtain ⟨hrec1, hrec2, _⟩ := container_recorded hheld1 hc1
    have hagree : ∀ y, y ∈ m1.exprs.itersimple ++ m1.exprs.iterchained → y ∉ reserved → dictGet m.scope y = dictGet m1.scope y := by
      intro y hy hr
      obtain ⟨s, hs, _⟩ := checkSymbols_ok hchk1 y hy hr
      rw [hs, hget y s (hsc1 ▸ hs)]
    have hnotres : ∀ x ∈ m1.exprs.all, ∀ src, Ready env m.scope paths depth src x → ∀ y ∈ x.chains.map (·.1),
        (∃ ls sub ch, (y, ls) ∈ x.chains ∧ (sub, ch) ∈ ls) → y ∉ reserved := by
      rintro x _ src hrd y _ ⟨ls, sub, ch, h1, h2⟩ hyr
      have := (hrd.lookups y ls sub ch h1 h2).1
      have hnone : dictGet m.scope y = none := dictGet_eq_none.mpr (hres y hyr)
      simp [lookupCol, hnone] at this
    have hready1 : List.Forall₂ (Ready env m1.scope paths depth) w2 m1.exprs.all := by
      rw [hex1] at hrec1 hrec2 hagree hnotres ⊢
      have : ∀ src x, x ∈ (m.exprs.dropGroup k).1.all → Ready env m.scope paths depth src x → Ready env m1.scope paths depth src x := by
        intro src x hx h
        refine ⟨h.parsed, h.plain, h.filter, h.clash, h.internal, ?_, h.dicts⟩
        intro t ls sub ch h1 h2
        have ht : t ∈ x.chains.map (·.1) := List.mem_map.mpr ⟨_, h1, rfl⟩
        have := h.lookups t ls sub ch h1 h2
        refine ⟨?_, this.2⟩
        have hag := hagree t (List.mem_append_right _ (hrec2 x hx t ht)) (hnotres x hx src h t ht ⟨ls, sub, ch, h1, h2⟩)
        unfold lookupCol at this ⊢
        rw [← hag]; exact this.1
      clear hcell hsplit hval1 hu3 hu5 hww
      generalize (m.exprs.dropGroup k).1.all = xs at hw2 this
      clear_value w2; clear hw2d
      induction hw2 with
      | nil => exact .nil
      | cons h _ ih => exact .cons (this _ _ (by simp) h) (ih (fun s x hx => this s x (by simp [hx])))
    have htab2 : ∀ y ∈ m1.exprs.itersimple, ∀ o ma al t, dictGet m1.scope y ≠ some (.table o ma al t) := by
      intro y hy o ma al t h
      have hy' : y ∈ m.exprs.itersimple := by
        rw [hex1] at hy
        simp only [ExprGroup.dropGroup, hsg, ExprGroup.itersimple] at hy ⊢
        rcases List.mem_append.mp hy with hy | hy
        · exact List.mem_append_left _ hy
        · obtain ⟨e, he, hy⟩ := List.mem_flatMap.mp hy
          exact List.mem_append_right _ (List.mem_flatMap.mpr ⟨e, mem_dictDel he, hy⟩)
      exact htab y hy' o ma al t (hget y _ (hsc1 ▸ h))
    have hreads : ∀ p i j cur, cellTotal K m.scope p i j w2 cur = cellTotal K m1.scope p i j w2 cur := by
      intro p i j cur
      have hpp : List.Forall₂ (fun src x => Parsed env src x ∧ Plain env src.1) w2 m1.exprs.all :=
        hready1.imp fun _ _ h => ⟨h.parsed, h.plain⟩
      refine cellTotal_reads K hpp ?_ ?_ p i j cur
      · intro x hx n hn hr
        exact hagree n (List.mem_append_left _ (hrec1 x hx n hn)) hr
      · intro x hx n hn
        by_cases hr : n ∈ reserved
        · have hnone : dictGet m.scope n = none := dictGet_eq_none.mpr (hres n hr)
          have hnone1 : dictGet m1.scope n = none := by
            cases h : dictGet m1.scope n with
            | none => rfl
            | some s => rw [hget n s (hsc1 ▸ h)] at hnone; cases hnone
          rw [hnone, hnone1]
        · exact hagree n (List.mem_append_right _ (hrec2 x hx n hn)) hr
    have hval2 : ∀ i j (_ : i < units.length) (hj : j < paths.length), (cellTotal K m1.scope paths[j] i j w2 (startAt m1 i j)).isSome := by
      intro i j hi hj
      rw [hst1, ← hreads, ← hcell i j hi hj]; rfl
    obtain ⟨ix', u', hq1, hq2, hq3, _, _, hq6⟩ := run_sound K hcons hheld1 hc1 hv1 hready1 htab2 hval2 clear
    have heq : ∀ i j, i < units.length → j < paths.length → u.val i j = u'.val i j := by
      intro i j hi hj
      have := hq3 i j hi hj
      rw [hst1, ← hreads, ← hcell i j hi hj] at this
      exact (Option.some.inj this).symm
    have hnn : hasNan u = hasNan u' := by
      rw [Bool.eq_iff_iff, hasNan_iff, hasNan_iff, hr1, hr2, hq1, hq2]
      constructor
      · rintro ⟨i, j, hi, hj, h⟩; exact ⟨i, j, hi, hj, by rw [← heq i j hi hj]; exact h⟩
      · rintro ⟨i, j, hi, hj, h⟩; exact ⟨i, j, hi, hj, by rw [heq i j hi hj]; exact h⟩
    refine ⟨ix, u, ix', u', ?_, ?_, heq, ?_⟩
    · rw [hr6]; split <;> rfl
    · rw [hq6]; split <;> rfl
    · cases hh : hasNan u with
      | true => right; rw [hr6, hq6, ← hnn, hh]; exact ⟨rfl, rfl⟩
      | false => left; rw [hr6, hq6, ← hnn, hh]; exact ⟨rfl, rfl⟩

end Cheval
