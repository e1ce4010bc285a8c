import Verif.Props.Preval

/-!
# C39: the scope after `preval`
-/
namespace Cheval
open Spec FOps
variable {U F : Type} [FOps F]

theorem toClear_mem {g : ExprGroup} {sg : SubGroup} {x : Str} (h : x ∈ toClear g sg) :
    (x ∈ sg.simple ∨ x ∈ sg.chained) ∧ x ∉ g.simple ∧ x ∉ g.chained := by
  unfold toClear at h
  simp only [List.mem_dedup, List.mem_filter, List.mem_append, decide_eq_true_eq] at h
  obtain ⟨h1, h2, _⟩ := h
  push Not at h2
  exact ⟨h1.symm, h2.2, h2.1⟩

/-- on a container that has not been copied nothing is cleared -/
theorem toClear_nil {g : ExprGroup} (hg : GroupInv g) {k : Nat} {sg : SubGroup} (h : dictGet g.subgroups k = some sg) : toClear g sg = [] := by
  apply List.eq_nil_iff_forall_not_mem.mpr
  intro x hx
  obtain ⟨h1, h2, h3⟩ := toClear_mem hx
  have hm := dictGet_mem h
  rcases h1 with h1 | h1
  · exact h2 (hg.subSimple _ hm x h1)
  · exact h3 (hg.subChained _ hm x h1)

omit [FOps F] in
theorem delNames_keeps (scope : List (Str × Sym F)) (l : List Str) (y : Str) (hy : y ∉ l) :
    dictGet (delNames scope l).1 y = dictGet scope y := by
  induction l generalizing scope with
  | nil => rfl
  | cons x l ih =>
    unfold delNames
    split
    · rw [ih _ (fun h => hy (by simp [h])), dictGet_dictDel, if_neg (fun h => hy (by simp [h]))]
    · rfl

/-- what becomes of the scope in `preval` -/
theorem preval_scope (K : Kernel F) (m : CModel U F) (k : Nat) (drop clean : Bool) :
    (m.preval K k drop clean).1.scope = m.scope ∨ ∃ sg, dictGet m.exprs.subgroups k = some sg ∧
      (m.preval K k drop clean).1.scope = (delNames m.scope (toClear m.exprs sg)).1 := by
  unfold CModel.preval
  split
  · exact .inl rfl
  · exact .inl rfl
  · rename_i sg _ hg
    have hsg : dictGet m.exprs.subgroups k = some sg := by
      unfold ExprGroup.getGroup at hg
      split at hg
      · cases hg
      · rename_i h; cases hg; exact h
    obtain ⟨t, ht⟩ := evaluate_keeps K m ⟨sg.simple, sg.chained, sg.exprs⟩
    rcases he : m.evaluate K ⟨sg.simple, sg.chained, sg.exprs⟩ with ⟨m', r⟩
    rw [he] at ht
    simp only at ht
    subst ht
    cases r with
    | error e => exact .inl rfl
    | ok u =>
      simp only
      cases clean with
      | false =>
        left
        simp only [Bool.false_eq_true, if_false]
        split <;> rfl
      | true =>
        right
        refine ⟨sg, hsg, ?_⟩
        simp only [if_true]
        rcases hd : delNames m.scope (toClear m.exprs sg) with ⟨sc, rd⟩
        simp only
        split
        · rfl
        · split <;> rfl

/-- **C39** On a model whose expressions were built by any history of appends, drops and clears (no copy), `preval` removes no
symbol from the scope, whatever its outcome. -/
theorem C39_uncopied_partial (K : Kernel F) (env : PyEnv) (py : PyParser) (ops : List GroupOp) (m : CModel U F)
    (hm : m.exprs = groupRun env py ExprGroup.empty ops) (k : Nat) (drop clean : Bool) : (m.preval K k drop clean).1.scope = m.scope := by
  rcases preval_scope K m k drop clean with h | ⟨sg, hsg, h⟩
  · exact h
  · rw [h, toClear_nil (hm ▸ GroupInv.empty.run env py ops) hsg]; rfl

/-- **C39** On every model, also on copies: symbols the group does not use, and symbols of the ungrouped expressions, keep their
data through `preval`. -/
theorem C39_kept_partial (K : Kernel F) {env : PyEnv} {py : PyParser} (m : CModel U F) (hheld : Held env py m.exprs) (k : Nat)
    (drop clean : Bool) (y : Str)
    (hy : (∃ x ∈ m.exprs.ungrouped, y ∈ x.symbols ∨ y ∈ x.chains.map (·.1)) ∨
      ∀ sg, dictGet m.exprs.subgroups k = some sg → y ∉ sg.simple ∧ y ∉ sg.chained) :
    dictGet (m.preval K k drop clean).1.scope y = dictGet m.scope y := by
  rcases preval_scope K m k drop clean with h | ⟨sg, hsg, h⟩
  · rw [h]
  · rw [h]
    apply delNames_keeps
    intro hc
    obtain ⟨h1, h2, h3⟩ := toClear_mem hc
    rcases hy with ⟨x, hx, hy⟩ | hy
    · rcases hy with hy | hy
      · exact h2 ((hheld.ungrouped x hx).1 y hy)
      · exact h3 ((hheld.ungrouped x hx).2 y hy)
    · have := hy sg hsg
      rcases h1 with h1 | h1
      · exact this.1 h1
      · exact this.2 h1

/-- **C38** On a model built without copying, `preval` of an existing group either reports NaN (then so does the single run) or
succeeds; then the model still validates and running it gives the utilities of one run of all expressions. -/
theorem C38_uncopied (K : Kernel F) (hK : OrderFree K) (hN : NanAbsorbing K) {env : PyEnv} {py : PyParser} {m : CModel U F}
    {paths : List (List Name)} {depth : Nat} {units : List U} (hm : Consistent m paths depth units) (ops : List GroupOp)
    (hops : m.exprs = groupRun env py ExprGroup.empty ops) (hres : ∀ n ∈ reserved, n ∉ m.scope.map (·.1))
    {c : Container} (hc : m.container none = .ok c) (hv : m.validate true true true true none = .ok ()) {srcs : List Source}
    (hready : List.Forall₂ (Ready env m.scope paths depth) srcs c.exprs)
    (htab : ∀ y ∈ c.simple, ∀ o ma al t, dictGet m.scope y ≠ some (.table o ma al t))
    (hout : ∀ x ∈ srcs, ¬ Mentions outStr x.1)
    (hval : ∀ i j (_ : i < units.length) (hj : j < paths.length), (cellTotal K m.scope paths[j] i j srcs (startAt m i j)).isSome)
    (k : Nat) (hk : k ∈ m.exprs.subgroups.map (·.1)) (clean clear : Bool) :
    ((m.preval K k true clean).2 = .error .utilityBounds ∧ (m.runUtilities K none clear).2 = .error .utilityBounds) ∨
    ∃ m1, m.preval K k true clean = (m1, .ok ()) ∧ m1.scope = m.scope ∧ m1.exprs = (m.exprs.dropGroup k).1 ∧
      ∃ ix u ix' u', (m.runUtilities K none clear).1.cached = some (ix, u) ∧ (m1.runUtilities K none clear).1.cached = some (ix', u') ∧
        (∀ i j, i < units.length → j < paths.length → u.val i j = u'.val i j) ∧
        (((m.runUtilities K none clear).2 = .ok u ∧ (m1.runUtilities K none clear).2 = .ok u') ∨
         ((m.runUtilities K none clear).2 = .error .utilityBounds ∧ (m1.runUtilities K none clear).2 = .error .utilityBounds)) := by
  have hheld : Held env py m.exprs := hops ▸ (Held.empty env py).run ops
  have hgr : DistinctGroups m.exprs := hops ▸ distinctGroups_run env py _ (by simp [DistinctGroups, ExprGroup.empty]) ops
  obtain ⟨hbad, hgood⟩ := C38_preval K hK hN hm hheld hgr hres hc hv hready htab hout hval k hk clean clear
  obtain ⟨sg, hsg⟩ := Option.isSome_iff_exists.mp ((dictGet_isSome_iff m.exprs.subgroups k).mpr hk)
  have hc' : c = ⟨m.exprs.itersimple, m.exprs.iterchained, m.exprs.all⟩ := by cases hc; rfl
  subst hc'
  have hflip : List.Forall₂ (fun x src => Ready env m.scope paths depth src x) m.exprs.all srcs := hready.flip
  obtain ⟨w, hw, hwp⟩ := List.perm_comp_forall₂ (all_perm hgr hsg) hflip
  have hw1 := List.forall₂_take_append w sg.exprs (m.exprs.dropGroup k).1.all hw.flip
  set w1 := w.take sg.exprs.length
  have hmem := dictGet_mem hsg
  obtain ⟨hvt, _, hchk⟩ := validate_parts hc hv
  have hvk : m.validate true true true true (some k) = .ok () := by
    have : checkSymbols m.scope true (sg.simple ++ sg.chained) = .ok () := by
      apply checkSymbols_mono hchk
      intro x hx
      rcases List.mem_append.mp hx with hx | hx
      · exact List.mem_append_left _ (List.mem_append_right _ (List.mem_flatMap.mpr ⟨_, hmem, hx⟩))
      · exact List.mem_append_right _ (List.mem_append_right _ (List.mem_flatMap.mpr ⟨_, hmem, hx⟩))
    simp [CModel.validate, bind, Except.bind, hvt, CModel.decisionUnits, hm.unitsEq, CModel.container, ExprGroup.getGroup, hsg,
      Except.map, this]
  have hval1 : ∀ i j (_ : i < units.length) (hj : j < paths.length), (cellTotal K m.scope paths[j] i j w1 (startAt m i j)).isSome := by
    intro i j hi hj
    have := hval i j hi hj
    rw [cellTotal_perm K hK m.scope _ i j hwp.symm hout, ← List.take_append_drop sg.exprs.length w, cellTotal_append] at this
    cases h : cellTotal K m.scope paths[j] i j w1 (startAt m i j) with
    | none => rw [h] at this; cases this
    | some v => rfl
  obtain ⟨u0, _, _, _, hu4, hu5⟩ := preval_sound K hm hheld hsg hvk hw1
    (fun y hy => htab y (List.mem_append_right _ (List.mem_flatMap.mpr ⟨_, hmem, hy⟩))) hval1 true clean
  cases hn : hasNan u0 with
  | true => exact .inl ⟨hu4 hn, hbad (hu4 hn)⟩
  | false =>
    right
    have hp := hu5 hn
    have hd : (if clean = true then delNames m.scope (toClear m.exprs sg) else (m.scope, .ok ())) = (m.scope, .ok ()) := by
      rw [toClear_nil (hops ▸ GroupInv.empty.run env py ops) hsg]
      cases clean <;> rfl
    simp only [hd, Except.isOk, Except.toBool, Bool.and_self, if_true] at hp
    refine ⟨_, hp, rfl, rfl, hgood _ hp ?_⟩
    have : checkSymbols m.scope true ((m.exprs.dropGroup k).1.itersimple ++ (m.exprs.dropGroup k).1.iterchained) = .ok () := by
      apply checkSymbols_mono hchk
      intro x hx
      simp only [ExprGroup.dropGroup, hsg, ExprGroup.itersimple, ExprGroup.iterchained] at hx ⊢
      rcases List.mem_append.mp hx with hx | hx
      · refine List.mem_append_left _ ?_
        rcases List.mem_append.mp hx with hx | hx
        · exact List.mem_append_left _ hx
        · obtain ⟨e, he, hy⟩ := List.mem_flatMap.mp hx
          exact List.mem_append_right _ (List.mem_flatMap.mpr ⟨e, mem_dictDel he, hy⟩)
      · refine List.mem_append_right _ ?_
        rcases List.mem_append.mp hx with hx | hx
        · exact List.mem_append_left _ hx
        · obtain ⟨e, he, hy⟩ := List.mem_flatMap.mp hx
          exact List.mem_append_right _ (List.mem_flatMap.mpr ⟨e, mem_dictDel he, hy⟩)
    simp [CModel.validate, bind, Except.bind, hvt, CModel.decisionUnits, hm.unitsEq, CModel.container, this]

/-- the example model meets the hypotheses of C38 -/
example (env : PyEnv) (M : Arith XR) (clean : Bool) : ∃ m1, (emModel env).preval (emKernel M) 1 true clean = (m1, .ok ()) ∧
    ∃ ix u, (m1.runUtilities (emKernel M) none false).1.cached = some (ix, u) ∧
      ∀ i j, i < 2 → j < 4 → u.val i j = .fin (100 * (i + 1) + if j = 2 then 2 else 0) := by
  have hk : 1 ∈ (emModel env).exprs.subgroups.map (·.1) := by
    have : (emModel env).exprs = _ := em_exprs env
    rw [this]; simp
  have hres : ∀ n ∈ reserved, n ∉ (emModel env).scope.map (·.1) := by
    intro n hn
    have hs : (emModel env).scope.map (·.1) = [exX, exT] := rfl
    rw [hs]; revert n; decide
  obtain ⟨u, hr, _, _, hu⟩ := em_run_state env M false
  rcases C38_uncopied (emKernel M) (em_orderFree M) (em_absorbing M) (em_consistent env) emOps rfl hres (em_container env) (em_valid env)
    (srcs := emSrcs) (.cons (em_ready1 env) (.cons (em_ready2 env) .nil)) (em_noTable env) em_outFree
    (by intro i j _ hj; exact Option.isSome_iff_exists.mpr ⟨_, em_total M i j hj 0⟩) 1 hk clean false with ⟨_, h⟩ | ⟨m1, h1, _, _, ix, u1, ix', u', h2, h3, h4, _⟩
  · rw [hr] at h; cases h
  · refine ⟨m1, h1, ix', u', h3, fun i j hi hj => ?_⟩
    rw [← h4 i j hi (by simpa [emPaths] using hj)]
    rw [hr] at h2
    simp only [Option.some.injEq, Prod.mk.injEq] at h2
    rw [← h2.2]
    exact hu i j hi hj

/-! ## violations on copied models -/

/-- `x` in group 1 and in group 2 -/
def twoOps : List GroupOp := [.append exX (some 1), .append exX (some 2)]

def twoGroups : ExprGroup := ⟨[], [exX], [], [(1, ⟨[exX], [], [emExpr1]⟩), (2, ⟨[exX], [], [emExpr1]⟩)]⟩
def twoCopied : ExprGroup := ⟨[], [], [], [(1, ⟨[exX], [], [emExpr1]⟩), (2, ⟨[exX], [], [emExpr1]⟩)]⟩

theorem two_exprs (env : PyEnv) : groupRun env emPy ExprGroup.empty twoOps = twoGroups := by
  have h1 : isNanName exX = false := by decide
  have h2 : splitFilter exX = .ok (exX, none) := by decide
  have h4 : emPy exX = .ok (.name exX) := rfl
  have e1 : parse env emPy exX [] [] = (([exX], []), .ok emExpr1) := by
    simp [parse, h2, h4, visit, visitName, h1, setAdd, emExpr1]
  have e2 : parse env emPy exX [exX] [] = (([exX], []), .ok emExpr1) := by
    simp [parse, h2, h4, visit, visitName, h1, setAdd, emExpr1]
  simp only [groupRun, twoOps, List.foldl_cons, List.foldl_nil, groupStep, ExprGroup.append, ExprGroup.empty, e1]
  simp only [dictSet, dictGet, List.map_nil, List.not_mem_nil, if_false, List.nil_append, e2]
  simp [dictSet, dictGet, SubGroup.append, setUnion, setAdd, emExpr1, twoGroups]

theorem two_copy : twoGroups.copy = twoCopied := by
  simp [twoGroups, twoCopied, ExprGroup.copy, SubGroup.rebuild, SubGroup.append, setUnion, setAdd, emExpr1]

/-- the example model with these expressions -/
noncomputable def twoModel (env : PyEnv) : CModel Nat XR := { emModel env with exprs := groupRun env emPy ExprGroup.empty twoOps }
/-- its copy -/
noncomputable def twoCopy (env : PyEnv) : CModel Nat XR := { emModel env with exprs := twoCopied }

theorem two_copied (env : PyEnv) : (twoModel env).copy true true true true true = .ok (twoCopy env) := by
  have hs : copyScope emScope true none = .ok emScope := by
    simp [copyScope, emScope, List.mapM_cons, Sym.copy, Except.map, bind, Except.bind, pure, Except.pure]
  have h1 : (twoModel env).scope = emScope := rfl
  have h2 : (twoModel env).exprs = twoGroups := two_exprs env
  simp only [CModel.copy, h1, h2, hs, two_copy, Bool.or_self, if_true, bind, Except.bind]
  rfl

theorem two_clear : toClear twoCopied ⟨[exX], [], [emExpr1]⟩ = [exX] := by
  simp [toClear, twoCopied, ExprGroup.itersimple]

/-- **C39** (violated) A model has `x` in groups 1 and 2, validates and can be run. On a copy of it, `preval(1)` with the
default arguments removes `x` from the scope, although group 2 needs it: the copy no longer validates, and running group 2 raises
ModelNotReadyError. -/
theorem C39_refuted (env : PyEnv) (M : Arith XR) : ∃ m m1, (twoModel env).copy true true true true true = .ok m ∧
    m.validate true true true true none = .ok () ∧ m.preval (emKernel M) 1 true true = (m1, .ok ()) ∧
    (dictGet m1.scope exX).isNone ∧ (m1.runUtilities (emKernel M) (some 2) false).2 = .error .modelNotReady := by
  have hx : exX ∉ reserved := by decide
  have ht : (twoCopy env).tree = after exampleOps := rfl
  have hs : (twoCopy env).scope = emScope := rfl
  have hu : (twoCopy env).units = some [7, 8] := rfl
  have he : (twoCopy env).exprs = twoCopied := rfl
  have hv : ∀ g c, (twoCopy env).container g = .ok c → (∀ y ∈ c.simple ++ c.chained, y = exX) →
      (twoCopy env).validate true true true true g = .ok () := by
    intro g c hc hy
    have : checkSymbols emScope true (c.simple ++ c.chained) = .ok () := by
      generalize c.simple ++ c.chained = l at hy
      induction l with
      | nil => rfl
      | cons y l ih =>
        have : y = exX := hy y (by simp)
        subst this
        unfold checkSymbols
        simp only [hx, if_false, em_getx, Sym.filled, Option.isSome_some, Bool.not_true, Bool.and_false, Bool.false_eq_true]
        exact ih fun y hy' => hy y (by simp [hy'])
    simp [CModel.validate, bind, Except.bind, ht, exampleOps_valid, CModel.decisionUnits, hu, hc, hs, this]
  have hc0 : (twoCopy env).container none = .ok ⟨[exX, exX], [], [emExpr1, emExpr1]⟩ := by
    simp [CModel.container, he, twoCopied, ExprGroup.itersimple, ExprGroup.iterchained, ExprGroup.all]
  have hc1 : (twoCopy env).container (some 1) = .ok ⟨[exX], [], [emExpr1]⟩ := by
    simp [CModel.container, he, twoCopied, ExprGroup.getGroup, dictGet, Except.map]
  have hcons : Consistent (twoCopy env) emPaths 2 [7, 8] := by
    have h := em_consistent env
    exact ⟨h.unitsEq, h.choices, h.fits, h.cached⟩
  have hheld : Held env emPy (twoCopy env).exprs := by
    have := ((Held.empty env emPy).run twoOps).copy
    rw [two_exprs, two_copy] at this
    exact this
  have hk : dictGet (twoCopy env).exprs.subgroups 1 = some ⟨[exX], [], [emExpr1]⟩ := by simp [he, twoCopied, dictGet]
  have htot : ∀ i j (hj : j < emPaths.length), cellTotal (emKernel M) emScope emPaths[j] i j [(.name exX, none)] (.fin 0) =
      some (.fin (100 * (i + 1))) := by
    intro i j hj
    have hxn : isNanName exX = false := by decide
    have : cellTotal (emKernel M) emScope emPaths[j] i j [(.name exX, none)] (.fin 0) =
        cellStep (emKernel M) emScope emPaths[j] i j (.fin 0) (.name exX, none) := by
      simp [cellTotal, List.foldlM, bind, pure]
    rw [this]
    simp only [cellStep, filterMeans, if_true, den, hxn, em_symx, Bool.false_eq_true, if_false]
    simp [emKernel]
  have h0 : ∀ i j, startAt (twoCopy env) i j = .fin 0 := fun _ _ => rfl
  obtain ⟨u, h1, h2, h3, _, h5⟩ := preval_sound (emKernel M) hcons hheld hk (hv _ _ hc1 (by simp)) (srcs := [(.name exX, none)])
    (.cons (em_ready1 env) .nil) (by
      intro y hy o ma al t h
      simp only [List.mem_singleton] at hy
      subst hy
      rw [hs, em_getx] at h
      cases h) (by intro i j _ hj; rw [h0, hs, htot i j hj]; rfl) true true
  have hn : hasNan u = false := by
    by_contra hh
    obtain ⟨i, j, hi, hj, h⟩ := (hasNan_iff u).mp (by simpa using hh)
    rw [h1] at hi; rw [h2] at hj
    have := h3 i j hi hj
    rw [h0, hs, htot i j hj] at this
    rw [Option.some.inj this] at h
    simp at h
  have hp := h5 hn
  have hdel : delNames emScope [exX] = (dictDel emScope exX, .ok ()) := by
    simp [delNames, emScope]
  simp only [if_true, he, hs, two_clear, hdel, Except.isOk, Except.toBool, Bool.and_self] at hp
  refine ⟨twoCopy env, _, two_copied env, hv _ _ hc0 (by simp), hp, ?_, ?_⟩
  · simp [dictGet_dictDel]
  · set m1 : CModel Nat XR := { twoCopy env with cached := some ([7, 8], u), scope := dictDel emScope exX, exprs := (twoCopied.dropGroup 1).1 } with hm1
    have hm1s : m1.scope = dictDel emScope exX := rfl
    have hcon : m1.container (some 2) = .ok ⟨[exX], [], [emExpr1]⟩ := by
      have : m1.exprs = (twoCopied.dropGroup 1).1 := rfl
      simp [CModel.container, this, twoCopied, ExprGroup.dropGroup, ExprGroup.getGroup, dictGet, dictDel, Except.map]
    have hbad : m1.validate true true true true (some 2) = .error .modelNotReady := by
      have ht1 : m1.tree = after exampleOps := rfl
      have hu1 : m1.units = some [7, 8] := rfl
      have hno : dictGet (dictDel emScope exX) exX = none := by simp [dictGet_dictDel]
      simp [CModel.validate, bind, Except.bind, ht1, exampleOps_valid, CModel.decisionUnits, hu1, hcon, hm1s, checkSymbols, hx, hno]
    show (m1.runUtilities (emKernel M) (some 2) false).2 = _
    unfold CModel.runUtilities
    rw [hbad]

omit [FOps F] in
theorem delNames_missing {scope : List (Str × Sym F)} {l : List Str} {x : Str} (hx : x ∈ l) (hs : x ∉ scope.map (·.1)) :
    (delNames scope l).2 = .error .key := by
  induction l generalizing scope with
  | nil => cases hx
  | cons y l ih =>
    unfold delNames
    split
    · rename_i hy
      rcases List.mem_cons.mp hx with rfl | hx
      · exact (hs hy).elim
      · refine ih hx ?_
        intro h
        obtain ⟨e, he, rfl⟩ := List.mem_map.mp h
        exact hs (List.mem_map.mpr ⟨e, mem_dictDel he, rfl⟩)
    · rfl

/-- **C39** (violated, in general) If the group uses a reserved word (`NEG_INF`, `OUT`) that no ungrouped expression uses, then
on a copied model (whose recorded symbols are those of the ungrouped expressions) `preval` with clean-up raises KeyError after
the evaluation, whatever the data. -/
theorem C39_reserved_refuted (K : Kernel F) {env : PyEnv} {py : PyParser} (g0 : ExprGroup) (m : CModel U F) (hm : m.exprs = g0.copy)
    {paths : List (List Name)} {depth : Nat} {units : List U} (hcons : Consistent m paths depth units) (hheld : Held env py m.exprs)
    (hres : ∀ n ∈ reserved, n ∉ m.scope.map (·.1)) {k : Nat} {sg : SubGroup} (hk : dictGet m.exprs.subgroups k = some sg)
    (hv : m.validate true true true true (some k) = .ok ()) {srcs : List Source}
    (hready : List.Forall₂ (Ready env m.scope paths depth) srcs sg.exprs)
    (htab : ∀ y ∈ sg.simple, ∀ o ma al t, dictGet m.scope y ≠ some (.table o ma al t))
    (hval : ∀ i j (_ : i < units.length) (hj : j < paths.length), ∃ v, cellTotal K m.scope paths[j] i j srcs (startAt m i j) = some v ∧
      isNan v = false)
    (n : Str) (hn : n ∈ reserved) (huse : n ∈ sg.simple)
    (hun : ∀ x ∈ g0.ungrouped, n ∉ x.symbols ∧ n ∉ x.chains.map (·.1)) (drop : Bool) :
    (m.preval K k drop true).2 = .error .key := by
  obtain ⟨u, h1, h2, h3, _, h5⟩ := preval_sound K hcons hheld hk hv hready htab
    (by intro i j hi hj; obtain ⟨v, h, _⟩ := hval i j hi hj; rw [h]; rfl) drop true
  have hnn : hasNan u = false := by
    by_contra hh
    obtain ⟨i, j, hi, hj, h⟩ := (hasNan_iff u).mp (by simpa using hh)
    rw [h1] at hi; rw [h2] at hj
    obtain ⟨v, hv, hvn⟩ := hval i j hi hj
    have := h3 i j hi hj
    rw [hv] at this
    rw [Option.some.inj this, hvn] at h
    cases h
  rw [h5 hnn]
  simp only [if_true]
  apply delNames_missing (x := n) _ (hres n hn)
  have h1 : n ∉ m.exprs.simple := by
    rw [hm]
    simp only [ExprGroup.copy]
    rw [foldl_setUnion_mem _ (fun e : Expression => e.symbols)]
    rintro (h | ⟨x, hx, h⟩)
    · cases h
    · exact (hun x hx).1 h
  have h2 : n ∉ m.exprs.chained := by
    rw [hm]
    simp only [ExprGroup.copy]
    rw [foldl_setUnion_mem _ (fun e : Expression => e.chains.map (·.1))]
    rintro (h | ⟨x, hx, h⟩)
    · cases h
    · exact (hun x hx).2 h
  unfold toClear
  simp only [List.mem_dedup, List.mem_filter, List.mem_append, decide_eq_true_eq]
  exact ⟨.inr huse, by tauto, by tauto⟩

end Cheval
