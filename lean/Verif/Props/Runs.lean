import Verif.Props.ExampleModel
import Verif.Core.ModelHistory
import Verif.Core.Reads
import Verif.Props.Scope

/-!
# C36, C37: repeated runs, NaN utilities
-/
namespace Cheval
open Spec FOps

section
variable {U F : Type} [FOps F]

/-! ## C36 -/

/-- the model after a run that kept the scope -/
theorem consistent_cached {m : CModel U F} {paths : List (List Name)} {depth : Nat} {units : List U} (hm : Consistent m paths depth units)
    (ix : List U) (u : Tab F) (h1 : u.rows = units.length) (h2 : u.cols = paths.length) :
    Consistent { m with cached := some (ix, u) } paths depth units :=
  ⟨hm.unitsEq, hm.choices, hm.fits, by rintro ix' u' h; cases h; exact ⟨h1, h2⟩⟩

/-- **C36** (what a second run computes) A second run, of all expressions or of any group, continues from the table of the
first: the utilities of the second run are the totals of the expressions starting from the first result. -/
theorem C36_second_run (K : Kernel F) {env : PyEnv} {py : PyParser} {m m1 : CModel U F} {paths : List (List Name)} {depth : Nat}
    {units : List U} (hm : Consistent m paths depth units) (hheld : Held env py m.exprs) {g : Option Nat} {c : Container}
    (hc : m.container g = .ok c) (hv : m.validate true true true true g = .ok ()) {srcs : List Source}
    (hready : List.Forall₂ (Ready env m.scope paths depth) srcs c.exprs)
    (htab : ∀ y ∈ c.simple, ∀ o ma al t, dictGet m.scope y ≠ some (.table o ma al t))
    {u1 : Tab F} (h1 : m.runUtilities K g false = (m1, .ok u1))
    (hval : ∀ i j (_ : i < units.length) (hj : j < paths.length), (cellTotal K m.scope paths[j] i j srcs (startAt m i j)).isSome)
    (hval2 : ∀ i j (_ : i < units.length) (hj : j < paths.length), (cellTotal K m.scope paths[j] i j srcs (u1.val i j)).isSome) :
    ∃ ix u2, (m1.runUtilities K g false).1.cached = some (ix, u2) ∧
      (∀ i j (_ : i < units.length) (hj : j < paths.length),
        some (u2.val i j) = cellTotal K m.scope paths[j] i j srcs (u1.val i j)) ∧
      ((m1.runUtilities K g false).2 = .ok u2 ∨ (m1.runUtilities K g false).2 = .error .utilityBounds) := by
  obtain ⟨ix, u, hr, hcol, _, _, _, h5⟩ := run_sound K hm hheld hc hv hready htab hval false
  rw [h1] at h5
  have h5' : m1 = { m with cached := some (ix, u) } ∧ u1 = u := by
    split at h5
    · cases h5
    · cases h5; exact ⟨rfl, rfl⟩
  obtain ⟨rfl, rfl⟩ := h5'
  have hcons := consistent_cached hm ix u1 hr hcol
  obtain ⟨ix2, u2, _, _, h3, _, _, h6⟩ := run_sound K (m := { m with cached := some (ix, u1) }) hcons hheld hc hv hready htab hval2 false
  refine ⟨ix2, u2, ?_, h3, ?_⟩
  · rw [h6]; split <;> rfl
  · rw [h6]; split
    · exact .inr rfl
    · exact .inl rfl

end

theorem XR.zero_add' (a : XR) : XR.add (.fin 0) a = a := by cases a <;> simp [XR.add]

theorem XR.foldl_add_start (l : List XR) (s : XR) : l.foldl FOps.add s = XR.add s (l.foldl FOps.add (.fin 0)) := by
  induction l generalizing s with
  | nil => simp only [List.foldl_nil]; cases s <;> simp [XR.add]
  | cons a l ih =>
    rw [List.foldl_cons, List.foldl_cons, ih, ih (FOps.add (.fin 0) a)]
    show XR.add (XR.add s a) _ = XR.add s (XR.add (XR.add (.fin 0) a) _)
    rw [XR.zero_add', XR.add_assoc']

/-- **C36** (violated, in general) In exact arithmetic, for every model without cached utilities whose expressions do not read
`OUT`: running twice with clear_scope=False gives exactly twice the utilities of the first run (unless a NaN is reported). -/
theorem C36_doubled (K : Kernel XR) (hacc : ∀ a x, K.acc a (.num x) = some (add a x)) {U : Type} {env : PyEnv} {py : PyParser}
    {m m1 : CModel U XR} {paths : List (List Name)} {depth : Nat} {units : List U} (hm : Consistent m paths depth units)
    (hnone : m.cached = none) (hheld : Held env py m.exprs) {g : Option Nat} {c : Container}
    (hc : m.container g = .ok c) (hv : m.validate true true true true g = .ok ()) {srcs : List Source}
    (hready : List.Forall₂ (Ready env m.scope paths depth) srcs c.exprs)
    (htab : ∀ y ∈ c.simple, ∀ o ma al t, dictGet m.scope y ≠ some (.table o ma al t))
    (hout : ∀ x ∈ srcs, ¬ Mentions outStr x.1)
    (hnum : ∀ i j (_ : i < units.length) (hj : j < paths.length), ∃ vals : List XR,
      (srcs.filter fun x => filterMeans paths[j] x.2).map (contribution K m.scope paths[j] i j) = vals.map fun v => some (.num v))
    {u1 : Tab XR} (h1 : m.runUtilities K g false = (m1, .ok u1)) :
    ∃ u2, (m1.runUtilities K g false).2 = .ok u2 ∧ ∀ i j, i < units.length → j < paths.length →
      u2.val i j = add (u1.val i j) (u1.val i j) := by
  have hst : ∀ i j, startAt m i j = .fin 0 := by intro i j; simp only [startAt, hnone]; rfl
  have htot : ∀ i j (_ : i < units.length) (hj : j < paths.length), ∃ v : XR, ∀ s,
      cellTotal K m.scope paths[j] i j srcs s = some (XR.add s v) := by
    intro i j hi hj
    obtain ⟨vals, h⟩ := hnum i j hi hj
    refine ⟨vals.foldl add (.fin 0), fun s => ?_⟩
    rw [C35_total_is_sum K hacc m.scope paths[j] i j srcs hout vals s h, XR.foldl_add_start]
  have hval : ∀ i j (_ : i < units.length) (hj : j < paths.length), (cellTotal K m.scope paths[j] i j srcs (startAt m i j)).isSome := by
    intro i j hi hj
    obtain ⟨v, h⟩ := htot i j hi hj
    rw [h]; rfl
  have hval2 : ∀ i j (_ : i < units.length) (hj : j < paths.length), (cellTotal K m.scope paths[j] i j srcs (u1.val i j)).isSome := by
    intro i j hi hj
    obtain ⟨v, h⟩ := htot i j hi hj
    rw [h]; rfl
  obtain ⟨ix, u, hr, hcol, hcell, _, _, h5⟩ := run_sound K hm hheld hc hv hready htab hval false
  rw [h1] at h5
  have h5' : m1 = { m with cached := some (ix, u) } ∧ u1 = u ∧ hasNan u = false := by
    split at h5
    · cases h5
    · rename_i hn; cases h5; exact ⟨rfl, rfl, by simpa using hn⟩
  obtain ⟨rfl, rfl, hn⟩ := h5'
  obtain ⟨ix2, u2, hr2, hc2, hcell2, _, _, h6⟩ := run_sound K (m := { m with cached := some (ix, u1) })
    (consistent_cached hm ix u1 hr hcol) hheld hc hv hready htab hval2 false
  have heq : ∀ i j, i < units.length → j < paths.length → u2.val i j = add (u1.val i j) (u1.val i j) := by
    intro i j hi hj
    obtain ⟨v, h⟩ := htot i j hi hj
    have e1 : u1.val i j = XR.add (.fin 0) v := by
      have := hcell i j hi hj
      rw [hst, h] at this
      exact Option.some.inj this
    have e2 : u2.val i j = XR.add (u1.val i j) v := by
      have := (hcell2 i j hi hj).trans (h (u1.val i j))
      exact Option.some.inj this
    rw [XR.zero_add'] at e1
    rw [e2, ← e1]; rfl
  refine ⟨u2, ?_, heq⟩
  rw [h6, if_neg]
  rw [hasNan_iff]
  rintro ⟨i, j, hi, hj, h⟩
  rw [hr2] at hi; rw [hc2] at hj
  have hno : isNan (u1.val i j) = false := by
    by_contra hh
    have : hasNan u1 = true := (hasNan_iff u1).mpr ⟨i, j, hr ▸ hi, hcol ▸ hj, by simpa using hh⟩
    rw [hn] at this; cases this
  rw [heq i j hi hj] at h
  revert h hno
  cases u1.val i j <;> simp [add, XR.add, isNan, FOps.add, FOps.isNan, XR.isNan]

/-- the example model meets the hypotheses of `C36_doubled`, and its utilities differ between the runs -/
theorem C36_refuted (env : PyEnv) (M : Arith XR) : ∃ m1 u1 m2 u2,
    (emModel env).runUtilities (emKernel M) none false = (m1, .ok u1) ∧ m1.runUtilities (emKernel M) none false = (m2, .ok u2) ∧
    u1.val 0 0 = .fin 100 ∧ u2.val 0 0 = .fin 200 := by
  obtain ⟨u1, h1, _, _, hv1⟩ := em_run_state env M false
  have hs : (emModel env).scope = emScope := rfl
  have hcontr : ∀ i j (_ : i < 2) (hj : j < emPaths.length), ∃ vals : List XR,
      (emSrcs.filter fun x => filterMeans emPaths[j] x.2).map (contribution (emKernel M) (emModel env).scope emPaths[j] i j) =
        vals.map fun v => some (.num v) := by
    intro i j hi hj
    rw [hs]
    have c1 : contribution (emKernel M) emScope emPaths[j] i j (.name exX, none) = some (.num (.fin (100 * (i + 1)))) := by
      have hx : isNanName exX = false := by decide
      simp only [contribution, den, hx, em_symx, Bool.false_eq_true, if_false]
    have c2 : contribution (emKernel M) emScope emPaths[j] i j (.attr (.name exT) exA, some emFilter) = some (.num (.fin j)) := by
      simp [contribution, den, dotted, cellEnv, em_lookup]
    have f1 : filterMeans emPaths[j] none = true := rfl
    by_cases hf : filterMeans emPaths[j] (some emFilter) = true
    · exact ⟨[.fin (100 * (i + 1)), .fin j], by simp [emSrcs, f1, hf, c1, c2]⟩
    · exact ⟨[.fin (100 * (i + 1))], by simp [emSrcs, f1, hf, c1]⟩
  obtain ⟨u2, h2, hv2⟩ := C36_doubled (emKernel M) (fun _ _ => rfl) (em_consistent env) rfl (em_held env) (em_container env)
    (em_valid env) (srcs := emSrcs) (.cons (em_ready1 env) (.cons (em_ready2 env) .nil)) (em_noTable env) em_outFree hcontr h1
  refine ⟨_, u1, _, u2, h1, Prod.ext rfl h2, ?_, ?_⟩
  · rw [hv1 0 0 (by omega) (by omega)]; simp
  · rw [hv2 0 0 (by decide) (by decide), hv1 0 0 (by omega) (by omega)]
    simp; norm_num

end Cheval
