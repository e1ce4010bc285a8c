import Verif.Props.PrevalScope
import Verif.Props.GroupSums

/-!
# C39: exactly which symbols `preval` removes on a copied model
-/
namespace Cheval
open Spec FOps
variable {U F : Type} [FOps F]

/-- the expression uses the variable, by itself or followed by a dot -/
def Expression.UsesName (x : Expression) (y : Str) : Prop := y ∈ x.symbols ∨ y ∈ x.chains.map (·.1)

omit [FOps F] in
theorem delNames_exact {scope : List (Str × Sym F)} {l : List Str} (h : (delNames scope l).2 = .ok ()) (y : Str) :
    dictGet (delNames scope l).1 y = if y ∈ l then none else dictGet scope y := by
  induction l generalizing scope with
  | nil => simp [delNames]
  | cons x l ih =>
    unfold delNames at h ⊢
    split at h
    · rename_i hx
      rw [if_pos hx, ih h, dictGet_dictDel]
      by_cases h1 : y = x <;> by_cases h2 : y ∈ l <;> simp [h1, h2]
    · cases h

theorem mem_toClear {g : ExprGroup} {sg : SubGroup} {x : Str} :
    x ∈ toClear g sg ↔ (x ∈ sg.simple ∨ x ∈ sg.chained) ∧ ¬ (x ∈ g.simple ∨ x ∈ g.chained) := by
  unfold toClear
  simp only [List.mem_dedup, List.mem_filter, List.mem_append, decide_eq_true_eq]
  tauto

/-- the recorded symbols of a copied container are those of the ungrouped expressions -/
theorem copied_symbols (g0 : ExprGroup) (y : Str) :
    (y ∈ g0.copy.simple ∨ y ∈ g0.copy.chained) ↔ ∃ x ∈ g0.copy.ungrouped, x.UsesName y := by
  have h1 := foldl_setUnion_mem g0.ungrouped (fun e => e.symbols) [] y
  have h2 := foldl_setUnion_mem g0.ungrouped (fun e => e.chains.map (·.1)) [] y
  simp only [ExprGroup.copy, h1, h2, List.not_mem_nil, false_or, Expression.UsesName]
  constructor
  · rintro (⟨x, hx, h⟩ | ⟨x, hx, h⟩)
    · exact ⟨x, hx, .inl h⟩
    · exact ⟨x, hx, .inr h⟩
  · rintro ⟨x, hx, h | h⟩
    · exact .inl ⟨x, hx, h⟩
    · exact .inr ⟨x, hx, h⟩

/-- the recorded symbols of a group of a copied container are those of its expressions -/
theorem copied_group_symbols {g0 : ExprGroup} {k : Nat} {sg : SubGroup} (hk : dictGet g0.copy.subgroups k = some sg) (y : Str) :
    (y ∈ sg.simple ∨ y ∈ sg.chained) ↔ ∃ x ∈ sg.exprs, x.UsesName y := by
  have : sg.rebuild = sg := by
    obtain ⟨⟨k', s⟩, _, he⟩ := List.mem_map.mp (dictGet_mem hk)
    simp only [Prod.mk.injEq] at he
    rw [← he.2, rebuild_rebuild]
  obtain ⟨h1, h2⟩ := mem_simple_of_rebuild this y
  rw [h1, h2]
  simp only [Expression.UsesName]
  constructor
  · rintro (⟨x, hx, h⟩ | ⟨x, hx, h⟩)
    · exact ⟨x, hx, .inl h⟩
    · exact ⟨x, hx, .inr h⟩
  · rintro ⟨x, hx, h | h⟩
    · exact .inl ⟨x, hx, h⟩
    · exact .inr ⟨x, hx, h⟩

/-- a successful `preval` with clean-up: the group exists, validated, and its symbols were deleted without error -/
theorem preval_success {K : Kernel F} {m m1 : CModel U F} {k : Nat} {drop : Bool} (h : m.preval K k drop true = (m1, .ok ())) :
    ∃ sg, dictGet m.exprs.subgroups k = some sg ∧ m.validate true true true true (some k) = .ok () ∧
      (delNames m.scope (toClear m.exprs sg)).2 = .ok () ∧ m1.scope = (delNames m.scope (toClear m.exprs sg)).1 ∧
      m1.tree = m.tree ∧ m1.units = m.units ∧ (m1.exprs = m.exprs ∨ m1.exprs = (m.exprs.dropGroup k).1) := by
  obtain ⟨t, sc, ex, hk, _, hex⟩ := preval_keeps K m k drop true
  rw [h] at hk
  simp only at hk
  unfold CModel.preval at h
  split at h
  · cases h
  · cases h
  · rename_i sg hv hg
    have hsg : dictGet m.exprs.subgroups k = some sg := by
      unfold ExprGroup.getGroup at hg
      split at hg
      · cases hg
      · rename_i h; cases hg; exact h
    refine ⟨sg, hsg, hv, ?_⟩
    obtain ⟨t', ht⟩ := evaluate_keeps K m ⟨sg.simple, sg.chained, sg.exprs⟩
    rcases he : m.evaluate K ⟨sg.simple, sg.chained, sg.exprs⟩ with ⟨m', r⟩
    rw [he] at ht h
    simp only at ht
    subst ht
    cases r with
    | error e => cases h
    | ok u =>
      simp only [if_true] at h
      rcases hd : delNames m.scope (toClear m.exprs sg) with ⟨sc', rd⟩
      rw [hd] at h
      cases rd with
      | error e => cases h
      | ok _ =>
        simp only at h
        refine ⟨rfl, ?_, by rw [hk], by rw [hk], ?_⟩
        · split at h <;> (simp only [Prod.mk.injEq] at h; rw [← h.1])
        · rw [hk]; exact hex

open Classical in
/-- **C39 (exactly what is removed on a copy)** On a copied model, a `preval` of group `k` with clean-up that succeeds removes
from the scope exactly the symbols that some expression of the group uses and no ungrouped expression uses. Whether other groups
use them is not looked at. -/
theorem C39_removed_partial (K : Kernel F) (g0 : ExprGroup) {m m1 : CModel U F} (hm : m.exprs = g0.copy) {k : Nat} {sg : SubGroup}
    (hk : dictGet m.exprs.subgroups k = some sg) {drop : Bool} (h : m.preval K k drop true = (m1, .ok ())) (y : Str) :
    dictGet m1.scope y =
      if (∃ x ∈ sg.exprs, x.UsesName y) ∧ ¬ (∃ x ∈ m.exprs.ungrouped, x.UsesName y) then none else dictGet m.scope y := by
  obtain ⟨sg', hk', _, hd, hs, _⟩ := preval_success h
  obtain rfl : sg' = sg := Option.some.inj (hk'.symm.trans hk)
  rw [hs, delNames_exact hd]
  rw [hm] at hk ⊢
  simp only [mem_toClear, copied_group_symbols hk, copied_symbols]

/-- **C39** (violated, in general) On a copied model, whenever groups `k` and `j` share a variable that no ungrouped expression
uses, a successful `preval(k)` with clean-up leaves a model that does not validate, and group `j` cannot be run any more. -/
theorem C39_shared_refuted (K : Kernel F) (g0 : ExprGroup) {m m1 : CModel U F} (hm : m.exprs = g0.copy) {k j : Nat} (hkj : j ≠ k)
    {sg sj : SubGroup} (hk : dictGet m.exprs.subgroups k = some sg) (hj : dictGet m.exprs.subgroups j = some sj) {y : Str}
    (hres : y ∉ reserved) (hyk : ∃ x ∈ sg.exprs, x.UsesName y) (hyj : ∃ x ∈ sj.exprs, x.UsesName y)
    (hyu : ¬ ∃ x ∈ m.exprs.ungrouped, x.UsesName y) {drop : Bool} (h : m.preval K k drop true = (m1, .ok ())) :
    m1.validate true true true true none = .error .modelNotReady ∧
    ∀ clear, (m1.runUtilities K (some j) clear).2 = .error .modelNotReady := by
  have hno : dictGet m1.scope y = none := by
    rw [C39_removed_partial K g0 hm hk h, if_pos ⟨hyk, hyu⟩]
  obtain ⟨sg', hk', hv, _, _, ht, hu, hex⟩ := preval_success h
  have hck : m.container (some k) = .ok ⟨sg'.simple, sg'.chained, sg'.exprs⟩ := by
    simp [CModel.container, ExprGroup.getGroup, hk', Except.map]
  obtain ⟨p1, ⟨us, p2⟩, _⟩ := validate_parts hck hv
  have hj1 : dictGet m1.exprs.subgroups j = some sj := by
    rcases hex with hex | hex
    · rw [hex]; exact hj
    · rw [hex]
      unfold ExprGroup.dropGroup
      rw [hk']
      simp only
      rw [dictGet_dictDel, if_neg hkj]; exact hj
  have hin : y ∈ sj.simple ∨ y ∈ sj.chained := by
    rw [hm] at hj
    exact (copied_group_symbols hj y).mpr hyj
  have hbad : ∀ g c, m1.container g = .ok c → (y ∈ c.simple ∨ y ∈ c.chained) →
      m1.validate true true true true g = .error .modelNotReady := by
    intro g c hc hy
    have hcs : checkSymbols m1.scope true (c.simple ++ c.chained) = .error .modelNotReady := by
      rw [checkSymbols_iff, if_neg]
      intro hall
      obtain ⟨s, hs, _⟩ := hall y (List.mem_append.mpr hy) hres
      rw [hno] at hs; cases hs
    simp [CModel.validate, bind, Except.bind, ht, p1, CModel.decisionUnits, hu, p2, hc, hcs]
  have hsub := dictGet_mem hj1
  constructor
  · refine hbad none _ rfl ?_
    rcases hin with hin | hin
    · left
      simp only [ExprGroup.itersimple, List.mem_append, List.mem_flatMap]
      exact .inr ⟨_, hsub, hin⟩
    · right
      simp only [ExprGroup.iterchained, List.mem_append, List.mem_flatMap]
      exact .inr ⟨_, hsub, hin⟩
  · intro clear
    have := hbad (some j) ⟨sj.simple, sj.chained, sj.exprs⟩ (by simp [CModel.container, ExprGroup.getGroup, hj1, Except.map]) hin
    unfold CModel.runUtilities
    rw [this]

/-- the copy of the example model with groups 1 and 2 -/
example (env : PyEnv) (M : Arith XR) : ∃ m1, (twoCopy env).preval (emKernel M) 1 true true = (m1, .ok ()) ∧
    m1.validate true true true true none = .error .modelNotReady := by
  obtain ⟨m, m1, h1, _, h3, _⟩ := C39_refuted env M
  obtain rfl : twoCopy env = m := Except.ok.inj ((two_copied env).symm.trans h1)
  refine ⟨m1, h3, (C39_shared_refuted (emKernel M) twoGroups (m := twoCopy env) two_copy.symm (k := 1) (j := 2) (by decide)
    (sg := ⟨[exX], [], [emExpr1]⟩) (sj := ⟨[exX], [], [emExpr1]⟩) (by simp [twoCopy, twoCopied, dictGet])
    (by simp [twoCopy, twoCopied, dictGet]) (y := exX) (by decide) ⟨emExpr1, by simp, .inl (by simp [emExpr1])⟩
    ⟨emExpr1, by simp, .inl (by simp [emExpr1])⟩ (by simp [twoCopy, twoCopied]) h3).1⟩

end Cheval
