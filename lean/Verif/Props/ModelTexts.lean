import Verif.Props.ExprAssign
import Verif.Props.GroupSums

/-!
# C35: which expressions a model holds after any history of calls
-/
set_option linter.unusedSectionVars false
namespace Cheval
open Spec
variable {U F : Type} [DecidableEq U] [FOps F]

/-- the call returned normally (asked of the calls that touch the expressions only) -/
def ModelReturned (K : Kernel F) (env : PyEnv) (py : PyParser) (m : CModel U F) : ModelOp U F → Prop
  | .expr op => (groupStep env py m.exprs op).2 = .ok ()
  | .setExpressions texts => (m.setExpressions env py texts).2 = .ok ()
  | .setExpressionsText text => (m.setExpressionsText env py text).2 = .ok ()
  | .preval k d c => (m.preval K k d c).2 = .ok ()
  | .copy a b c d e => ∃ m', m.copy a b c d e = .ok m'
  | _ => True

/-- What a call does to the texts in force, ungrouped and by group, given whether it returned: appends add one text at the end of its group, drops and
clears remove, the assignment appends the texts up to the first rejected one, a preval that returns drops its group if asked to, copies without expressions
start without; a call that raises (other than an assignment) and all other calls change nothing. -/
def TextsAfter (returned : Prop) (t t' : Texts) : ModelOp U F → Prop
  | .expr op => (returned → t' = t.step op) ∧ (¬ returned → t' = t)
  | .setExpressions texts => ∃ k ≤ texts.length, (returned ↔ k = texts.length) ∧ t' = ⟨t.ungrouped ++ texts.take k, t.groups⟩
  | .setExpressionsText text => ∃ k ≤ text.length, (returned ↔ k = text.length) ∧ t' = ⟨t.ungrouped ++ (text.take k).map fun c => [c], t.groups⟩
  | .preval k drop _ => (returned ∧ drop = true → t' = t.step (.drop k)) ∧ (¬ (returned ∧ drop = true) → t' = t)
  | .copy _ _ _ expressions _ => (returned ∧ expressions = false → t' = ⟨[], []⟩) ∧ (¬ (returned ∧ expressions = false) → t' = t)
  | _ => t' = t

theorem textsOf_copied (g : ExprGroup) : textsOf g.copy = textsOf g := by
  simp only [textsOf, ExprGroup.copy, List.map_map]
  congr 1
  refine List.map_congr_left fun e _ => ?_
  show (e.1, _) = (e.1, _)
  rw [rebuild_exprs]

/-- when preval drops the group -/
theorem preval_exprs (K : Kernel F) (m : CModel U F) (k : Nat) (drop clean : Bool) :
    (((m.preval K k drop clean).2 = .ok () ∧ drop = true) →
      (m.preval K k drop clean).1.exprs = (m.exprs.dropGroup k).1 ∧ (m.exprs.dropGroup k).2 = .ok ()) ∧
    (¬ ((m.preval K k drop clean).2 = .ok () ∧ drop = true) → textsOf (m.preval K k drop clean).1.exprs = textsOf m.exprs) := by
  unfold CModel.preval
  split
  · exact ⟨fun h => by simp at h, fun _ => rfl⟩
  · exact ⟨fun h => by simp at h, fun _ => rfl⟩
  · rename_i sg _ _
    obtain ⟨t, ht⟩ := evaluate_keeps K m ⟨sg.simple, sg.chained, sg.exprs⟩
    rcases he : m.evaluate K ⟨sg.simple, sg.chained, sg.exprs⟩ with ⟨m', r⟩
    rw [he] at ht
    simp only at ht
    subst ht
    cases r with
    | error e => exact ⟨fun h => by simp at h, fun _ => rfl⟩
    | ok u =>
      simp only
      rcases hd : (if clean = true then delNames m.scope (toClear m.exprs sg) else (m.scope, .ok ())) with ⟨sc, rd⟩
      cases rd with
      | error e => exact ⟨fun h => by simp at h, fun _ => rfl⟩
      | ok v =>
        cases drop with
        | false => exact ⟨fun h => by simp at h, fun _ => rfl⟩
        | true =>
          refine ⟨fun h => ⟨rfl, h.1⟩, fun h => ?_⟩
          simp only [if_true, and_true] at h ⊢
          unfold ExprGroup.dropGroup at h ⊢
          cases hg : dictGet m.exprs.subgroups k with
          | none => rfl
          | some s => rw [hg] at h; exact absurd rfl h

theorem addPartial_exprs {m : CModel U F} {tb : Table U (List Name) F} {rr rc : Bool} {out : CModel U F × Except Err Unit}
    (h : m.AddPartial tb rr rc out) : out.1.exprs = m.exprs := by
  unfold CModel.AddPartial at h
  split at h
  · rw [h]
  · rw [h]
  · split at h
    · rw [h]
    · split at h
      · rw [h]
      · split at h
        · rw [h]
        · obtain ⟨c, hc⟩ := partialUtilities_keeps m
          split at h
          · rename_i hp
            rw [hp] at hc
            rw [h, show _ = _ from hc]
          · rename_i hp
            rw [hp] at hc
            obtain ⟨r, -, h⟩ := h
            have hx := congrArg CModel.exprs hc
            cases r with
            | error e => rw [h]; exact hx
            | ok mem => rw [h]; exact hx

/-- **C35 (what is in force)** `run_*` and `validate` of a model work on the texts in force, ungrouped ones first, `preval(k)` and runs of group `k` on those of
the group. -/
theorem C35_in_force (m : CModel U F) :
    (∃ c, m.container none = .ok c ∧ c.exprs.map (·.raw) = (textsOf m.exprs).ungrouped ++ (textsOf m.exprs).groups.flatMap (·.2)) ∧
    ∀ k, match dictGet (textsOf m.exprs).groups k with
      | some texts => ∃ c, m.container (some k) = .ok c ∧ c.exprs.map (·.raw) = texts
      | none => m.container (some k) = .error .key := by
  refine ⟨⟨_, rfl, ?_⟩, fun k => ?_⟩
  · simp [textsOf, ExprGroup.all, List.map_flatMap, List.flatMap_map]
  · simp only [textsOf]
    rw [dictGet_mapv (fun s : SubGroup => s.exprs.map (·.raw))]
    cases hk : dictGet m.exprs.subgroups k with
    | none => simp [CModel.container, ExprGroup.getGroup, hk, Except.map]
    | some s => exact ⟨⟨s.simple, s.chained, s.exprs⟩, by simp [CModel.container, ExprGroup.getGroup, hk, Except.map], rfl⟩

/-- **C35 (histories)** After any history of calls on a model, copies included, the texts in force are those the calls left, one after the other. -/
theorem C35_history (K : Kernel F) (env : PyEnv) (py : PyParser) (m : CModel U F) (ops : List (ModelOp U F)) (k : Nat) (hk : k < ops.length) :
    TextsAfter (ModelReturned K env py (modelRun K env py m (ops.take k)) ops[k]) (textsOf (modelRun K env py m (ops.take k)).exprs)
      (textsOf (modelRun K env py m (ops.take (k + 1))).exprs) ops[k] := by
  have hstep : modelRun K env py m (ops.take (k + 1)) = modelStep K env py (modelRun K env py m (ops.take k)) ops[k] := by
    unfold modelRun
    rw [List.take_succ, List.getElem?_eq_getElem hk, List.foldl_append]
    rfl
  rw [hstep]
  generalize modelRun K env py m (ops.take k) = m0
  generalize ops[k] = op
  cases op with
  | expr op =>
    have hs := textsOf_step env py m0.exprs op
    simp only [TextsAfter, ModelReturned, modelStep]
    refine ⟨fun h => by rw [hs, h], fun h => ?_⟩
    rw [hs]
    cases hr : (groupStep env py m0.exprs op).2 with
    | error e => rfl
    | ok v => exact absurd hr h
  | setExpressions texts =>
    obtain ⟨j, hj, ht, h⟩ := (C62_appends env py m0 texts).1
    refine ⟨j, hj, ?_, ht⟩
    rcases h with ⟨h1, h2⟩ | ⟨h1, er, h2, -⟩
    · exact ⟨fun _ => h2, fun _ => h1⟩
    · refine ⟨fun h3 => ?_, fun h3 => absurd h3 (by omega)⟩
      have h3 : (m0.setExpressions env py texts).2 = .ok () := h3
      rw [h2] at h3; cases h3
  | setExpressionsText text =>
    obtain ⟨j, hj, ht, h⟩ := (C62_appends env py m0 (text.map fun c => [c])).1
    have hl : (text.map fun c => [c]).length = text.length := List.length_map _
    refine ⟨j, by omega, ?_, by rw [List.map_take]; exact ht⟩
    rcases h with ⟨h1, h2⟩ | ⟨h1, er, h2, -⟩
    · exact ⟨fun _ => by omega, fun _ => h1⟩
    · refine ⟨fun h3 => ?_, fun h3 => by omega⟩
      · have h3 : (m0.setExpressions env py (text.map fun c => [c])).2 = .ok () := h3
        rw [h2] at h3; cases h3
  | preval j d c =>
    obtain ⟨h1, h2⟩ := preval_exprs K m0 j d c
    refine ⟨fun h => ?_, h2⟩
    show textsOf (m0.preval K j d c).1.exprs = _
    have hs := textsOf_step env py m0.exprs (.drop j)
    rw [(h1 h).1]
    have hs : textsOf (m0.exprs.dropGroup j).1 = match (m0.exprs.dropGroup j).2 with
      | .ok () => (textsOf m0.exprs).step (.drop j)
      | .error _ => textsOf m0.exprs := hs
    rw [hs, (h1 h).2]
  | copy a b c d e =>
    simp only [TextsAfter, ModelReturned, modelStep]
    cases hcp : m0.copy a b c d e with
    | error er => exact ⟨fun h => by simp at h, fun _ => rfl⟩
    | ok m' =>
      obtain ⟨sc, -, rfl⟩ := copy_ok hcp
      cases d with
      | false => exact ⟨fun _ => rfl, fun h => by simp at h⟩
      | true => exact ⟨fun h => by simp at h, fun _ => textsOf_copied _⟩
  | copySubset ix mask =>
    simp only [TextsAfter, modelStep]
    cases hcp : m0.copySubset ix mask with
    | error er => rfl
    | ok m' =>
      obtain ⟨-, -, sc, ca, -, -, rfl⟩ := copySubset_ok hcp
      exact textsOf_copied _
  | run g c =>
    obtain ⟨t, h | h⟩ := runUtilities_keeps K m0 g c <;> simp only [TextsAfter, modelStep] <;> rw [h]
  | declare n s =>
    simp only [TextsAfter, modelStep, CModel.declare]; split <;> rfl
  | assign n d =>
    show textsOf (m0.assign n d).1.exprs = _; unfold CModel.assign; repeat' split
    all_goals rfl
  | setUnits u =>
    show textsOf (m0.setUnits u).exprs = _; unfold CModel.setUnits; repeat' split
    all_goals rfl
  | clearScope => rfl
  | addChoice n sc =>
    rfl
  | addNested h n sc =>
    rfl
  | addChoices ns sc =>
    show textsOf (m0.addChoices ns sc).1.exprs = _; unfold CModel.addChoices; repeat' split
    all_goals rfl
  | setScale h v =>
    rfl
  | addPartial tb rr rc out =>
    simp only [TextsAfter, modelStep]
    split
    · rename_i h
      rw [addPartial_exprs h]
    · rfl
  | setPrecision i =>
    show textsOf (m0.setPrecision i).1.exprs = _; unfold CModel.setPrecision; repeat' split
    all_goals rfl

/-- a case of C35_history and C35_in_force: an expression appended to group 4, one that is rejected, a copy -/
example (K : Kernel XR) (env : PyEnv) : ∃ c,
    (modelRun K env exPy (newModel Nat XR 8) [.expr (.append exX (some 4)), .expr (.append ['?'] none), .copy true true true true true]).container
      (some 4) = .ok c ∧ c.exprs.map (·.raw) = [exX] := by
  let ops : List (ModelOp Nat XR) := [.expr (.append exX (some 4)), .expr (.append ['?'] none), .copy true true true true true]
  have h1 := (C35_history K env exPy (newModel Nat XR 8) ops 0 (by simp [ops])).1 (by
    have := exX_append env (some 4) ExprGroup.empty (by simp [ExprGroup.empty])
    show (ExprGroup.empty.append env exPy exX (some 4)).2 = _
    unfold ExprGroup.append
    rw [this])
  have h2 := (C35_history K env exPy (newModel Nat XR 8) ops 1 (by simp [ops])).2 (by
    intro h
    have h : (ExprGroup.append env exPy (modelRun K env exPy (newModel Nat XR 8) (ops.take 1)).exprs ['?'] none).2 = .ok () := h
    unfold ExprGroup.append parse at h
    have hs : splitFilter ['?'] = .ok (['?'], none) := by decide
    have hq : exPy ['?'] = .error .syntaxErr := rfl
    simp only [hs, hq] at h
    cases h)
  have h3 := (C35_history K env exPy (newModel Nat XR 8) ops 2 (by simp [ops])).2 (by simp)
  have ht : textsOf (modelRun K env exPy (newModel Nat XR 8) ops).exprs = ⟨[], [(4, [exX])]⟩ := by
    refine h3.trans (h2.trans (h1.trans ?_))
    simp [ops, modelRun, newModel, textsOf, ExprGroup.empty, Texts.step, dictSet, dictGet]
  have := (C35_in_force (modelRun K env exPy (newModel Nat XR 8) ops)).2 4
  rw [ht] at this
  simpa [dictGet] using this

end Cheval
