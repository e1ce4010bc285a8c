import Verif.Props.TreeReplace
import Verif.Props.Copies
import Verif.Props.Reachable

/-!
# The choices of a model after any history of calls

The theorems on choices (C15-C20, C54, C69) are about histories of `add_choice`, `choice.add_choice` and `choice.logsum_scale = `. Here: the
tree of a model after a history of any calls is the one these calls of the history produce.
-/
set_option linter.unusedSectionVars false
namespace Cheval
open FOps Spec
variable {U F : Type} [DecidableEq U] [FOps F]

/-- one `add_choice` for each pair, up to the first one that is refused -/
def untilRefused (st : TreeSt F) : List (Name × F) → List (TreeOp F)
  | [] => []
  | (n, s) :: rest => match treeStep st (.addTop n s) with
    | (_, .error _) => [.addTop n s]
    | (st', .ok _) => .addTop n s :: untilRefused st' rest

/-- the names and scales `add_choices` goes through -/
def namesAndScales : PyIter Name → Option (List F) → List (Name × F)
  | .seq l, none => l.map fun n => (n, one)
  | .oneShot _, none => []
  | .seq l, some s => l.zip s
  | .oneShot l, some s => l.zip s

/-- the calls on the tree that a call on a model makes -/
def callsOnTree (st : TreeSt F) : ModelOp U F → List (TreeOp F)
  | .addChoice n sc => [.addTop n sc]
  | .addNested h n sc => [.addChild h n sc]
  | .setScale h v => [.setScale h v]
  | .addChoices names scales => untilRefused st (namesAndScales names scales)
  | _ => []

def allCalls (st : TreeSt F) : List (ModelOp U F) → List (TreeOp F)
  | [] => []
  | op :: ops => callsOnTree st op ++ allCalls (treeRun st (callsOnTree st op)) ops

theorem addAll_run (l : List (Name × F)) : ∀ st : TreeSt F, (addAll st l).1 = treeRun st (untilRefused st l) := by
  induction l with
  | nil => intro st; rfl
  | cons a l ih =>
    obtain ⟨n, s⟩ := a
    intro st
    simp only [addAll, untilRefused]
    rcases h : treeStep st (.addTop n s) with ⟨st1, e | id⟩
    · simp [treeRun, h]
    · have hr : treeRun st (.addTop n s :: untilRefused st1 l) = treeRun st1 (untilRefused st1 l) := by simp [treeRun, h]
      simp only [hr, ← ih st1]
      rcases addAll st1 l with ⟨st2, e | ids⟩ <;> rfl

theorem step_tree (K : Kernel F) (env : PyEnv) (py : PyParser) (m : CModel U F) (op : ModelOp U F) :
    (modelStep K env py m op).tree = treeRun m.tree (callsOnTree m.tree op) := by
  cases op with
  | setUnits u => rfl
  | declare n s => simp only [modelStep, CModel.declare, callsOnTree]; split <;> rfl
  | assign n d =>
    simp only [modelStep, CModel.assign, callsOnTree]
    split
    · rfl
    · split <;> rfl
  | clearScope => rfl
  | expr op => rfl
  | addChoice n s => rfl
  | addNested h n s => rfl
  | addChoices names scales =>
    show (addChoices m.tree names scales).1 = treeRun m.tree (untilRefused m.tree (namesAndScales names scales))
    rw [← addAll_run]
    cases names with
    | seq l =>
      cases scales with
      | none => rw [(C54_add_choices_partial m.tree l []).1]; rfl
      | some s => rw [(C54_add_choices_partial m.tree l s).2.1]; rfl
    | oneShot l =>
      cases scales with
      | none => rfl
      | some s => rw [(C54_add_choices_partial m.tree l s).2.2]; rfl
  | setScale h v => rfl
  | setExpressions ts => rfl
  | setExpressionsText t => rfl
  | addPartial tb rr rc out =>
    simp only [modelStep, callsOnTree]
    split
    · rename_i h
      obtain ⟨c, hc⟩ := addPartial_keeps h
      rw [hc]; rfl
    · rfl
  | setPrecision i => simp only [modelStep, CModel.setPrecision, callsOnTree]; split <;> rfl
  | run g c =>
    obtain ⟨t, h | h⟩ := runUtilities_keeps K m g c <;> simp only [modelStep, callsOnTree, h] <;> rfl
  | preval k d c =>
    obtain ⟨t, sc, ex, h, -⟩ := preval_keeps K m k d c
    simp only [modelStep, callsOnTree, h]; rfl
  | copy a b c d e =>
    simp only [modelStep, callsOnTree]
    cases hc : m.copy a b c d e with
    | error er => rfl
    | ok m' => obtain ⟨sc, _, rfl⟩ := copy_ok hc; rfl
  | copySubset ix mask =>
    simp only [modelStep, callsOnTree]
    cases hc : m.copySubset ix mask with
    | error e => rfl
    | ok m' => obtain ⟨_, _, sc, ca, _, _, rfl⟩ := copySubset_ok hc; rfl

/-- **C16, C69 (models)** After any history of calls on a model - data, expressions, runs, preval, copies, refused calls among them - the
choices of the model, their nests and scales are those that its calls of `add_choice`, `add_choices`, `choice.add_choice` and
`choice.logsum_scale = ` alone give, in their order. -/
theorem C16_history (K : Kernel F) (env : PyEnv) (py : PyParser) (p : Nat) (ops : List (ModelOp U F)) :
    (modelRun K env py (newModel U F p) ops).tree = after (allCalls TreeSt.empty ops) := by
  suffices h : ∀ (ops : List (ModelOp U F)) (m : CModel U F), (modelRun K env py m ops).tree = treeRun m.tree (allCalls m.tree ops) by
    exact h ops (newModel U F p)
  intro ops
  induction ops with
  | nil => intro m; rfl
  | cons op ops ih =>
    intro m
    show (modelRun K env py (modelStep K env py m op) ops).tree = _
    rw [ih, step_tree]
    simp [allCalls, treeRun, List.foldl_append]

/-- a history with data, a run, an assignment of a scale, `add_choices` with an illegal name in the middle -/
example (K : Kernel XR) (env : PyEnv) (py : PyParser) :
    (modelRun K env py (newModel Nat XR 8) [.addChoice ['A'] one, .setUnits [1, 2], .addChoices (.seq [['B'], ['.'], ['C']]) none, .run none true,
      .addNested 0 ['x'] one, .setScale 0 (.fin 2⁻¹)]).tree =
    after [.addTop ['A'] one, .addTop ['B'] one, .addTop ['.'] one, .addChild 0 ['x'] one, .setScale 0 (.fin 2⁻¹)] := by
  rw [C16_history]
  congr 1
  simp [allCalls, callsOnTree, namesAndScales, untilRefused, treeStep, addTop, createNode, finishCreate, nodeLegal, lt, le, zero, one, XR.lt,
    XR.le, TreeSt.empty, dictGet, dictSet, expectedName, treeRun]

end Cheval
