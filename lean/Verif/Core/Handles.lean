import Verif.Core.TreeLemmas

/-!
# Model of the read-only members of `ChoiceNode` (cheval/api.py:41-91)
-/
namespace Cheval
open FOps
variable {F : Type}

/-- `ChoiceNode.name` (api.py:53-55); also `str(node)` (api.py:41) -/
def nodeName (st : TreeSt F) (i : Nat) : Option Name := (st.nodes[i]?).map (·.name)

/-- `ChoiceNode.parent` (api.py:57-59) -/
def nodeParent (st : TreeSt F) (i : Nat) : Option (Option Nat) := (st.nodes[i]?).map (·.parent)

/-- `ChoiceNode.level` (api.py:61-63) -/
def nodeLevel (st : TreeSt F) (i : Nat) : Option Nat := (st.nodes[i]?).map (·.level)

/-- `ChoiceNode.logsum_scale` (api.py:45-46) -/
def nodeScale (st : TreeSt F) (i : Nat) : Option F := (st.nodes[i]?).map (·.scale)

/-- `ChoiceNode.children` (api.py:82-83) -/
def nodeChildren (st : TreeSt F) (i : Nat) : List Nat := match st.nodes[i]? with
  | none => []
  | some nd => nd.children.map (·.2)

/-- `ChoiceNode.max_level` (api.py:85-91). The children of a node are created after the node; the comparisons only make the
recursion terminate. -/
def maxLevel (st : TreeSt F) (i : Nat) : Nat :=
  (nodeChildren st i).foldl (fun m c => if _h : i < c ∧ c < st.nodes.length then max m (maxLevel st c) else m) (levelOf st i)
termination_by st.nodes.length - i

/-- the calls of a history with their outcomes -/
def treeTrace [FOps F] (st : TreeSt F) : List (TreeOp F) → List (TreeOp F × Except Err Nat)
  | [] => []
  | op :: ops => (op, (treeStep st op).2) :: treeTrace (treeStep st op).1 ops

end Cheval
