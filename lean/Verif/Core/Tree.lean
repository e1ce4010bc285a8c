import Verif.Core.Logit
import Verif.Core.Dict

/-!
# Model of the choice tree (cheval/api.py `ChoiceNode`, cheval/model.py "Tree operations")

`ChoiceNode` objects are heap cells, numbered in the order of creation; the handle returned by `add_choice` is the number.
Python strings are lists of characters.
-/
namespace Cheval
open FOps

abbrev Name := List Char

/-- `'.'.join(names)` -/
def joinDots (l : List Name) : Name := List.intercalate ['.'] l

/-- `ChoiceNode` (api.py:26-39). The reference to the model is omitted. -/
structure Node (F : Type) where
  name : Name
  parent : Option Nat
  scale : F
  level : Nat
  children : List (Name × Nat)

/-- The tree part of a `ChoiceModel` (model.py:31-34) and the heap of its nodes. `_top_nodes` is a set of node objects
(identity hash). `_max_level` is never used. -/
structure TreeSt (F : Type) where
  nodes : List (Node F)
  all : List (Name × Nat)
  top : List Nat

def TreeSt.empty {F : Type} : TreeSt F := ⟨[], [], []⟩

/-- outcome of a call: the state is kept when an exception is raised -/
abbrev Outcome (F α : Type) := TreeSt F × Except Err α

/-- path of names from the root to a node (the loop of `ChoiceNode.full_name`, api.py:73-80). The parent of a node is
created before the node, the comparison only makes the recursion terminate. -/
def nodePath {F : Type} (nodes : List (Node F)) (i : Nat) : List Name :=
  match nodes[i]? with
  | none => []
  | some nd =>
    match nd.parent with
    | none => [nd.name]
    | some p => if _h : p < i then nodePath nodes p ++ [nd.name] else [nd.name]
termination_by i

/-- `ChoiceNode.full_name` (api.py:73-80) -/
def fullName {F : Type} (nodes : List (Node F)) (i : Nat) : Name := joinDots (nodePath nodes i)

/-- `ChoiceNode.nested_id` (api.py:93-101) -/
def nestedId {F : Type} (nodes : List (Node F)) (maxLevel : Nat) (i : Nat) : List Name :=
  match nodes[i]? with
  | none => []
  | some nd =>
    let retval := List.replicate maxLevel ['.']
    match nd.parent with
    | none => retval.set 0 nd.name
    | some p =>
      if _h : p < i then
        let cutoff := nd.level + 1
        ((nestedId nodes maxLevel p).take cutoff ++ retval.drop cutoff).set (cutoff - 2) nd.name
      else retval
termination_by i

section ops
variable {F : Type} [FOps F]

/-- the checks of `ChoiceNode.__init__` (api.py:28-30) -/
def nodeLegal (name : Name) (scale : F) : Bool :=
  decide ('.' ∉ name) && decide (name ≠ ['_']) && (lt zero scale && le scale one)

/-- `level` given to a new node (model.py:89) -/
def newLevel (nodes : List (Node F)) : Option Nat → Nat
  | none => 1
  | some p => match nodes[p]? with
    | none => 1
    | some nd => nd.level + 1

/-- `expected_namespace` (model.py:80, 85) -/
def expectedName (nodes : List (Node F)) (name : Name) : Option Nat → Name
  | none => name
  | some p => fullName nodes p ++ ['.'] ++ name

/-- `_create_node` from the construction of the node on (model.py:89-93) -/
def finishCreate (st : TreeSt F) (name : Name) (scale : F) (parent : Option Nat) : Outcome F Nat :=
  if nodeLegal name scale then
    let id := st.nodes.length
    ({ st with nodes := st.nodes ++ [⟨name, parent, scale, newLevel st.nodes parent, []⟩],
               all := dictSet st.all (expectedName st.nodes name parent) id }, .ok id)
  else (st, .error .assertion)

/-- `ChoiceModel._create_node` (model.py:79-93): an existing node is removed before the new one is checked -/
def createNode (st : TreeSt F) (name : Name) (scale : F) (parent : Option Nat) : Outcome F Nat :=
  match parent with
  | none =>
    match dictGet st.all name with
    | none => finishCreate st name scale parent
    | some old =>
      let st := { st with all := dictDel st.all name }
      if old ∈ st.top then finishCreate { st with top := st.top.filter (fun i => decide (i ≠ old)) } name scale parent
      else (st, .error .key)
  | some _ => finishCreate { st with all := dictDel st.all (expectedName st.nodes name parent) } name scale parent

/-- `ChoiceModel.add_choice` (model.py:95-118); the caches are modelled elsewhere -/
def addTop (st : TreeSt F) (name : Name) (scale : F) : Outcome F Nat :=
  match createNode st name scale none with
  | (st, .error e) => (st, .error e)
  | (st, .ok id) => ({ st with top := st.top ++ [id] }, .ok id)

/-- update of one heap cell -/
def modNode (nodes : List (Node F)) (i : Nat) (f : Node F → Node F) : List (Node F) := nodes.modify i f

/-- `ChoiceNode.add_choice` on node `h` (api.py:103-106) -/
def addChild (st : TreeSt F) (h : Nat) (name : Name) (scale : F) : Outcome F Nat :=
  match createNode st name scale (some h) with
  | (st, .error e) => (st, .error e)
  | (st, .ok id) =>
    ({ st with nodes := st.nodes.modify h (fun nd => { nd with children := dictSet nd.children name id }) }, .ok id)

/-- `ChoiceNode.logsum_scale = value` (api.py:48-51) -/
def setScale (st : TreeSt F) (h : Nat) (v : F) : Outcome F Nat :=
  if lt zero v && le v one then ({ st with nodes := st.nodes.modify h (fun nd => { nd with scale := v }) }, .ok h)
  else (st, .error .assertion)

/-- the names given to `add_choices`: a list (or other re-iterable), or a one-shot iterator/generator -/
inductive PyIter (α : Type) where
  | seq (l : List α)
  | oneShot (l : List α)

/-- the loop of `add_choices` (model.py:142-145) -/
def addChoicesLoop (st : TreeSt F) : List (Name × F) → List Nat → Outcome F (List Nat)
  | [], acc => (st, .ok acc)
  | (n, s) :: rest, acc =>
    match addTop st n s with
    | (st, .error e) => (st, .error e)
    | (st, .ok id) => addChoicesLoop st rest (acc ++ [id])

/-- `ChoiceModel.add_choices` (model.py:120-146). Without scales the names are iterated once to build the default scales
and a second time in the loop: a one-shot iterator is then exhausted. (Returned as the list of handles, the dictionary keys
are the names.) -/
def addChoices (st : TreeSt F) (names : PyIter Name) (scales : Option (List F)) : Outcome F (List Nat) :=
  match names, scales with
  | .seq l, none => addChoicesLoop st (l.zip (l.map fun _ => one)) []
  | .oneShot _, none => addChoicesLoop st [] []
  | .seq l, some s => addChoicesLoop st (l.zip s) []
  | .oneShot l, some s => addChoicesLoop st (l.zip s) []

/-- the calls of a history -/
inductive TreeOp (F : Type) where
  | addTop (name : Name) (scale : F)
  | addChild (h : Nat) (name : Name) (scale : F)
  | setScale (h : Nat) (scale : F)

def treeStep (st : TreeSt F) : TreeOp F → Outcome F Nat
  | .addTop n s => addTop st n s
  | .addChild h n s => addChild st h n s
  | .setScale h s => setScale st h s

/-- state after a history, whatever the individual calls returned -/
def treeRun (st : TreeSt F) (ops : List (TreeOp F)) : TreeSt F := ops.foldl (fun st op => (treeStep st op).1) st

/-! ## observations -/

def nChildren (st : TreeSt F) (i : Nat) : Nat := match st.nodes[i]? with
  | none => 0
  | some nd => nd.children.length

/-- `ChoiceNode.is_parent` (api.py:65-67) -/
def isParent (st : TreeSt F) (i : Nat) : Bool := decide (0 < nChildren st i)

def levelOf (st : TreeSt F) (i : Nat) : Nat := match st.nodes[i]? with
  | none => 0
  | some nd => nd.level

/-- tree part of `ChoiceModel.validate` (model.py:345-349) -/
def validateTree (st : TreeSt F) : Except Err Unit :=
  if st.top.length < 2 then .error .modelNotReady
  else if st.all.any (fun e => decide (nChildren st e.2 = 1)) then .error .modelNotReady
  else .ok ()

/-- `ChoiceModel.depth` (model.py:185-188); `max()` of an empty sequence raises ValueError -/
def depth (st : TreeSt F) : Except Err Nat :=
  if st.all = [] then .error .value else .ok (st.all.foldl (fun m e => max m (levelOf st e.2)) 0)

/-- `ChoiceModel.choices` (model.py:148-166): one label (tuple of names) per column. `_cached_cols` is never set. -/
def choices (st : TreeSt F) : Except Err (List (List Name)) := do
  validateTree st
  let d ← depth st
  if d = 1 then return st.all.map (fun e => [e.1])
  else return st.all.map (fun e => nestedId st.nodes d e.2)

/-- `ChoiceModel.elemental_choices` (model.py:168-183) -/
def elementalChoices (st : TreeSt F) : Except Err (List (List Name)) := do
  let d ← depth st
  if d = 1 then choices st
  else return (st.all.filter (fun e => !isParent st e.2)).map (fun e => nestedId st.nodes d e.2)

/-- `node_positions` (model.py:201) -/
def nodePositions (st : TreeSt F) : List (Name × Nat) :=
  st.all.zipIdx.foldl (fun d e => dictSet d (fullName st.nodes e.1.2) e.2) []

/-- body of the loop of `_flatten` for one node (model.py:203-213) -/
def flattenNode (st : TreeSt F) (pos : List (Name × Nat)) (fl : Flat F) (i : Nat) : Except Err (Flat F) :=
  match st.nodes[i]? with
  | none => .error .attribute
  | some nd =>
    match dictGet pos (fullName st.nodes i) with
    | none => .error .key
    | some position =>
      let fl := { fl with level := upd fl.level position (nd.level - 1) }
      let withParent : Except Err (Flat F) :=
        match nd.parent with
        | none => .ok fl
        | some p =>
          match dictGet pos (fullName st.nodes p) with
          | none => .error .key
          | some parentPosition => .ok { fl with parent := upd fl.parent position (parentPosition : Int) }
      withParent.map fun fl =>
        if isParent st i then { fl with scale := upd fl.scale position nd.scale, bottom := upd fl.bottom position false }
        else fl

/-- `ChoiceModel._flatten` (model.py:190-215) -/
def flatten (st : TreeSt F) : Except Err (Flat F) := do
  let d ← depth st
  if d ≤ 1 then .error .assertion
  else
    let fl : Flat F := { n := st.all.length, parent := fun _ => -1, level := fun _ => 0, scale := fun _ => one,
                         bottom := fun _ => true }
    st.all.foldlM (fun fl e => flattenNode st (nodePositions st) fl e.2) fl

end ops
end Cheval
