import Verif.Core.ModelHistory

/-!
# Several `ChoiceModel`s in one Python process

`Core/Model` describes one model as a value. Here the mutable Python objects a model is made of are cells of a heap, and copying
a model (model.py:667-750) decides which cells are copied and which are shared:

* `ChoiceNode` objects are shared; every node keeps a reference to the model that created it (api.py:31, 103-106);
* `ExpressionGroup`, its `ExpressionSubGroup`s, the symbols and the utility table are new objects.

Pandas indexes, NumPy arrays held by symbols and `Expression` objects are never written to, they are values.
-/
namespace Cheval
open FOps Spec

/-- an `ExpressionGroup` object (api.py:146-152): its sub-groups are references -/
structure GroupObj where
  ungrouped : List Expression
  simple : List Str
  chained : List Str
  subgroups : List (Nat × Nat)

/-- a `ChoiceModel` object (model.py:29-52): group, symbols and utility table are references -/
structure MObj (U : Type) where
  all : List (Name × Nat)
  top : List Nat
  group : Nat
  scope : List (Str × Nat)
  units : Option (List U)
  cached : Option Nat
  precision : Nat

/-- the heap. `next` is the next unused address; `owner` is `ChoiceNode._root`, `parent` is `AbstractSymbol._parent`. -/
structure Heap (U F : Type) where
  nodes : List (Node F)
  owner : Nat → Nat
  next : Nat
  sym : Nat → Sym F
  parent : Nat → Nat
  grp : Nat → GroupObj
  sub : Nat → SubGroup
  tab : Nat → List U × Tab F
  nmodels : Nat
  mdl : Nat → MObj U

variable {U F : Type}

/-- what an `ExpressionGroup` object holds -/
def Heap.group (h : Heap U F) (a : Nat) : ExprGroup :=
  let g := h.grp a
  ⟨g.ungrouped, g.simple, g.chained, g.subgroups.map fun e => (e.1, h.sub e.2)⟩

/-- the tree a model sees -/
def Heap.tree (h : Heap U F) (i : Nat) : TreeSt F := ⟨h.nodes, (h.mdl i).all, (h.mdl i).top⟩

/-- the state of model `i`, following all references -/
def Heap.view (h : Heap U F) (i : Nat) : CModel U F where
  tree := h.tree i
  exprs := h.group (h.mdl i).group
  scope := (h.mdl i).scope.map fun e => (e.1, h.sym e.2)
  units := (h.mdl i).units
  cached := (h.mdl i).cached.map h.tab
  precision := (h.mdl i).precision

/-- overwrite one cell -/
def put {α : Type} (f : Nat → α) (a : Nat) (x : α) : Nat → α := fun b => if b = a then x else f b

/-- change the attributes of model `i` -/
def Heap.setModel (h : Heap U F) (i : Nat) (f : MObj U → MObj U) : Heap U F := { h with mdl := put h.mdl i (f (h.mdl i)) }

/-- `decision_units` setter (model.py:228-242): the symbols of the scope are emptied in place -/
def Heap.setUnits (h : Heap U F) (i : Nat) (u : List U) : Heap U F :=
  { h with
    sym := fun a => if a ∈ (h.mdl i).scope.map (·.2) then
        (match h.sym a with
          | .number v => .number v
          | s => s.empty)
      else h.sym a,
    mdl := put h.mdl i { h.mdl i with units := some u } }

/-- `declare_*` (model.py:244-301): a new symbol object -/
def Heap.declare (h : Heap U F) (i : Nat) (name : Str) (s : Sym F) : Heap U F :=
  if name ∈ reserved then h
  else { h with next := h.next + 1, sym := put h.sym h.next s.empty, parent := put h.parent h.next i,
                mdl := put h.mdl i { h.mdl i with scope := dictSet (h.mdl i).scope name h.next } }

/-- `clear_scope` (model.py:307-308) -/
def Heap.clearScope (h : Heap U F) (i : Nat) : Heap U F := h.setModel i fun m => { m with scope := [] }

/-- `ExpressionGroup.append` (api.py:154-170): the group's sets and list and the sub-group are updated in place; a sub-group
named for the first time is a new object -/
def Heap.append (env : PyEnv) (py : PyParser) (h : Heap U F) (a : Nat) (e : Str) (group : Option Nat) : Heap U F :=
  let g := h.grp a
  match parse env py e g.simple g.chained with
  | ((si, ch), .error _) => { h with grp := put h.grp a { g with simple := si, chained := ch } }
  | ((si, ch), .ok x) =>
    match group with
    | some k => match dictGet g.subgroups k with
      | some b => { h with grp := put h.grp a { g with simple := si, chained := ch }, sub := put h.sub b ((h.sub b).append x) }
      | none => { h with next := h.next + 1,
                         grp := put h.grp a { g with simple := si, chained := ch, subgroups := dictSet g.subgroups k h.next },
                         sub := put h.sub h.next (SubGroup.append ⟨[], [], []⟩ x) }
    | none => { h with grp := put h.grp a ⟨g.ungrouped ++ [x], setUnion si x.symbols, setUnion ch (x.chains.map (·.1)), g.subgroups⟩ }

/-- `drop_group` (api.py:225-226) -/
def Heap.dropGroup (h : Heap U F) (a : Nat) (k : Nat) : Heap U F :=
  { h with grp := put h.grp a { h.grp a with subgroups := dictDel (h.grp a).subgroups k } }

/-- `clear` (api.py:172-176) -/
def Heap.clearGroup (h : Heap U F) (a : Nat) : Heap U F := { h with grp := put h.grp a ⟨[], [], [], []⟩ }

def Heap.exprOp (env : PyEnv) (py : PyParser) (h : Heap U F) (i : Nat) : GroupOp → Heap U F
  | .append e k => h.append env py (h.mdl i).group e k
  | .drop k => h.dropGroup (h.mdl i).group k
  | .clear => h.clearGroup (h.mdl i).group

/-- writing the utility table: in place if there is one, otherwise a new object (model.py:65-75, 516-529) -/
def Heap.store (h : Heap U F) (i : Nat) (t : Option (List U × Tab F)) : Heap U F :=
  match t, (h.mdl i).cached with
  | none, _ => h.setModel i fun m => { m with cached := none }
  | some t, some a => { h with tab := put h.tab a t }
  | some t, none => { h with next := h.next + 1, tab := put h.tab h.next t,
                             mdl := put h.mdl i { h.mdl i with cached := some h.next } }

/-- new symbol objects for a copied scope -/
def Heap.newSyms (h : Heap U F) (p : Nat) : List (Str × Sym F) → Heap U F × List (Str × Nat)
  | [] => (h, [])
  | (n, s) :: l =>
    let r := Heap.newSyms { h with next := h.next + 1, sym := put h.sym h.next s, parent := put h.parent h.next p } p l
    (r.1, (n, h.next) :: r.2)

/-- new sub-group objects for a copied expression group (api.py:235-239) -/
def Heap.newSubs (h : Heap U F) : List (Nat × SubGroup) → Heap U F × List (Nat × Nat)
  | [] => (h, [])
  | (k, s) :: l =>
    let r := Heap.newSubs { h with next := h.next + 1, sub := put h.sub h.next s } l
    (r.1, (k, h.next) :: r.2)

/-- a new `ExpressionGroup` object with the given contents -/
def Heap.newGroup (h : Heap U F) (g : ExprGroup) : Heap U F × Nat :=
  let r := h.newSubs g.subgroups
  ({ r.1 with next := r.1.next + 1, grp := put r.1.grp r.1.next ⟨g.ungrouped, g.simple, g.chained, r.2⟩ }, r.1.next)

/-- a new `ChoiceModel` object with the given contents; only the nodes of the tree are shared -/
def Heap.newModel (h : Heap U F) (m : CModel U F) : Heap U F :=
  let s := h.newSyms h.nmodels m.scope
  let g := s.1.newGroup m.exprs
  let h' := g.1
  match m.cached with
  | none => { h' with nmodels := h.nmodels + 1,
                      mdl := put h'.mdl h.nmodels ⟨m.tree.all, m.tree.top, g.2, s.2, m.units, none, m.precision⟩ }
  | some t => { h' with nmodels := h.nmodels + 1, next := h'.next + 1, tab := put h'.tab h'.next t,
                        mdl := put h'.mdl h.nmodels ⟨m.tree.all, m.tree.top, g.2, s.2, m.units, some h'.next, m.precision⟩ }

section
variable [FOps F]

/-- `symbol.assign(data)` (model.py:303-305): checked against the symbol's own `_parent`, stored in place -/
def Heap.assign [DecidableEq U] (h : Heap U F) (i : Nat) (name : Str) (d : Data U F) : Heap U F :=
  match dictGet (h.mdl i).scope name with
  | none => h
  | some a => match (h.sym a).assign (h.view (h.parent a)) d with
    | .error _ => h
    | .ok s => { h with sym := put h.sym a s }

/-- new nodes belong to model `i` -/
def Heap.setTree (h : Heap U F) (i : Nat) (t : TreeSt F) : Heap U F :=
  { h with nodes := t.nodes, owner := fun n => if n < h.nodes.length then h.owner n else i,
           mdl := put h.mdl i { h.mdl i with all := t.all, top := t.top } }

/-- `ChoiceModel.add_choice` (model.py:95-118) -/
def Heap.addChoice (h : Heap U F) (i : Nat) (name : Name) (scale : F) : Heap U F :=
  (h.setModel i fun m => { m with cached := none }).setTree i (addTop (h.tree i) name scale).1

/-- the loop of `add_choices` (model.py:142-145): ends at the first choice that is refused -/
def Heap.addChoicesLoop (h : Heap U F) (i : Nat) : List (Name × F) → Heap U F
  | [] => h
  | (n, s) :: rest => match (addTop (h.tree i) n s).2 with
    | .error _ => h.addChoice i n s
    | .ok _ => (h.addChoice i n s).addChoicesLoop i rest

/-- `ChoiceModel.add_choices` (model.py:120-146) -/
def Heap.addChoices (h : Heap U F) (i : Nat) (names : PyIter Name) (scales : Option (List F)) : Heap U F :=
  let h := h.setModel i fun m => { m with cached := none }
  match names, scales with
  | .seq l, none => h.addChoicesLoop i (l.zip (l.map fun _ => one))
  | .oneShot _, none => h
  | .seq l, some s | .oneShot l, some s => h.addChoicesLoop i (l.zip s)

/-- the setter of `expressions` (model.py:314-317): appends to the group object of the model, up to the first text that is refused -/
def Heap.setExpressions (env : PyEnv) (py : PyParser) (h : Heap U F) (i : Nat) : List Str → Heap U F
  | [] => h
  | e :: es => match (groupStep env py (h.group (h.mdl i).group) (.append e none)).2 with
    | .error _ => h.exprOp env py i (.append e none)
    | .ok _ => (h.exprOp env py i (.append e none)).setExpressions env py i es

open Classical in
/-- `add_partial_utilities` (model.py:752-780) with a given outcome: the table is written in place -/
noncomputable def Heap.addPartial [DecidableEq U] (h : Heap U F) (i : Nat) (tb : Table U (List Name) F) (rr rc : Bool)
    (out : CModel U F × Except Err Unit) : Heap U F :=
  if (h.view i).AddPartial tb rr rc out then h.store i out.1.cached else h

/-- `ChoiceNode.add_choice` (api.py:103-106): creates the node in the model the handle belongs to -/
def Heap.addNested (h : Heap U F) (hd : Nat) (name : Name) (scale : F) : Heap U F :=
  h.setTree (h.owner hd) (addChild (h.tree (h.owner hd)) hd name scale).1

/-- `ChoiceNode.logsum_scale` setter (api.py:48-51) -/
def Heap.setScale (h : Heap U F) (hd : Nat) (v : F) : Heap U F :=
  { h with nodes := (Cheval.setScale ⟨h.nodes, [], []⟩ hd v).1.nodes }

/-- `_evaluate_utilities` (model.py:450-514) -/
def Heap.evaluate (K : Kernel F) (h : Heap U F) (i : Nat) (c : Container) : Heap U F × Except Err (Tab F) :=
  let r := (h.view i).evaluate K c
  (h.store i r.1.cached, r.2)

/-- the part of `run_discrete`/`run_stochastic` that acts on the model -/
def Heap.run (K : Kernel F) (h : Heap U F) (i : Nat) (group : Option Nat) (clear : Bool) : Heap U F :=
  match (h.view i).validate true true true true group, (h.view i).container group with
  | .error _, _ => h
  | .ok _, .error _ => h
  | .ok _, .ok c =>
    match h.evaluate K i c with
    | (h, .error _) => h
    | (h, .ok _) => if clear then h.clearScope i else h

/-- `del self._scope[name]` on the references -/
def delRefs (scope : List (Str × Nat)) : List Str → List (Str × Nat) × Except Err Unit
  | [] => (scope, .ok ())
  | x :: xs => if x ∈ scope.map (·.1) then delRefs (dictDel scope x) xs else (scope, .error .key)

/-- `preval` (model.py:626-665) -/
def Heap.preval (K : Kernel F) (h : Heap U F) (i : Nat) (k : Nat) (dropGroup cleanup : Bool) : Heap U F :=
  match (h.view i).validate true true true true (some k), (h.view i).exprs.getGroup k with
  | .error _, _ => h
  | .ok _, .error _ => h
  | .ok _, .ok sg =>
    match h.evaluate K i ⟨sg.simple, sg.chained, sg.exprs⟩ with
    | (h, .error _) => h
    | (h, .ok u) =>
      let h := h.store i ((h.mdl i).units.map fun us => (us, u))
      let r := if cleanup then delRefs (h.mdl i).scope (toClear (h.view i).exprs sg) else ((h.mdl i).scope, .ok ())
      let h := h.setModel i fun m => { m with scope := r.1 }
      match r.2 with
      | .error _ => h
      | .ok () => if dropGroup then h.dropGroup (h.mdl i).group k else h

/-- the calls of a history. The number of a model is the number of models made before it. -/
inductive HeapOp (U F : Type) where
  | new (precision : Nat)
  | setUnits (i : Nat) (u : List U)
  | declare (i : Nat) (name : Str) (s : Sym F)
  | assign (i : Nat) (name : Str) (d : Data U F)
  | clearScope (i : Nat)
  | expr (i : Nat) (op : GroupOp)
  | addChoice (i : Nat) (name : Name) (scale : F)
  | addNested (hd : Nat) (name : Name) (scale : F)
  | setScale (hd : Nat) (v : F)
  | addChoices (i : Nat) (names : PyIter Name) (scales : Option (List F))
  | setExpressions (i : Nat) (texts : List Str)
  | setExpressionsText (i : Nat) (text : Str)
  | addPartial (i : Nat) (tb : Table U (List Name) F) (reindexRows reindexCols : Bool) (out : CModel U F × Except Err Unit)
  | setPrecision (i : Nat) (p : Nat)
  | run (i : Nat) (group : Option Nat) (clear : Bool)
  | preval (i : Nat) (k : Nat) (dropGroup cleanup : Bool)
  | copy (i : Nat) (units scopeDeclared scopeAssigned expressions utilities : Bool)
  | copySubset (i : Nat) (index : List U) (mask : List Bool)

/-- does the call make sense: do the model and the node exist? -/
def Heap.exists? (h : Heap U F) : HeapOp U F → Bool
  | .new _ => true
  | .setUnits i _ | .declare i _ _ | .assign i _ _ | .clearScope i | .expr i _ | .addChoice i _ _ | .setPrecision i _
  | .addChoices i _ _ | .setExpressions i _ | .setExpressionsText i _ | .addPartial i _ _ _ _
  | .run i _ _ | .preval i _ _ _ | .copy i _ _ _ _ _ | .copySubset i _ _ => decide (i < h.nmodels)
  | .addNested hd _ _ | .setScale hd _ => decide (hd < h.nodes.length)

/-- one call; exceptions are swallowed, their effects stay -/
noncomputable def heapStep [DecidableEq U] (K : Kernel F) (env : PyEnv) (py : PyParser) (h : Heap U F) (op : HeapOp U F) : Heap U F :=
  if h.exists? op then
    match op with
    | .new p => match CModel.new (U := U) (F := F) p with
      | .error _ => h
      | .ok m => h.newModel m
    | .setUnits i u => h.setUnits i u
    | .declare i n s => h.declare i n s
    | .assign i n d => h.assign i n d
    | .clearScope i => h.clearScope i
    | .expr i op => h.exprOp env py i op
    | .addChoice i n sc => h.addChoice i n sc
    | .addNested hd n sc => h.addNested hd n sc
    | .setScale hd v => h.setScale hd v
    | .addChoices i names scales => h.addChoices i names scales
    | .setExpressions i texts => h.setExpressions env py i texts
    | .setExpressionsText i text => h.setExpressions env py i (text.map fun c => [c])
    | .addPartial i tb rr rc out => h.addPartial i tb rr rc out
    | .setPrecision i p => if p = 4 ∨ p = 8 then h.setModel i fun m => { m with precision := p } else h
    | .run i g c => h.run K i g c
    | .preval i k d c => h.preval K i k d c
    | .copy i a b c d e => match (h.view i).copy a b c d e with
      | .error _ => h
      | .ok m => h.newModel m
    | .copySubset i ix mask => match (h.view i).copySubset ix mask with
      | .error _ => h
      | .ok m => h.newModel m
  else h

noncomputable def heapRun [DecidableEq U] (K : Kernel F) (env : PyEnv) (py : PyParser) (h : Heap U F) (ops : List (HeapOp U F)) : Heap U F :=
  ops.foldl (heapStep K env py) h

/-- before any model is made -/
def Heap.start : Heap U F where
  nodes := []
  owner := fun _ => 0
  next := 0
  sym := fun _ => .number none
  parent := fun _ => 0
  grp := fun _ => ⟨[], [], [], []⟩
  sub := fun _ => ⟨[], [], []⟩
  tab := fun _ => ([], ⟨0, 0, fun _ _ => zero⟩)
  nmodels := 0
  mdl := fun _ => ⟨[], [], 0, [], none, none, 8⟩

end
end Cheval
