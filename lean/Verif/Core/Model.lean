import Verif.Core.Tree
import Verif.Core.ExprGroup
import Verif.Core.Parallel
import Verif.Spec.Expr

/-!
# Model of the scope, the evaluation of utilities and the life cycle of a `ChoiceModel`
(cheval/api.py:240-487, cheval/model.py:29-75, 220-365, 435-529, 626-750, cheval/parsing/expressions.py:54-107)

Not modelled: `debug_id`, logging, thread counts, the storage type of the cells (`precision` only changes the operation
`acc` of the kernel). Data given to `assign` are values here; memory shared with the caller's objects is modelled in `Core/Alias`.
-/
namespace Cheval
open FOps Spec

/-- NumExpr's arithmetic, and `OUT + (value)` cast to the type of the utility table (model.py:528-529) -/
structure Kernel (F : Type) extends Arith F where
  acc : F → Val F → Option F

/-- two-dimensional arrays -/
structure Arr (F : Type) where
  rows : Nat
  cols : Nat
  val : Nat → Nat → Val F

/-- the utility table -/
structure Tab (F : Type) where
  rows : Nat
  cols : Nat
  val : Nat → Nat → F

/-- entries of NumExpr's `local_dict`; `nothing` is `None` -/
inductive Local (F : Type) where
  | scalar (v : Val F)
  | array (a : Arr F)
  | nothing

/-- labels of rows and columns of the user's data: decision units, choices -/
inductive Lab (U : Type) where
  | unit (u : U)
  | choice (c : List Name)
deriving DecidableEq

/-- a DataFrame or LinkedDataFrame as a table symbol sees it: attributes and chained lookups, converted by `convert_series`
(utils.py:23-61). How LinkedDataFrames look values up is modelled in `Core/Ldf` and
connected in `Core/LdfTable`. -/
structure TableData (F : Type) where
  rows : Nat
  linked : Bool
  columns : List Str
  column : Str → Except Err (Nat → Val F)
  walk : List Str → Option (Str × PExpr) → Except Err (Nat → Val F)

/-- the symbol classes (api.py:240-487); orientation 1 is `true`, unassigned data is `none` -/
inductive Sym (F : Type) where
  | number (v : Option F)
  | vector (byChoice : Bool) (v : Option (Arr F))
  | table (byChoice : Bool) (mandatory : List Str) (allowLinks : Bool) (v : Option (TableData F))
  | matrix (transposed reindexCols reindexRows : Bool) (fill : Val F) (v : Option (Arr F))

variable {U F : Type}

/-- `filled` (api.py:290-291, 344-345, 413-414, 486-487) -/
def Sym.filled : Sym F → Bool
  | .number v => v.isSome
  | .vector _ v => v.isSome
  | .table _ _ _ v => v.isSome
  | .matrix _ _ _ _ v => v.isSome

/-- `empty()` (api.py:281, 329, 401-402, 474) -/
def Sym.empty : Sym F → Sym F
  | .number _ => .number none
  | .vector o _ => .vector o none
  | .table o ma al _ => .table o ma al none
  | .matrix t c r f _ => .matrix t c r f none

/-- `_get()` without chain (api.py:276-279, 324-327, 375-376, 472) -/
def Sym.get : Sym F → Except Err (Local F)
  | .number none => .error .modelNotReady
  | .number (some v) => .ok (.scalar (.num v))
  | .vector _ none => .error .modelNotReady
  | .vector _ (some a) => .ok (.array a)
  | .table _ _ _ _ => .error .assertion
  | .matrix _ _ _ _ none => .ok .nothing
  | .matrix _ _ _ _ (some a) => .ok (.array a)

/-- the vector given for a lookup, shaped by the orientation (api.py:394-399) -/
def shapeVector (byChoice : Bool) (n : Nat) (f : Nat → Val F) : Arr F :=
  if byChoice then ⟨1, n, fun _ j => f j⟩ else ⟨n, 1, fun i _ => f i⟩

/-- `_get(chain_info=...)` (api.py:375-399); the other classes do not take the argument -/
def Sym.getChain (ch : Chain) : Sym F → Except Err (Local F)
  | .table o _ _ v =>
    match ch.path, v with
    | _ :: _ :: _, none => .error .assertion
    | _ :: _ :: _, some t =>
      if t.linked then (t.walk ch.path.reverse ch.func).map fun f => .array (shapeVector o t.rows f) else .error .assertion
    | [_], none => .error .type
    | [a], some t => (t.column a).map fun f => .array (shapeVector o t.rows f)
    | [], _ => .error .index
  | _ => .error .type

/-- the data given to `assign`. `series`/`frame`: values after `convert_series`/`to_numpy`, which may raise. `cast` is the
conversion of a fill value to the dtype of the frame's values (`np.full(..., dtype=...)`, api.py:447), which may raise. -/
inductive Data (U F : Type) where
  | number (v : F)
  | series (index : List (Lab U)) (val : Except Err (Nat → Val F))
  | array1 (n : Nat) (val : Nat → Val F)
  | arrayND
  | frame (index cols : List (Lab U)) (val : Nat → Nat → Val F) (cast : Val F → Except Err (Val F)) (table : TableData F)
  | other

/-- a `ChoiceModel` (model.py:29-52). `cached`: the row labels and the values of `_cached_utils`. -/
structure CModel (U F : Type) where
  tree : TreeSt F
  exprs : ExprGroup
  scope : List (Str × Sym F)
  units : Option (List U)
  cached : Option (List U × Tab F)
  precision : Nat

/-- outcome of a method: the mutated model, also when an exception is raised -/
abbrev Res (U F α : Type) := CModel U F × Except Err α

/-- `precision` setter (model.py:59-63) -/
def CModel.setPrecision (m : CModel U F) (i : Nat) : Res U F Unit :=
  if i = 4 ∨ i = 8 then ({ m with precision := i }, .ok ()) else (m, .error .value)

/-- `__init__` (model.py:29-52) -/
def CModel.new (i : Nat) : Except Err (CModel U F) :=
  if i = 4 ∨ i = 8 then .ok ⟨TreeSt.empty, ExprGroup.empty, [], none, none, i⟩ else .error .value

/-- `decision_units` (model.py:220-226) -/
def CModel.decisionUnits (m : CModel U F) : Except Err (List U) :=
  match m.units with
  | none => .error .modelNotReady
  | some u => .ok u

/-- `decision_units` setter (model.py:228-242) -/
def CModel.setUnits (m : CModel U F) (u : List U) : CModel U F :=
  { m with units := some u, scope := m.scope.map fun (n, s) => (n, match s with
    | .number v => .number v
    | s => s.empty) }

/-- `declare_number`/`_vector`/`_table`/`_matrix` (model.py:244-301); the symbol given is the new, unassigned one -/
def CModel.declare (m : CModel U F) (name : Str) (s : Sym F) : Res U F Unit :=
  if name ∈ reserved then (m, .error .syntaxErr)
  else ({ m with scope := dictSet m.scope name s.empty }, .ok ())

/-- `clear_scope` (model.py:307-308) -/
def CModel.clearScope (m : CModel U F) : CModel U F := { m with scope := [] }

/-- `model.expressions.append` -/
def CModel.append (env : PyEnv) (py : PyParser) (m : CModel U F) (e : Str) (group : Option Nat) : Res U F Unit :=
  let r := m.exprs.append env py e group
  ({ m with exprs := r.1 }, r.2)

section tree
variable [FOps F]

/-- `add_choice` (model.py:95-118): the cached table is dropped first -/
def CModel.addChoice (m : CModel U F) (name : Name) (scale : F) : Res U F Nat :=
  let r := addTop m.tree name scale
  ({ m with cached := none, tree := r.1 }, r.2)

/-- `add_choices` (model.py:120-146): the cached table is dropped first; the nodes made before one is refused stay -/
def CModel.addChoices (m : CModel U F) (names : PyIter Name) (scales : Option (List F)) : Res U F (List Nat) :=
  let r := Cheval.addChoices m.tree names scales
  ({ m with cached := none, tree := r.1 }, r.2)

/-- `ChoiceNode.logsum_scale` setter through a handle (api.py:48-51): the cached table stays -/
def CModel.setScale (m : CModel U F) (h : Nat) (v : F) : Res U F Nat :=
  let r := Cheval.setScale m.tree h v
  ({ m with tree := r.1 }, r.2)

/-- `ChoiceNode.add_choice` through a handle (api.py:103-106): the cached table stays -/
def CModel.addNested (m : CModel U F) (h : Nat) (name : Name) (scale : F) : Res U F Nat :=
  let r := addChild m.tree h name scale
  ({ m with tree := r.1 }, r.2)

/-! ## assignment -/

/-- labels a vector or table symbol is compared with (api.py:304, 364) -/
def CModel.labels (m : CModel U F) (byChoice : Bool) : Except Err (List (Lab U)) :=
  if byChoice then (choices m.tree).map fun l => l.map .choice else m.decisionUnits.map fun l => l.map .unit

/-- the checks of `MatrixSymbol.assign` on an axis whose labels differ (api.py:448-453, 457-462). `get_indexer` needs distinct target
labels. -/
def axisError [DecidableEq U] (own given : List (Lab U)) (reindex : Bool) : Option Err :=
  if own = given then none
  else if !reindex then some .assertion
  else if ¬ own.Nodup then some .value
  else if ∃ c ∈ given, c ∉ own then some .notImplemented
  else none

/-- the position of the data that ends up at position `i` of an axis; the last one with the label wins -/
def axisSource [DecidableEq U] (own given : List (Lab U)) (i : Nat) : Option Nat :=
  if own = given then some i
  else (List.range given.length).reverse.find? fun k => decide (given[k]? = own[i]?)

/-- `self._matrix = ...` of `MatrixSymbol.assign` (api.py:438-467) for a DataFrame (already transposed). Assigning through two
index arrays at once selects cells pairwise: it works only for data with one row (IndexError if the index arrays do not
broadcast, ValueError if the data do not). -/
def assignMatrix [DecidableEq U] (units : List U) (cols : List (List Name)) (reindexCols reindexRows : Bool) (fill : Val F)
    (index columns : List (Lab U)) (val : Nat → Nat → Val F) (cast : Val F → Except Err (Val F)) : Except Err (Arr F) :=
  let rl := units.map Lab.unit
  let cl := cols.map Lab.choice
  if rl = index ∧ cl = columns then .ok ⟨index.length, columns.length, val⟩
  else match cast fill with
  | .error e => .error e
  | .ok fill => match axisError cl columns reindexCols, axisError rl index reindexRows with
  | some e, _ => .error e
  | none, some e => .error e
  | none, none =>
    if rl ≠ index ∧ cl ≠ columns ∧ index.length ≠ 1 then
      .error (if index.length ≠ columns.length ∧ columns.length ≠ 1 then .index else .value)
    else .ok ⟨units.length, cols.length, fun i j => match axisSource rl index i, axisSource cl columns j with
      | some a, some b => val a b
      | _, _ => fill⟩

/-- `symbol.assign(data)` (api.py:273-274, 303-322, 362-373, 429-470) -/
def Sym.assign [DecidableEq U] (m : CModel U F) (s : Sym F) (d : Data U F) : Except Err (Sym F) :=
  match s with
  | .number _ => match d with
    | .number v => .ok (.number (some v))
    | _ => .error .type
  | .vector o _ => do
    let l ← m.labels o
    match d with
    | .series index val =>
      if l ≠ index then .error .assertion
      else val.map fun f => .vector o (some (shapeVector o l.length f))
    | .array1 n f => if n ≠ l.length then .error .assertion else .ok (.vector o (some (shapeVector o l.length f)))
    | .arrayND => .error .assertion
    | _ => .error .type
  | .table o ma al _ => match d with
    | .frame index _ _ _ t => do
      let l ← m.labels o
      if index ≠ l then .error .assertion
      else if ∃ c ∈ ma, c ∉ t.columns then .error .assertion
      else if !al && !t.linked then .error .type
      else .ok (.table o ma al (some t))
    | _ => .error .assertion
  | .matrix tr rc rr fill _ => do
    let units ← m.decisionUnits
    let cols ← choices m.tree
    match d with
    | .frame index columns val cast _ =>
      if tr then (assignMatrix units cols rc rr fill columns index (fun i j => val j i) cast).map fun a => .matrix tr rc rr fill (some a)
      else (assignMatrix units cols rc rr fill index columns val cast).map fun a => .matrix tr rc rr fill (some a)
    | .number _ => .error (if tr then .attribute else .type)
    | .other => .error (if tr then .attribute else .type)
    | _ => .error .type

/-- `model[name].assign(data)` (model.py:303-305) -/
def CModel.assign [DecidableEq U] (m : CModel U F) (name : Str) (d : Data U F) : Res U F Unit :=
  match dictGet m.scope name with
  | none => (m, .error .key)
  | some s => match s.assign m d with
    | .error e => (m, .error e)
    | .ok s' => ({ m with scope := dictSet m.scope name s' }, .ok ())

/-! ## validation -/

/-- an `ExpressionGroup` or `ExpressionSubGroup` as validation and evaluation see it -/
structure Container where
  simple : List Str
  chained : List Str
  exprs : List Expression

/-- `self._expressions if group is None else self._expressions.get_group(group)` -/
def CModel.container (m : CModel U F) : Option Nat → Except Err Container
  | none => .ok ⟨m.exprs.itersimple, m.exprs.iterchained, m.exprs.all⟩
  | some k => (m.exprs.getGroup k).map fun g => ⟨g.simple, g.chained, g.exprs⟩

/-- the loop over the symbols (model.py:360-365) -/
def checkSymbols (scope : List (Str × Sym F)) (assignment : Bool) : List Str → Except Err Unit
  | [] => .ok ()
  | x :: xs =>
    if x ∈ reserved then checkSymbols scope assignment xs
    else match dictGet scope x with
      | none => .error .modelNotReady
      | some s => if assignment && !s.filled then .error .modelNotReady else checkSymbols scope assignment xs

/-- `validate` (model.py:322-365) -/
def CModel.validate (m : CModel U F) (tree units expressions assignment : Bool) (group : Option Nat) : Except Err Unit := do
  if tree then validateTree m.tree
  if units then let _ ← m.decisionUnits
  if !expressions && !assignment then .ok ()
  else
    let c ← m.container group
    checkSymbols m.scope assignment (c.simple ++ c.chained)

/-! ## evaluation -/

/-- `_partial_utilities` (model.py:65-75) -/
def CModel.partialUtilities (m : CModel U F) : Res U F (List U × Tab F) :=
  match m.validate true true false false none, m.decisionUnits, choices m.tree with
  | .error e, _, _ => (m, .error e)
  | .ok _, .error e, _ => (m, .error e)
  | .ok _, .ok _, .error e => (m, .error e)
  | .ok _, .ok u, .ok ch =>
    match m.cached with
    | some t => (m, .ok t)
    | none =>
      let t := (u, ⟨u.length, ch.length, fun _ _ => zero⟩)
      ({ m with cached := some t }, .ok t)

/-- positions of a label (`Index.get_loc`); `KeyError` if there is none -/
def positionsOf (labels : List (List Name)) (key : List Name) : List Nat :=
  (List.range labels.length).filter fun j => decide (labels[j]? = some key)

/-- positions of the labels starting with a key (`MultiIndex.get_loc` of a partial key) -/
def positionsBelow (labels : List (List Name)) (key : List Name) : List Nat :=
  (List.range labels.length).filter fun j => decide ((labels.getD j []).take key.length = key)

/-- number of levels of the choice index -/
def nlevels (labels : List (List Name)) : Nat := (labels.headD []).length

/-- `_make_column_mask` (model.py:435-448) -/
def columnMask (labels : List (List Name)) : Option Str → Except Err (Option Nat)
  | none => .ok none
  | some f =>
    let parts := splitOn '.' f
    let key := parts ++ List.replicate (nlevels labels - parts.length) ['.']
    if nlevels labels = 1 then
      if parts.length ≠ 1 then .error .assertion
      else match positionsOf labels parts with
        | j :: _ => .ok (some j)
        | [] => .error .key
    else if nlevels labels < parts.length then .error .assertion
    else match positionsOf labels key with
      | j :: _ => .ok (some j)
      | [] => .error .key

/-- `new_array[0, locs] = val` -/
def setCells (arr : Nat → ℚ) (locs : List Nat) (v : ℚ) : Nat → ℚ := fun j => if j ∈ locs then v else arr j

/-- `_insert_dict_val` (expressions.py:64-107) -/
def insertDictVal (labels : List (List Name)) (key : List Str) (v : ℚ) (arr : Nat → ℚ) : Except Err (Nat → ℚ) :=
  if nlevels labels = 1 then
    if key.length ≠ 1 then .error .assertion
    else match positionsOf labels key with
      | [] => .error .key
      | ps => .ok (setCells arr ps v)
  else
    let newKey := key.takeWhile fun k => decide (k ≠ ['_'])
    let full := newKey ++ List.replicate (nlevels labels - newKey.length) ['.']
    if ['_'] ∈ key then
      if nlevels labels < newKey.length then .error .key
      else match positionsBelow labels newKey, positionsOf labels full with
        | [], _ => .error .key
        | _, [] => .error .key
        | ps, qs => .ok (setCells (setCells arr ps v) qs 0)
    else match positionsOf labels full with
      | [] => .error .key
      | ps => .ok (setCells arr ps v)

/-- one dict literal: `_prepare_dict_literals` (expressions.py:54-62) -/
def dictRow (labels : List (List Name)) (lit : Literal) : Except Err (Nat → ℚ) :=
  lit.foldlM (fun arr e => insertDictVal labels e.1 e.2 arr) (fun _ => 0)

/-- the arrays and scalars of the simple symbols (model.py:470-474) -/
def symLocals (scope : List (Str × Sym F)) (names : List Str) : Except Err (List (Str × Local F)) :=
  names.foldlM (fun d name =>
    if name ∈ reserved ∨ name ∈ d.map (·.1) then .ok d
    else match dictGet scope name with
      | none => .error .key
      | some s => s.get.map fun l => d ++ [(name, l)]) []

/-- the reserved names (model.py:469) -/
def reservedLocals (K : Kernel F) (u : Tab F) : List (Str × Local F) :=
  [(nanStr, .scalar (.num K.nan)), (outStr, .array ⟨u.rows, u.cols, fun i j => .num (u.val i j)⟩),
   (negInfStr, .scalar (.num negInf))]

/-- dict literals of an expression (model.py:489-490) -/
def addDicts (K : Kernel F) (labels : List (List Name)) (d : List (Str × Local F)) (lits : List (Str × Literal)) :
    Except Err (List (Str × Local F)) :=
  lits.foldlM (fun d e => (dictRow labels e.2).map fun row =>
    dictSet d e.1 (.array ⟨1, labels.length, fun _ j => .num (K.lit (row j))⟩)) d

/-- lookups of an expression (model.py:492-497) -/
def addChains (scope : List (Str × Sym F)) (d : List (Str × Local F)) (chains : List (Str × List (Str × Chain))) :
    Except Err (List (Str × Local F)) :=
  chains.foldlM (fun d t => match dictGet scope t.1 with
    | none => .error .key
    | some s => t.2.foldlM (fun d l => (s.getChain l.2).map fun v => dictSet d l.1 v) d) d

/-- value of an array at a cell of an `n` × `m` result (NumPy broadcasting) -/
def Arr.cell (a : Arr F) (n m i j : Nat) : Option (Val F) :=
  if (a.rows = n ∨ a.rows = 1) ∧ (a.cols = m ∨ a.cols = 1) then
    some (a.val (if a.rows = 1 then 0 else i) (if a.cols = 1 then 0 else j))
  else none

/-- value of an array in row `i` after column `col` was selected (model.py:519-526) -/
def Arr.cellOf (a : Arr F) (n i col : Nat) : Option (Val F) :=
  if (a.rows = n ∨ a.rows = 1) ∧ a.cols ≠ 0 then
    some (a.val (if a.rows = 1 then 0 else i) (if a.cols = 1 then 0 else col))
  else none

/-- what NumExpr reads for a name at a cell -/
def Local.at (mask : Option Nat) (n m i j : Nat) : Local F → Option (Val F)
  | .scalar v => some v
  | .nothing => none
  | .array a => match mask with
    | none => a.cell n m i j
    | some col => a.cellOf n i col

/-- does the expression write to column `j`? -/
def applies (mask : Option Nat) (j : Nat) : Bool := match mask with
  | none => true
  | some c => decide (j = c)

/-- the new value of a cell (model.py:527-528). NumExpr's fallback from `local_dict` to the globals of model.py is left out: an unbound name is an error. -/
def newCell (K : Kernel F) (e : PExpr) (d : List (Str × Local F)) (u : Tab F) (mask : Option Nat) (i j : Nat) : Option F :=
  (ne K.toArith (fun id => (dictGet d id).bind (Local.at mask u.rows u.cols i j)) e).bind (K.acc (u.val i j))

/-- `val[:, column_index]` out of range (model.py:519-523) -/
def badColumn (mask : Option Nat) (x : Str × Local F) : Bool := match mask, x.2 with
  | some c, .array a => decide (1 < a.cols ∧ a.cols ≤ c)
  | _, _ => false

/-- `out[:, column_index]` out of range (model.py:526) -/
def badOut (mask : Option Nat) (u : Tab F) : Bool := match mask with
  | some c => decide (u.cols ≤ c)
  | none => false

/-- `_kernel_eval` (model.py:516-529). All columns are selected first (IndexError); NumExpr then computes all cells or raises
(the class of its errors is not modelled). -/
def kernelEval (K : Kernel F) (e : PExpr) (d : List (Str × Local F)) (u : Tab F) (mask : Option Nat) : Except Err (Tab F) :=
  if d.any (badColumn mask) || badOut mask u then .error .index
  else if (List.range u.rows).all fun i => (List.range u.cols).all fun j =>
      !applies mask j || (newCell K e d u mask i j).isSome then
    .ok ⟨u.rows, u.cols, fun i j => if i < u.rows ∧ j < u.cols ∧ applies mask j then
      (newCell K e d u mask i j).getD (u.val i j) else u.val i j⟩
  else .error .value

/-- one round of the loop over the expressions (model.py:480-499) -/
def evalExpr (K : Kernel F) (scope : List (Str × Sym F)) (labels : List (List Name)) (syms : List (Str × Local F))
    (u : Tab F) (x : Expression) : Except Err (Tab F) := do
  let mask ← columnMask labels x.filter
  let d ← addDicts K labels (reservedLocals K u ++ syms) x.dicts
  let d ← addChains scope d x.chains
  kernelEval K x.transformed d u mask

/-- the loop: the table is updated in place, so earlier expressions stay added when a later one raises -/
def evalLoop (K : Kernel F) (scope : List (Str × Sym F)) (labels : List (List Name)) (syms : List (Str × Local F)) :
    List Expression → Tab F → Tab F × Except Err Unit
  | [], u => (u, .ok ())
  | x :: xs, u => match evalExpr K scope labels syms u x with
    | .error e => (u, .error e)
    | .ok u' => evalLoop K scope labels syms xs u'

/-- is there a NaN in the table (model.py:509-512) -/
def hasNan (u : Tab F) : Bool := (List.range u.rows).any fun i => (List.range u.cols).any fun j => isNan (u.val i j)

/-- `_evaluate_utilities` (model.py:450-514). The returned table is the cached one. -/
def CModel.evaluate (K : Kernel F) (m : CModel U F) (c : Container) : Res U F (Tab F) :=
  match m.units, choices m.tree with
  | none, _ => (m, .error .modelNotReady)
  | some _, .error e => (m, .error e)
  | some units, .ok labels =>
    match m.partialUtilities with
    | (m, .error e) => (m, .error e)
    | (m, .ok (ix, u)) =>
      match symLocals m.scope c.simple with
      | .error e => (m, .error e)
      | .ok syms =>
        match evalLoop K m.scope labels syms c.exprs u with
        | (u, .error e) => ({ m with cached := some (ix, u) }, .error e)
        | (u, .ok ()) =>
          let m := { m with cached := some (ix, u) }
          if hasNan u then (m, .error .utilityBounds)
          else if u.rows ≠ units.length ∨ u.cols ≠ labels.length then (m, .error .value)
          else (m, .ok u)

/-- the first part of `run_stochastic` and `run_discrete`: validation, utilities, clean-up (model.py:402-417, 589-595) -/
def CModel.runUtilities (K : Kernel F) (m : CModel U F) (group : Option Nat) (clear : Bool) : Res U F (Tab F) :=
  match m.validate true true true true group, m.container group with
  | .error e, _ => (m, .error e)
  | .ok _, .error e => (m, .error e)
  | .ok _, .ok c =>
    match m.evaluate K c with
    | (m, .error e) => (m, .error e)
    | (m, .ok u) => (if clear then m.clearScope else m, .ok u)

/-- the utility table as the workers get it -/
def Tab.toRows (u : Tab F) : List (List F) := (List.range u.rows).map fun i => (List.range u.cols).map fun j => u.val i j

/-! ## preval -/

/-- `del self._scope[name]` for each name (model.py:661-662); a set in Python, in some order -/
def delNames (scope : List (Str × Sym F)) : List Str → List (Str × Sym F) × Except Err Unit
  | [] => (scope, .ok ())
  | x :: xs => if x ∈ scope.map (·.1) then delNames (dictDel scope x) xs else (scope, .error .key)

/-- the set computations of `preval` (model.py:653-659). `all_symbols` chains `itersimple()` with itself. -/
def toClear (g : ExprGroup) (sg : SubGroup) : List Str :=
  let all := g.itersimple ++ g.itersimple
  let ungrouped := g.chained ++ g.simple
  let group := sg.chained ++ sg.simple
  let other := all.filter fun x => decide (x ∉ ungrouped ∧ x ∉ group)
  (group.filter fun x => decide (x ∉ ungrouped ∧ x ∉ other)).dedup

/-- `preval` (model.py:626-665) -/
def CModel.preval (K : Kernel F) (m : CModel U F) (k : Nat) (dropGroup cleanup : Bool) : Res U F Unit :=
  match m.validate true true true true (some k), m.exprs.getGroup k with
  | .error e, _ => (m, .error e)
  | .ok _, .error e => (m, .error e)
  | .ok _, .ok sg =>
    match m.evaluate K ⟨sg.simple, sg.chained, sg.exprs⟩ with
    | (m, .error e) => (m, .error e)
    | (m, .ok u) =>
      let m := { m with cached := (m.units.map fun us => (us, u)) }
      let (scope, r) := if cleanup then delNames m.scope (toClear m.exprs sg) else (m.scope, .ok ())
      let m := { m with scope := scope }
      match r with
      | .error e => (m, .error e)
      | .ok () => if dropGroup then ({ m with exprs := (m.exprs.dropGroup k).1 }, (m.exprs.dropGroup k).2) else (m, .ok ())

/-! ## copies -/

/-- positions selected by a boolean mask -/
def maskPositions (mask : List Bool) : List Nat := (List.range mask.length).filter fun i => mask.getD i false

/-- `array[mask]` -/
def Arr.take (a : Arr F) (mask : List Bool) : Except Err (Arr F) :=
  if a.rows ≠ mask.length then .error .index
  else .ok ⟨(maskPositions mask).length, a.cols, fun i j => a.val ((maskPositions mask).getD i 0) j⟩

/-- `table.loc[mask]`; lookups on the slice are those on the table, at the selected rows (for LinkedDataFrames: C46) -/
def TableData.take (t : TableData F) (mask : List Bool) : TableData F :=
  { t with rows := (maskPositions mask).length,
           column := fun a => (t.column a).map fun f i => f ((maskPositions mask).getD i 0),
           walk := fun p fn => (t.walk p fn).map fun f i => f ((maskPositions mask).getD i 0) }

/-- `copy` of the symbol classes (api.py:283-288, 331-342, 404-411, 476-484) -/
def Sym.copy (s : Sym F) (copyData : Bool) (mask : Option (List Bool)) : Except Err (Sym F) :=
  if !copyData then .ok s.empty
  else match s, mask with
    | .vector false (some a), some msk => (a.take msk).map fun a => .vector false (some a)
    | .table false ma al (some t), some msk => .ok (.table false ma al (some (t.take msk)))
    | .matrix tr rc rr f (some a), some msk => (a.take msk).map fun a => .matrix tr rc rr f (some a)
    | s, _ => .ok s

/-- copying the scope, symbol by symbol -/
def copyScope (scope : List (Str × Sym F)) (copyData : Bool) (mask : Option (List Bool)) : Except Err (List (Str × Sym F)) :=
  scope.mapM fun (n, s) => (s.copy copyData mask).map fun s => (n, s)

/-- `ChoiceModel.copy` (model.py:667-710). The dictionaries of nodes are copied, the nodes are shared (see `Core/Heap`). -/
def CModel.copy (m : CModel U F) (units scopeDeclared scopeAssigned expressions utilities : Bool) : Except Err (CModel U F) :=
  match if scopeDeclared || scopeAssigned then copyScope m.scope scopeAssigned none else .ok [] with
  | .error e => .error e
  | .ok scope =>
    .ok { tree := m.tree,
          exprs := if expressions then m.exprs.copy else ExprGroup.empty,
          scope := scope,
          units := if units || scopeAssigned then m.units else none,
          cached := if utilities then m.cached else none,
          precision := m.precision }

/-- the rows of a labelled table at the given positions -/
def takeRows (t : List U × Tab F) (ps : List Nat) : List U × Tab F :=
  (ps.filterMap fun i => t.1[i]?, ⟨ps.length, t.2.cols, fun i j => t.2.val (ps.getD i 0) j⟩)

/-- `table.loc[mask]` with a boolean Series: pandas aligns the mask by label if the labels differ; labels the mask does not have,
or that are ambiguous, raise -/
def takeMasked [DecidableEq U] (t : List U × Tab F) (maskIndex : List U) (mask : List Bool) : Except Err (List U × Tab F) :=
  if t.1 = maskIndex then .ok (takeRows t (maskPositions mask))
  else if maskIndex.Nodup ∧ ∀ u ∈ t.1, u ∈ maskIndex then
    .ok (takeRows t (maskPositions (t.1.map fun u => mask.getD (maskIndex.idxOf u) false)))
  else .error .index

/-- `copy_subset` (model.py:712-750); `maskIndex` is the index of the mask Series -/
def CModel.copySubset [DecidableEq U] (m : CModel U F) (maskIndex : List U) (mask : List Bool) : Except Err (CModel U F) :=
  match m.units with
  | none => .error .modelNotReady
  | some units =>
    if maskIndex ≠ units ∨ mask.length ≠ maskIndex.length then .error .assertion
    else
      match copyScope m.scope true (some mask) with
      | .error e => .error e
      | .ok scope =>
        let new : CModel U F :=
          { tree := m.tree, exprs := m.exprs.copy, scope := scope,
            units := some ((maskPositions mask).filterMap fun i => units[i]?), cached := none, precision := m.precision }
        match m.cached with
        | none => .ok new
        | some t => match takeMasked t maskIndex mask with
          | .error e => .error e
          | .ok t => .ok { new with cached := some t }

end tree
end Cheval
