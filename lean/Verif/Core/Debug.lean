import Verif.Core.Model

/-!
# `debug_id` and `debug_results` (cheval/model.py:51-52, 459-464, 501-507)

A model with a `debug_id` records, after every expression, the utilities of one decision unit.
-/
namespace Cheval
open FOps
variable {U F : Type} [DecidableEq U] [FOps F]

/-- `debug_results` (model.py:507): one row per expression, labelled with the text of the expression -/
structure DebugTab (F : Type) where
  index : List Str
  cols : List (List Name)
  rows : List (List F)

/-- a `ChoiceModel` with its debugging attributes (model.py:51-52) -/
structure DModel (U F : Type) where
  base : CModel U F
  debugId : Option U
  results : Option (DebugTab F)

/-- what `Index.get_loc` returns: a position, or a slice or mask if the label occurs more than once -/
inductive RowLoc where
  | one (k : Nat)
  | many

/-- `row_index.get_loc(self.debug_id)` (model.py:464) -/
def getLoc (units : List U) (id : U) : Except Err RowLoc :=
  match (List.range units.length).filter fun k => decide (units[k]? = some id) with
  | [] => .error .key
  | [k] => .ok (.one k)
  | _ => .ok .many

/-- `if self.debug_id: debug_label = ...` (model.py:460-464). `truthy` is Python's truth value of a label: `0`, `''` and `()` are false. -/
def debugLabel (truthy : U → Bool) (units : List U) : Option U → Except Err (Option RowLoc)
  | none => .ok none
  | some id => if truthy id then (getLoc units id).map some else .ok none

/-- `utilities[debug_label].copy()` (model.py:504); `none` stands for the two-dimensional array of a slice or mask -/
def debugRow (u : Tab F) : RowLoc → Except Err (Option (List F))
  | .one k => if k < u.rows then .ok (some ((List.range u.cols).map (u.val k))) else .error .index
  | .many => .ok none

/-- the loop over the expressions (model.py:480-504), with the rows recorded so far -/
def debugLoop (K : Kernel F) (scope : List (Str × Sym F)) (labels : List (List Name)) (syms : List (Str × Local F)) (loc : Option RowLoc) :
    List Expression → Tab F → List (Option (List F)) → Tab F × Except Err (List (Option (List F)))
  | [], u, acc => (u, .ok acc)
  | x :: xs, u, acc => match evalExpr K scope labels syms u x with
    | .error e => (u, .error e)
    | .ok u' => match loc with
      | none => debugLoop K scope labels syms loc xs u' acc
      | some l => match debugRow u' l with
        | .error e => (u', .error e)
        | .ok r => debugLoop K scope labels syms loc xs u' (acc ++ [r])

/-- `pd.DataFrame(debug_results, index=debug_expr, columns=col_index)` (model.py:507): ValueError for two-dimensional rows and for rows of
another length than the columns -/
def debugFrame (texts : List Str) (labels : List (List Name)) (rows : List (Option (List F))) : Except Err (DebugTab F) :=
  if rows.all fun r => match r with
      | some l => decide (l.length = labels.length)
      | none => false
  then .ok ⟨texts, labels, rows.filterMap id⟩ else .error .value

/-- the end of `_evaluate_utilities` (model.py:509-514): NaN check and the returned table -/
def DModel.finish (d : DModel U F) (n m : Nat) (u : Tab F) : DModel U F × Except Err (Tab F) :=
  if hasNan u then (d, .error .utilityBounds)
  else if u.rows ≠ n ∨ u.cols ≠ m then (d, .error .value)
  else (d, .ok u)

/-- `_evaluate_utilities` (model.py:450-514) with the debugging parts. -/
def DModel.evaluate (truthy : U → Bool) (K : Kernel F) (d : DModel U F) (c : Container) : DModel U F × Except Err (Tab F) :=
  match d.base.units, choices d.base.tree with
  | none, _ => (d, .error .modelNotReady)
  | some _, .error e => (d, .error e)
  | some units, .ok labels =>
    match debugLabel truthy units d.debugId with
    | .error e => (d, .error e)
    | .ok loc =>
      match d.base.partialUtilities with
      | (m, .error e) => ({ d with base := m }, .error e)
      | (m, .ok (ix, u)) =>
        match symLocals m.scope c.simple with
        | .error e => ({ d with base := m }, .error e)
        | .ok syms =>
          match debugLoop K m.scope labels syms loc c.exprs u [] with
          | (u, .error e) => ({ d with base := { m with cached := some (ix, u) } }, .error e)
          | (u, .ok rows) =>
            let d := { d with base := { m with cached := some (ix, u) } }
            match loc with
            | none => d.finish units.length labels.length u
            | some _ => match debugFrame (c.exprs.map (·.raw)) labels rows with
              | .error e => (d, .error e)
              | .ok t => { d with results := some t }.finish units.length labels.length u

/-- the first part of `run_stochastic` and `run_discrete` (model.py:402-417, 589-595) -/
def DModel.runUtilities (truthy : U → Bool) (K : Kernel F) (d : DModel U F) (group : Option Nat) (clear : Bool) :
    DModel U F × Except Err (Tab F) :=
  match d.base.validate true true true true group, d.base.container group with
  | .error e, _ => (d, .error e)
  | .ok _, .error e => (d, .error e)
  | .ok _, .ok c =>
    match d.evaluate truthy K c with
    | (d, .error e) => (d, .error e)
    | (d, .ok u) => (if clear then { d with base := d.base.clearScope } else d, .ok u)

end Cheval
