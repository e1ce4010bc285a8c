import Verif.Core.Parallel
import Verif.Core.Model

/-!
# Model of the whole call `add_partial_utilities` (cheval/model.py:752-780)

A relation, because the cells are added in parallel. Not modelled: dtypes (the table is added in the arithmetic of the cached
utilities), a `table.values` that is not two-dimensional.
-/
namespace Cheval
open FOps
variable {U F : Type} [DecidableEq U] [FOps F]

/-- `ChoiceModel.add_partial_utilities(table, reindex_rows, reindex_columns)` (model.py:752-780). The labels are compared with those of the
model (767-777, decision units and choices being unique indexes); `_partial_utilities` (779) gives the cached table, or a new one of zeros,
which is kept; `fast_indexed_add` (780) then checks sizes against this table and adds in place. -/
def CModel.AddPartial (m : CModel U F) (tb : Table U (List Name) F) (reindexRows reindexCols : Bool) (out : Res U F Unit) : Prop :=
  match m.validate true true false false none, m.decisionUnits, choices m.tree with
  | .error e, _, _ => out = (m, .error e)
  | .ok _, .error e, _ => out = (m, .error e)
  | .ok _, .ok units, ch =>
    if units ≠ tb.rows ∧ reindexRows = false then out = (m, .error .key)
    else match ch with
      | .error e => out = (m, .error e)
      | .ok labels =>
        if labels ≠ tb.cols ∧ reindexCols = false then out = (m, .error .key)
        else match m.partialUtilities with
          | (m, .error e) => out = (m, .error e)
          | (m, .ok (ix, u)) =>
            ∃ r, FastIndexedAdd u.rows u.cols tb.rows.length tb.cols.length tb.val
                (if units = tb.rows then none else some (getIndexer units tb.rows))
                (if labels = tb.cols then none else some (getIndexer labels tb.cols)) (fun p => u.val p.1 p.2) r ∧
              out = match r with
                | .error e => (m, .error e)
                | .ok mem => ({ m with cached := some (ix, ⟨u.rows, u.cols, fun i j => mem (i, j)⟩) }, .ok ())

end Cheval
