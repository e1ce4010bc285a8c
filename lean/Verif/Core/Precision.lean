import Verif.Core.ModelHistory

/-!
# The width of the stored utilities (cheval/model.py:48-76, 113-114, 136-137, 466, 649, 705-708, 747-748)
-/
namespace Cheval
variable {U F : Type}

/-- A model and the width in bytes of the cells of its stored utility table (`_cached_utils.dtype.itemsize`), if it has one. -/
structure PModel (U F : Type) where
  model : CModel U F
  width : Option Nat

/-- The width after a call that turns `m` into `m'`. A table is created in one place only, `_partial_utilities` (model.py:68-72), with the
precision at that time. Evaluation writes into the array of that table (model.py:466, 528) and preval stores a frame around the same array
(model.py:513, 649); `copy` and `copy_subset` copy the table with its dtype (model.py:708, 748); add_choice drops it (model.py:113-114,
136-137). No call drops a table and creates another one. -/
def widthAfter (m m' : CModel U F) (w : Option Nat) : Option Nat :=
  match m'.cached, m.cached with
  | none, _ => none
  | some _, none => some m.precision
  | some _, some _ => w

variable [DecidableEq U] [FOps F]

noncomputable def precisionStep (K : Kernel F) (env : PyEnv) (py : PyParser) (p : PModel U F) (op : ModelOp U F) : PModel U F :=
  ⟨modelStep K env py p.model op, widthAfter p.model (modelStep K env py p.model op) p.width⟩

noncomputable def precisionRun (K : Kernel F) (env : PyEnv) (py : PyParser) (p : PModel U F) (ops : List (ModelOp U F)) : PModel U F :=
  ops.foldl (precisionStep K env py) p

end Cheval
