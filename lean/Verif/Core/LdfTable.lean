import Verif.Core.LdfEval
import Verif.Core.Model

/-!
# A frame as the data of a table symbol (cheval/api.py:375-399)
-/
namespace Cheval
open Spec
variable {V F : Type} [DecidableEq V]

/-- `convert_series(series, allow_raw=False)` (api.py:394; utils.py:23-61) of what a lookup returned, as a function of the row. Rows outside
the array are never read; they get an arbitrary value. -/
def EvEnv.vector (K : EvEnv V F) (x : Except Err (LCol V)) : Except Err (Nat → Val F) :=
  match x with
  | .error e => .error e
  | .ok c => match K.conv c with
    | .error e => .error e
    | .ok a => .ok fun i => a[i]?.getD (.bool false)

/-- the frame `r` of the world, assigned to a table symbol. `table[a]` (api.py:391-392) serves links first: a link node has no `dtype`, so that
converting it raises AttributeError. Longer chains (api.py:380-389) are lookups on the frame: the items in turn, then the
aggregation if there is one. (They fill caches of the frame, on which results do not depend: `C52_stable`.) -/
noncomputable def EvEnv.tableData (K : EvEnv V F) (E : LEnv V) (w : LWorld V) (r : Nat) (f : LFrame V) : TableData F where
  rows := f.rows
  linked := f.linked
  columns := f.cols.map (·.1)
  column a := if a ∈ f.links.map (·.1) then .error .attribute else match dictGet f.cols a with
    | none => .error .key
    | some c => K.vector (.ok c)
  walk path func := match func with
    | some (fn, arg) => K.vector (E.aggregate (K.argEval E) w r path fn arg K.intFill).2
    | none => match path.getLast? with
      | none => .error .attribute
      | some col => K.vector (E.lookup w r path.dropLast col).2

end Cheval
