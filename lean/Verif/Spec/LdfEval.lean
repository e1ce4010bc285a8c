import Verif.Core.LdfEval

/-!
# What `evaluate` means

The expression is read row by row: a name is the cell of the column of that name in the row, or `NEG_INF`, or the local value
of that name; a dotted name `link.column` is the element of the Series that the same lookup, written in Python, returns for
the row, and likewise for an aggregation `link.f(argument)`. There are no dict literals.
-/
namespace Cheval
open Spec
variable {V F : Type}

/-- the element of a Series, as NumExpr sees it, in row `i` -/
def EvEnv.elem (K : EvEnv V F) (x : Except Err (LCol V)) (i : Nat) : Option (Val F) :=
  match x with
  | .error _ => none
  | .ok c => match K.conv c with
    | .error _ => none
    | .ok a => a[i]?

variable [DecidableEq V]

/-- what the names in an expression mean in row `i` of frame `r` -/
noncomputable def EvEnv.cell (K : EvEnv V F) (E : LEnv V) (w : LWorld V) (r : Nat) (locals : List (Str × LocalVal F)) (i : Nat) : CellEnv F where
  sym id := (w.frames[r]?).bind fun f =>
    if id ∈ f.links.map (·.1) then none
    else match dictGet f.cols id with
      | some c => K.elem (.ok c) i
      | none => if id = negInfStr then some (.num K.negInf) else (dictGet locals id).bind (LocalVal.at f.rows i)
  lookup root path func := match func with
    | some (fn, arg) => K.elem (E.aggregate (K.argEval E) w r (root :: path) fn arg K.intFill).2 i
    | none => path.getLast?.bind fun col => K.elem (E.lookup w r (root :: path.dropLast) col).2 i
  dict _ := none

end Cheval
