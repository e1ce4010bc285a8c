import Verif.Core.LdfPivot

/-!
# What the arguments of `pivot_table` mean
-/
namespace Cheval
open Spec
variable {V F : Type}

/-- the texts an argument holds -/
def PivotArg.names : PivotArg → List Str
  | .nothing => []
  | .text s => [s]
  | .list l => l
  | .tuple l => l

/-- a text stands for the column of that name or, if there is none, for the expression evaluated on the frame as it is before the call -/
noncomputable def EvEnv.pivotColumn [DecidableEq V] (K : EvEnv V F) (E : LEnv V) (py : PyParser) (w : LWorld V) (r : Nat) (s : Str) : Except Err (LCol V) :=
  match (w.frames[r]?).bind fun f => dictGet f.cols s with
  | some c => .ok c
  | none => (K.evaluateText E py r w s).2

/-- the DataFrame the caller has in mind: the index of the frame, and one column for every text in the arguments -/
structure Meant (f : LFrame V) (names : List Str) (col : Str → Except Err (LCol V)) (t : PivotTab V) : Prop where
  levels : t.levels = f.levels
  index : t.index = f.index
  distinct : (t.cols.map (·.1)).Nodup
  cols : ∀ s c, (s, c) ∈ t.cols ↔ s ∈ names ∧ col s = .ok c

end Cheval
