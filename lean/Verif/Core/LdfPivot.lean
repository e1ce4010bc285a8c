import Verif.Core.LdfEvalLemmas
import Verif.Core.LdfQuiet
import Verif.Core.ExprGroup

/-!
# Model of `LinkedDataFrame.pivot_table` (cheval/ldf/api.py:792-829)

Not modelled: items of a tuple that are not text (arrays, Groupers), a column that is also the alias of a link (`self[name]` is then
the link, here a TypeError), keyword arguments (part of the parameter `pivot`).
-/
namespace Cheval
open Spec
variable {V F P : Type}

/-- what `values`, `index` or `columns` can be: `None` or an array, which name no column; a text; a list or a tuple of texts -/
inductive PivotArg where
  | nothing
  | text (s : Str)
  | list (l : List Str)
  | tuple (l : List Str)

/-- the DataFrame built for the pivot (api.py:795-802) -/
structure PivotTab (V : Type) where
  levels : List (Option Str)
  index : List (List V)
  cols : List (Str × LCol V)

/-- `d.update(e)` -/
def dictUpdate (d e : List (Str × LCol V)) : List (Str × LCol V) := e.foldl (fun d x => dictSet d x.1 x.2) d

/-- the loop of `_resolve_columns` (api.py:823-828), given what is done with one item -/
def resolveItems (one : LWorld V → Str → LWorld V × Except Err (LCol V)) :
    LWorld V → List Str → List (Str × LCol V) → LWorld V × Except Err (List (Str × LCol V))
  | w, [], d => (w, .ok d)
  | w, s :: l, d => match one w s with
    | (w1, .error e) => (w1, .error e)
    | (w1, .ok c) => resolveItems one w1 l (dictSet d s c)

variable [DecidableEq V]

/-- `self.evaluate(text)` (api.py:694-746), from the text: an `@` filter is split off and not used -/
noncomputable def EvEnv.evaluateText (K : EvEnv V F) (E : LEnv V) (py : PyParser) (r : Nat) (w : LWorld V) (s : Str) : LWorld V × Except Err (LCol V) :=
  match splitFilter s with
  | .error e => (w, .error e)
  | .ok (t, _) => match py t with
    | .error e => (w, .error e)
    | .ok tree => K.evaluate E w r tree []

/-- `_resolve_columns` of a text (api.py:818-822) -/
noncomputable def EvEnv.pivotText (K : EvEnv V F) (E : LEnv V) (py : PyParser) (r : Nat) (w : LWorld V) (s : Str) : LWorld V × Except Err (LCol V) :=
  match w.frames[r]? with
  | none => (w, .error .attribute)
  | some f => match dictGet f.cols s with
    | some c => if s ∈ f.links.map (·.1) then (w, .error .type) else (w, .ok c)
    | none => K.evaluateText E py r w s

/-- `_resolve_columns` (api.py:806-829). The loop tests `lookup_items in self.columns`, the whole argument and not the item: a list
cannot be hashed, which is a TypeError as soon as there is an item; a tuple is not a column, so that every item is evaluated. -/
noncomputable def EvEnv.resolveColumns (K : EvEnv V F) (E : LEnv V) (py : PyParser) (r : Nat) (w : LWorld V) :
    PivotArg → LWorld V × Except Err (List (Str × LCol V))
  | .nothing => (w, .ok [])
  | .text s => resolveItems (K.pivotText E py r) w [s] []
  | .list [] => (w, .ok [])
  | .list (_ :: _) => (w, .error .type)
  | .tuple l => resolveItems (K.evaluateText E py r) w l []

/-- `pivot_table` (api.py:792-804) of the linked frame `r`; `pivot` is pandas' method on the DataFrame built -/
noncomputable def EvEnv.pivotTable (K : EvEnv V F) (E : LEnv V) (py : PyParser)
    (pivot : PivotTab V → PivotArg → PivotArg → PivotArg → Except Err P) (w : LWorld V) (r : Nat) (values index columns : PivotArg) :
    LWorld V × Except Err P :=
  match w.frames[r]? with
  | none => (w, .error .attribute)
  | some f => match K.resolveColumns E py r w values with
    | (w1, .error e) => (w1, .error e)
    | (w1, .ok vs) => match K.resolveColumns E py r w1 index with
      | (w2, .error e) => (w2, .error e)
      | (w2, .ok is) => match K.resolveColumns E py r w2 columns with
        | (w3, .error e) => (w3, .error e)
        | (w3, .ok cs) =>
          (w3, pivot ⟨f.levels, f.index, dictUpdate (dictUpdate (dictUpdate [] vs) is) cs⟩ values index columns)

end Cheval
