import Verif.Core.Model

/-!
# Model of the setter of `ChoiceModel.expressions` (cheval/model.py:314-317)
-/
namespace Cheval
variable {U F : Type}

/-- `for expr in item: self._expressions.append(expr)` (model.py:316-317): ends at the first expression that is rejected -/
def appendAll (env : PyEnv) (py : PyParser) (g : ExprGroup) : List Str → ExprGroup × Except Err Unit
  | [] => (g, .ok ())
  | e :: es => match g.append env py e none with
    | (g', .error er) => (g', .error er)
    | (g', .ok ()) => appendAll env py g' es

/-- `model.expressions = texts` (model.py:314-317) for a list (or any iterable) of texts -/
def CModel.setExpressions (env : PyEnv) (py : PyParser) (m : CModel U F) (texts : List Str) : Res U F Unit :=
  ({ m with exprs := (appendAll env py m.exprs texts).1 }, (appendAll env py m.exprs texts).2)

/-- `model.expressions = text`: iterating over a text gives its characters (model.py:316) -/
def CModel.setExpressionsText (env : PyEnv) (py : PyParser) (m : CModel U F) (text : Str) : Res U F Unit :=
  m.setExpressions env py (text.map fun c => [c])

end Cheval
