import Verif.Spec.ExprNames

/-!
# Expressions the transformer keeps the meaning of

The transformer does not look below a unary minus (C21): NumExpr reads the operand as written. `Raw` are the operands for
which that is harmless: numbers, variables that also stand elsewhere in the expression, sums, products and so on and
function calls of these.
-/
namespace Cheval.Spec

mutual
/-- numbers, the variables `names`, and binary operators, minus signs and function calls of these -/
def Raw (names : List Str) : PExpr → Prop
  | .num _ => True
  | .name id => id ∈ names ∧ isNanName id = false
  | .bin _ l r => Raw names l ∧ Raw names r
  | .unary .neg e => Raw names e
  | .call (.name _) args .nil => RawList names args
  | _ => False
def RawList (names : List Str) : PList → Prop
  | .nil => True
  | .cons e es => Raw names e ∧ RawList names es
end

mutual
/-- unary minus is applied to numbers, the variables `names` and operations on them only, `None` does not occur, strings only
where the interpreter produces `Str` nodes, dict literals have distinct keys and values exactly representable in single
precision -/
def PlainOver (names : List Str) (env : PyEnv) : PExpr → Prop
  | .str _ => env.strNodes = true
  | .const .none => False
  | .unary .neg e => Raw names e
  | .unary _ e => PlainOver names env e
  | .bin _ l r => PlainOver names env l ∧ PlainOver names env r
  | .boolop _ v vs => PlainOver names env v ∧ PlainList names env vs
  | .compare l _ r rest => PlainOver names env l ∧ PlainOver names env r ∧ PlainCmps names env rest
  | .call (.name _) args _ => PlainList names env args
  | .dict items => ∀ l, readItems items = some l → (l.map (·.1)).Nodup ∧ ∀ e ∈ l, env.f32 e.2 = e.2
  | _ => True
def PlainList (names : List Str) (env : PyEnv) : PList → Prop
  | .nil => True
  | .cons e es => PlainOver names env e ∧ PlainList names env es
def PlainCmps (names : List Str) (env : PyEnv) : PCmps → Prop
  | .nil => True
  | .cons _ e es => PlainOver names env e ∧ PlainCmps names env es
end

/-- every variable below a unary minus also stands elsewhere in the expression, outside of any unary minus -/
def Plain (env : PyEnv) (e : PExpr) : Prop := PlainOver (simpleNames e) env e

end Cheval.Spec
