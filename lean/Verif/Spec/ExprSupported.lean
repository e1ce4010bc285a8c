import Verif.Spec.ExprNames

/-!
# The syntax a model or a frame accepts

Numbers, texts, truth values, names; dotted names; `not`, `and`, `or`, comparisons (chained or not), binary operators; functions
NumExpr knows; aggregations `a.b.f(expression)`; dict literals of numbers (unless the mode is `utilities`). The operand of a unary
minus, the argument of an aggregation and keyword arguments of functions may be anything: the transformer does not look there.
-/
namespace Cheval.Spec

mutual
def Supported (env : PyEnv) : PExpr → Prop
  | .num _ => True
  | .str _ => True
  | .bytes _ => True
  | .const _ => True
  | .name _ => True
  | .attr e field => (dotted (.attr e field)).isSome = true
  | .unary .not e => Supported env e
  | .unary .neg _ => True
  | .unary _ _ => False
  | .bin _ l r => Supported env l ∧ Supported env r
  | .boolop _ v vs => Supported env v ∧ SupportedL env vs
  | .compare l _ r rest => Supported env l ∧ Supported env r ∧ SupportedC env rest
  | .call (.name f) args _ => env.isFunction f = true ∧ SupportedL env args
  | .call (.attr e fn) args kws => (dotted e).isSome = true ∧ fn ∈ aggregationNames ∧ kws = .nil ∧ args ≠ .nil
  | .call f args kws => Supported env f ∧ SupportedL env args ∧ SupportedL env kws
  | .dict items => env.mode ≠ .utilities ∧ (readItems items).isSome = true
  | .banned _ => False
  | .display _ => False
  | .other es => SupportedL env es
def SupportedL (env : PyEnv) : PList → Prop
  | .nil => True
  | .cons e es => Supported env e ∧ SupportedL env es
def SupportedC (env : PyEnv) : PCmps → Prop
  | .nil => True
  | .cons _ e es => Supported env e ∧ SupportedC env es
end

end Cheval.Spec
