import Verif.Core.Expr
import Verif.Spec.ExprNames

/-!
# Variables of an expression in reading order

Specification for C24: what an expression mentions, from left to right. A mention is either a variable standing by itself
or a variable followed by a dot. Left out, as in `simpleNames` and `tableNames`: names below a unary minus, arguments of
aggregations, keyword arguments of functions, function names and names meaning NaN.
-/
namespace Cheval.Spec

inductive Mention where
  /-- the variable stands by itself -/
  | alone (x : Str)
  /-- the variable is followed by a dot -/
  | dotted (x : Str)
deriving DecidableEq

mutual
def mentions : PExpr → List Mention
  | .name id => if isNanName id then [] else [.alone id]
  | .attr e _ => (rootName e).toList.map .dotted
  | .unary .not e => mentions e
  | .bin _ l r => mentions l ++ mentions r
  | .boolop _ v vs => mentions v ++ mentionsL vs
  | .compare l _ r rest => mentions l ++ (mentions r ++ mentionsC rest)
  | .call (.name _) args _ => mentionsL args
  | .call (.attr e _) _ _ => (rootName e).toList.map .dotted
  | .call f args kws => mentions f ++ (mentionsL args ++ mentionsL kws)
  | .display es => mentionsL es
  | .other es => mentionsL es
  | _ => []
def mentionsL : PList → List Mention
  | .nil => []
  | .cons e es => mentions e ++ mentionsL es
def mentionsC : PCmps → List Mention
  | .nil => []
  | .cons _ e es => mentions e ++ mentionsC es
end

end Cheval.Spec
