import Verif.Spec.Expr

/-!
# The names an expression uses

`simpleNames`: the variables that stand by themselves; `tableNames`: the variables followed by a dot. Names below a unary
minus, in the argument of an aggregation and in keyword arguments are left out (the transformer does not look there, see
C22), function names are not variables, and names meaning NaN are left out.
-/
namespace Cheval.Spec

/-- the variable a dotted expression starts with -/
def rootName : PExpr → Option Str
  | .name id => some id
  | .attr e _ => rootName e
  | _ => none

mutual
def simpleNames : PExpr → List Str
  | .name id => if isNanName id then [] else [id]
  | .unary .not e => simpleNames e
  | .bin _ l r => simpleNames l ++ simpleNames r
  | .boolop _ v vs => simpleNames v ++ simpleNamesL vs
  | .compare l _ r rest => simpleNames l ++ simpleNames r ++ simpleNamesC rest
  | .call (.name _) args _ => simpleNamesL args
  | .call (.attr _ _) _ _ => []
  | .call f args kws => simpleNames f ++ simpleNamesL args ++ simpleNamesL kws
  | .display es => simpleNamesL es
  | .other es => simpleNamesL es
  | _ => []
def simpleNamesL : PList → List Str
  | .nil => []
  | .cons e es => simpleNames e ++ simpleNamesL es
def simpleNamesC : PCmps → List Str
  | .nil => []
  | .cons _ e es => simpleNames e ++ simpleNamesC es
end

mutual
def tableNames : PExpr → List Str
  | .attr e _ => (rootName e).toList
  | .unary .not e => tableNames e
  | .bin _ l r => tableNames l ++ tableNames r
  | .boolop _ v vs => tableNames v ++ tableNamesL vs
  | .compare l _ r rest => tableNames l ++ tableNames r ++ tableNamesC rest
  | .call (.name _) args _ => tableNamesL args
  | .call (.attr e _) _ _ => (rootName e).toList
  | .call f args kws => tableNames f ++ tableNamesL args ++ tableNamesL kws
  | .display es => tableNamesL es
  | .other es => tableNamesL es
  | _ => []
def tableNamesL : PList → List Str
  | .nil => []
  | .cons e es => tableNames e ++ tableNamesL es
def tableNamesC : PCmps → List Str
  | .nil => []
  | .cons _ e es => tableNames e ++ tableNamesC es
end

mutual
/-- the symbols among the operands of an expression; what is called, if it is no plain name, is left out -/
def operandNames : PExpr → List Str
  | .name id => if isNanName id then [] else [id]
  | .unary .not e => operandNames e
  | .bin _ l r => operandNames l ++ operandNames r
  | .boolop _ v vs => operandNames v ++ operandNamesL vs
  | .compare l _ r rest => operandNames l ++ operandNames r ++ operandNamesC rest
  | .call (.name _) args _ => operandNamesL args
  | _ => []
def operandNamesL : PList → List Str
  | .nil => []
  | .cons e es => operandNames e ++ operandNamesL es
def operandNamesC : PCmps → List Str
  | .nil => []
  | .cons _ e es => operandNames e ++ operandNamesC es
end

end Cheval.Spec
