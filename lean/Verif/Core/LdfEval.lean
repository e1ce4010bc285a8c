import Verif.Core.Ldf
import Verif.Spec.Expr

/-!
# Model of `LinkedDataFrame.evaluate` (cheval/ldf/api.py:694-746)

`out` and `allow_casting` are in Core/LdfOut; here the result array is a new one of whatever dtype. Not modelled: the text parser and printer. NumExpr's
fallback from the local names to the globals of cheval/ldf/api.py is left out. An `@` filter is parsed and ignored by the
code, so that it has no place in the tree given here. NumExpr works on whole arrays; as all its operations act element by
element, the model evaluates row by row (with no rows at all, no operation can fail in the model).
-/
namespace Cheval
open Spec
variable {V F : Type}

/-- a value of `local_dict`: a number, string or truth value, or an array -/
inductive LocalVal (F : Type) where
  | scalar (v : Val F)
  | array (a : List (Val F))

/-- the value of a local name in row `i` of `n`: NumExpr repeats scalars and arrays of length one, other arrays need `n` elements -/
def LocalVal.at (n i : Nat) : LocalVal F → Option (Val F)
  | .scalar v => some v
  | .array a => if a.length = 1 then a[0]? else if a.length = n then a[i]? else none

/-- what pandas, NumPy and NumExpr do -/
structure EvEnv (V F : Type) where
  /-- NumExpr's arithmetic -/
  arith : Arith F
  /-- the Python interpreter; the mode is replaced -/
  py : PyEnv
  /-- `convert_series` (utils.py:23-61) -/
  conv : LCol V → Except Err (List (Val F))
  /-- the array NumExpr returns, as a Series: dtype and elements -/
  back : List (Val F) → LCol V
  /-- `NEG_INF_VAL` (parsing/constants.py:7) -/
  negInf : F
  /-- the default `int_fill=-1` of aggregations (api.py:537) -/
  intFill : V
  /-- `DataFrame.eval` of a frame with these index levels, index and columns -/
  pandasEval : List (Option Str) → List (List V) → List (Str × LCol V) → PExpr → Except Err (LCol V)

/-- arrays keep their lengths -/
structure EvEnv.Ok (K : EvEnv V F) : Prop where
  conv : ∀ c a, K.conv c = .ok a → a.length = c.vals.length
  back : ∀ a, (K.back a).vals.length = a.length
  pandasEval : ∀ lv ix cols e c, K.pandasEval lv ix cols e = .ok c → c.vals.length = ix.length

/-- the local names: a copy of `local_dict` with the constants (api.py:715-717) -/
def EvEnv.start (K : EvEnv V F) (locals : List (Str × LocalVal F)) : List (Str × LocalVal F) :=
  dictSet (dictSet locals negInfStr (.scalar (.num K.negInf))) nanStr (.scalar (.num K.arith.nan))

/-- the symbols of the expression (api.py:719-724). `self[name]` serves links first; a link node has no `dtype` (unless its target
has a column of that name), which is an AttributeError. -/
def EvEnv.bindSymbols (K : EvEnv V F) (f : LFrame V) : List Str → List (Str × LocalVal F) → Except Err (List (Str × LocalVal F))
  | [], ld => .ok ld
  | id :: ids, ld =>
    if id ∈ f.links.map (·.1) then .error .attribute
    else match dictGet f.cols id with
      | some c => match K.conv c with
        | .error e => .error e
        | .ok a => K.bindSymbols f ids (dictSet ld id (.array a))
      | none => if id ∈ ld.map (·.1) then K.bindSymbols f ids ld else .error .key

variable [DecidableEq V]

/-- one chained lookup from the link `root` (api.py:730-737): the attributes, last first, then the aggregation -/
def EvEnv.chain (K : EvEnv V F) (E : LEnv V) (ev : LWorld V → Nat → PExpr → LWorld V × Except Err (LCol V)) (w : LWorld V) (r : Nat)
    (root : Str) (ch : Chain) : LWorld V × Except Err (LCol V) :=
  match ch.func, ch.path with
  | some (fn, arg), path => E.aggregate ev w r (root :: path.reverse) fn arg K.intFill
  | none, col :: path => E.lookup w r (root :: path.reverse) col
  | none, [] => (w, .error .attribute)   -- not reachable: a dotted name has an attribute

/-- the chained symbols (api.py:726-739) -/
def EvEnv.bindChains (K : EvEnv V F) (E : LEnv V) (ev : LWorld V → Nat → PExpr → LWorld V × Except Err (LCol V)) (r : Nat) :
    LWorld V → List (Str × Str × Chain) → List (Str × LocalVal F) → LWorld V × Except Err (List (Str × LocalVal F))
  | w, [], ld => (w, .ok ld)
  | w, (sub, root, ch) :: rest, ld =>
    match w.link? r root with
    | none => (w, .error .assertion)
    | some _ => match K.chain E ev w r root ch with
      | (w1, .error e) => (w1, .error e)
      | (w1, .ok c) => match K.conv c with
        | .error e => (w1, .error e)
        | .ok a => K.bindChains E ev r w1 rest (dictSet ld sub (.array a))

/-- `ne.evaluate` and `Series(vector, index=self.index)` (api.py:745-746) for `n` rows; whatever NumExpr raises is a `runtime` error -/
def EvEnv.rows (K : EvEnv V F) (n : Nat) (ld : List (Str × LocalVal F)) (e : PExpr) : Except Err (LCol V) :=
  let g := fun i => ne K.arith (fun id => (dictGet ld id).bind (LocalVal.at n i)) e
  if (List.range n).all fun i => (g i).isSome then .ok (K.back ((List.range n).filterMap g)) else .error .runtime

/-- `evaluate` (api.py:694-746) of frame `r`, `ev` evaluating the arguments of aggregations. A plain DataFrame has no such method. -/
def EvEnv.evalWith (K : EvEnv V F) (E : LEnv V) (ev : LWorld V → Nat → PExpr → LWorld V × Except Err (LCol V)) (w : LWorld V) (r : Nat)
    (e : PExpr) (locals : List (Str × LocalVal F)) : LWorld V × Except Err (LCol V) :=
  match w.frames[r]? with
  | none => (w, .error .attribute)
  | some f => if !f.linked then (w, .error .attribute)
    else match visit { K.py with mode := .dataframe } e (freshParser [] []) with
      | (_, .error er) => (w, .error er)
      | (s, .ok e') => match K.bindSymbols f s.visited (K.start locals) with
        | .error er => (w, .error er)
        | .ok ld => match K.bindChains E ev r w (subs s) ld with
          | (w1, .error er) => (w1, .error er)
          | (w1, .ok ld1) => (w1, K.rows f.rows ld1 e')

/-- `except AttributeError: evaluation = df.eval(expr)` (api.py:544-547) -/
def EvEnv.orPandas (K : EvEnv V F) (r : Nat) (e : PExpr) (x : LWorld V × Except Err (LCol V)) : LWorld V × Except Err (LCol V) :=
  match x with
  | (w, .error .attribute) => match w.frames[r]? with
    | none => (w, .error .attribute)
    | some f => (w, K.pandasEval f.levels f.index f.cols e)
  | x => x

/-- the evaluation of an aggregation's argument in the target frame (api.py:544-547), with a bound on the nesting of aggregations -/
def EvEnv.evalN (K : EvEnv V F) (E : LEnv V) : Nat → LWorld V → Nat → PExpr → LWorld V × Except Err (LCol V)
  | 0 => fun w _ _ => (w, .error .runtime)
  | k + 1 => fun w r e => K.orPandas r e (K.evalWith E (K.evalN E k) w r e [])

/-- the evaluation of an aggregation's argument; the nesting of the aggregations in it is less than its size -/
noncomputable def EvEnv.argEval (K : EvEnv V F) (E : LEnv V) (w : LWorld V) (r : Nat) (e : PExpr) : LWorld V × Except Err (LCol V) :=
  K.evalN E (sizeOf e + 1) w r e

/-- `frame.evaluate(e, local_dict=locals)` -/
noncomputable def EvEnv.evaluate (K : EvEnv V F) (E : LEnv V) (w : LWorld V) (r : Nat) (e : PExpr) (locals : List (Str × LocalVal F)) :
    LWorld V × Except Err (LCol V) := K.evalWith E (K.argEval E) w r e locals

end Cheval
