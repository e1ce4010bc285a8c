import Verif.Core.Err
import Verif.Core.Dict
import Mathlib.Data.Rat.Defs

/-!
# Model of cheval/parsing: the expression transformer

The Python parser (`ast.parse`) and the pretty printer (`astor.to_source`) are not modelled: the model starts from the
syntax tree and ends with the tree that is printed for NumExpr.
-/
namespace Cheval

/-- text: lists of characters -/
abbrev Str := List Char

inductive UOp where
  | not | neg | pos | invert
deriving DecidableEq

inductive BOp where
  | add | sub | mul | div | mod | pow | lshift | rshift | bitAnd | bitOr | bitXor | floorDiv | matMult
deriving DecidableEq

inductive COp where
  | eq | ne | lt | le | gt | ge | is | isNot | in_ | notIn
deriving DecidableEq

inductive Const where
  | true | false | none
deriving DecidableEq

/-- node classes in `_UNSUPPORTED_NODES` that can stand in an expression (ast_transformer.py:15-16) -/
inductive Banned where
  | ifExp | subscript | listComp | dictComp | starred
deriving DecidableEq

mutual
/-- Python expression trees. `other` stands for the classes without a visitor of their own whose fields hold no `Load`
context (Set, Lambda, JoinedStr, GeneratorExp, Await, ...), with their sub-expressions; `display` for List and Tuple,
which have a context field. Keyword arguments are kept without their names; complex literals are left out. -/
inductive PExpr where
  | num (x : ℚ)
  | str (s : Str)
  | bytes (s : Str)
  | const (c : Const)
  | name (id : Str)
  | attr (e : PExpr) (field : Str)
  | unary (op : UOp) (e : PExpr)
  | bin (op : BOp) (l r : PExpr)
  | boolop (isAnd : Bool) (v : PExpr) (vs : PList)
  | compare (l : PExpr) (op : COp) (r : PExpr) (rest : PCmps)
  | call (f : PExpr) (args : PList) (kws : PList)
  | dict (items : PItems)
  | banned (k : Banned)
  | display (es : PList)
  | other (es : PList)
inductive PList where
  | nil
  | cons (e : PExpr) (es : PList)
/-- further comparisons `op e ...` -/
inductive PCmps where
  | nil
  | cons (op : COp) (e : PExpr) (rest : PCmps)
/-- dict displays: `key: value, ...` or `**value, ...` -/
inductive PItems where
  | nil
  | cons (k v : PExpr) (rest : PItems)
  | star (v : PExpr) (rest : PItems)
end

/-- `ChainTuple` (expr_items.py:6): the attribute names, last first, and the aggregation with its argument -/
structure Chain where
  path : List Str
  func : Option (Str × PExpr)

/-- keys and values of a dict literal -/
abbrev Literal := List (List Str × ℚ)

/-- `EvaluationMode` and the default `mode='cheval'` of `Expression.parse` (expr_items.py:36-39, expressions.py:39) -/
inductive Mode where
  | utilities | dataframe | module | cheval
deriving DecidableEq

/-- the mutable attributes of `ExpressionParser` (ast_transformer.py:28-38). Sets are lists, only used for membership. -/
structure PSt where
  simple : List Str          -- `simple_symbols` (the caller's set, shared)
  chainedAll : List Str      -- `all_chained_symbols` (the caller's set, shared)
  chains : List (Str × List (Str × Chain))   -- `chained_symbols`: name -> ChainedSymbol._lookups
  dicts : List (Str × Literal)               -- `dict_literals`
  visited : List Str         -- `visited_simple`

/-- what the interpreter and NumExpr provide -/
structure PyEnv where
  /-- does the parser produce `Str` nodes (CPython 3.7)? From 3.8 on, strings are `Constant` nodes, for which the class has
  no (lower-case) visitor -/
  strNodes : Bool
  /-- `_NUMEXPR_FUNCTIONS` (ast_transformer.py:18) -/
  isFunction : Str → Bool
  /-- `np.float32(x)` -/
  f32 : ℚ → ℚ
  /-- the mode passed to the parser -/
  mode : Mode

/-- decimal digits, `"%s" % n` -/
def decimal (n : Nat) : Str :=
  if n < 10 then [Char.ofNat (48 + n)] else decimal (n / 10) ++ [Char.ofNat (48 + n % 10)]
termination_by n
decreasing_by omega

def nanStr : Str := ['N', 'A', 'N']
def outStr : Str := ['O', 'U', 'T']
def negInfStr : Str := ['N', 'E', 'G', '_', 'I', 'N', 'F']
/-- `RESERVED_WORDS` (parsing/constants.py:9) -/
def reserved : List Str := [nanStr, outStr, negInfStr]

def subPrefix : Str := ['_', '_', 's', 'u', 'b', '_']
def dictPrefix : Str := ['_', '_', 'd', 'i', 'c', 't']

/-- `_SUPPORTED_AGGREGATIONS` (ast_transformer.py:19-21) -/
def aggregations : List Str := ["count", "first", "last", "max", "min", "mean", "median", "prod", "std", "sum", "var"].map
  String.toList

/-- `str.lower()`, ASCII only. (No other character lowers to a letter of "none" or "nan".) -/
def lower (s : Str) : Str := s.map Char.toLower

/-- `symbol_name.lower() in _NAN_REPRESENTATIONS` (ast_transformer.py:17, 213) -/
def isNanName (s : Str) : Bool := lower s = ['n', 'o', 'n', 'e'] ∨ lower s = ['n', 'a', 'n']

/-- run `f` on the result unless an exception was raised; the state survives exceptions -/
def andThen {α β : Type} (x : PSt × Except Err α) (f : α → PSt → PSt × Except Err β) : PSt × Except Err β :=
  match x with
  | (s, .error e) => (s, .error e)
  | (s, .ok a) => f a s

/-- `set.add` -/
def setAdd (l : List Str) (x : Str) : List Str := if x ∈ l then l else l ++ [x]

/-- `__get_name_from_attribute` (ast_transformer.py:243-253): the root name and the attributes, last first -/
def nameOfAttr : PExpr → Except Err (Str × List Str)
  | .name id => .ok (id, [])
  | .attr e field => match nameOfAttr e with
    | .ok (id, stack) => .ok (id, field :: stack)
    | .error e => .error e
  | _ => .error .unsupportedSyntax

/-- `container.add_chain(...)` with the preceding bookkeeping (ast_transformer.py:233-239, 276-282; expr_items.py:15-31) -/
def addChain (s : PSt) (name : Str) (c : Chain) : PSt × Except Err PExpr :=
  if name ∈ s.simple then (s, .error .unsupportedSyntax)
  else
    let lookups := (dictGet s.chains name).getD []
    let sub := subPrefix ++ name ++ decimal lookups.length
    ({ s with chains := dictSet s.chains name (dictSet lookups sub c), chainedAll := setAdd s.chainedAll name },
     .ok (.name sub))

/-- `visit_name` (ast_transformer.py:210-221) -/
def visitName (id : Str) (s : PSt) : PSt × Except Err PExpr :=
  if isNanName id then (s, .ok (.name nanStr))
  else if id ∈ s.chainedAll then (s, .error .unsupportedSyntax)
  else ({ s with simple := setAdd s.simple id, visited := setAdd s.visited id }, .ok (.name id))

/-- `visit_attribute` (ast_transformer.py:227-241) -/
def visitAttr (e : PExpr) (s : PSt) : PSt × Except Err PExpr :=
  match nameOfAttr e with
  | .error er => (s, .error er)
  | .ok (name, path) => addChain s name ⟨path, none⟩

/-- `__visit_method` (ast_transformer.py:255-285); `func` is the whole dotted function expression -/
def visitMethod (func : PExpr) (args kws : PList) (s : PSt) : PSt × Except Err PExpr :=
  match nameOfAttr func with
  | .error er => (s, .error er)
  | .ok (_, []) => (s, .error .index)   -- not reachable: `func` is an attribute
  | .ok (name, fn :: path) =>
    if fn ∉ aggregations then (s, .error .unsupportedSyntax)
    else match kws, args with
      | .cons _ _, _ => (s, .error .unsupportedSyntax)
      | .nil, .nil => (s, .error .index)
      | .nil, .cons a _ => addChain s name ⟨path, some (fn, a)⟩

/-- `__get_dict_key` (ast_transformer.py:138-150) -/
def dictKey : PExpr → Except Err (List Str)
  | .name id => .ok [id]
  | .str s => .ok [s]
  | .attr e field => attrKey e [field]
  | _ => .error .unsupportedSyntax
where
  /-- the `while not isinstance(node, ast.Name)` loop; other node classes have no `attr` -/
  attrKey : PExpr → List Str → Except Err (List Str)
    | .name id, acc => .ok (id :: acc)
    | .attr e field, acc => attrKey e (field :: acc)
    | _, _ => .error .attribute

/-- the loop of `visit_dict` (ast_transformer.py:183-197). Assertion and value errors become UnsupportedSyntaxError (202-204).
`**x` has key `None`, which `__get_dict_key` rejects. -/
def dictItems (env : PyEnv) : PItems → Literal → Except Err Literal
  | .nil, acc => .ok acc
  | .star _ _, _ => .error .unsupportedSyntax
  | .cons k v rest, acc =>
    match dictKey k with
    | .error e => .error e
    | .ok key =>
      match v with
      | .unary .neg (.num x) => dictItems env rest (dictSet acc key (env.f32 (-x)))
      | .num x => dictItems env rest (dictSet acc key (env.f32 x))
      | _ => .error .unsupportedSyntax

/-- `visit_dict` (ast_transformer.py:174-204) -/
def visitDict (env : PyEnv) (items : PItems) (s : PSt) : PSt × Except Err PExpr :=
  if env.mode = .utilities then (s, .error .unsupportedSyntax)
  else
    match dictItems env items [] with
    | .error e => (s, .error e)
    | .ok lit =>
      let sub := dictPrefix ++ decimal s.dicts.length
      ({ s with dicts := dictSet s.dicts sub lit }, .ok (.name sub))

/-- the chain of `BinOp`s of `visit_boolop` (ast_transformer.py:75-82) -/
def joinBool (op : BOp) (left : PExpr) : List PExpr → PExpr
  | [] => left
  | r :: rs => joinBool op (.bin op left r) rs

/-- the pairwise comparisons of `visit_compare` (ast_transformer.py:96-100) -/
def pairwise (left : PExpr) : List (COp × PExpr) → List PExpr
  | [] => []
  | (op, r) :: rest => .compare left op r .nil :: pairwise r rest

/-- `visit_compare` after the operands were visited (ast_transformer.py:89-107) -/
def rebuildCompare (left : PExpr) (op : COp) (r : PExpr) (rest : List (COp × PExpr)) : PExpr :=
  match rest with
  | [] => .compare left op r .nil
  | rest => match pairwise left ((op, r) :: rest) with
    | a :: b :: more => joinBool .bitAnd (.bin .bitAnd a b) more
    | _ => .compare left op r .nil   -- not reachable: two or more comparisons

def PList.ofList : List PExpr → PList
  | [] => .nil
  | e :: es => .cons e (PList.ofList es)

mutual
/-- `ExpressionParser.visit` (ast_transformer.py:40-47) with all visitors; nodes without visitor are rebuilt from their
visited fields (`generic_visit`). -/
def visit (env : PyEnv) : PExpr → PSt → PSt × Except Err PExpr
  | .num x, s => (s, .ok (.num x))
  | .bytes b, s => (s, .ok (.bytes b))
  | .const c, s => (s, .ok (.const c))
  -- visit_str, 51-54
  | .str t, s => (s, .ok (if env.strNodes then .bytes t else .str t))
  | .name id, s => visitName id s
  | .attr e field, s => visitAttr (.attr e field) s
  -- visit_unaryop, 56-62
  | .unary .not e, s => andThen (visit env e s) fun e' s => (s, .ok (.unary .invert e'))
  | .unary .neg e, s => (s, .ok (.unary .neg e))
  | .unary _ _, s => (s, .error .notImplemented)
  | .bin op l r, s => andThen (visit env l s) fun l' s => andThen (visit env r s) fun r' s => (s, .ok (.bin op l' r'))
  -- visit_boolop, 64-83
  | .boolop isAnd v vs, s => andThen (visit env v s) fun v' s => andThen (visitList env vs s) fun vs' s =>
      (s, .ok (joinBool (if isAnd then .bitAnd else .bitOr) v' vs'))
  -- visit_compare, 85-108
  | .compare l op r rest, s => andThen (visit env l s) fun l' s => andThen (visit env r s) fun r' s =>
      andThen (visitCmps env rest s) fun rest' s => (s, .ok (rebuildCompare l' op r' rest'))
  -- visit_call, 110-120; __visit_toplevel_func, 122-132 (keyword arguments stay as they are)
  | .call (.name f) args kws, s =>
      if env.isFunction f then andThen (visitList env args s) fun args' s => (s, .ok (.call (.name f) (.ofList args') kws))
      else (s, .error .unsupportedSyntax)
  | .call (.attr e field) args kws, s => visitMethod (.attr e field) args kws s
  | .call f args kws, s => andThen (visit env f s) fun f' s => andThen (visitList env args s) fun args' s =>
      andThen (visitList env kws s) fun kws' s => (s, .ok (.call f' (.ofList args') (.ofList kws')))
  | .dict items, s => visitDict env items s
  -- __get_visitor, 43-45
  | .banned _, s => (s, .error .unsupportedSyntax)
  -- the elements are visited, then the context node `Load`, which is unsupported
  | .display es, s => andThen (visitList env es s) fun _ s => (s, .error .unsupportedSyntax)
  | .other es, s => andThen (visitList env es s) fun es' s => (s, .ok (.other (.ofList es')))

def visitList (env : PyEnv) : PList → PSt → PSt × Except Err (List PExpr)
  | .nil, s => (s, .ok [])
  | .cons e es, s => andThen (visit env e s) fun e' s => andThen (visitList env es s) fun es' s => (s, .ok (e' :: es'))

def visitCmps (env : PyEnv) : PCmps → PSt → PSt × Except Err (List (COp × PExpr))
  | .nil, s => (s, .ok [])
  | .cons op e es, s => andThen (visit env e s) fun e' s => andThen (visitCmps env es s) fun es' s => (s, .ok ((op, e') :: es'))
end

end Cheval
