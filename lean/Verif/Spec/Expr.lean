import Verif.Core.Expr

/-!
# What expressions mean

Two readings of expression trees at one cell (decision unit, choice) of the utility table:
* `den`: the reading of the expression as the user wrote it (Python's operators, applied to the values of the cell);
* `ne`: NumExpr's reading of the expression it is given.
They share the arithmetic, which is arbitrary. Both are partial: `none` is an exception.
-/
namespace Cheval.Spec

/-- the aggregations that expressions may apply along links -/
def aggregationNames : List Str := ["count".toList, "first".toList, "last".toList, "max".toList, "min".toList, "mean".toList, "median".toList, "prod".toList,
  "std".toList, "sum".toList, "var".toList]

/-- values of sub-expressions at a cell -/
inductive Val (F : Type) where
  | num (x : F)
  | bool (b : Bool)
  | text (s : Str)

/-- arithmetic, comparison and functions: anything -/
structure Arith (F : Type) where
  lit : ℚ → F
  nan : F
  neg : Val F → Option (Val F)
  bin : BOp → Val F → Val F → Option (Val F)
  inv : Val F → Option (Val F)
  cmp : COp → Val F → Val F → Option Bool
  fn : Str → List (Val F) → Option (Val F)

/-- what the names mean at a cell: symbols; dotted lookups (path from the table on) with their aggregation; dict literals -/
structure CellEnv (F : Type) where
  sym : Str → Option (Val F)
  lookup : Str → List Str → Option (Str × PExpr) → Option (Val F)
  dict : Literal → Option (Val F)

variable {F : Type} (M : Arith F)

/-- operators common to both readings: `&` and `|` on truth values are conjunction and disjunction -/
def binVal (op : BOp) (a b : Val F) : Option (Val F) :=
  match op, a, b with
  | .bitAnd, .bool x, .bool y => some (.bool (x && y))
  | .bitOr, .bool x, .bool y => some (.bool (x || y))
  | op, a, b => M.bin op a b

/-- a dotted name `a.b.c`: (`a`, [`b`, `c`]) -/
def dotted : PExpr → Option (Str × List Str)
  | .name id => some (id, [])
  | .attr e field => (dotted e).map fun (r, p) => (r, p ++ [field])
  | _ => none

/-- the key of a dict literal -/
def readKey : PExpr → Option (List Str)
  | .str s => some [s]
  | .name id => some [id]
  | .attr e field => (dotted e).map fun (r, p) => r :: (p ++ [field])
  | _ => none

/-- a dict literal as written -/
def readItems : PItems → Option Literal
  | .nil => some []
  | .star _ _ => none
  | .cons k v rest =>
    match readKey k, v, readItems rest with
    | some key, .num x, some l => some ((key, x) :: l)
    | some key, .unary .neg (.num x), some l => some ((key, -x) :: l)
    | _, _, _ => none

mutual
/-- the user's reading -/
def den (c : CellEnv F) : PExpr → Option (Val F)
  | .num x => some (.num (M.lit x))
  | .str s => some (.text s)
  | .bytes s => some (.text s)
  | .const .true => some (.bool true)
  | .const .false => some (.bool false)
  | .const .none => some (.num M.nan)
  | .name id => if isNanName id then some (.num M.nan) else c.sym id
  | .attr e field => (dotted (.attr e field)).bind fun (r, p) => c.lookup r p none
  | .unary .not e => match den c e with
    | some (.bool b) => some (.bool (!b))
    | _ => none
  | .unary .neg e => (den c e).bind M.neg
  | .unary _ _ => none
  | .bin op l r => match den c l, den c r with
    | some a, some b => binVal M op a b
    | _, _ => none
  | .boolop isAnd v vs => match den c v, denBools c isAnd vs with
    | some (.bool b), some bs => some (.bool (if isAnd then b && bs else b || bs))
    | _, _ => none
  | .compare l op r rest => match den c l, den c r with
    | some a, some b => match M.cmp op a b, denCmps c b rest with
      | some t, some ts => some (.bool (t && ts))
      | _, _ => none
    | _, _ => none
  | .call (.name f) args .nil => (denList c args).bind (M.fn f)
  | .call (.attr e field) (.cons a .nil) .nil => (dotted e).bind fun (r, p) => c.lookup r p (some (field, a))
  | .call _ _ _ => none
  | .dict items => (readItems items).bind c.dict
  | .banned _ => none
  | .display _ => none
  | .other _ => none
def denList (c : CellEnv F) : PList → Option (List (Val F))
  | .nil => some []
  | .cons e es => match den c e, denList c es with
    | some v, some vs => some (v :: vs)
    | _, _ => none
/-- the conjunction / disjunction of the values -/
def denBools (c : CellEnv F) (isAnd : Bool) : PList → Option Bool
  | .nil => some isAnd
  | .cons e es => match den c e, denBools c isAnd es with
    | some (.bool b), some bs => some (if isAnd then b && bs else b || bs)
    | _, _ => none
/-- `a op1 e1 op2 e2 ...` : all comparisons of neighbours -/
def denCmps (c : CellEnv F) (a : Val F) : PCmps → Option Bool
  | .nil => some true
  | .cons op e rest => match den c e with
    | some b => match M.cmp op a b, denCmps c b rest with
      | some t, some ts => some (t && ts)
      | _, _ => none
    | none => none
end

mutual
/-- NumExpr's reading with the given local names. It has no text strings (only byte strings), no `not`/`and`/`or`, no
chained comparisons, no attributes and no dict displays. -/
def ne (loc : Str → Option (Val F)) : PExpr → Option (Val F)
  | .num x => some (.num (M.lit x))
  | .bytes s => some (.text s)
  | .const .true => some (.bool true)
  | .const .false => some (.bool false)
  | .name id => loc id
  | .unary .neg e => (ne loc e).bind M.neg
  | .unary .invert e => match ne loc e with
    | some (.bool b) => some (.bool (!b))
    | some v => M.inv v
    | none => none
  | .bin op l r => match ne loc l, ne loc r with
    | some a, some b => binVal M op a b
    | _, _ => none
  | .compare l op r .nil => match ne loc l, ne loc r with
    | some a, some b => (M.cmp op a b).map Val.bool
    | _, _ => none
  | .call (.name f) args .nil => (neList loc args).bind (M.fn f)
  | _ => none
def neList (loc : Str → Option (Val F)) : PList → Option (List (Val F))
  | .nil => some []
  | .cons e es => match ne loc e, neList loc es with
    | some v, some vs => some (v :: vs)
    | _, _ => none
end

/-- all substitutions of an expression: substituted name, table, lookup -/
def subs (s : PSt) : List (Str × Str × Chain) := s.chains.flatMap fun (r, ls) => ls.map fun (sub, ch) => (sub, r, ch)

/-- the names NumExpr is given at a cell (model.py:468-490): the reserved words and the symbols `names` of the evaluated
expressions, overridden by the dict literals, overridden by the lookups -/
def localNames (c : CellEnv F) (names : List Str) (s : PSt) (id : Str) : Option (Val F) :=
  match (subs s).reverse.find? (fun x => decide (x.1 = id)) with
  | some (_, r, ch) => c.lookup r ch.path.reverse ch.func
  | none => match dictGet s.dicts id with
    | some lit => c.dict lit
    | none => if id = nanStr then some (.num M.nan) else if id ∈ reserved ∨ id ∈ names then c.sym id else none

/-- no table name is another table name followed by digits -/
def NoDigitClash (tables : List Str) : Prop :=
  ∀ a ∈ tables, ∀ d : Str, d ≠ [] → (∀ ch ∈ d, ch.isDigit = true) → a ++ d ∉ tables

/-- the symbols do not look like substitutions -/
def NoInternalNames (names : List Str) : Prop := ∀ id ∈ names, ¬ subPrefix <+: id ∧ ¬ dictPrefix <+: id

/-- a fresh parser on the given shared sets -/
def freshParser (simple chained : List Str) : PSt := ⟨simple, chained, [], [], []⟩

end Cheval.Spec
