import Verif.Core.Expr

/-!
# Model of `Expression.parse` (cheval/parsing/expressions.py:16-52) and of the expression containers (cheval/api.py:115-240)
-/
namespace Cheval

/-- white space removed by `str.strip()` (ASCII) -/
def isBlank (c : Char) : Bool := c = ' ' ∨ c = '\t' ∨ c = '\n' ∨ c = '\r' ∨ c = '\x0b' ∨ c = '\x0c'
def strip (s : Str) : Str := ((s.dropWhile isBlank).reverse.dropWhile isBlank).reverse

/-- `str.split(sep)` for one character -/
def splitOn (sep : Char) : Str → List Str
  | [] => [[]]
  | c :: cs =>
    if c = sep then [] :: splitOn sep cs
    else match splitOn sep cs with
      | [] => [[c]]          -- not reachable: the result is never empty
      | p :: ps => (c :: p) :: ps

/-- `_split_filter` (expressions.py:16-24) -/
def splitFilter (e : Str) : Except Err (Str × Option Str) :=
  match splitOn '@' e with
  | [_] => .ok (e, none)
  | [a, b] => .ok (strip a, some (strip b))
  | _ => .error .unsupportedSyntax

/-- `Expression` (expressions.py:27-36). The transformed expression is a tree, not text. -/
structure Expression where
  raw : Str
  transformed : PExpr
  chains : List (Str × List (Str × Chain))
  dicts : List (Str × Literal)
  filter : Option Str
  symbols : List Str

/-- `ast.parse(text, mode='eval').body` -/
abbrev PyParser := Str → Except Err PExpr

/-- `Expression.parse` (expressions.py:38-48); also returns the caller's sets, which the transformer updates in place -/
def parse (env : PyEnv) (py : PyParser) (e : Str) (simple chained : List Str) : (List Str × List Str) × Except Err Expression :=
  match splitFilter e with
  | .error er => ((simple, chained), .error er)
  | .ok (text, filt) =>
    match py text with
    | .error er => ((simple, chained), .error er)
    | .ok tree =>
      match visit env tree ⟨simple, chained, [], [], []⟩ with
      | (s, .error er) => ((s.simple, s.chainedAll), .error er)
      | (s, .ok t) => ((s.simple, s.chainedAll), .ok ⟨e, t, s.chains, s.dicts, filt, s.visited⟩)

/-- `set |= other` -/
def setUnion (a b : List Str) : List Str := b.foldl setAdd a

/-- `ExpressionSubGroup` (api.py:115-143) -/
structure SubGroup where
  simple : List Str
  chained : List Str
  exprs : List Expression

/-- `ExpressionSubGroup.append` (api.py:122-126) -/
def SubGroup.append (g : SubGroup) (e : Expression) : SubGroup :=
  ⟨setUnion g.simple e.symbols, setUnion g.chained (e.chains.map (·.1)), g.exprs ++ [e]⟩

/-- `ExpressionGroup` (api.py:146-152); group names are numbers -/
structure ExprGroup where
  ungrouped : List Expression
  simple : List Str
  chained : List Str
  subgroups : List (Nat × SubGroup)

def ExprGroup.empty : ExprGroup := ⟨[], [], [], []⟩

/-- `ExpressionGroup.append` (api.py:154-170) -/
def ExprGroup.append (env : PyEnv) (py : PyParser) (g : ExprGroup) (e : Str) (group : Option Nat) : ExprGroup × Except Err Unit :=
  match parse env py e g.simple g.chained with
  | ((si, ch), .error er) => ({ g with simple := si, chained := ch }, .error er)
  | ((si, ch), .ok x) =>
    match group with
    | some k =>
      let sub := (dictGet g.subgroups k).getD ⟨[], [], []⟩
      ({ g with simple := si, chained := ch, subgroups := dictSet g.subgroups k (sub.append x) }, .ok ())
    | none =>
      (⟨g.ungrouped ++ [x], setUnion si x.symbols, setUnion ch (x.chains.map (·.1)), g.subgroups⟩, .ok ())

/-- `ExpressionGroup.clear` (api.py:172-176) -/
def ExprGroup.clear (_ : ExprGroup) : ExprGroup := ExprGroup.empty

/-- `itersimple(groups=True)` / `iterchained(groups=True)` (api.py:178-190), as collections with repetitions -/
def ExprGroup.itersimple (g : ExprGroup) : List Str := g.simple ++ g.subgroups.flatMap (·.2.simple)
def ExprGroup.iterchained (g : ExprGroup) : List Str := g.chained ++ g.subgroups.flatMap (·.2.chained)

/-- `__iter__` (api.py:192-197): all expressions -/
def ExprGroup.all (g : ExprGroup) : List Expression := g.ungrouped ++ g.subgroups.flatMap (·.2.exprs)

/-- `drop_group` (api.py:225-226) -/
def ExprGroup.dropGroup (g : ExprGroup) (k : Nat) : ExprGroup × Except Err Unit :=
  match dictGet g.subgroups k with
  | none => (g, .error .key)
  | some _ => ({ g with subgroups := dictDel g.subgroups k }, .ok ())

/-- `get_group` (api.py:222-223) -/
def ExprGroup.getGroup (g : ExprGroup) (k : Nat) : Except Err SubGroup :=
  match dictGet g.subgroups k with
  | none => .error .key
  | some s => .ok s

/-- rebuilding a sub-group by appending its expressions (api.py:235-239) -/
def SubGroup.rebuild (g : SubGroup) : SubGroup := g.exprs.foldl SubGroup.append ⟨[], [], []⟩

/-- `ExpressionGroup.copy` (api.py:228-240): the symbol sets of the copy are recomputed from the ungrouped expressions -/
def ExprGroup.copy (g : ExprGroup) : ExprGroup :=
  ⟨g.ungrouped, g.ungrouped.foldl (fun a e => setUnion a e.symbols) [],
   g.ungrouped.foldl (fun a e => setUnion a (e.chains.map (·.1))) [],
   g.subgroups.map fun (k, s) => (k, s.rebuild)⟩

/-- `SubGroup.__add__` (api.py:128-134) -/
def SubGroup.plus (a b : SubGroup) : SubGroup := b.exprs.foldl SubGroup.append a.rebuild

/-- `__add__` (api.py:199-217). The order of the groups of the sum is that of a Python set; the model lists those of the
first operand first. -/
def ExprGroup.plus (a b : ExprGroup) : ExprGroup :=
  ⟨a.ungrouped ++ b.ungrouped, setUnion a.simple b.simple, setUnion a.chained b.chained,
   a.subgroups.map (fun (k, s) => match dictGet b.subgroups k with
     | some s' => (k, s.plus s')
     | none => (k, s)) ++
   b.subgroups.filter (fun e => decide (e.1 ∉ a.subgroups.map (·.1)))⟩

end Cheval
