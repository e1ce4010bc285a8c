import Verif.Spec.ExprPlain
import Verif.Core.Model
import Verif.Spec.Choices

/-!
# What the utility of a choice is

For one decision unit (row `i`) and one choice (column `j`, path `path`): the expressions that apply to the choice are
evaluated, in order, on the values of the symbols for this unit and this choice, and accumulated.
-/
namespace Cheval.Spec
open FOps
variable {F : Type}

/-- the value of an assigned symbol for a unit and a choice -/
def symAt (i j : Nat) : Sym F → Option (Val F)
  | .number (some v) => some (.num v)
  | .vector false (some a) => some (a.val i 0)
  | .vector true (some a) => some (a.val 0 j)
  | .matrix _ _ _ _ (some a) => some (a.val i j)
  | _ => none

/-- the column a dotted lookup `table.a` or `table.link.....a`, possibly aggregated, denotes; and whether it runs over choices -/
def lookupCol (scope : List (Str × Sym F)) (table : Str) (path : List Str) (agg : Option (Str × PExpr)) :
    Option (Bool × (Nat → Val F)) :=
  match dictGet scope table with
  | some (.table o _ _ (some t)) => match path, agg with
    | [], _ => none
    | [a], none => match t.column a with
      | .ok f => some (o, f)
      | .error _ => none
    | path, agg => if t.linked then match t.walk path agg with
        | .ok f => some (o, f)
        | .error _ => none
      else none
  | _ => none

section
variable [FOps F]

/-- what names, lookups and dict literals mean at the cell; `cur` is the utility accumulated so far -/
def cellEnv (K : Kernel F) (scope : List (Str × Sym F)) (path : List Name) (cur : F) (i j : Nat) : CellEnv F where
  sym id := if id = nanStr then some (.num K.nan) else if id = outStr then some (.num cur)
    else if id = negInfStr then some (.num negInf) else (dictGet scope id).bind (symAt i j)
  lookup table p agg := (lookupCol scope table p agg).map fun (o, f) => f (if o then j else i)
  dict lit := some (.num (K.lit (dictValue lit path)))

/-- a filter `@ A.B` selects one choice; without filter all choices are selected -/
def filterMeans (path : List Name) : Option Str → Bool
  | none => true
  | some f => decide (f = joinDots path)

/-- an expression as the user wrote it: syntax tree and filter -/
abbrev Source := PExpr × Option Str

/-- one expression -/
def cellStep (K : Kernel F) (scope : List (Str × Sym F)) (path : List Name) (i j : Nat) (cur : F) (x : Source) : Option F :=
  if filterMeans path x.2 then (den K.toArith (cellEnv K scope path cur i j) x.1).bind (K.acc cur) else some cur

/-- all expressions, in order -/
def cellTotal (K : Kernel F) (scope : List (Str × Sym F)) (path : List Name) (i j : Nat) (xs : List Source) (start : F) : Option F :=
  xs.foldlM (cellStep K scope path i j) start

end

mutual
/-- does the expression read the variable `id`? (Arguments of aggregations and keyword arguments count, to be safe.) -/
def Mentions (id : Str) : PExpr → Prop
  | .name n => n = id
  | .unary _ e => Mentions id e
  | .bin _ l r => Mentions id l ∨ Mentions id r
  | .boolop _ v vs => Mentions id v ∨ MentionsL id vs
  | .compare l _ r rest => Mentions id l ∨ Mentions id r ∨ MentionsC id rest
  | .call _ args kws => MentionsL id args ∨ MentionsL id kws
  | _ => False
def MentionsL (id : Str) : PList → Prop
  | .nil => False
  | .cons e es => Mentions id e ∨ MentionsL id es
def MentionsC (id : Str) : PCmps → Prop
  | .nil => False
  | .cons _ e es => Mentions id e ∨ MentionsC id es
end

/-- adding up does not depend on the order (true in exact arithmetic, not for rounded sums) -/
def OrderFree (K : Kernel F) : Prop :=
  ∀ (a : F) (v w : Val F), (K.acc a v).bind (fun b => K.acc b w) = (K.acc a w).bind (fun b => K.acc b v)

/-- assigned data have the size of the model: `n` decision units, `m` choices -/
def FitsSym (n m : Nat) : Sym F → Prop
  | .vector false (some a) => a.rows = n ∧ a.cols = 1
  | .vector true (some a) => a.rows = 1 ∧ a.cols = m
  | .matrix _ _ _ _ (some a) => a.rows = n ∧ a.cols = m
  | .table o _ _ (some t) => t.rows = if o then m else n
  | _ => True

def Fits (n m : Nat) (scope : List (Str × Sym F)) : Prop := ∀ e ∈ scope, FitsSym n m e.2

/-- `x` is what parsing the source gave -/
def Parsed (env : PyEnv) (src : Source) (x : Expression) : Prop :=
  x.filter = src.2 ∧ ∃ simple chained s, visit env src.1 (freshParser simple chained) = (s, .ok x.transformed) ∧
    x.chains = s.chains ∧ x.dicts = s.dicts ∧ x.symbols = s.visited

/-- a key as the parser delivers it: one string, or identifiers (which are never ".") -/
def KeyOk (key : List Str) : Prop := ['.'] ∉ key ∨ key.length = 1

/-- the expression can be evaluated on this scope and these choices: the filter names a choice, the lookups succeed, the keys
of dict literals name choices. The known defects are excluded: `Plain` (C21), name clashes (C26), aggregations over one link
(C52), entries `A._` erasing entries `A` (C28). -/
structure Ready (env : PyEnv) (scope : List (Str × Sym F)) (paths : List (List Name)) (depth : Nat) (src : Source) (x : Expression) :
    Prop where
  parsed : Parsed env src x
  plain : Plain env src.1
  filter : ∀ f, src.2 = some f → ∃ p ∈ paths, f = joinDots p
  clash : NoDigitClash (x.chains.map (·.1))
  internal : NoInternalNames x.symbols
  lookups : ∀ t ls sub ch, (t, ls) ∈ x.chains → (sub, ch) ∈ ls →
    (lookupCol scope t ch.path.reverse ch.func).isSome ∧ (ch.func ≠ none → 2 ≤ ch.path.length)
  dicts : ∀ e ∈ x.dicts, (∀ k ∈ e.2, KeyOk k.1 ∧ KnownKey paths depth k.1) ∧ NoReset e.2

end Cheval.Spec
