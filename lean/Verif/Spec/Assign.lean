import Verif.Core.Model

/-!
# What assigned data mean
-/
namespace Cheval.Spec
variable {U F : Type}

/-- `m'` differs from `m` at most in the symbol `name` -/
def OnlySymbol (name : Str) (m m' : CModel U F) : Prop :=
  m'.tree = m.tree ∧ m'.exprs = m.exprs ∧ m'.units = m.units ∧ m'.cached = m.cached ∧ m'.precision = m.precision ∧
    ∀ n, n ≠ name → dictGet m'.scope n = dictGet m.scope n

/-- the value of a table of data at a row label and a column label; the fill value where the table has none -/
def frameAt [DecidableEq U] (rows cols : List (Lab U)) (val : Nat → Nat → Val F) (fill : Val F) (r c : Lab U) : Val F :=
  if r ∈ rows ∧ c ∈ cols then val (rows.idxOf r) (cols.idxOf c) else fill

/-- the data set a matrix symbol with the given orientation is assigned: row labels, column labels, values -/
def oriented (transposed : Bool) (index cols : List (Lab U)) (val : Nat → Nat → Val F) : List (Lab U) × List (Lab U) × (Nat → Nat → Val F) :=
  if transposed then (cols, index, fun i j => val j i) else (index, cols, val)

end Cheval.Spec
