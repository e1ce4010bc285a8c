import Verif.Core.Dtype

/-!
# What a column holds, and what is documented for it

By the values, whatever pandas stores them in.
-/
namespace Cheval.Spec
open Cheval

/-- what a column holds -/
inductive Holds where
  | integers
  | floats
  | truthValues
  | texts
  | categories
  | times
  | anything
deriving DecidableEq

/-- what a column holds; an object column by its values, if it has any -/
def holds : SDtype → Holds
  | .int _ | .uint _ | .nullableInt _ | .nullableUint _ => .integers
  | .float _ | .nullableFloat _ => .floats
  | .bool | .nullableBool => .truthValues
  | .string => .texts
  | .category => .categories
  | .datetime | .timedelta | .period => .times
  | .complex | .interval => .anything
  | .object cells =>
    if ∀ c ∈ cells, c = .missing then .anything
    else if ∀ c ∈ cells, c = .missing ∨ c = .text then .texts
    else if ∀ c ∈ cells, c = .missing ∨ c = .int then .integers
    else if ∀ c ∈ cells, c = .missing ∨ c = .bool then .truthValues
    else if ∀ c ∈ cells, c = .missing ∨ c = .int ∨ c = .float then .floats
    else .anything

/-- the fill for a column of that content (missing_data.py:55-59) -/
def documentedFill : Holds → FillVal
  | .integers => .zero
  | .floats => .nan
  | .truthValues => .false
  | .texts => .emptyText
  | .categories => .nan
  | .times => .nat
  | .anything => .none

/-- numbers and truth values can be summed, averaged and so on -/
def isNumeric : Holds → Prop
  | .integers | .floats | .truthValues => True
  | _ => False

/-- NumPy's widths in bits; pandas has no others but `longdouble` (80 or 128) -/
def SDtype.real : SDtype → Prop
  | .int b | .uint b => b = 8 ∨ b = 16 ∨ b = 32 ∨ b = 64
  | .float b => b = 16 ∨ b = 32 ∨ b = 64 ∨ b = 80 ∨ b = 128
  | _ => True

/-- the columns that are not treated by what they hold: nullable numbers and truth values; `longdouble`; numbers or truth values
stored as objects; object columns without any value, of plain objects, of `bytes`, or of several classes -/
def misjudged : SDtype → Prop
  | .nullableInt _ | .nullableUint _ | .nullableFloat _ | .nullableBool => True
  | .float b => 64 < b
  | .object cells => ¬ ((∃ c ∈ cells, c = .text) ∧ ∀ c ∈ cells, c = .missing ∨ c = .text) ∧
      ¬ ∃ k, (∃ c ∈ cells, c = .special k) ∧ ∀ c ∈ cells, c = .missing ∨ c = .special k
  | _ => False

end Cheval.Spec
