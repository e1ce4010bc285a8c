import Verif.Core.Convert

/-!
# Specification for C67: the values of columns
-/
namespace Cheval.Spec
open Cheval

/-- a value of a row, as numbers, truth values and texts; `none`: no value that NumExpr could use -/
def OCell.val : OCell → Option (Val XR)
  | .text s => some (.text s)
  | _ => none

noncomputable def Categories.val : Categories → Nat → Option (Val XR)
  | .objects c, k => (c[k]?).bind OCell.val
  | .ints c, k => (c[k]?).map fun i => .num (.fin i)
  | .floats c, k => (c[k]?).map .num

/-- the value of a row of a column; missing integers are NaN -/
noncomputable def Column.val : Column → Nat → Option (Val XR)
  | .ints v, i => (v[i]?).map fun x => .num (.fin x)
  | .nullable v, i => (v[i]?).map fun x => match x with
    | some x => .num (.fin x)
    | none => .num .nan
  | .floats v, i => (v[i]?).map .num
  | .bools v, i => (v[i]?).map .bool
  | .objects v, i => (v[i]?).bind OCell.val
  | .category c codes, i => (codes[i]?).bind fun x => x.bind (Categories.val c)
  | _, _ => none

/-- the value of an element of an array -/
noncomputable def NpArr.val : NpArr → Nat → Option (Val XR)
  | .ints v, i => (v[i]?).map fun x => .num (.fin x)
  | .floats v, i => (v[i]?).map .num
  | .bools v, i => (v[i]?).map .bool
  | .bytes _ v, i => (v[i]?).map .text
  | .objects _, _ => none

/-- the number of rows of a column, of an array -/
def Column.rows : Column → Nat
  | .ints v => v.length
  | .nullable v => v.length
  | .floats v => v.length
  | .bools v => v.length
  | .objects v => v.length
  | .category _ codes => codes.length
  | _ => 0

def NpArr.rows : NpArr → Nat
  | .ints v => v.length
  | .floats v => v.length
  | .bools v => v.length
  | .bytes _ v => v.length
  | .objects v => v.length

def Ascii (s : Str) : Prop := ∀ c ∈ s, c.toNat < 128

/-- the last character of the text is not NUL -/
def NoNulEnd (s : Str) : Prop := s.getLast? ≠ some '\x00'

/-- the texts of object cells -/
def textsIn (cells : List OCell) : List Str := cells.filterMap fun c => match c with
  | .text s => some s
  | _ => none

/-- the texts of a column -/
def Column.texts : Column → List Str
  | .objects v => textsIn v
  | .category (.objects c) _ => textsIn c
  | _ => []

/-- codes of categoricals are positions of categories -/
def Column.WellFormed : Column → Prop
  | .category c codes => ∀ k, some k ∈ codes → match c with
    | .objects c => k < c.length
    | .ints c => k < c.length
    | .floats c => k < c.length
  | _ => True

/-- a list of texts, not empty -/
def AllTexts (cells : List OCell) : Prop := cells ≠ [] ∧ ∀ c ∈ cells, ∃ s, c = .text s ∧ Ascii s

/-- the columns that can be used (categoricals: without missing cells) -/
def Column.Accepted : Column → Prop
  | .objects cells => AllTexts cells
  | .category (.objects cells) _ => AllTexts cells
  | .datetime => False
  | .timedelta => False
  | .extension => False
  | _ => True

/-- the values can be held by an array: no categories for missing cells, no text ending in NUL, nullable integers with a missing one, and all
small enough for a double -/
def Column.Holdable : Column → Prop
  | .nullable v => none ∈ v ∧ ∀ i, some i ∈ v → |i| < 2 ^ 53
  | .category c codes => none ∉ codes ∧ ∀ s ∈ Column.texts (.category c codes), NoNulEnd s
  | c => ∀ s ∈ Column.texts c, NoNulEnd s

end Cheval.Spec
