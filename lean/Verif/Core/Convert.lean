import Verif.Num.Binary64
import Verif.Core.Model

/-!
# Columns as NumPy arrays (cheval/utils.py:23-61)

`convert_series` turns every Series that reaches NumExpr into an array: Series assigned to vectors (api.py:308), attributes and lookups of tables
(api.py:394), columns and lookups in `evaluate` (ldf/api.py:721, 739). The dtypes are those of pandas < 1.5 (setup.py). Simplified: object
columns hold texts, missing values (None, NaN) and objects without a length; sparse columns are left out; integers are in the range of
their dtype; missing cells of categoricals are a parameter, because pandas versions differ.
-/
namespace Cheval

/-- cells of an object column, categories of object dtype -/
inductive OCell where
  | text (s : Str)
  | missing
  | other
deriving DecidableEq

/-- the categories of a categorical column -/
inductive Categories where
  | objects (c : List OCell)
  | ints (c : List Int)
  | floats (c : List XR)

/-- a Series by dtype: NumPy integers, nullable integers (`Int64`, ...), floats, booleans, objects, categoricals, dates, time differences, other
extension types (`string`, `boolean`, `Float64`, periods, intervals, dates with time zones) -/
inductive Column where
  | ints (v : List Int)
  | nullable (v : List (Option Int))
  | floats (v : List XR)
  | bools (v : List Bool)
  | objects (v : List OCell)
  | category (c : Categories) (codes : List (Option Nat))
  | datetime
  | timedelta
  | extension

/-- NumPy arrays; `bytes` has dtype `S<width>`; NumExpr takes all but `objects` -/
inductive NpArr where
  | ints (v : List Int)
  | floats (v : List XR)
  | bools (v : List Bool)
  | bytes (width : Nat) (v : List Str)
  | objects (v : List (Option Int))

/-- `.str.len().max()` (utils.py:42, 51). `float`: lengths beside missing ones are floats, and so is their maximum. `noAccessor`: pandas refuses
`.str` if there are only other objects. -/
inductive MaxLen where
  | noAccessor
  | nan
  | int (n : Nat)
  | float (n : Nat)

def OCell.len : OCell → Option Nat
  | .text s => some s.length
  | _ => none

def OCell.isOther : OCell → Bool
  | .other => true
  | _ => false

def maxLen (cells : List OCell) : MaxLen :=
  match cells.filterMap OCell.len with
  | [] => if cells.any OCell.isOther then .noAccessor else .nan
  | l :: ls => if cells.all fun c => c.len.isSome then .int (ls.foldl max l) else .float (ls.foldl max l)

/-- NumPy drops zero bytes at the end of the elements of an `S` array -/
def stripNul (s : Str) : Str := (s.reverse.dropWhile (· = '\x00')).reverse

/-- one text as an element of an `S<width>` array: ASCII only, cut to the width -/
def toBytes (width : Nat) (s : Str) : Except Err Str :=
  if s.all fun c => decide (c.toNat < 128) then .ok (stripNul (s.take width)) else .error .value

def OCell.toBytes (width : Nat) : OCell → Except Err Str
  | .text s => Cheval.toBytes width s
  | _ => .error .type

def mapE {α β : Type} (f : α → Except Err β) : List α → Except Err (List β)
  | [] => .ok []
  | x :: xs => match f x with
    | .error e => .error e
    | .ok y => match mapE f xs with
      | .error e => .error e
      | .ok ys => .ok (y :: ys)

/-- texts as an `S` array of the width of the longest one (utils.py:42-43, 51-55): NumPy refuses the dtypes `Snan` and `S3.0`; `S0` is
taken as `S1` -/
def bytesOf (cells : List OCell) : Except Err (Nat × List Str) :=
  match maxLen cells with
  | .noAccessor => .error .attribute
  | .nan => .error .type
  | .float _ => .error .type
  | .int n => match mapE (OCell.toBytes n) cells with
    | .error e => .error e
    | .ok v => .ok (max n 1, v)

/-- an integer as a double -/
noncomputable def intFloat (i : Int) : XR := B64.rnd (i : ℝ)

/-- the code of a cell that has a category -/
def codeOf : Option Nat → Except Err Nat
  | some k => .ok k
  | none => .error .value

/-- `convert_series` (utils.py:23-61). `lost`: what pandas makes of a categorical with missing cells. -/
noncomputable def convertSeries (lost : Categories → List (Option Nat) → Except Err NpArr) : Column → Except Err NpArr
  | .ints v => .ok (.ints v)
  | .nullable v =>
    if v.all Option.isSome then .ok (.objects v)
    else .ok (.floats (v.map fun x => match x with
      | some i => intFloat i
      | none => .nan))
  | .category c codes =>
    match mapE codeOf codes with
    | .error _ => lost c codes
    | .ok ks => match c with
      | .objects cells => match bytesOf cells with
        | .error e => .error e
        | .ok (n, v) => .ok (.bytes n (ks.map fun k => v.getD k []))
      | .ints v => .ok (.ints (ks.map fun k => v.getD k 0))
      | .floats v => .ok (.floats (ks.map fun k => v.getD k .nan))
  | .objects cells => match bytesOf cells with
    | .error e => .error e
    | .ok (n, v) => .ok (.bytes n v)
  | .datetime => .error .type
  | .timedelta => .error .type
  | .extension => .error .type
  | .floats v => .ok (.floats v)
  | .bools v => .ok (.bools v)

end Cheval
