import Verif.Core.LdfHistory

/-!
# Model of `infer_dtype` and the default fills (cheval/ldf/missing_data.py:15-17, 33-52, 55-59)

The columns of `Core/Ldf` carry the result of `infer_dtype` as their kind. Here a Series is described by its dtype, and for objects by the
classes of its values, which is all that `infer_dtype` looks at.
-/
namespace Cheval

/-- the values of an object column by class. `special k`: the classes pandas has a name for other than those listed (dates, decimals, ...);
`plain`: any other object (lists, tuples, ...). -/
inductive ObjClass where
  | missing
  | text
  | bytes
  | int
  | float
  | bool
  | special (k : Nat)
  | plain
deriving DecidableEq

/-- a Series by dtype. `int`, `uint` and `float` are NumPy's, with their width in bits; `nullable...` are pandas' extension types `Int64`,
`UInt8`, `Float64`, `boolean` and so on. -/
inductive SDtype where
  | int (bits : Nat)
  | uint (bits : Nat)
  | float (bits : Nat)
  | bool
  | complex
  | object (cells : List ObjClass)
  | category
  | datetime
  | timedelta
  | period
  | string
  | nullableInt (bits : Nat)
  | nullableUint (bits : Nat)
  | nullableFloat (bits : Nat)
  | nullableBool
  | interval
deriving DecidableEq

/-- the values that are there -/
def present (cells : List ObjClass) : List ObjClass := cells.filter fun c => decide (c ≠ .missing)

/-- pandas' `lib.infer_dtype(values, skipna=True)`, as far as the `.str` accessor asks: the answers 'string', 'empty', 'bytes', 'mixed' and
'mixed-integer'. All other answers need all present values to be numbers, to be truth values, or to be of one special class. -/
def strInferred (cells : List ObjClass) : Bool :=
  let v := present cells
  v.all (fun c => decide (c = .text)) || v.all (fun c => decide (c = .bytes)) ||
    !(v.all (fun c => decide (c = .int ∨ c = .float)) || v.all (fun c => decide (c = .bool)) ||
      match v with
      | .special k :: _ => v.all fun c => decide (c = .special k)
      | _ => false)

/-- `hasattr(s, 'cat')` -/
def SDtype.hasCat : SDtype → Bool
  | .category => true
  | _ => false

/-- `hasattr(s, 'str')` of a Series that is no categorical -/
def SDtype.hasStr : SDtype → Bool
  | .object cells => strInferred cells
  | .string => true
  | _ => false

/-- `hasattr(s, 'dt')` -/
def SDtype.hasDt : SDtype → Bool
  | .datetime | .timedelta | .period => true
  | _ => false

/-- `_INT_TYPES` (missing_data.py:15); `dtype == np.int64` is false for the extension type `Int64` -/
def SDtype.inInts : SDtype → Bool
  | .int b => decide (b ∈ [64, 32, 8, 16])
  | _ => false

/-- `_UINT_TYPES` (missing_data.py:16) -/
def SDtype.inUints : SDtype → Bool
  | .uint b => decide (b ∈ [8, 16, 32, 64])
  | _ => false

/-- `_FLOAT_TYPES` (missing_data.py:17) -/
def SDtype.inFloats : SDtype → Bool
  | .float b => decide (b ∈ [64, 32, 16])
  | _ => false

/-- `infer_dtype` (missing_data.py:33-52) -/
def inferDtype (s : SDtype) : DKind :=
  if s.hasCat then .category
  else if s.hasStr then .text
  else if s.hasDt then .datetime
  else if s = .bool then .bool
  else if s.inInts then .int
  else if s.inUints then .uint
  else if s.inFloats then .float
  else .object

/-- the values of `_default_fills` -/
inductive FillVal where
  | zero | nan | false | emptyText | nat | none
deriving DecidableEq

/-- `_default_fills` (missing_data.py:55-59) -/
def defaultFills : DKind → FillVal
  | .int => .zero
  | .uint => .zero
  | .float => .nan
  | .bool => .false
  | .text => .emptyText
  | .category => .nan
  | .datetime => .nat
  | .object => .none

end Cheval
