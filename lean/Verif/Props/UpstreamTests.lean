import Verif.Props.LdfExample
import Verif.Core.LdfInfo
import Verif.Core.LdfPivot
import Verif.Core.Logit

/-!
# The tests of the repository, run on the model

testing/test_ldf.py, test by test, and the tests of testing/test_core.py that need no `exp`, with the data and the expected results written there. These are tests of the model (by computation in
the kernel), not properties.
-/
namespace Cheval
namespace Upstream

/-- cells: integers, texts, truth values, NaN -/
inductive TV where
  | int (i : Int)
  | txt (s : Str)
  | bool (b : Bool)
  | nan
deriving DecidableEq

def TV.toInt : TV → Int
  | .int i => i
  | .bool b => if b then 1 else 0
  | _ => 0

/-- sums; the default fills of missing_data.py:55-59 -/
def tE : LEnv TV where
  isNa v := v = .nan
  store _ v := .ok v
  agg f _ vs := if f = "sum".toList then some (.int (vs.map TV.toInt).sum) else if f = "count".toList then some (.int vs.length) else none
  aggKind _ _ := .int
  defaultFill k := match k with
    | .int => .int 0
    | .uint => .int 0
    | .bool => .bool false
    | .text => .txt []
    | _ => .nan
  nan := .nan

def tEv : LWorld TV → Nat → PExpr → LWorld TV × Except Err (LCol TV) := fun w _ _ => (w, .error .key)
def tId : Str → Bool := fun _ => true

def ints (l : List Int) : LCol TV := ⟨.int, l.map .int⟩
def texts (l : List String) : LCol TV := ⟨.text, l.map fun s => .txt s.toList⟩
def rangeIndex (n : Nat) : List (List TV) := (List.range n).map fun (i : Nat) => [.int i]

/-- `vehicles_data` (test_ldf.py:7-13) -/
def vehiclesData : List (Str × LCol TV) := [
  ("household_id".toList, ints [0, 0, 1, 2, 3]),
  ("vehicle_id".toList, ints [0, 1, 0, 0, 0]),
  ("manufacturer".toList, texts ["Honda", "Ford", "Ford", "Toyota", "Honda"]),
  ("model_year".toList, ints [2009, 2005, 2015, 2011, 2013]),
  ("km_travelled".toList, ints [103236, 134981, 19015, 75795, 54573])]

/-- `households_data` (test_ldf.py:15-19) -/
def householdsData : List (Str × LCol TV) := [
  ("household_id".toList, ints [0, 1, 2, 3]),
  ("dwelling_type".toList, texts ["house", "apartment", "house", "house"]),
  ("drivers".toList, ints [4, 1, 2, 3])]

/-- frame 0: vehicles, frame 1: households, linked both ways (test_ldf.py:23-27) -/
def vh : List (LOp TV) := [
  .new true [none] (rangeIndex 5) vehiclesData,
  .new true [none] (rangeIndex 4) householdsData,
  .linkTo 0 1 "household".toList { on := some ["household_id".toList] },
  .linkTo 1 0 "vehicles".toList { on := some ["household_id".toList] }]

def vhW : LWorld TV := lrun tE tId tEv tE.start vh

/-- the cells of a result -/
def cells {A : Type} (x : A × Except Err (LCol TV)) : Option (List TV) := match x.2 with
  | .ok c => some c.vals
  | .error _ => none

/-- `test_link_to` (test_ldf.py:22-33): `households.vehicles.sum("km_travelled")` -/
example : cells (tE.aggregate (orColumn tEv) vhW 1 ["vehicles".toList] "sum".toList (.name "km_travelled".toList) (.int (-1))) =
    some [.int 238217, .int 19015, .int 75795, .int 54573] := by decide

/-- `test_slicing` (test_ldf.py:36-51): the rows of household 0, copied, and their dwelling types -/
example : cells (tE.lookup (lrun tE tId tEv vhW [.select 0 [0, 1] (fun _ => []) fun _ _ => .nan, .copy 2]) 3 ["household".toList]
    "dwelling_type".toList) = some [.txt "house".toList, .txt "house".toList] := by decide

/-- the column is then set on the copy -/
example : ((lrun tE tId tEv vhW [.select 0 [0, 1] (fun _ => []) fun _ _ => .nan, .copy 2,
      .setColumn 3 "dwelling_type".toList (texts ["house", "house"])]).frames[3]?.bind fun f => dictGet f.cols "dwelling_type".toList) =
    some (texts ["house", "house"]) := by decide

/-- `test_link_summary` (test_ldf.py:74-91) -/
example : vhW.linkSummary 1 = .ok [⟨"vehicles".toList, (5, 5), ⟨some ["household_id".toList], false⟩, ⟨some ["household_id".toList], false⟩,
    true, true, true⟩] := by decide

/-- `test_groupby` (test_ldf.py:162-193): frame 0 is df1, frame 1 is df2, frames 2 and 3 are the groups "F" and "M" -/
def groupsW : LWorld TV := lrun tE tId tEv tE.start [
  .new true [none] (rangeIndex 7) [("df2_id".toList, ints [0, 1, 2, 0, 1, 2, 0]), ("cats".toList, texts ["F", "M", "F", "M", "F", "M", "F"])],
  .new true [none] (rangeIndex 3) [("col1".toList, texts ["a", "b", "c"])],
  .linkTo 0 1 "df2".toList { onSelf := some ["df2_id".toList] },
  .grouped 0 [0, 2, 4, 6], .grouped 0 [1, 3, 5]]

/-- sorted a, a, b, c -/
example : cells (tE.lookup groupsW 2 ["df2".toList] "col1".toList) = some (texts ["a", "c", "b", "a"]).vals := by decide
/-- sorted a, b, c -/
example : cells (tE.lookup groupsW 3 ["df2".toList] "col1".toList) = some (texts ["b", "a", "c"]).vals := by decide

/-- `test_missing_linkage` (test_ldf.py:217-270): frame 0 is df1, frame 1 is df2; the float values 0.0, 1.0, 2.0 are written as integers -/
def missW : LWorld TV := lrun tE tId tEv tE.start [
  .new true [none] (rangeIndex 4) [("df2_id".toList, ints [0, 1, 2, 3])],
  .new true [none] (rangeIndex 3) [("idx".toList, ints [0, 1, 2]), ("float_value".toList, ⟨.float, [.int 0, .int 1, .int 2]⟩),
    ("int_value".toList, ints [0, 1, 2])],
  .linkTo 0 1 "df2".toList { onSelf := some ["df2_id".toList], onOther := some ["idx".toList] }]

/-- the rest of the test: lookups, then those on rows 3 and 2 -/
def missRest : List (LOp TV) := [.lookup 0 ["df2".toList] "float_value".toList, .lookup 0 ["df2".toList] "int_value".toList,
  .select 0 [3, 2] (fun _ => []) fun _ _ => .nan]

example : cells (tE.lookup missW 0 ["df2".toList] "float_value".toList) = some [.int 0, .int 1, .int 2, .nan] := by decide
example : cells (tE.lookup missW 0 ["df2".toList] "int_value".toList) = some [.int 0, .int 1, .int 2, .int 0] := by decide
example : cells (tE.lookup (lrun tE tId tEv missW missRest) 2 ["df2".toList] "float_value".toList) = some [.nan, .int 2] := by decide
example : cells (tE.lookup (lrun tE tId tEv missW missRest) 2 ["df2".toList] "int_value".toList) = some [.int 0, .int 2] := by decide

/-! ## evaluate -/

open Spec

/-- comparisons and `where`; numbers are integers -/
def tA : Arith Int where
  lit x := x.num
  nan := 0
  neg _ := none
  bin _ _ _ := none
  inv _ := none
  cmp op a b := match op, a, b with
    | .gt, .num x, .num y => some (decide (y < x))
    | .eq, .text x, .text y => some (decide (x = y))
    | _, _, _ => none
  fn f l := if f = "where".toList then match l with
    | [.bool c, a, b] => some (if c then a else b)
    | _ => none
    else none

def tPy : PyEnv := ⟨true, fun f => decide (f = "where".toList), id, .dataframe⟩

def tConv : List TV → Except Err (List (Val Int))
  | [] => .ok []
  | .int i :: l => (tConv l).map (.num i :: ·)
  | .txt s :: l => (tConv l).map (.text s :: ·)
  | .bool b :: l => (tConv l).map (.bool b :: ·)
  | .nan :: _ => .error .type

def tBack (l : List (Val Int)) : LCol TV :=
  ⟨if l.all (fun v => match v with | .bool _ => true | _ => false) then .bool else .int, l.map fun v => match v with
    | .num x => .int x
    | .bool b => .bool b
    | .text s => .txt s⟩

def tK : EvEnv TV Int where
  arith := tA
  py := tPy
  conv c := tConv c.vals
  back := tBack
  negInf := 0
  intFill := .int (-1)
  pandasEval _ _ _ _ := .error .value

/-- `where(household.drivers > 1, True, False)` as Python's parser reads it -/
def driversExpr : PExpr := .call (.name "where".toList) (.cons (.compare (.attr (.name "household".toList) "drivers".toList) .gt (.num 1) .nil)
  (.cons (.const .true) (.cons (.const .false) .nil))) .nil

/-- `test_evaluate` (test_ldf.py:54-67) -/
example : cells (tK.evaluate tE vhW 0 driversExpr []) = some [.bool true, .bool true, .bool false, .bool true, .bool true] := by
  decide +kernel

/-- `vehicles.sum(manufacturer=='Honda')` -/
def hondaExpr : PExpr := .call (.attr (.name "vehicles".toList) "sum".toList)
  (.cons (.compare (.name "manufacturer".toList) .eq (.str "Honda".toList) .nil) .nil) .nil

/-- `test_bool_columns` (test_ldf.py:196-214) -/
example : cells (tK.evaluate tE vhW 1 hondaExpr []) = some [.int 1, .int 0, .int 0, .int 1] := by decide +kernel

/-! ## pivot_table -/

def tParser : PyParser := fun s => if s = "household.dwelling_type".toList then .ok (.attr (.name "household".toList) "dwelling_type".toList)
  else .error .syntaxErr

/-- the table given to pandas -/
def given (x : LWorld TV × Except Err (PivotTab TV)) : Option (List (Str × LCol TV)) := match x.2 with
  | .ok t => some t.cols
  | .error _ => none

/-- `test_pivot_table` (test_ldf.py:94-112): pandas gets the columns `vehicle_id`, `manufacturer` and the dwelling types of the
households; the counts expected by the test are those of this table -/
example : given (tK.pivotTable tE tParser (fun t _ _ _ => .ok t) vhW 0 (.text "vehicle_id".toList) (.text "manufacturer".toList)
      (.text "household.dwelling_type".toList)) =
    some [("vehicle_id".toList, ints [0, 1, 0, 0, 0]), ("manufacturer".toList, texts ["Honda", "Ford", "Ford", "Toyota", "Honda"]),
      ("household.dwelling_type".toList, ⟨.int, (texts ["house", "house", "apartment", "house", "house"]).vals⟩)] := by decide +kernel

/-- `test_pivot_table_multiindex` (test_ldf.py:115-159): the frames have three and four index levels -/
def multiW : LWorld TV := lrun tE tId tEv tE.start [
  .new true [none, none, none] [[.int 0, .int 0, .int 0], [.int 0, .int 1, .int 0], [.int 1, .int 0, .int 0], [.int 2, .int 0, .int 0],
    [.int 3, .int 0, .int 0]] vehiclesData,
  .new true [none, none, none, none] ((List.range 4).map fun (i : Nat) => [.int i, .int 0, .int 0, .int 0]) householdsData,
  .linkTo 0 1 "household".toList { on := some ["household_id".toList] },
  .linkTo 1 0 "vehicles".toList { on := some ["household_id".toList] }]

example : given (tK.pivotTable tE tParser (fun t _ _ _ => .ok t) multiW 0 (.text "vehicle_id".toList) (.text "manufacturer".toList)
      (.text "household.dwelling_type".toList)) =
    some [("vehicle_id".toList, ints [0, 1, 0, 0, 0]), ("manufacturer".toList, texts ["Honda", "Ford", "Ford", "Toyota", "Honda"]),
      ("household.dwelling_type".toList, ⟨.int, (texts ["house", "house", "apartment", "house", "house"]).vals⟩)] := by decide +kernel

/-! ## testing/test_core.py -/

/-- exact fractions; `exp` and `log` are not used -/
@[reducible] def ratOps : FOps ℚ where
  zero := 0
  one := 1
  tiny := 1 / 2 ^ 1022
  negInf := 0
  posInf := 0
  nan := 0
  add := (· + ·)
  mul := (· * ·)
  div := (· / ·)
  exp := id
  log := id
  le a b := decide (a ≤ b)
  lt a b := decide (a < b)
  isNan _ := false

attribute [local instance] ratOps

/-- `test_sample_once` (test_core.py:55-69) -/
example : [FOps.tiny, 1 / 10, 3 / 10, 6 / 10, 7 / 10, 1].map (sampleOnce ([0, 0, 25 / 100, 0, 25 / 100, 15 / 100, 35 / 100, 0] : List ℚ)) =
    [2, 2, 4, 5, 6, 6] := by decide +kernel

/-- `test_logarithmic_search` (test_core.py:72-89) -/
example : ([0, 2 / 10, 4 / 10, 6 / 10, 8 / 10, 99 / 100] : List ℚ).map (fun r => logSearch r
      [0, 0, 1 / 4, 1 / 4, 1 / 4, 1 / 4, 1 / 4, 1 / 2, 3 / 4, 1, 1, 1]) =
    [some 2, some 2, some 7, some 8, some 9, some 9] := by decide +kernel

/-- `test_simple_sample` (test_core.py:151-166) -/
example : [FOps.tiny, 2 / 10, 4 / 10, 8 / 10, 9 / 10, 1].map (simpleSample ([2, 4, 1, 1] : List ℚ)) = [0, 0, 1, 2, 3, 3] := by decide +kernel

/-- `test_sample_multi` (test_core.py:92-107): each draw is that of `sample_once` with the same number, here for the numbers k/40 (for all
numbers and weights: C02) -/
example : ∀ k ∈ List.range 41, (logSearch ((k : ℚ) / 40) (nbfCumsum [0, 0, 1 / 4, 1 / 4, 0, 1 / 2, 0])).map Int.ofNat =
    some (sampleOnce [0, 0, 1 / 4, 1 / 4, 0, 1 / 2, 0] ((k : ℚ) / 40)) := by decide +kernel

/-! ## testing/test_parsing.py (commented out there) -/

def visited (e : PExpr) : Except Err PExpr := (visit tPy e (freshParser [] [])).2

/-- `test_unaryop` (test_parsing.py:43-53) -/
example : visited (.unary .neg (.name ['b'])) = .ok (.unary .neg (.name ['b'])) ∧ visited (.unary .not (.name ['b'])) = .ok (.unary .invert (.name ['b'])) :=
  ⟨rfl, rfl⟩

/-- `test_bool_op` (test_parsing.py:55-73) -/
example : let sand := PExpr.name "sand".toList; let door := PExpr.name "door".toList; let knot := PExpr.name "knot".toList
    visited (.boolop true sand (.cons door .nil)) = .ok (.bin .bitAnd sand door) ∧
    visited (.boolop true sand (.cons door (.cons knot .nil))) = .ok (.bin .bitAnd (.bin .bitAnd sand door) knot) ∧
    visited (.boolop false sand (.cons door .nil)) = .ok (.bin .bitOr sand door) ∧
    visited (.boolop false sand (.cons door (.cons knot .nil))) = .ok (.bin .bitOr (.bin .bitOr sand door) knot) := ⟨rfl, rfl, rfl, rfl⟩

/-- `test_simple_symbol` (test_parsing.py:12-18) -/
example : (visit tPy (.bin .add (.name ['a']) (.name ['b'])) (freshParser [] [])).1.visited = [['a'], ['b']] := rfl

/-- `test_dict_literal` (test_parsing.py:20-38), without the padding of keys, which happens at evaluation now -/
example : (visit tPy (.dict (.cons (.name ['a']) (.num 1) (.cons (.name ['b']) (.num 2) .nil))) (freshParser [] [])).1.dicts.map (·.2) =
      [[([['a']], 1), ([['b']], 2)]] ∧
    (visit tPy (.dict (.cons (.str "choice 1".toList) (.num 5) .nil)) (freshParser [] [])).1.dicts.map (·.2) = [[(["choice 1".toList], 5)]] ∧
    (visit tPy (.dict (.cons (.name ['a']) (.unary .neg (.num (1 / 2))) .nil)) (freshParser [] [])).1.dicts.map (·.2) = [[([['a']], -(1 / 2))]] ∧
    (visit tPy (.dict (.cons (.attr (.attr (.name ['t']) ['b']) ['w']) (.num (3 / 5)) .nil)) (freshParser [] [])).1.dicts.map (·.2) =
      [[([['t'], ['b'], ['w']], 3 / 5)]] := ⟨rfl, rfl, rfl, rfl⟩

end Upstream
end Cheval
