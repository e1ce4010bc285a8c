import Verif.Core.LdfHistory

/-!
# Which fill value a history of calls asks for
-/
namespace Cheval
variable {V : Type}

/-- the names under which default fills are set -/
def kindName : DKind → Str
  | .int => "INT_NAME".toList
  | .uint => "UINT_NAME".toList
  | .float => "FLOAT_NAME".toList
  | .bool => "BOOL_NAME".toList
  | .text => "TEXT_NAME".toList
  | .object => "OBJ_NAME".toList
  | .category => "CAT_NAME".toList
  | .datetime => "TIME_NAME".toList

open Classical in
/-- the values a call `set_fill_defaults(**kvs)` gives to `k`: the entries of that name before the first unknown name -/
noncomputable def namedFills (k : DKind) (kvs : List (Str × V)) : List V :=
  (kvs.takeWhile fun e => decide (∃ j, e.1 = kindName j)).filterMap fun e => if e.1 = kindName k then some e.2 else none

/-- the default fills for `k` requested by one call, of the frame `t`, of the class if `t` is `none` -/
noncomputable def fillRequests (E : LEnv V) (t : Option Nat) (k : DKind) : LOp V → List V
  | .setFill r kvs => if r = t then namedFills k kvs else []
  | .resetFill r => if r = t then [E.defaultFill k] else []
  | _ => []

/-- the default fill for `k` last requested by a history, if any -/
noncomputable def lastRequest (E : LEnv V) (t : Option Nat) (k : DKind) (ops : List (LOp V)) : Option V :=
  (ops.flatMap (fillRequests E t k)).getLast?

/-- the column fill last requested by a history, if any, of the calls that did not raise -/
def lastColumnFill (o : Nat) (col : Str) (calls : List (LOp V × Bool)) : Option V :=
  (calls.filterMap fun c => match c with
    | (.setColumnFill r n v, true) => if r = o ∧ n = col then some v else none
    | _ => none).getLast?

variable [DecidableEq V]

/-- the calls of a history, with whether they returned -/
def lcalls (E : LEnv V) (isid : Str → Bool) (ev : LWorld V → Nat → PExpr → LWorld V × Except Err (LCol V)) :
    LWorld V → List (LOp V) → List (LOp V × Bool)
  | _, [] => []
  | w, op :: ops => (op, (lstep E isid ev w op).2.isOk) :: lcalls E isid ev (lstep E isid ev w op).1 ops

end Cheval
