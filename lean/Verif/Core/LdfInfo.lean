import Verif.Core.LdfQuiet

/-!
# Model of `link_summary` and `get_link_target` (cheval/ldf/api.py:752-778, 831-845)
-/
namespace Cheval
variable {V : Type} [DecidableEq V]

/-- a row of the summary: name, shape of the target, keys on both sides (`str` of them: "From index" or "From columns", api.py:43-46), flags -/
structure LinkRow where
  name : Str
  shape : Nat × Nat
  onSelf : KeySpec
  onOther : KeySpec
  chained : Bool
  aggregation : Bool
  preindexed : Bool
deriving DecidableEq

/-- `frame.shape` -/
def LWorld.shape (w : LWorld V) (r : Nat) : Nat × Nat := match w.frames[r]? with
  | none => (0, 0)
  | some f => (f.rows, f.cols.length)

/-- one turn of the loop (api.py:767-774) -/
def Link.summary (w : LWorld V) (name : Str) (l : Link) : LinkRow :=
  ⟨name, w.shape l.other, l.selfSpec, l.otherSpec, l.chained, l.agg, l.flat.isSome⟩

/-- `link_summary` (api.py:752-778), as the list of its rows; a plain DataFrame has no such method -/
def LWorld.linkSummary (w : LWorld V) (r : Nat) : Except Err (List LinkRow) :=
  match w.frames[r]? with
  | none => .error .attribute
  | some f => if !f.linked then .error .attribute else .ok (f.links.map fun e => e.2.summary w e.1)

/-- `get_link_target` (api.py:831-845): the frame itself, as its reference -/
def LWorld.linkTarget (w : LWorld V) (r : Nat) (name : Str) : Except Err Nat :=
  match w.frames[r]? with
  | none => .error .attribute
  | some f => if !f.linked then .error .attribute else match dictGet f.links name with
    | none => .error .key
    | some l => .ok l.other

end Cheval
