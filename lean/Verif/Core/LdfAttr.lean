import Verif.Core.LdfHistory

/-!
# Model of attribute and item access to links, step by step (cheval/ldf/api.py:359-361, 408-427, 443-567)

`frame[l1][l2][column]` and `frame.l1.l2.column` are evaluated one access at a time, each on the object the previous one returned.
`LEnv.lookup` and `LEnv.aggregate` of `Core/Ldf` describe a whole chain; that the steps amount to them is proved in `Props/LdfAttributes`.

Left out: what a Series does with items (here a KeyError, as for an index without text labels), the values of the attributes that
Python finds without `__getattr__`, and attributes of those.
-/
namespace Cheval
variable {V : Type}

/-- the objects met on the way. A node carries the frame whose rows are asked for (`_root_index`) and its history, the link itself being
named by its frame and alias (api.py:447-452). -/
inductive LObj (V : Type) where
  | frame (r : Nat)
  | node (root : Nat) (l : Link) (h : List (Nat × Str))
  | series (c : LCol V)
  /-- `_Aggregator` (api.py:528-532) -/
  | aggregator (root : Nat) (l : Link) (h : List (Nat × Str)) (func : Str)
  /-- an attribute of the object's class, or one of its own -/
  | own (name : Str)

/-- the classes of these objects whose attributes matter -/
inductive LClass where
  | frame | node | aggr | series
deriving DecidableEq

/-- the names Python's normal attribute lookup finds on an object, so that `__getattr__` is not called: methods and properties of the class
(`DataFrame.index`, `DataFrame.count`, ...) and attributes of the object (`_history`, ...) -/
abbrev OwnNames := LClass → Str → Bool

/-- the result of a lookup as an object -/
def asObject {A : Type} : A × Except Err (LCol V) → A × Except Err (LObj V)
  | (w, .error e) => (w, .error e)
  | (w, .ok c) => (w, .ok (.series c))

variable [DecidableEq V]

/-- `object[name]`: `LinkedDataFrame.__getitem__` and `_init_link` (api.py:408-411, 418-427), `_LinkLeaf.__getitem__` (483-489),
`_LinkNode.__getitem__` (498-517). Aggregating nodes have no items. -/
def LEnv.item (E : LEnv V) (w : LWorld V) : LObj V → Str → LWorld V × Except Err (LObj V)
  | .frame r, n => match w.frames[r]? with
    | none => (w, .error .key)
    | some f => match dictGet f.links n with
      | some l => (w, .ok (.node r l [(r, n)]))
      | none => match dictGet f.cols n with
        | some c => (w, .ok (.series c))
        | none => (w, .error .key)
  | .node root l h, n => match l.node with
    | .aggr => (w, .error .type)
    | .leaf => match (w.frames[l.other]?).bind fun g => dictGet g.cols n with
      | none => (w, .error .key)
      | some c => asObject (asSeries (w.frames[root]?.elim 0 LFrame.rows) c.kind (E.resolve c.kind (w.classFill c.kind) w h c.vals))
    | .node => match w.frames[l.other]? with
      | none => (w, .error .key)
      | some g => match dictGet g.links n with
        | some l' => (w, .ok (.node root l' ((l.other, n) :: h)))
        | none => match dictGet g.cols n with
          | none => (w, .error .key)
          | some c => asObject (asSeries (w.frames[root]?.elim 0 LFrame.rows) c.kind (E.resolve c.kind (g.fillOf n c.kind) w h c.vals))
  | .series _, _ => (w, .error .key)
  | .aggregator _ _ _ _, _ => (w, .error .type)
  | .own _, _ => (w, .error .type)

/-- `except KeyError: raise AttributeError(item)` (api.py:470-474); pandas raises AttributeError for a frame without such a column -/
def keyAsAttribute {A B : Type} : A × Except Err B → A × Except Err B
  | (w, .error .key) => (w, .error .attribute)
  | x => x

/-- `object.name`: what normal lookup finds, else `__getattr__`: of a frame (api.py:413-416; pandas then serves columns), of a lookup node
(api.py:470-474), of an aggregating node (api.py:523-526) -/
def LEnv.attribute (E : LEnv V) (own : OwnNames) (w : LWorld V) : LObj V → Str → LWorld V × Except Err (LObj V)
  | .frame r, n => if own .frame n then (w, .ok (.own n)) else keyAsAttribute (E.item w (.frame r) n)
  | .node root l h, n => match l.node with
    | .aggr => if own .aggr n then (w, .ok (.own n))
      else if n ∈ numericAggs ++ otherAggs then (w, .ok (.aggregator root l h n)) else (w, .error .attribute)
    | _ => if own .node n then (w, .ok (.own n)) else keyAsAttribute (E.item w (.node root l h) n)
  | .series _, n => if own .series n then (w, .ok (.own n)) else (w, .error .attribute)
  | .aggregator _ _ _ _, _ => (w, .error .attribute)
  | .own _, _ => (w, .error .attribute)

/-- a chain of accesses, stopping at the first exception -/
def followObj (step : LWorld V → LObj V → Str → LWorld V × Except Err (LObj V)) : LWorld V → LObj V → List Str → LWorld V × Except Err (LObj V)
  | w, o, [] => (w, .ok o)
  | w, o, n :: ns => match step w o n with
    | (w1, .error e) => (w1, .error e)
    | (w1, .ok o1) => followObj step w1 o1 ns

/-- `frame[n1][n2]...` -/
def LEnv.items (E : LEnv V) (w : LWorld V) (r : Nat) (ns : List Str) : LWorld V × Except Err (LObj V) := followObj E.item w (.frame r) ns

/-- `frame.n1.n2...` -/
def LEnv.attributes (E : LEnv V) (own : OwnNames) (w : LWorld V) (r : Nat) (ns : List Str) : LWorld V × Except Err (LObj V) :=
  followObj (E.attribute own) w (.frame r) ns

/-- `aggregator(arg, int_fill=...)` (api.py:537-567), `ev` evaluating the argument on the target -/
def LEnv.callAggregator (E : LEnv V) (ev : LWorld V → Nat → PExpr → LWorld V × Except Err (LCol V)) (w : LWorld V) (arg : PExpr) (intFill : V) :
    LObj V → LWorld V × Except Err (LCol V)
  | .aggregator root l h func => if (w.frames[l.other]?).isNone then (w, .error .key) else match ev w l.other arg with   -- the target exists
    | (w1, .error e) => (w1, .error e)
    | (w1, .ok c) =>
      if func ∈ numericAggs ∧ c.kind.numeric = false then (w1, .error .runtime)
      else if c.kind = .datetime then (w1, .error .notImplemented)
      else match (match h with | [] => none | p :: _ => (w1.link? p.1 p.2).bind (·.grouper)) with
        | none => (w1, .error .type)
        | some codes =>
          if codes.length ≠ c.vals.length then (w1, .error .value)
          else asSeries (w1.frames[root]?.elim 0 LFrame.rows) (E.aggKind func c.kind)
            (E.resolve (E.aggKind func c.kind) (if c.kind.intLike then intFill else E.nan) w1 h (E.reduce func c.kind codes c.vals))
  | _ => (w, .error .type)

/-- `dir(frame)` (api.py:359-361): the names `super().__dir__()` gives, and the links noted as identifiers. (`dir` sorts.) -/
def LWorld.dir (w : LWorld V) (base : List Str) (r : Nat) : List Str := base ++ (w.frames[r]?.elim [] LFrame.identified)

end Cheval
