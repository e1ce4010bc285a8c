import Verif.Core.Ldf

/-!
# What link lookups mean
Stated with the keys of rows only: no indexers, no caches.
-/
namespace Cheval
variable {V : Type}

/-- all or nothing -/
def allSome {A : Type} : List (Option A) → Option (List A)
  | [] => some []
  | none :: _ => none
  | some a :: r => (allSome r).map (a :: ·)

/-- the key of row `i`: its index label, the named parts of its index label, or its cells in the named columns -/
def LFrame.keyAt (f : LFrame V) (s : KeySpec) (i : Nat) : Option (List V) :=
  match s.labels with
  | none => f.index[i]?
  | some ls =>
    if s.fromRows then (f.index[i]?).bind fun k => allSome (ls.map fun n => k[f.levels.idxOf (some n)]?)
    else if i < f.rows then allSome (ls.map fun n => (dictGet f.cols n).bind fun c => c.vals[i]?)
    else none

/-- the key of row `i` of frame `r` -/
def LWorld.keyAt (w : LWorld V) (r : Nat) (s : KeySpec) (i : Nat) : Option (List V) :=
  (w.frames[r]?).bind fun f => f.keyAt s i

/-- the frame at the end of the links `path` from frame `r` -/
def LWorld.follow (w : LWorld V) : Nat → List Str → Option Nat
  | r, [] => some r
  | r, n :: ns => (w.link? r n).bind fun l => w.follow l.other ns

/-- following the links `path` from row `i` of frame `r`, matching keys at every step, one arrives at row `j` of frame `t` -/
inductive Reaches (w : LWorld V) : Nat → List Str → Nat → Nat → Nat → Prop
  | here (r i : Nat) : Reaches w r [] i r i
  | hop {r i m t j : Nat} {n : Str} {ns : List Str} {l : Link} {k : List V} :
      w.link? r n = some l → w.keyAt r l.selfSpec i = some k → w.keyAt l.other l.otherSpec m = some k →
      Reaches w l.other ns m t j → Reaches w r (n :: ns) i t j

/-- `out` is the column `a` of frame `t` seen through the links `path` from frame `r`: the value of the row reached, the fill
value where no row is reached -/
def SeenThrough (w : LWorld V) (r : Nat) (path : List Str) (t : Nat) (a : List V) (fill : V) (out : List V) : Prop :=
  ∀ i v, out[i]? = some v →
    (∀ j, Reaches w r path i t j → a[j]? = some v) ∧ ((∀ j, ¬ Reaches w r path i t j) → v = fill)

/-- the reductions offered for a type of data: all but `count`, `first`, `last`, `nth` are for numbers (and truth values) only -/
def Admitted (func : Str) (k : DKind) : Prop :=
  (func ∈ ["count".toList, "first".toList, "last".toList, "nth".toList] ∧ k ≠ .datetime) ∨
  (func ∈ ["max".toList, "min".toList, "mean".toList, "median".toList, "prod".toList, "std".toList, "sum".toList, "var".toList, "quantile".toList] ∧
    (k = .int ∨ k = .uint ∨ k = .float ∨ k = .bool))

/-- what an aggregation puts where there is nothing to reduce: `int_fill` for integers and truth values, NaN for anything else -/
def groupFill (k : DKind) (intFill nan : V) : V :=
  match k with
  | .int => intFill
  | .uint => intFill
  | .bool => intFill
  | _ => nan

open Classical in
/-- the values of `a`, in order, in the rows of `g` whose key is `k` -/
noncomputable def LFrame.matching (g : LFrame V) (s : KeySpec) (k : List V) (a : List V) : List V :=
  (List.range g.rows).filterMap fun j => if g.keyAt s j = some k then a[j]? else none

end Cheval
