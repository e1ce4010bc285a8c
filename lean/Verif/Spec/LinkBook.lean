import Verif.Core.LdfHistory

/-!
# Specification of what a program knows of the links it made (C64)

The book is kept from the calls and their outcomes only.
-/
namespace Cheval.Spec
variable {V : Type} [DecidableEq V]

/-- what a link connects -/
structure LinkFacts where
  target : Nat
  onSelf : KeySpec
  onOther : KeySpec
  chained : Bool
  aggregation : Bool
deriving DecidableEq

/-- for each frame: is it a LinkedDataFrame, and its links, in the order in which their names came up -/
abbrev LinkBook := List (Bool × List (Str × LinkFacts))

/-- the keys of one side, from the arguments of an accepted call: named columns, named levels of the index, or the whole index -/
def sideKeys : (on levels onSide sideLevels : Option (List Str)) → KeySpec
  | some cs, _, _, _ => ⟨some cs, false⟩
  | none, some ls, _, _ => ⟨some ls, true⟩
  | none, none, some cs, _ => ⟨some cs, false⟩
  | none, none, none, some ls => ⟨some ls, true⟩
  | none, none, none, none => ⟨none, true⟩

/-- write down a link: under its name if there is one already, else at the end -/
def note (l : List (Str × LinkFacts)) (name : Str) (x : LinkFacts) : List (Str × LinkFacts) :=
  if ∃ e ∈ l, e.1 = name then l.map fun e => if e.1 = name then (name, x) else e else l ++ [(name, x)]

/-- one call and its outcome: a new frame has no links, a derived one has its parent's, a successful `link_to` makes a link -/
def LinkBook.after (b : LinkBook) : LOp V → Except Err (LOut V) → LinkBook
  | .new linked _ _ _, .ok _ => b ++ [(linked, [])]
  | .linkTo r o name a, .ok (.flag agg) => b.modify r fun x => (x.1, note x.2 name
      ⟨o, sideKeys a.on a.levels a.onSelf a.selfLevels, sideKeys a.on a.levels a.onOther a.otherLevels, (b[o]?.getD (false, [])).1, agg⟩)
  | .select r _ _ _, .ok _ => b ++ b[r]?.toList
  | .finalized r _ _ _, .ok _ => b ++ b[r]?.toList
  | .grouped r _, .ok _ => b ++ b[r]?.toList
  | .copy r, .ok _ => b ++ b[r]?.toList
  | _, _ => b

variable (E : LEnv V) (isid : Str → Bool) (ev : LWorld V → Nat → PExpr → LWorld V × Except Err (LCol V))

/-- the book after a history -/
def bookAfter : LWorld V → LinkBook → List (LOp V) → LinkBook
  | _, b, [] => b
  | w, b, op :: ops => bookAfter (lstep E isid ev w op).1 (b.after op (lstep E isid ev w op).2) ops

end Cheval.Spec
