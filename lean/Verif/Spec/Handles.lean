import Verif.Core.Tree

/-!
# What the handles returned by `add_choice` should show

A history is the list of the calls made so far, each with its outcome. Everything below is read off that list; no heap and
no tree.
-/
namespace Cheval.Spec
variable {F : Type}

/-- a call and its outcome -/
abbrev Call (F : Type) := TreeOp F × Except Err Nat

/-- the handle created by a call -/
def madeBy : Call F → Option Nat
  | (.addTop _ _, .ok k) => some k
  | (.addChild _ _ _, .ok k) => some k
  | _ => none

/-- the handle a call is made on -/
def usedBy : TreeOp F → Option Nat
  | .addTop _ _ => none
  | .addChild h _ _ => some h
  | .setScale h _ => some h

/-- a program can only use handles that an earlier call returned -/
def OwnHandles (tr : List (Call F)) : Prop :=
  ∀ pre c post, tr = pre ++ c :: post → ∀ h, usedBy c.1 = some h → h ∈ pre.filterMap madeBy

/-- the logsum scale a call gives to choice `i`, if any -/
def scaleGiven (i : Nat) : Call F → Option F
  | (.addTop _ s, .ok k) => if k = i then some s else none
  | (.addChild _ _ s, .ok k) => if k = i then some s else none
  | (.setScale k v, .ok _) => if k = i then some v else none
  | (_, .error _) => none

/-- the name and handle of the choice a call adds to nest `i`, if any -/
def addedUnder (i : Nat) : Call F → Option (Name × Nat)
  | (.addChild h n _, .ok k) => if h = i then some (n, k) else none
  | _ => none

/-- the names of a list of named handles, in the order of their first occurrences -/
def firstNames : List (Name × Nat) → List Name → List Name
  | [], seen => seen
  | e :: l, seen => firstNames l (if e.1 ∈ seen then seen else seen ++ [e.1])

/-- the last handle with this name -/
def lastNamed (l : List (Name × Nat)) (n : Name) : Option Nat := (l.reverse.find? fun e => decide (e.1 = n)).map (·.2)

/-- the choices nested in `i`: one per name, in the order in which the names were first used -/
def nestedIn (tr : List (Call F)) (i : Nat) : List Nat :=
  (firstNames (tr.filterMap (addedUnder i)) []).filterMap (lastNamed (tr.filterMap (addedUnder i)))

/-- `k` is `i` or nested in `i`, directly or not -/
inductive Within (tr : List (Call F)) : Nat → Nat → Prop
  | self (i : Nat) : Within tr i i
  | nested {i j k : Nat} : j ∈ nestedIn tr i → Within tr j k → Within tr i k

end Cheval.Spec
