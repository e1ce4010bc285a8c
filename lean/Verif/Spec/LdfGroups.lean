import Verif.Spec.Ldf

/-!
# The groups an aggregation reduces
Stated with the keys of rows only.
-/
namespace Cheval
variable {V : Type}

/-- `us` lists the distinct keys of the rows of `g`, those that are missing (`na`) left out, in order of first appearance -/
structure FirstKeys (na : List V → Bool) (g : LFrame V) (s : KeySpec) (us : List (List V)) : Prop where
  once : us.Nodup
  mem : ∀ k, k ∈ us ↔ (∃ j, g.keyAt s j = some k) ∧ na k = false
  order : ∀ (a b : Nat) (k k' : List V), a < b → us[a]? = some k → us[b]? = some k' → ∀ j, g.keyAt s j = some k' → ∃ i, i < j ∧ g.keyAt s i = some k

/-- the values of `a`, in order, in the rows of `g` whose key is missing -/
def LFrame.keyless (na : List V → Bool) (g : LFrame V) (s : KeySpec) (a : List V) : List V :=
  (List.range g.rows).filterMap fun j => match g.keyAt s j with
    | some k => if na k then a[j]? else none
    | none => none

open Classical in
/-- the groups the code reduces, in this order: the rows with a missing key, if there are any, then the rows of each key -/
noncomputable def LFrame.groups (na : List V → Bool) (g : LFrame V) (s : KeySpec) (us : List (List V)) (a : List V) : List (List V) :=
  (if ∃ j k, g.keyAt s j = some k ∧ na k = true then [g.keyless na s a] else []) ++ us.map fun k => g.matching s k a

end Cheval
