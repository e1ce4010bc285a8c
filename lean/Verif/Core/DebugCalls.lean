import Verif.Core.Debug

/-!
# `debug_id` in `preval`, `copy` and `copy_subset` (cheval/model.py:626-665, 682, 732)
-/
namespace Cheval
open FOps
variable {U F : Type} [DecidableEq U] [FOps F]

/-- `preval` after the evaluation (model.py:648-665): the table is kept, symbols and the group are dropped -/
def CModel.prevalEnd (m : CModel U F) (k : Nat) (sg : SubGroup) (u : Tab F) (dropGroup cleanup : Bool) : CModel U F × Except Err Unit :=
  let m := { m with cached := (m.units.map fun us => (us, u)) }
  let (scope, r) := if cleanup then delNames m.scope (toClear m.exprs sg) else (m.scope, .ok ())
  let m := { m with scope := scope }
  match r with
  | .error e => (m, .error e)
  | .ok () => if dropGroup then ({ m with exprs := (m.exprs.dropGroup k).1 }, (m.exprs.dropGroup k).2) else (m, .ok ())

/-- `preval` (model.py:626-665) of a model with a `debug_id` -/
def DModel.preval (truthy : U → Bool) (K : Kernel F) (d : DModel U F) (k : Nat) (dropGroup cleanup : Bool) : DModel U F × Except Err Unit :=
  match d.base.validate true true true true (some k), d.base.exprs.getGroup k with
  | .error e, _ => (d, .error e)
  | .ok _, .error e => (d, .error e)
  | .ok _, .ok sg =>
    match d.evaluate truthy K ⟨sg.simple, sg.chained, sg.exprs⟩ with
    | (d, .error e) => (d, .error e)
    | (d, .ok u) => ({ d with base := (d.base.prevalEnd k sg u dropGroup cleanup).1 }, (d.base.prevalEnd k sg u dropGroup cleanup).2)

/-- `copy` (model.py:667-714): the constructor is given `debug_id` (682) and starts without results (52) -/
def DModel.copy (d : DModel U F) (units scopeDeclared scopeAssigned expressions utilities : Bool) : Except Err (DModel U F) :=
  (d.base.copy units scopeDeclared scopeAssigned expressions utilities).map fun m => ⟨m, d.debugId, none⟩

/-- `copy_subset` (model.py:716-752): the same (732) -/
def DModel.copySubset (d : DModel U F) (maskIndex : List U) (mask : List Bool) : Except Err (DModel U F) :=
  (d.base.copySubset maskIndex mask).map fun m => ⟨m, d.debugId, none⟩

end Cheval
