import Verif.Core.Logit

/-!
# Running the model on machine doubles (tests, not proofs)
The expected values are those of /repo/testing/test_core.py.
-/
namespace Cheval

instance : FOps Float where
  zero := 0
  one := 1
  tiny := 2.2250738585072014e-308
  negInf := -1.0 / 0.0
  posInf := 1.0 / 0.0
  nan := 0.0 / 0.0
  add := (· + ·)
  mul := (· * ·)
  div := (· / ·)
  exp := Float.exp
  log := Float.log
  le := fun a b => decide (a ≤ b)
  lt := fun a b => decide (a < b)
  isNan := Float.isNaN

/-- `_build_nested_tree()` of testing/test_core.py:17-31 flattened by hand. -/
def testTree : Flat Float where
  n := 8
  parent := fun i => ([-1, 0, 0, -1, 3, 3, 5, 5] : List Int).getD i 0
  level := fun i => ([0, 1, 1, 0, 1, 1, 2, 2] : List Nat).getD i 0
  scale := fun i => ([0.7, 1, 1, 0.7, 1, 0.3, 1, 1] : List Float).getD i 0
  bottom := fun i => ([false, true, true, false, true, false, true, true] : List Bool).getD i true

def testShow : Except Err (List Float × Float × List Float) → List Float × Float
  | .ok (p, t, _) => (p, t)
  | .error _ => ([], 0)

end Cheval
