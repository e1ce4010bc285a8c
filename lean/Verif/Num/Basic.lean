import Mathlib.Analysis.SpecialFunctions.Log.Basic

/-!
# Numeric interface

`cheval/core.py` and the utility evaluation only use the floating point operations listed in `FOps`.
The model is written once against this interface and instantiated with
* `XR`      : exact extended reals with `nan`, `+inf`, `-inf` (IEEE-754 rules, no rounding, unsigned zero),
* `Rnd R`   : the same with every result passed through an arbitrary monotone rounding (file `Num/Rounded.lean`),
* `Float`   : the machine's doubles, used only to run the model (file `Num/FloatTest.lean`), never in a proof.
-/

namespace Cheval

/-- The operations of the numeric type used by cheval/core.py (NumPy/Numba float64). -/
class FOps (F : Type) where
  zero   : F
  one    : F
  /-- `MIN_RANDOM_VALUE = np.finfo(np.float64).tiny`, core.py:17 -/
  tiny   : F
  negInf : F
  posInf : F
  nan    : F
  add : F → F → F
  mul : F → F → F
  div : F → F → F
  exp : F → F
  log : F → F
  /-- IEEE `<=` : `false` whenever an operand is NaN -/
  le : F → F → Bool
  /-- IEEE `<` : `false` whenever an operand is NaN -/
  lt : F → F → Bool
  isNan : F → Bool

/-- Exact extended reals with a NaN. -/
inductive XR where
  | nan
  | ninf
  | pinf
  | fin (x : ℝ)

namespace XR
open Classical

/-- IEEE addition without rounding: `inf + (-inf) = nan`. -/
noncomputable def add : XR → XR → XR
  | nan, _ => nan
  | _, nan => nan
  | pinf, ninf => nan
  | ninf, pinf => nan
  | pinf, _ => pinf
  | _, pinf => pinf
  | ninf, _ => ninf
  | _, ninf => ninf
  | fin x, fin y => fin (x + y)

/-- `x * (+inf)` -/
noncomputable def mulPinf (x : ℝ) : XR :=
  if x = 0 then nan else if 0 < x then pinf else ninf
/-- `x * (-inf)` -/
noncomputable def mulNinf (x : ℝ) : XR :=
  if x = 0 then nan else if 0 < x then ninf else pinf

/-- IEEE multiplication without rounding: `0 * inf = nan`. -/
noncomputable def mul : XR → XR → XR
  | nan, _ => nan
  | _, nan => nan
  | pinf, pinf => pinf
  | pinf, ninf => ninf
  | ninf, pinf => ninf
  | ninf, ninf => pinf
  | fin x, pinf => mulPinf x
  | fin x, ninf => mulNinf x
  | pinf, fin y => mulPinf y
  | ninf, fin y => mulNinf y
  | fin x, fin y => fin (x * y)

/-- IEEE division without rounding. Division by zero follows NumPy (`x/0 = ±inf`, `0/0 = nan`); zero is unsigned. -/
noncomputable def div : XR → XR → XR
  | nan, _ => nan
  | _, nan => nan
  | fin _, pinf => fin 0
  | fin _, ninf => fin 0
  | pinf, fin y => if 0 ≤ y then pinf else ninf
  | ninf, fin y => if 0 ≤ y then ninf else pinf
  | fin x, fin y =>
      if y = 0 then (if x = 0 then nan else if 0 < x then pinf else ninf)
      else fin (x / y)
  | _, _ => nan

/-- `np.exp` : `exp(-inf) = 0`, `exp(+inf) = +inf`. -/
noncomputable def exp : XR → XR
  | nan => nan
  | ninf => fin 0
  | pinf => pinf
  | fin x => fin (Real.exp x)

/-- `np.log` : `log(0) = -inf`, `log(negative) = nan`. -/
noncomputable def log : XR → XR
  | nan => nan
  | ninf => nan
  | pinf => pinf
  | fin x => if x = 0 then ninf else if 0 < x then fin (Real.log x) else nan

noncomputable def le : XR → XR → Bool
  | nan, _ => false
  | _, nan => false
  | ninf, _ => true
  | _, pinf => true
  | fin x, fin y => decide (x ≤ y)
  | _, _ => false

noncomputable def lt : XR → XR → Bool
  | nan, _ => false
  | _, nan => false
  | ninf, ninf => false
  | ninf, _ => true
  | pinf, _ => false
  | _, pinf => true
  | fin x, fin y => decide (x < y)
  | fin _, ninf => false

def isNan : XR → Bool
  | nan => true
  | _ => false

noncomputable instance : FOps XR where
  zero := fin 0
  one := fin 1
  tiny := fin ((1 / 2 : ℝ) ^ (1022 : ℕ))
  negInf := ninf
  posInf := pinf
  nan := nan
  add := add
  mul := mul
  div := div
  exp := exp
  log := log
  le := le
  lt := lt
  isNan := isNan

end XR

/-- Order laws used by the rounding-robust theorems. They hold for exact arithmetic and for every monotone
rounding of it (`Num/Rounded.lean`); IEEE doubles satisfy them. Only a *pre*order is assumed (IEEE `-0.0`/`+0.0`). -/
class FLaws (F : Type) [FOps F] : Prop where
  le_refl  : ∀ a : F, FOps.isNan a = false → FOps.le a a = true
  le_trans : ∀ a b c : F, FOps.le a b = true → FOps.le b c = true → FOps.le a c = true
  le_total : ∀ a b : F, FOps.isNan a = false → FOps.isNan b = false → FOps.le a b = true ∨ FOps.le b a = true
  le_notNan : ∀ a b : F, FOps.le a b = true → FOps.isNan a = false ∧ FOps.isNan b = false
  lt_iff   : ∀ a b : F, FOps.lt a b = true ↔ (FOps.isNan a = false ∧ FOps.isNan b = false ∧ FOps.le b a = false)
  zero_notNan : FOps.isNan (FOps.zero : F) = false
  one_notNan : FOps.isNan (FOps.one : F) = false
  zero_le_one : FOps.le (FOps.zero : F) FOps.one = true
  tiny_pos : FOps.lt (FOps.zero : F) FOps.tiny = true
  /-- adding a non-negative number to a non-negative number does not decrease it -/
  le_add : ∀ a b : F, FOps.le FOps.zero a = true → FOps.le FOps.zero b = true → FOps.le a (FOps.add a b) = true
  le_add' : ∀ a b : F, FOps.le FOps.zero a = true → FOps.le FOps.zero b = true → FOps.le b (FOps.add a b) = true
  /-- adding zero is exact -/
  add_zero : ∀ a z : F, FOps.le FOps.zero a = true → FOps.le z FOps.zero = true → FOps.le FOps.zero z = true →
    FOps.le (FOps.add a z) a = true
  exp_nonneg : ∀ a : F, FOps.isNan a = false → FOps.le FOps.zero (FOps.exp a) = true
  exp_negInf : FOps.exp (FOps.negInf : F) = FOps.zero
  /-- `0 <= a <= b`, `0 < b < inf` : the quotient is in `[0,1]` -/
  div_unit : ∀ a b : F, FOps.le FOps.zero a = true → FOps.le a b = true → FOps.lt FOps.zero b = true →
    FOps.lt b FOps.posInf = true →
    FOps.le FOps.zero (FOps.div a b) = true ∧ FOps.le (FOps.div a b) FOps.one = true
  div_zero_num : ∀ b : F, FOps.lt FOps.zero b = true → FOps.div FOps.zero b = FOps.zero
  mul_unit : ∀ a b : F, FOps.le FOps.zero a = true → FOps.le a FOps.one = true →
    FOps.le FOps.zero b = true → FOps.le b FOps.one = true →
    FOps.le FOps.zero (FOps.mul a b) = true ∧ FOps.le (FOps.mul a b) FOps.one = true
  zero_mul : ∀ b : F, FOps.le FOps.zero b = true → FOps.le b FOps.one = true → FOps.mul FOps.zero b = FOps.zero
  mul_zero : ∀ b : F, FOps.le FOps.zero b = true → FOps.le b FOps.one = true → FOps.mul b FOps.zero = FOps.zero

end Cheval
