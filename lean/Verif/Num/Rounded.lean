import Verif.Num.Basic

/-!
# Rounded arithmetic

`Rounding` is an arbitrary rounding of the reals into extended reals: monotone, idempotent, exact on 0, 1 and the
smallest normal number; overflow to `±inf` is allowed. `exp`/`log` may be any approximations (only `exp >= 0`).
`Rnd R` is the set of representable values with the correspondingly rounded operations.  `FLaws (Rnd R)` is proved,
hence every theorem stated for `[FLaws F]` holds in every such arithmetic.
-/

namespace Cheval
open Classical

structure Rounding where
  rnd : ℝ → XR
  not_nan : ∀ x, rnd x ≠ XR.nan
  mono : ∀ x y, x ≤ y → XR.le (rnd x) (rnd y) = true
  idem : ∀ x y, rnd x = XR.fin y → rnd y = XR.fin y
  zero : rnd 0 = XR.fin 0
  one : rnd 1 = XR.fin 1
  tiny : rnd ((1 / 2 : ℝ) ^ (1022 : ℕ)) = XR.fin ((1 / 2 : ℝ) ^ (1022 : ℕ))
  fexp : ℝ → XR
  fexp_rep : ∀ x y, fexp x = XR.fin y → rnd y = XR.fin y
  fexp_nonneg : ∀ x, XR.le (XR.fin 0) (fexp x) = true
  flog : ℝ → XR
  flog_rep : ∀ x y, flog x = XR.fin y → rnd y = XR.fin y

/-- exact arithmetic is a rounding -/
noncomputable def Rounding.exact : Rounding where
  rnd := XR.fin
  not_nan := by intro x h; cases h
  mono := by intro x y h; simpa [XR.le] using h
  idem := by intro x y h; rfl
  zero := rfl
  one := rfl
  tiny := rfl
  fexp := fun x => XR.fin (Real.exp x)
  fexp_rep := by intro x y h; rfl
  fexp_nonneg := by intro x; simpa [XR.le] using (Real.exp_pos x).le
  flog := fun x => XR.fin (Real.log x)
  flog_rep := by intro x y h; rfl

/-- round an exact extended-real result -/
noncomputable def Rounding.rndX (R : Rounding) : XR → XR
  | XR.fin x => R.rnd x
  | v => v

/-- `v` is representable -/
def Rounding.Rep (R : Rounding) (v : XR) : Prop := ∀ y, v = XR.fin y → R.rnd y = XR.fin y

theorem Rounding.rep_rndX (R : Rounding) (v : XR) : R.Rep (R.rndX v) := by
  intro y h
  cases v with
  | fin x => exact R.idem x y h
  | _ => cases h

/-- representable values of a rounded arithmetic -/
structure Rnd (R : Rounding) where
  v : XR
  rep : R.Rep v

namespace Rnd
variable {R : Rounding}

noncomputable def lift2 (f : XR → XR → XR) (a b : Rnd R) : Rnd R := ⟨R.rndX (f a.v b.v), R.rep_rndX _⟩

noncomputable def expV (R : Rounding) : XR → XR
  | XR.nan => XR.nan
  | XR.ninf => XR.fin 0
  | XR.pinf => XR.pinf
  | XR.fin x => R.fexp x

noncomputable def logV (R : Rounding) : XR → XR
  | XR.nan => XR.nan
  | XR.ninf => XR.nan
  | XR.pinf => XR.pinf
  | XR.fin x => if x = 0 then XR.ninf else if 0 < x then R.flog x else XR.nan

theorem rep_expV (v : XR) : R.Rep (expV R v) := by
  intro y h
  cases v with
  | fin x => exact R.fexp_rep x y h
  | ninf => simp only [expV, XR.fin.injEq] at h; subst h; exact R.zero
  | nan => cases h
  | pinf => cases h

theorem rep_logV (v : XR) : R.Rep (logV R v) := by
  intro y h
  cases v with
  | fin x =>
    simp only [logV] at h
    split at h
    · cases h
    · split at h
      · exact R.flog_rep x y h
      · cases h
  | nan => cases h
  | ninf => cases h
  | pinf => cases h

noncomputable instance : FOps (Rnd R) where
  zero := ⟨XR.fin 0, by intro y h; simp only [XR.fin.injEq] at h; subst h; exact R.zero⟩
  one := ⟨XR.fin 1, by intro y h; simp only [XR.fin.injEq] at h; subst h; exact R.one⟩
  tiny := ⟨XR.fin ((1 / 2 : ℝ) ^ (1022 : ℕ)), by
    intro y h; simp only [XR.fin.injEq] at h; subst h; exact R.tiny⟩
  negInf := ⟨XR.ninf, by intro y h; cases h⟩
  posInf := ⟨XR.pinf, by intro y h; cases h⟩
  nan := ⟨XR.nan, by intro y h; cases h⟩
  add := lift2 XR.add
  mul := lift2 XR.mul
  div := lift2 XR.div
  exp := fun a => ⟨expV R a.v, rep_expV _⟩
  log := fun a => ⟨logV R a.v, rep_logV _⟩
  le := fun a b => XR.le a.v b.v
  lt := fun a b => XR.lt a.v b.v
  isNan := fun a => XR.isNan a.v

end Rnd

/-! ### Order lemmas on `XR` -/
namespace XR

theorem le_refl (a : XR) (h : isNan a = false) : le a a = true := by
  cases a <;> simp_all [le, isNan]

theorem le_trans (a b c : XR) (h : le a b = true) (h' : le b c = true) : le a c = true := by
  cases a <;> cases b <;> cases c <;> simp_all [le]
  linarith

theorem le_total (a b : XR) (ha : isNan a = false) (hb : isNan b = false) : le a b = true ∨ le b a = true := by
  cases a <;> cases b <;> simp_all [le, isNan]
  exact _root_.le_total _ _

theorem le_notNan (a b : XR) (h : le a b = true) : isNan a = false ∧ isNan b = false := by
  cases a <;> cases b <;> simp_all [le, isNan]

theorem lt_iff (a b : XR) : lt a b = true ↔ (isNan a = false ∧ isNan b = false ∧ le b a = false) := by
  cases a <;> cases b <;> simp [le, lt, isNan]

/-- a non-negative value is `+inf` or a non-negative real -/
theorem nonneg_cases {a : XR} (h : le (fin 0) a = true) : a = pinf ∨ ∃ x : ℝ, a = fin x ∧ 0 ≤ x := by
  cases a <;> simp_all [le]

end XR

instance (R : Rounding) : FLaws (Rnd R) where
  le_refl a h := XR.le_refl _ h
  le_trans a b c := XR.le_trans _ _ _
  le_total a b := XR.le_total _ _
  le_notNan a b := XR.le_notNan _ _
  lt_iff a b := XR.lt_iff _ _
  zero_notNan := rfl
  one_notNan := rfl
  zero_le_one := by simp [FOps.le, FOps.zero, FOps.one, XR.le]
  tiny_pos := by simp [FOps.lt, FOps.zero, FOps.tiny, XR.lt]
  le_add a b ha hb := by
    obtain ⟨a, ra⟩ := a; obtain ⟨b, rb⟩ := b
    simp only [FOps.le, FOps.zero, FOps.add, Rnd.lift2] at *
    rcases XR.nonneg_cases ha with rfl | ⟨x, rfl, hx⟩
    · rcases XR.nonneg_cases hb with rfl | ⟨y, rfl, hy⟩ <;> simp [XR.add, Rounding.rndX, XR.le]
    · rcases XR.nonneg_cases hb with rfl | ⟨y, rfl, hy⟩
      · simp [XR.add, Rounding.rndX, XR.le]
      · have := R.mono x (x + y) (by linarith)
        rwa [ra x rfl] at this
  le_add' a b ha hb := by
    obtain ⟨a, ra⟩ := a; obtain ⟨b, rb⟩ := b
    simp only [FOps.le, FOps.zero, FOps.add, Rnd.lift2] at *
    rcases XR.nonneg_cases ha with rfl | ⟨x, rfl, hx⟩
    · rcases XR.nonneg_cases hb with rfl | ⟨y, rfl, hy⟩ <;> simp [XR.add, Rounding.rndX, XR.le]
    · rcases XR.nonneg_cases hb with rfl | ⟨y, rfl, hy⟩
      · simp [XR.add, Rounding.rndX, XR.le]
      · have := R.mono y (x + y) (by linarith)
        rwa [rb y rfl] at this
  add_zero a z ha hz hz' := by
    obtain ⟨a, ra⟩ := a; obtain ⟨z, rz⟩ := z
    simp only [FOps.le, FOps.zero, FOps.add, Rnd.lift2] at *
    rcases XR.nonneg_cases hz' with rfl | ⟨y, rfl, hy⟩
    · simp [XR.le] at hz
    · have : y = 0 := by simp [XR.le] at hz; linarith
      subst this
      rcases XR.nonneg_cases ha with rfl | ⟨x, rfl, hx⟩
      · simp [XR.add, Rounding.rndX, XR.le]
      · simp [XR.add, Rounding.rndX, ra x rfl, XR.le]
  exp_nonneg a ha := by
    obtain ⟨a, ra⟩ := a
    simp only [FOps.le, FOps.zero, FOps.exp, FOps.isNan] at *
    cases a with
    | nan => simp [XR.isNan] at ha
    | ninf => simp [Rnd.expV, XR.le]
    | pinf => simp [Rnd.expV, XR.le]
    | fin x => exact R.fexp_nonneg x
  exp_negInf := rfl
  div_unit a b ha hab hb hb' := by
    obtain ⟨a, ra⟩ := a; obtain ⟨b, rb⟩ := b
    simp only [FOps.le, FOps.lt, FOps.zero, FOps.one, FOps.div, FOps.posInf, Rnd.lift2] at *
    cases b with
    | nan => simp [XR.lt] at hb
    | ninf => simp [XR.lt] at hb
    | pinf => simp [XR.lt] at hb'
    | fin y =>
      rcases XR.nonneg_cases ha with rfl | ⟨x, rfl, hx⟩
      · simp [XR.le] at hab
      · simp [XR.le] at hab
        simp [XR.lt] at hb
        have h0 := R.mono 0 (x / y) (by positivity)
        have h1 := R.mono (x / y) 1 (by rw [div_le_one hb]; exact hab)
        rw [R.zero] at h0
        rw [R.one] at h1
        simp only [XR.div, hb.ne', if_false, Rounding.rndX]
        exact ⟨h0, h1⟩
  div_zero_num b hb := by
    obtain ⟨b, rb⟩ := b
    simp only [FOps.lt, FOps.zero, FOps.div, Rnd.lift2] at *
    cases b with
    | nan => simp [XR.lt] at hb
    | ninf => simp [XR.lt] at hb
    | pinf => simp [XR.div, Rounding.rndX, R.zero]
    | fin y =>
      simp [XR.lt] at hb
      simp [XR.div, hb.ne', Rounding.rndX, R.zero]
  mul_unit a b ha ha' hb hb' := by
    obtain ⟨a, ra⟩ := a; obtain ⟨b, rb⟩ := b
    simp only [FOps.le, FOps.zero, FOps.one, FOps.mul, Rnd.lift2] at *
    rcases XR.nonneg_cases ha with rfl | ⟨x, rfl, hx⟩
    · simp [XR.le] at ha'
    rcases XR.nonneg_cases hb with rfl | ⟨y, rfl, hy⟩
    · simp [XR.le] at hb'
    simp [XR.le] at ha' hb'
    have h0 := R.mono 0 (x * y) (by positivity)
    have h1 := R.mono (x * y) 1 (by nlinarith)
    rw [R.zero] at h0
    rw [R.one] at h1
    exact ⟨h0, h1⟩
  zero_mul b hb hb' := by
    obtain ⟨b, rb⟩ := b
    simp only [FOps.le, FOps.zero, FOps.one, FOps.mul, Rnd.lift2] at *
    rcases XR.nonneg_cases hb with rfl | ⟨y, rfl, hy⟩
    · simp [XR.le] at hb'
    simp [XR.mul, Rounding.rndX, R.zero]
  mul_zero b hb hb' := by
    obtain ⟨b, rb⟩ := b
    simp only [FOps.le, FOps.zero, FOps.one, FOps.mul, Rnd.lift2] at *
    rcases XR.nonneg_cases hb with rfl | ⟨y, rfl, hy⟩
    · simp [XR.le] at hb'
    simp [XR.mul, Rounding.rndX, R.zero]

instance : FLaws XR where
  le_refl a h := XR.le_refl _ h
  le_trans a b c := XR.le_trans _ _ _
  le_total a b := XR.le_total _ _
  le_notNan a b := XR.le_notNan _ _
  lt_iff a b := XR.lt_iff _ _
  zero_notNan := rfl
  one_notNan := rfl
  zero_le_one := by simp [FOps.le, FOps.zero, FOps.one, XR.le]
  tiny_pos := by simp [FOps.lt, FOps.zero, FOps.tiny, XR.lt]
  le_add a b ha hb := by
    simp only [FOps.le, FOps.zero, FOps.add] at *
    rcases XR.nonneg_cases ha with rfl | ⟨x, rfl, hx⟩ <;>
      rcases XR.nonneg_cases hb with rfl | ⟨y, rfl, hy⟩ <;> simp [XR.add, XR.le, *]
  le_add' a b ha hb := by
    simp only [FOps.le, FOps.zero, FOps.add] at *
    rcases XR.nonneg_cases ha with rfl | ⟨x, rfl, hx⟩ <;>
      rcases XR.nonneg_cases hb with rfl | ⟨y, rfl, hy⟩ <;> simp [XR.add, XR.le, *]
  add_zero a z ha hz hz' := by
    simp only [FOps.le, FOps.zero, FOps.add] at *
    rcases XR.nonneg_cases hz' with rfl | ⟨y, rfl, hy⟩
    · simp [XR.le] at hz
    · have : y = 0 := by simp [XR.le] at hz; linarith
      subst this
      rcases XR.nonneg_cases ha with rfl | ⟨x, rfl, hx⟩ <;> simp [XR.add, XR.le]
  exp_nonneg a ha := by
    simp only [FOps.le, FOps.zero, FOps.exp, FOps.isNan] at *
    cases a with
    | nan => simp [XR.isNan] at ha
    | ninf => simp [XR.exp, XR.le]
    | pinf => simp [XR.exp, XR.le]
    | fin x => simp [XR.exp, XR.le, (Real.exp_pos x).le]
  exp_negInf := rfl
  div_unit a b ha hab hb hb' := by
    simp only [FOps.le, FOps.lt, FOps.zero, FOps.one, FOps.div, FOps.posInf] at *
    cases b with
    | nan => simp [XR.lt] at hb
    | ninf => simp [XR.lt] at hb
    | pinf => simp [XR.lt] at hb'
    | fin y =>
      rcases XR.nonneg_cases ha with rfl | ⟨x, rfl, hx⟩
      · simp [XR.le] at hab
      · simp [XR.le] at hab
        simp [XR.lt] at hb
        simp only [XR.div, hb.ne', if_false, XR.le, decide_eq_true_eq]
        exact ⟨by positivity, by rw [div_le_one hb]; exact hab⟩
  div_zero_num b hb := by
    simp only [FOps.lt, FOps.zero, FOps.div] at *
    cases b with
    | nan => simp [XR.lt] at hb
    | ninf => simp [XR.lt] at hb
    | pinf => simp [XR.div]
    | fin y =>
      simp [XR.lt] at hb
      simp [XR.div, hb.ne']
  mul_unit a b ha ha' hb hb' := by
    simp only [FOps.le, FOps.zero, FOps.one, FOps.mul] at *
    rcases XR.nonneg_cases ha with rfl | ⟨x, rfl, hx⟩
    · simp [XR.le] at ha'
    rcases XR.nonneg_cases hb with rfl | ⟨y, rfl, hy⟩
    · simp [XR.le] at hb'
    simp [XR.le] at ha' hb'
    simp only [XR.mul, XR.le, decide_eq_true_eq]
    exact ⟨by positivity, by nlinarith⟩
  zero_mul b hb hb' := by
    simp only [FOps.le, FOps.zero, FOps.one, FOps.mul] at *
    rcases XR.nonneg_cases hb with rfl | ⟨y, rfl, hy⟩
    · simp [XR.le] at hb'
    simp [XR.mul]
  mul_zero b hb hb' := by
    simp only [FOps.le, FOps.zero, FOps.one, FOps.mul] at *
    rcases XR.nonneg_cases hb with rfl | ⟨y, rfl, hy⟩
    · simp [XR.le] at hb'
    simp [XR.mul]

end Cheval
