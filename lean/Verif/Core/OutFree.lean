import Verif.Spec.Utilities

/-! # Expressions that do not read the utilities computed so far -/
namespace Cheval
open Spec FOps
variable {F : Type}

section
variable (M : Arith F) {c c' : CellEnv F} {id : Str} (hs : ∀ n, n ≠ id → c.sym n = c'.sym n)
  (hl : c.lookup = c'.lookup) (hd : c.dict = c'.dict)
include hs hl hd

mutual
theorem den_congr : ∀ e : PExpr, ¬ Mentions id e → den M c e = den M c' e
  | .num _, _ => by simp only [den]
  | .str _, _ => by simp only [den]
  | .bytes _, _ => by simp only [den]
  | .const .true, _ => by simp only [den]
  | .const .false, _ => by simp only [den]
  | .const .none, _ => by simp only [den]
  | .name n, h => by
    simp only [Mentions] at h
    simp only [den, hs n h]
  | .attr _ _, _ => by simp only [den, hl]
  | .unary .not e, h => by
    simp only [Mentions] at h
    simp only [den, den_congr e h]
  | .unary .neg e, h => by
    simp only [Mentions] at h
    simp only [den, den_congr e h]
  | .unary .pos _, _ => by simp only [den]
  | .unary .invert _, _ => by simp only [den]
  | .bin _ l r, h => by
    simp only [Mentions, not_or] at h
    simp only [den, den_congr l h.1, den_congr r h.2]
  | .boolop isAnd v vs, h => by
    simp only [Mentions, not_or] at h
    simp only [den, den_congr v h.1, denBools_congr isAnd vs h.2]
  | .compare l _ r rest, h => by
    simp only [Mentions, not_or] at h
    simp only [den, den_congr l h.1, den_congr r h.2.1, fun a => denCmps_congr a rest h.2.2]
  | .call f args kws, h => by
    simp only [Mentions, not_or] at h
    have ha := denList_congr args h.1
    unfold den
    split <;> simp_all
  | .dict _, _ => by simp only [den, hd]
  | .banned _, _ => by simp only [den]
  | .display _, _ => by simp only [den]
  | .other _, _ => by simp only [den]
theorem denList_congr : ∀ es : PList, ¬ MentionsL id es → denList M c es = denList M c' es
  | .nil, _ => by simp only [denList]
  | .cons e es, h => by
    simp only [MentionsL, not_or] at h
    simp only [denList, den_congr e h.1, denList_congr es h.2]
theorem denBools_congr (isAnd : Bool) : ∀ es : PList, ¬ MentionsL id es → denBools M c isAnd es = denBools M c' isAnd es
  | .nil, _ => by simp only [denBools]
  | .cons e es, h => by
    simp only [MentionsL, not_or] at h
    simp only [denBools, den_congr e h.1, denBools_congr isAnd es h.2]
theorem denCmps_congr (a : Val F) : ∀ es : PCmps, ¬ MentionsC id es → denCmps M c a es = denCmps M c' a es
  | .nil, _ => by simp only [denCmps]
  | .cons _ e es, h => by
    simp only [MentionsC, not_or] at h
    simp only [denCmps, den_congr e h.1, fun a => denCmps_congr a es h.2]
end
end

variable [FOps F]

/-- the value of an expression that does not mention `OUT` does not depend on the utilities so far -/
theorem den_cell (K : Kernel F) (scope : List (Str × Sym F)) (path : List Name) (i j : Nat) (e : PExpr) (h : ¬ Mentions outStr e) (a b : F) :
    den K.toArith (cellEnv K scope path a i j) e = den K.toArith (cellEnv K scope path b i j) e :=
  den_congr K.toArith (c := cellEnv K scope path a i j) (c' := cellEnv K scope path b i j) (id := outStr) (by
    intro n hn
    simp only [cellEnv, hn, if_false]) rfl rfl e h

theorem cellStep_comm (K : Kernel F) (hK : OrderFree K) (scope : List (Str × Sym F)) (path : List Name) (i j : Nat) (x y : Source)
    (hx : ¬ Mentions outStr x.1) (hy : ¬ Mentions outStr y.1) (a : F) :
    (cellStep K scope path i j a x).bind (fun b => cellStep K scope path i j b y) =
    (cellStep K scope path i j a y).bind (fun b => cellStep K scope path i j b x) := by
  have ex : ∀ b, den K.toArith (cellEnv K scope path b i j) x.1 = den K.toArith (cellEnv K scope path a i j) x.1 :=
    fun b => den_cell K scope path i j x.1 hx b a
  have ey : ∀ b, den K.toArith (cellEnv K scope path b i j) y.1 = den K.toArith (cellEnv K scope path a i j) y.1 :=
    fun b => den_cell K scope path i j y.1 hy b a
  simp only [cellStep, ex, ey]
  by_cases fx : filterMeans path x.2 = true <;> by_cases fy : filterMeans path y.2 = true <;> simp only [fx, fy, if_true, if_false, Option.bind_some, Bool.false_eq_true]
  · cases den K.toArith (cellEnv K scope path a i j) x.1 with
    | none => cases den K.toArith (cellEnv K scope path a i j) y.1 <;> simp
    | some v =>
      cases den K.toArith (cellEnv K scope path a i j) y.1 with
      | none => simp
      | some w => exact hK a v w
  · simp
  · simp

/-- the order of the expressions does not matter -/
theorem cellTotal_perm (K : Kernel F) (hK : OrderFree K) (scope : List (Str × Sym F)) (path : List Name) (i j : Nat) {xs ys : List Source}
    (hp : xs.Perm ys) (hx : ∀ x ∈ xs, ¬ Mentions outStr x.1) (start : F) :
    cellTotal K scope path i j xs start = cellTotal K scope path i j ys start := by
  induction hp generalizing start with
  | nil => rfl
  | cons x _ ih =>
    simp only [cellTotal, List.foldlM_cons]
    congr 1
    funext b
    exact ih (fun y hy => hx y (by simp [hy])) b
  | swap x y l =>
    have h := cellStep_comm K hK scope path i j y x (hx y (by simp)) (hx x (by simp)) start
    simp only [cellTotal, List.foldlM_cons]
    simp only [bind, ← Option.bind_assoc]
    rw [h]
  | trans h1 _ ih1 ih2 => exact (ih1 hx start).trans (ih2 (fun y hy => hx y (h1.mem_iff.mpr hy)) start)

/-- the expressions are evaluated one list after the other -/
theorem cellTotal_append (K : Kernel F) (scope : List (Str × Sym F)) (path : List Name) (i j : Nat) (xs ys : List Source) (start : F) :
    cellTotal K scope path i j (xs ++ ys) start = (cellTotal K scope path i j xs start).bind (cellTotal K scope path i j ys) := by
  simp only [cellTotal, List.foldlM_append]; rfl

end Cheval
