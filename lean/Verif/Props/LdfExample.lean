import Verif.Core.LdfHistory

/-!
# Concrete linked frames

Values are integers, -99 stands for NaN. Zones 1, 2, 3 (a plain DataFrame) with an area; households 10, 20, 30 in zones 1, 7
(not a zone), 3, with an income; persons in households 20, 10, 10, 77 (no household).
-/
namespace Cheval

/-- a decision procedure for `SafeOp`, for use on concrete histories -/
def framesCheck {V : Type} (w : LWorld V) (r : Nat) (p : LFrame V → Bool) : Bool := match w.frames[r]? with
  | none => true
  | some f => p f

theorem framesCheck_ok {V : Type} {w : LWorld V} {r : Nat} {p : LFrame V → Bool} (h : framesCheck w r p = true) {f : LFrame V}
    (hf : w.frames[r]? = some f) : p f = true := by
  simpa [framesCheck, hf] using h

def safeCheck {V : Type} [DecidableEq V] (w : LWorld V) : LOp V → Bool
  | .new _ levels index cols => index.all (fun k => k.length == levels.length) && cols.all fun e => e.2.vals.length == index.length
  | .linkTo r _ name _ => framesCheck w r fun f => decide (name ∉ f.cols.map (·.1))
  | .select r ix _ _ => framesCheck w r fun f => ix.all (fun k => decide (0 ≤ k) && decide (k.toNat < f.rows)) && f.links.all fun e => e.2.flat.isSome
  | .finalized _ _ _ _ => false
  | .grouped r ix => framesCheck w r fun f => ix.all (fun k => decide (k < f.rows)) && f.links.all fun e => e.2.flat.isSome
  | .computeIndexers r refresh => !refresh || framesCheck w r fun f => f.links.all fun e => decide (e.2.owner = r)
  | .setColumn r col _ =>
      w.frames.all (fun q => q.links.all fun e => !(decide (e.2.other = r) && decide (col ∈ e.2.otherSpec.columns)) &&
        !(decide (e.2.owner = r) && decide (col ∈ e.2.selfSpec.columns))) &&
      framesCheck w r fun f => decide (col ∉ f.links.map (·.1)) && f.links.all fun e => decide (col ∉ e.2.selfSpec.columns)
  | _ => true

theorem safeCheck_ok {V : Type} [DecidableEq V] {w : LWorld V} {op : LOp V} (h : safeCheck w op = true) : SafeOp w op := by
  cases op with
  | new linked levels index cols => simpa [safeCheck, SafeOp] using h
  | linkTo r o name args => intro f hf; simpa using framesCheck_ok h hf
  | select r ix pk pc =>
    intro f hf
    have := framesCheck_ok h hf
    simp only [Bool.and_eq_true, List.all_eq_true, decide_eq_true_eq] at this
    exact ⟨this.1, this.2⟩
  | finalized r levels index cols => simp [safeCheck] at h
  | grouped r ix =>
    intro f hf
    have := framesCheck_ok h hf
    simp only [Bool.and_eq_true, List.all_eq_true, decide_eq_true_eq] at this
    exact ⟨this.1, this.2⟩
  | computeIndexers r refresh =>
    intro hr n l hl
    subst hr
    simp only [safeCheck, Bool.not_true, Bool.false_or] at h
    unfold LWorld.link? at hl
    cases hf : w.frames[r]? with
    | none => rw [hf] at hl; simp at hl
    | some f =>
      rw [hf] at hl
      have := framesCheck_ok h hf
      simp only [List.all_eq_true, decide_eq_true_eq] at this
      exact this _ (dictGet_mem hl)
  | setColumn r col c =>
    simp only [safeCheck, Bool.and_eq_true, List.all_eq_true, Bool.not_eq_true', Bool.and_eq_false_iff, decide_eq_false_iff_not] at h
    refine ⟨?_, fun f hf => ?_⟩
    · rintro (⟨q, hq, e, he, hx⟩ | ⟨f, hf, e, he, hx⟩)
      · obtain ⟨h1, h2⟩ := h.1 q hq e he
        rcases hx with ⟨ha, hb⟩ | ⟨ha, hb⟩
        · exact h1.elim (fun h => h ha) fun h => h hb
        · exact h2.elim (fun h => h ha) fun h => h hb
      · have := framesCheck_ok h.2 hf
        simp only [Bool.and_eq_true, List.all_eq_true, decide_eq_true_eq] at this
        exact this.2 e he hx
    · have := framesCheck_ok h.2 hf
      simp only [Bool.and_eq_true, decide_eq_true_eq] at this
      exact this.1
  | _ => trivial

def safeRunCheck {V : Type} [DecidableEq V] (E : LEnv V) (isid : Str → Bool) (ev : LWorld V → Nat → PExpr → LWorld V × Except Err (LCol V)) :
    LWorld V → List (LOp V) → Bool
  | _, [] => true
  | w, op :: ops => safeCheck w op && safeRunCheck E isid ev (lstep E isid ev w op).1 ops

theorem safeRunCheck_ok {V : Type} [DecidableEq V] {E : LEnv V} {isid : Str → Bool} {ev : LWorld V → Nat → PExpr → LWorld V × Except Err (LCol V)} :
    ∀ {ops : List (LOp V)} {w : LWorld V}, safeRunCheck E isid ev w ops = true → SafeRun E isid ev w ops
  | [], _, _ => trivial
  | op :: ops, w, h => by
    simp only [safeRunCheck, Bool.and_eq_true] at h
    exact ⟨safeCheck_ok h.1, safeRunCheck_ok h.2⟩

/-! ## the example -/

/-- sum and second element; missing integers are 0, other missing values NaN -/
def lxE : LEnv Int where
  isNa v := v = -99
  store _ v := .ok v
  agg f _ vs := if f = ['n', 't', 'h'] then vs[1]? else some vs.sum
  aggKind _ k := k
  defaultFill k := if k.intLike then 0 else -99
  nan := -99

def lxEv : LWorld Int → Nat → PExpr → LWorld Int × Except Err (LCol Int) := fun w _ _ => (w, .error .key)

theorem lxEv_keeps : EvKeeps lxE lxEv := fun _ _ _ h => ⟨Keeps.refl h, fun _ hc => by simp [lxEv] at hc⟩

def lxId : Str → Bool := fun _ => true

def lxZ : Str := ['z']
def lxH : Str := ['h']
def lxHh : Str := ['h', 'h']
def lxZone : Str := ['z', 'o', 'n', 'e']
def lxA : Str := ['a']
def lxInc : Str := ['i', 'n', 'c']
def lxP : Str := ['p']

/-- frame 0: zones; frame 1: households; frame 2: persons -/
def lxNew : List (LOp Int) := [
  .new false [some lxZ] [[1], [2], [3]] [(lxA, ⟨.int, [100, 200, 300]⟩)],
  .new true [some lxH] [[10], [20], [30]] [(lxZ, ⟨.int, [1, 7, 3]⟩), (lxInc, ⟨.int, [5, 6, 7]⟩)],
  .new true [some lxP] [[0], [1], [2], [3]] [(lxH, ⟨.int, [20, 10, 10, 77]⟩)]]

def lxLinks : List (LOp Int) := [
  .linkTo 1 0 lxZone { onSelf := some [lxZ] },
  .linkTo 2 1 lxHh { onSelf := some [lxH] },
  .linkTo 1 2 lxP { onOther := some [lxH] }]

/-- create the frames, link them, look the household's income up, slice the persons to rows 3 and 1 (frame 3) and set a fill -/
def lxOps : List (LOp Int) := lxNew ++ lxLinks ++ [
  .lookup 2 [lxHh] lxInc,
  .select 2 [3, 1] (fun _ => []) (fun _ _ => 0),
  .setColumnFill 1 lxInc (-1),
  .setFill none [("INT_NAME".toList, -5)]]

theorem lx_safe : SafeRun lxE lxId lxEv lxE.start lxOps := safeRunCheck_ok (by decide)

def lxW : LWorld Int := lrun lxE lxId lxEv lxE.start lxOps

/-- values of a result -/
def lxVals (x : LWorld Int × Except Err (LCol Int)) : Except Err (List Int) := x.2.map (·.vals)

example : lxVals (lxE.lookup lxW 2 [lxHh] lxInc) = .ok [6, 5, 5, -1] := by decide
example : lxVals (lxE.lookup lxW 3 [lxHh] lxInc) = .ok [-1, 5] := by decide
example : lxVals (lxE.lookup lxW 2 [lxHh, lxZone] lxA) = .ok [-5, 100, 100, -5] := by decide
example : lxVals (lxE.aggregate (orColumn lxEv) lxW 1 [lxP] ['s', 'u', 'm'] (.name lxH) 0) = .ok [20, 20, 0] := by decide

end Cheval
