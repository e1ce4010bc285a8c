import Verif.Num.Basic
import Verif.Core.Err

/-!
# Model of cheval/core.py, region "Sampling" (lines 27-121)
-/
namespace Cheval
open FOps
variable {F : Type} [FOps F]

/-- `max(a, b)` of two non-NaN floats (core.py:31). -/
def pyMax (a b : F) : F := if le b a then a else b

/-- The `for p in p_array` loop of `sample_once` (core.py:34-38), from accumulated sum `c` and position `i`;
`none` when the loop ends without returning. -/
def sampleLoop (r : F) : List F → F → Nat → Option Nat
  | [], _, _ => none
  | p :: ps, c, i =>
    let c' := add c p
    if le r c' then some i else sampleLoop r ps c' (i + 1)

/-- `sample_once` (core.py:29-39). Returns `len - 1` (so `-1` for an empty array) when no cumulative sum reaches `r`. -/
def sampleOnce (ps : List F) (r : F) : Int :=
  match sampleLoop (pyMax r tiny) ps zero 0 with
  | some i => i
  | none => (ps.length : Int) - 1

/-- `nbf_cumsum` (core.py:81-87): in-place running sum; modelled as a function returning the new array. -/
def cumsumFrom (acc : F) : List F → List F
  | [] => []
  | p :: ps => let a := add acc p; a :: cumsumFrom a ps

def nbfCumsum (ps : List F) : List F := cumsumFrom zero ps

/-- The `while` loop of `logarithmic_search` (core.py:66-72); the bounds are the loop variables.
`none` = out-of-bounds read. The `np.uint32` cast of `mid_index` (core.py:67) is not modelled (identity below 2^32). -/
def searchLoop (r : F) (cps : List F) (lower upper : Nat) : Option (Nat × Nat) :=
  if upper - lower > 1 then
    let mid := (upper + lower) / 2
    match cps[mid]? with
    | none => none
    | some c =>
      if le r c then searchLoop r cps lower mid
      else searchLoop r cps mid upper
  else some (lower, upper)
termination_by upper - lower
decreasing_by all_goals omega

/-- `logarithmic_search` (core.py:42-78). `none` = out-of-bounds read (empty array).
`r == 0` is tested as `r <= 0 and 0 <= r`. -/
def logSearch (r : F) (cps : List F) : Option Nat :=
  let r := if le r zero && le zero r then tiny else r
  if cps.length = 0 then none
  else
    match searchLoop r cps 0 (cps.length - 1) with
    | none => none
    | some (lower, upper) =>
      match cps[lower]? with
      | none => none
      | some c => if le r c then some lower else some upper

/-- The pseudo-random generator (`np.random.seed(s)` followed by draws) as a parameter:
`uniform s k` is the `k`-th `np.random.uniform(MIN_RANDOM_VALUE, 1)` draw after seeding with `s`
(core.py:101, 117) and `randint s k` the `k`-th `np.random.randint(0, MAX_RANDOM_VALUE)` draw (core.py:94).
Its distribution is not modelled. -/
structure Rng (F : Type) where
  uniform : Int → Nat → F
  randint : Int → Nat → Int

/-- `generate_rand_floats_for_parallel` (core.py:97-101) -/
def genFloats (g : Rng F) (seed : Int) (n : Nat) : List F := (List.range n).map (g.uniform seed)
/-- `generate_rand_ints_for_parallel` (core.py:90-94) -/
def genInts (g : Rng F) (seed : Int) (n : Nat) : List Int := (List.range n).map (g.randint seed)

/-- `sample_multi` (core.py:104-119). `outLen` is the length of the supplied `out_array`, if any (the contents are
overwritten). The mutation of `p_array` by the cumulative sum is local to the callers' fresh array. -/
def sampleMulti (g : Rng F) (ps : List F) (n : Nat) (seed : Int) (outLen : Option Nat) : Except Err (List Nat) :=
  let cps := nbfCumsum ps
  if outLen.getD n ≠ n then .error .assertion
  else
    (List.range n).mapM fun i =>
      match logSearch (g.uniform seed i) cps with
      | none => .error .oob
      | some k => .ok k

end Cheval
