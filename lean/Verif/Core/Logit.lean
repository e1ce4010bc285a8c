import Verif.Core.Sampling

/-!
# Model of cheval/core.py, regions "Probability Computation" and "Middle functions" (lines 124-301)
-/
namespace Cheval
open FOps
variable {F : Type} [FOps F]

/-- left-to-right sum starting from `0.0` -/
def sumF (l : List F) : F := l.foldl add zero

/-- `simple_probabilities` (core.py:126-128). Compiled by numba, `sum()` is a left-to-right sum. -/
def simpleProbabilities (w : List F) : List F := w.map fun x => div x (sumF w)

/-- The accumulation loop of `multinomial_probabilities` (core.py:141-146): `(total_ls, p, ls_terms)`. -/
def mnlLoop : List F → F × List F × List F → F × List F × List F
  | [], st => st
  | u :: us, (t, p, l) => let e := exp u; mnlLoop us (add t e, p ++ [e], l ++ [e])

/-- `multinomial_probabilities` (core.py:135-157). -/
def multinomial (us : List F) (check : Bool) : Except Err (List F × F × List F) :=
  let (total, p, terms) := mnlLoop us (zero, [], [])
  if le total zero then
    if check then .error .utilityBounds
    else .ok (p.map fun _ => zero, total, terms)
  else .ok (p.map fun e => div e total, total, terms)

/-- The flattened tree passed to `nested_probabilities`: arrays of length `n` (core.py:164); an array is a function of
the position. `parent i = -1` for top-level nodes. Levels start at 0. -/
structure Flat (F : Type) where
  n : Nat
  parent : Nat → Int
  level : Nat → Nat
  scale : Nat → F
  bottom : Nat → Bool

/-- `a[i] = v` -/
def upd {α : Type} (a : Nat → α) (i : Nat) (v : α) : Nat → α := fun j => if j = i then v else a j

/-- The working arrays of `nested_probabilities` (core.py:169-172). -/
structure NSt (F : Type) where
  prob : Nat → F
  top : F
  grouped : Nat → F
  final : Nat → F

/-- `parent_ls_scale` (core.py:184) -/
def parentScale (t : Flat F) (scaleU : Bool) (i : Nat) : F :=
  if !scaleU || t.parent i < 0 then one else t.scale (t.parent i).toNat

/-- `expu` of one node (core.py:187-198) -/
def nodeExp (t : Flat F) (scaleU : Bool) (st : NSt F) (i : Nat) : F :=
  if t.bottom i then exp (div (st.prob i) (parentScale t scaleU i))
  else exp (div (add (st.prob i) (mul (t.scale i) (log (st.grouped i)))) (parentScale t scaleU i))

/-- Body of the inner loop of step 1 for node `i` while sweeping level `lev` (core.py:179-205). -/
def step1Node (t : Flat F) (scaleU : Bool) (lev : Nat) (st : NSt F) (i : Nat) : NSt F :=
  if t.level i ≠ lev then st
  else
    let e := nodeExp t scaleU st i
    let st := if 0 ≤ t.parent i then
        { st with grouped := upd st.grouped (t.parent i).toNat (add (st.grouped (t.parent i).toNat) e) }
      else { st with top := add st.top e }
    { st with prob := upd st.prob i e, final := upd st.final i e }

/-- One sweep over all nodes for one level. -/
def step1Level (t : Flat F) (scaleU : Bool) (st : NSt F) (lev : Nat) : NSt F :=
  (List.range t.n).foldl (step1Node t scaleU lev) st

/-- `levels.max()` (core.py:175) for `n > 0` -/
def Flat.maxLevel (t : Flat F) : Nat := (List.range t.n).foldl (fun m i => max m (t.level i)) 0

/-- The sweeps of step 1, levels `max_level, ..., 1, 0` (core.py:176-206). -/
def step1 (t : Flat F) (scaleU : Bool) (st : NSt F) : NSt F :=
  ((List.range (t.maxLevel + 1)).reverse).foldl (step1Level t scaleU) st

/-- Step 2 (core.py:213-218), conditional probabilities. -/
def step2Node (t : Flat F) (top : F) (grouped : Nat → F) (prob : Nat → F) (i : Nat) : Nat → F :=
  let ls := if t.parent i = -1 then top else grouped (t.parent i).toNat
  let p := if le ls zero then zero else div (prob i) ls
  upd prob i p

def step2 (t : Flat F) (top : F) (grouped prob : Nat → F) : Nat → F :=
  (List.range t.n).foldl (step2Node t top grouped) prob

/-- Step 3 (core.py:221-226), absolute probabilities, levels `1..max_level`. -/
def step3Node (t : Flat F) (lev : Nat) (prob : Nat → F) (i : Nat) : Nat → F :=
  if t.level i ≠ lev then prob
  else upd prob i (mul (prob i) (prob (t.parent i).toNat))

def step3 (t : Flat F) (prob : Nat → F) : Nat → F :=
  (List.range t.maxLevel).foldl
    (fun prob k => (List.range t.n).foldl (step3Node t (k + 1)) prob) prob

/-- Step 4 (core.py:230-233), parents get probability 0. -/
def step4Node (t : Flat F) (prob : Nat → F) (i : Nat) : Nat → F :=
  if t.parent i < 0 then prob else upd prob (t.parent i).toNat zero

def step4 (t : Flat F) (prob : Nat → F) : Nat → F :=
  (List.range t.n).foldl (step4Node t) prob

/-- array of length `n` as a list -/
def arr (n : Nat) (a : Nat → F) : List F := (List.range n).map a

/-- `nested_probabilities` (core.py:164-235). `us.length = t.n` is the caller's obligation (same number of columns);
an empty tree makes `levels.max()` raise. -/
def nested (us : List F) (t : Flat F) (scaleU check : Bool) : Except Err (List F × F × List F) :=
  if t.n = 0 then .error .value
  else
    let st0 : NSt F := { prob := fun i => us.getD i zero, top := zero, grouped := fun _ => zero, final := fun _ => zero }
    let st := step1 t scaleU st0
    if le st.top zero && check then .error .utilityBounds
    else
      let p := step4 t (step3 t (step2 t st.top st.grouped st.prob))
      .ok (arr t.n p, st.top, arr t.n st.final)

/-- `simple_sample` (core.py:243-246) -/
def simpleSample (w : List F) (r : F) : Int := sampleOnce (simpleProbabilities w) r

/-- `simple_multisample` (core.py:250-253) -/
def simpleMultisample (g : Rng F) (w : List F) (n : Nat) (seed : Int) (outLen : Option Nat) : Except Err (List Nat) :=
  sampleMulti g (simpleProbabilities w) n seed outLen

/-- `multinomial_sample` (core.py:260-263) -/
def multinomialSample (us : List F) (r : F) : Except Err (Int × F) := do
  let (p, ls, _) ← multinomial us true
  return (sampleOnce p r, ls)

/-- `multinomial_multisample` (core.py:270-273) -/
def multinomialMultisample (g : Rng F) (us : List F) (n : Nat) (seed : Int) (outLen : Option Nat) :
    Except Err (List Nat × F) := do
  let (p, ls, _) ← multinomial us true
  let out ← sampleMulti g p n seed outLen
  return (out, ls)

/-- `nested_sample` (core.py:280-286) -/
def nestedSample (us : List F) (r : F) (t : Flat F) (scaleU : Bool) : Except Err (Int × F) := do
  let (p, ls, _) ← nested us t scaleU true
  return (sampleOnce p r, ls)

/-- `nested_multisample` (core.py:293-299) -/
def nestedMultisample (g : Rng F) (us : List F) (t : Flat F) (n : Nat) (seed : Int) (scaleU : Bool)
    (outLen : Option Nat) : Except Err (List Nat × F) := do
  let (p, ls, _) ← nested us t scaleU true
  let out ← sampleMulti g p n seed outLen
  return (out, ls)

end Cheval
