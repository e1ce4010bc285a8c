import Verif.Core.Model
import Verif.Core.Results

/-!
# Model of the whole calls `run_discrete` and `run_stochastic` (cheval/model.py:367-433, 531-556, 558-612)

Relations, because the rows are computed in parallel. Not modelled: logging, names of the results, `debug_id`.
`numexpr.set_num_threads` never raises (it prints a message), `numba.set_num_threads` raises ValueError.
-/
namespace Cheval
open FOps
variable {U F R V : Type} [FOps F]

/-- the argument `random_seed`: None, a RandomState in generator state `r`, something `int()` accepts or rejects -/
inductive SeedArg (R : Type) where
  | none
  | state (r : R)
  | number (k : Int)
  | bad (e : Err)

/-- `RandomState.randint(1, 10000)`: next generator state and the number drawn, at least 1 and below 10000 -/
structure LegacyRandom (R : Type) where
  next : R → R × Int
  range : ∀ r, 1 ≤ (next r).2 ∧ (next r).2 < 10000

/-- resolving the seed (model.py:404-409): the argument afterwards (a RandomState has moved on) and the seed. `fresh` is the state of a
new `RandomState()`, seeded by the operating system. -/
def resolveSeed (L : LegacyRandom R) (fresh : R) : SeedArg R → SeedArg R × Except Err Int
  | .none => (.none, .ok (L.next fresh).2)
  | .state r => (.state (L.next r).1, .ok (L.next r).2)
  | .number k => (.number k, .ok k)
  | .bad e => (.bad e, .error e)

/-- the argument `astype`: 'index', 'category' or another dtype, with the conversion of the labels (which may raise) -/
inductive AsType (V : Type) where
  | index
  | category
  | dtype (conv : List (List Name) → Except Err (Nat → V))

/-- cells of the result: positions, labels, converted labels. Taking a position that does not exist raises IndexError. -/
inductive ResCell (V : Type) where
  | pos (k : Int)
  | label (l : List Name)
  | conv (v : V)

/-- the first result of run_discrete: a Series, or a DataFrame with columns 0, ..., n-1; both are indexed by the decision units -/
inductive ResObj (V : Type) where
  | series (val : Nat → ResCell V)
  | frame (columns : List Nat) (val : Nat → Nat → ResCell V)

/-- `take` on an array of `len` items: position counted from the end if negative -/
def takeAt (len : Nat) (k : Int) : Option Nat :=
  if 0 ≤ k then if k.toNat < len then some k.toNat else none
  else if 0 ≤ (len : Int) + k then some ((len : Int) + k).toNat else none

/-- `_convert_result` (model.py:531-556); `rows` decision units, `n` columns of raw positions -/
def convertResult (ch : List (List Name)) (rows n : Nat) (pos : Nat → Nat → Int) (astype : AsType V) (squeeze : Bool) :
    Except Err (ResObj V) :=
  match astype with
  | .index => .ok (if squeeze && decide (n = 1) then .series fun i => .pos (pos i 0) else .frame (List.range n) fun i c => .pos (pos i c))
  | .category =>
    if ∃ i < rows, ∃ c < n, takeAt ch.length (pos i c) = none then .error .index
    else
      let cell := fun i c => ResCell.label (ch.getD ((takeAt ch.length (pos i c)).getD 0) [])
      .ok (if squeeze && decide (n = 1) then .series fun i => cell i 0 else .frame (List.range n) cell)
  | .dtype conv => match conv ch with
    | .error e => .error e
    | .ok f =>
      if ∃ i < rows, ∃ c < n, takeAt ch.length (pos i c) = none then .error .index
      else
        let cell := fun i c => ResCell.conv (f ((takeAt ch.length (pos i c)).getD 0))
        .ok (if squeeze && decide (n = 1) then .series fun i => cell i 0 else .frame (List.range n) cell)

/-- the arguments of `run_discrete` -/
structure DiscreteArgs (R V : Type) where
  seed : SeedArg R
  nDraws : Int
  astype : AsType V
  squeeze : Bool
  nThreads : Int
  clear : Bool
  scale : Bool

/-- what the surroundings of a call provide: NumExpr's arithmetic, Numba's generator, `RandomState`, a fresh state, the largest number
of threads -/
structure Setting (F R : Type) where
  K : Kernel F
  rng : Rng F
  legacy : LegacyRandom R
  fresh : R
  maxThreads : Int

/-- `run_discrete` (model.py:402-433): the model afterwards, the seed argument afterwards, the results (choices and logsums) -/
def RunDiscrete (s : Setting F R) (m : CModel U F) (a : DiscreteArgs R V)
    (out : CModel U F × SeedArg R × Except Err (ResObj V × (Nat → F))) : Prop :=
  match m.validate true true true true none with
  | .error e => out = (m, a.seed, .error e)
  | .ok _ => match resolveSeed s.legacy s.fresh a.seed with
    | (seed', .error e) => out = (m, seed', .error e)
    | (seed', .ok k) =>
      if a.nDraws < 1 then out = (m, seed', .error .value)
      else match m.runUtilities s.K none a.clear with
        | (m', .error e) => out = (m', seed', .error e)
        | (m', .ok u) =>
          if a.nThreads < 1 ∨ s.maxThreads < a.nThreads then out = (m', seed', .error .value)
          else ∃ res, DiscreteStage s.rng m'.tree u.toRows a.nDraws.toNat k a.scale res ∧
            match res, choices m'.tree with
            | .error e, _ => out = (m', seed', .error e)
            | .ok _, .error e => out = (m', seed', .error e)
            | .ok d, .ok ch =>
              out = (m', seed', (convertResult ch u.rows d.nDraws d.pos a.astype a.squeeze).map fun r => (r, d.logsum))

/-- `run_stochastic` (model.py:589-612) -/
def RunStochastic (s : Setting F R) (m : CModel U F) (group : Option Nat) (nThreads : Int) (clear scale check : Bool)
    (out : CModel U F × Except Err (Frame F × (Nat → F) × Frame F)) : Prop :=
  match m.runUtilities s.K group clear with
  | (m', .error e) => out = (m', .error e)
  | (m', .ok u) =>
    if nThreads < 1 ∨ s.maxThreads < nThreads then out = (m', .error .value)
    else ∃ res, StochasticStage m'.tree u.toRows scale check res ∧ out = (m', res)

end Cheval
