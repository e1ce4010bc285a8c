import Verif.Core.Parallel
import Verif.Core.Tree

/-!
# Model of the result stage of `run_stochastic` and `run_discrete` (cheval/model.py:419-433, 531-556, 597-620)
From the evaluated utility table (one list per decision unit, one entry per choice) to the labelled results.
-/
namespace Cheval
open FOps
variable {F : Type} [FOps F]

/-- a DataFrame indexed by the decision units: column labels and cell values -/
structure Frame (F : Type) where
  cols : List (List Name)
  val : Nat → Nat → F

/-- read a number / a position from an array -/
def readNum (m : Mem F) (l : Loc) : F := match m l with
  | .num x => x
  | .idx _ => zero
def readIdx (m : Mem F) (l : Loc) : Int := match m l with
  | .num _ => 0
  | .idx k => k

/-- `raw_result[:, filter_array]` and `choice_index[filter_array]` (`_build_nested_stochastic_frame`, model.py:614-620):
the positions whose label is in the elemental index -/
def keepPositions (ch el : List (List Name)) : List Nat :=
  (List.range ch.length).filter fun j => decide (ch.getD j [] ∈ el)

/-- `run_stochastic` after the utilities are known (model.py:597-612): probabilities, top logsum, logsum terms. A relation,
because the rows are computed in parallel. -/
def StochasticStage (st : TreeSt F) (rows : List (List F)) (scaleU check : Bool)
    (out : Except Err (Frame F × (Nat → F) × Frame F)) : Prop :=
  match depth st with
  | .error e => out = .error e
  | .ok d =>
    if 1 < d then
      match flatten st with
      | .error e => out = .error e
      | .ok fl => ∃ res, WorkerNestedProb rows fl scaleU check res ∧
        match res, elementalChoices st, choices st with
        | .error e, _, _ => out = .error e
        | .ok _, .error e, _ => out = .error e
        | .ok _, .ok _, .error e => out = .error e
        | .ok m, .ok el, .ok ch =>
          let keep := keepPositions ch el
          out = .ok (⟨keep.map (fun j => ch.getD j []), fun i j => readNum m (aRes, i, keep.getD j 0)⟩,
            (fun i => readNum m (aLs, i, 0)), ⟨ch, fun i j => readNum m (aTerms, i, j)⟩)
    else ∃ res, WorkerMnlProb rows check res ∧
      match res, choices st with
      | .error e, _ => out = .error e
      | .ok _, .error e => out = .error e
      | .ok m, .ok ch =>
        out = .ok (⟨ch, fun i j => readNum m (aRes, i, j)⟩, (fun i => readNum m (aLs, i, 0)),
          ⟨ch, fun i j => readNum m (aTerms, i, j)⟩)

/-- `lookup_table.take(k)`: negative positions count from the end -/
def takeLabel (ch : List (List Name)) (k : Int) : Option (List Name) :=
  if 0 ≤ k then ch[k.toNat]? else if 0 ≤ (ch.length : Int) + k then ch[((ch.length : Int) + k).toNat]? else none

/-- result of `run_discrete`: number of draws, the sampled positions (`astype='index'`) and the labels (otherwise) -/
structure Discrete (F : Type) where
  nDraws : Nat
  pos : Nat → Nat → Int
  label : Nat → Nat → Option (List Name)
  logsum : Nat → F

/-- `run_discrete` after the utilities are known (model.py:419-433, `_convert_result` 531-556) -/
def DiscreteStage (g : Rng F) (st : TreeSt F) (rows : List (List F)) (nDraws : Nat) (seed : Int) (scaleU : Bool)
    (out : Except Err (Discrete F)) : Prop :=
  let finish (res : Except Err (Mem F)) : Prop :=
    match res, choices st with
    | .error e, _ => out = .error e
    | .ok _, .error e => out = .error e
    | .ok m, .ok ch => out = .ok ⟨nDraws, fun i c => readIdx m (aRes, i, c), fun i c => takeLabel ch (readIdx m (aRes, i, c)),
        fun i => readNum m (aLs, i, 0)⟩
  match depth st with
  | .error e => out = .error e
  | .ok d =>
    if 1 < d then
      match flatten st with
      | .error e => out = .error e
      | .ok fl => ∃ res, WorkerNestedSample g rows fl nDraws seed scaleU res ∧ finish res
    else ∃ res, WorkerMnlSample g rows nDraws seed res ∧ finish res

end Cheval
