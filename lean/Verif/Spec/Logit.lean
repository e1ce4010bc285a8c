import Mathlib.Analysis.SpecialFunctions.Pow.Real
import Mathlib.Algebra.BigOperators.Group.Finset.Basic

/-!
# Textbook logit models (independent of the code model)
-/
namespace Cheval.Spec

/-- A utility: a real number, or `none` for `-inf` (alternative not available). -/
abbrev Util := Option ℝ

/-- `exp(utility)`, with `exp(-inf) = 0`. -/
noncomputable def expw : Util → ℝ
  | none => 0
  | some x => Real.exp x

/-- A choice tree: `n` nodes, each with an optional parent node, and a logsum scale for each node. -/
structure Tree where
  n : Nat
  parent : Nat → Option Nat
  θ : Nat → ℝ

namespace Tree
variable (t : Tree)

/-- the children of node `j` -/
def children (j : Nat) : Finset Nat := (Finset.range t.n).filter fun i => t.parent i = some j
/-- the top-level nodes -/
def tops : Finset Nat := (Finset.range t.n).filter fun i => t.parent i = none
/-- the elemental choices: nodes without children -/
def Leaf (i : Nat) : Prop := t.children i = ∅

/-- scale applied to the utility of node `i`: its parent's scale, or 1 at the top or when scaling is disabled -/
noncomputable def θp (scaled : Bool) (i : Nat) : ℝ :=
  match t.parent i with
  | none => 1
  | some p => if scaled then t.θ p else 1

/-- The nested logit model. `T i` is the logsum term of node `i` and `P i` the probability that the chosen alternative
is `i` or lies below `i`. (In real arithmetic `x / 0 = 0`: a nest without available alternatives gets probability 0.) -/
structure IsNestedLogit (scaled : Bool) (u : Nat → Util) (T P : Nat → ℝ) : Prop where
  leaf : ∀ i < t.n, t.Leaf i → T i = match u i with
    | none => 0
    | some x => Real.exp (x / t.θp scaled i)
  nest : ∀ i < t.n, ¬ t.Leaf i → T i = match u i with
    | none => 0
    | some x => Real.exp (x / t.θp scaled i) * (∑ j ∈ t.children i, T j) ^ (t.θ i / t.θp scaled i)
  top : ∀ i < t.n, t.parent i = none → P i = T i / ∑ j ∈ t.tops, T j
  child : ∀ i < t.n, ∀ p, t.parent i = some p → P i = T i / (∑ j ∈ t.children p, T j) * P p

/-- Node `i` and all its ancestors have a finite utility. -/
inductive Open (u : Nat → Util) : Nat → Prop where
  | top (i : Nat) : t.parent i = none → u i ≠ none → Open u i
  | child (i p : Nat) : t.parent i = some p → u i ≠ none → Open u p → Open u i

/-- `d` is `i` or an ancestor of `i` -/
inductive Above (d : Nat) : Nat → Prop where
  | self : Above d d
  | child (i p : Nat) : t.parent i = some p → Above d p → Above d i

end Tree
end Cheval.Spec
