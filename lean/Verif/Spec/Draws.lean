import Verif.Core.RunCalls
import Verif.Num.XRLemmas

/-!
# Drawing from a table of probabilities
-/
namespace Cheval.Spec

/-- Inverting the distribution function: column `j` is drawn by the random number `x` if the probabilities before it add up to less
than `x` and those up to and including it to at least `x`. -/
def DrawnBy (p : List ℝ) (x : ℝ) (j : Nat) : Prop := (p.take j).sum < x ∧ x ≤ (p.take (j + 1)).sum

/-- The random number for decision unit `i` and draw `c`: single draws use the `i`-th number of the seeded stream; for several draws, the
`i`-th integer of the seeded stream seeds a stream of the unit's own. -/
def numberFor {F : Type} (g : Rng F) (n : Nat) (seed : Int) (i c : Nat) : F :=
  if n ≤ 1 then g.uniform seed i else g.uniform (g.randint seed i) c

/-- `draw i c` is the label drawn for unit `i` and draw `c`. It is the label of the column of the table `fr` that the unit's random number
selects from the unit's row, a distribution. -/
def DrawsFrom (g : Rng XR) (n : Nat) (seed : Int) (rows : Nat) (fr : Frame XR) (draw : Nat → Nat → List Name → Prop) : Prop :=
  ∀ i < rows, ∃ p : List ℝ, p.length = fr.cols.length ∧ (∀ j (h : j < p.length), fr.val i j = .fin p[j]) ∧
    (∀ x ∈ p, 0 ≤ x) ∧ p.sum = 1 ∧
    ∀ c < n, ∃ (x : ℝ) (j : Nat) (h : j < fr.cols.length), numberFor g n seed i c = .fin x ∧ DrawnBy p x j ∧ draw i c fr.cols[j]

/-- the cell of a result, in the format asked for, for the choice labelled `l` among the choices `ch` -/
def CellFor {V : Type} (ch : List (List Name)) : AsType V → ResCell V → List Name → Prop
  | .index, x, l => ∃ k : Nat, ch[k]? = some l ∧ x = .pos k
  | .category, x, l => x = .label l
  | .dtype conv, x, l => ∃ f, conv ch = .ok f ∧ ∃ k : Nat, ch[k]? = some l ∧ x = .conv (f k)

end Cheval.Spec
