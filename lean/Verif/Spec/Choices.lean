import Verif.Spec.ChoiceTree
import Verif.Core.ExprGroup

/-!
# Addressing choices from expressions

Choices are known by their path of names; the columns of the utility table are labelled with the padded paths (C15).
-/
namespace Cheval.Spec

/-- the columns of the utility table of a model with these choices -/
structure Labelled (paths : List (List Name)) (depth : Nat) (labels : List (List Name)) : Prop where
  labels : labels = paths.map (pad depth)
  nodup : paths.Nodup
  nonempty : paths ≠ []
  depth : (∀ p ∈ paths, p.length ≤ depth) ∧ ∃ p ∈ paths, p.length = depth
  names : ∀ p ∈ paths, p ≠ [] ∧ ∀ n ∈ p, '.' ∉ n ∧ n ≠ ['_']

/-- the key of a dict entry as written, `A.B._` or `A.B` -/
def wild (key : List Str) : Bool := decide (['_'] ∈ key)
/-- `A.B` of `A.B._` (what follows the underscore is ignored) -/
def stem (key : List Str) : List Str := key.takeWhile fun k => decide (k ≠ ['_'])

/-- the choices a key stands for: `A.B` for this choice, `A.B._` for all choices nested in it, at any depth -/
def keyMeans (key : List Str) (path : List Name) : Bool :=
  if wild key then decide (stem key <+: path ∧ path ≠ stem key) else decide (path = key)

/-- the value a dict literal has at a choice: the last entry standing for the choice wins, 0 if there is none -/
def dictValue (lit : Literal) (path : List Name) : ℚ :=
  match lit.reverse.find? fun e => keyMeans e.1 path with
  | some e => e.2
  | none => 0

/-- the key names a choice of the model; `A._` only makes sense in nested models -/
def KnownKey (paths : List (List Name)) (depth : Nat) (key : List Str) : Prop :=
  if wild key then 1 < depth ∧ stem key ∈ paths else key ∈ paths

/-- no entry for a choice `A` precedes an entry `A._` (see C28: the second one would erase the first) -/
def NoReset (lit : Literal) : Prop :=
  ∀ l₁ e l₂, lit = l₁ ++ e :: l₂ → wild e.1 = true → ∀ e' ∈ l₁, keyMeans e'.1 (stem e.1) = false

/-- number of occurrences of `@` -/
def ats (s : Str) : Nat := s.count '@'

/-- the white space characters of ASCII -/
def whiteSpace : List Char := [' ', '\t', '\n', '\r', '\x0b', '\x0c']

/-- `t` is `s` without the white space at its ends -/
def Stripped (s t : Str) : Prop :=
  ∃ l r, s = l ++ t ++ r ∧ (∀ c ∈ l, c ∈ whiteSpace) ∧ (∀ c ∈ r, c ∈ whiteSpace) ∧
    (∀ c, t.head? = some c → c ∉ whiteSpace) ∧ (∀ c, t.getLast? = some c → c ∉ whiteSpace)

end Cheval.Spec
