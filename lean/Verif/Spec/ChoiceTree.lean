import Verif.Core.Tree

/-!
# What a user expects from a sequence of `add_choice` calls

The choices in a model are a flat list of records, in the order of (last) creation. A choice is identified by the path of
names from the top level. No heap, no parent or child references.
-/
namespace Cheval.Spec
open FOps
variable {F : Type} [FOps F]

/-- a choice: the handle returned when it was created, its path and its logsum scale -/
structure Rec (F : Type) where
  handle : Nat
  path : List Name
  scale : F

/-- `made`: the path of every choice created so far, by handle; `live`: the choices in the model -/
structure Choices (F : Type) where
  made : List (List Name)
  live : List (Rec F)

def Choices.empty {F : Type} : Choices F := ⟨[], []⟩

/-- names must not contain a dot or be "_", scales must be in (0, 1] -/
def Legal (name : Name) (scale : F) : Prop :=
  '.' ∉ name ∧ name ≠ ['_'] ∧ lt zero scale = true ∧ le scale one = true

open Classical in
/-- adding a choice: rejected if illegal; otherwise it goes to the end of the list and replaces the one with this path -/
noncomputable def Choices.add (s : Choices F) (path : List Name) (name : Name) (scale : F) : Choices F × Except Err Nat :=
  if Legal name scale then
    (⟨s.made ++ [path], s.live.filter (fun r => decide (r.path ≠ path)) ++ [⟨s.made.length, path, scale⟩]⟩, .ok s.made.length)
  else (s, .error .assertion)

open Classical in
noncomputable def Choices.step (s : Choices F) : TreeOp F → Choices F × Except Err Nat
  | .addTop n sc => s.add [n] n sc
  | .addChild h n sc => s.add (s.made.getD h [] ++ [n]) n sc
  | .setScale h v =>
    if lt zero v = true ∧ le v one = true then
      ({ s with live := s.live.map fun r => if r.handle = h then { r with scale := v } else r }, .ok h)
    else (s, .error .assertion)

noncomputable def Choices.run (s : Choices F) (ops : List (TreeOp F)) : Choices F := ops.foldl (fun s op => (s.step op).1) s

/-- An addition is clean if it does not replace a choice that has nested choices, and if it is not a rejected attempt to
replace an existing choice (the two situations where the code misbehaves, see C17 and C18). -/
def CleanAdd (s : Choices F) (path : List Name) (name : Name) (scale : F) : Prop :=
  (Legal name scale → ∀ r ∈ s.live, path <+: r.path → r.path = path) ∧
  (¬ Legal name scale → ∀ r ∈ s.live, joinDots r.path ≠ joinDots path)

/-- A call is clean if moreover nested choices are added through the handle of a choice that is still in the model. -/
def Clean (s : Choices F) : TreeOp F → Prop
  | .addTop n sc => CleanAdd s [n] n sc
  | .addChild h n sc => (∃ r ∈ s.live, r.handle = h) ∧ CleanAdd s (s.made.getD h [] ++ [n]) n sc
  | .setScale h _ => h < s.made.length

/-- every call of the history is clean -/
def CleanRun (s : Choices F) : List (TreeOp F) → Prop
  | [] => True
  | op :: ops => Clean s op ∧ CleanRun (s.step op).1 ops

/-- label of a path in a model of the given depth -/
def pad (depth : Nat) (path : List Name) : List Name := path ++ List.replicate (depth - path.length) ['.']

/-- `c` is nested directly in `p` -/
def IsChild (p c : Rec F) : Prop := ∃ n, c.path = p.path ++ [n]

end Cheval.Spec
