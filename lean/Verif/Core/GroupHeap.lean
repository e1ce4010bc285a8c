import Verif.Core.GroupHistory

/-!
# Expression groups as objects (cheval/api.py:146-240)

`ExpressionGroup.__add__` puts sub-group objects of its operands into the sum. To see the effect, sub-groups live in a store here and
a group refers to them by position. Nothing is ever removed from the store.
-/
namespace Cheval

/-- an `ExpressionGroup` object (api.py:148-152); `subs` are references to sub-group objects -/
structure GObj where
  ungrouped : List Expression
  simple : List Str
  chained : List Str
  subs : List (Nat × Nat)

structure GHeap where
  groups : List GObj
  store : List SubGroup

def GHeap.empty : GHeap := ⟨[], []⟩

/-- what the user of group `g` sees -/
def GHeap.see (h : GHeap) (g : GObj) : ExprGroup :=
  ⟨g.ungrouped, g.simple, g.chained, g.subs.map fun e => (e.1, h.store.getD e.2 ⟨[], [], []⟩)⟩

/-- the content of the `i`-th group -/
def GHeap.view (h : GHeap) (i : Nat) : Option ExprGroup := h.groups[i]?.map h.see

/-- `ExpressionGroup.append` (api.py:154-170) -/
def GHeap.append (env : PyEnv) (py : PyParser) (h : GHeap) (i : Nat) (e : Str) (group : Option Nat) : GHeap × Except Err Unit :=
  match h.groups[i]? with
  | none => (h, .error .attribute)
  | some g => match parse env py e g.simple g.chained with
    | ((si, ch), .error er) => ({ h with groups := h.groups.set i { g with simple := si, chained := ch } }, .error er)
    | ((si, ch), .ok x) => match group with
      | none =>
        ({ h with groups := h.groups.set i ⟨g.ungrouped ++ [x], setUnion si x.symbols, setUnion ch (x.chains.map (·.1)), g.subs⟩ }, .ok ())
      | some k => match dictGet g.subs k with
        | some r =>      -- the sub-group object is changed in place
          (⟨h.groups.set i { g with simple := si, chained := ch }, h.store.modify r fun s => s.append x⟩, .ok ())
        | none =>
          (⟨h.groups.set i { g with simple := si, chained := ch, subs := dictSet g.subs k h.store.length },
            h.store ++ [SubGroup.append ⟨[], [], []⟩ x]⟩, .ok ())

/-- `clear` (api.py:172-176) -/
def GHeap.clear (h : GHeap) (i : Nat) : GHeap := { h with groups := h.groups.modify i fun _ => ⟨[], [], [], []⟩ }

/-- `drop_group` (api.py:225-226) -/
def GHeap.drop (h : GHeap) (i k : Nat) : GHeap × Except Err Unit :=
  match h.groups[i]? with
  | none => (h, .error .attribute)
  | some g => match dictGet g.subs k with
    | none => (h, .error .key)
    | some _ => ({ h with groups := h.groups.set i { g with subs := dictDel g.subs k } }, .ok ())

/-- new sub-group objects for a list of named contents: references from `n` on -/
def refsFrom (n : Nat) : List (Nat × SubGroup) → List (Nat × Nat)
  | [] => []
  | e :: es => (e.1, n) :: refsFrom (n + 1) es

/-- `copy` (api.py:228-240): a new group with new sub-groups -/
def GHeap.copy (h : GHeap) (i : Nat) : GHeap × Except Err Nat :=
  match h.view i with
  | none => (h, .error .attribute)
  | some g =>
    (⟨h.groups ++ [⟨g.copy.ungrouped, g.copy.simple, g.copy.chained, refsFrom h.store.length g.copy.subgroups⟩],
      h.store ++ g.copy.subgroups.map (·.2)⟩, .ok h.groups.length)

/-- the sub-groups of a sum (api.py:206-215): a new object when both operands have the group, otherwise the operand's object. The order of
the keys, that of a Python set, is the first operand's and then the second's. -/
def GHeap.sumSubs (h : GHeap) (b : GObj) : List (Nat × Nat) → List SubGroup → List (Nat × Nat) × List SubGroup
  | [], st => ([], st)
  | (k, r) :: es, st => match dictGet b.subs k with
    | none => let (l, st') := h.sumSubs b es st; ((k, r) :: l, st')
    | some r' =>
      let (l, st') := h.sumSubs b es (st ++ [(h.store.getD r ⟨[], [], []⟩).plus (h.store.getD r' ⟨[], [], []⟩)])
      ((k, st.length) :: l, st')

/-- `__add__` (api.py:199-217): a new group -/
def GHeap.plus (h : GHeap) (i j : Nat) : GHeap × Except Err Nat :=
  match h.groups[i]?, h.groups[j]? with
  | some a, some b =>
    let (l, st) := h.sumSubs b a.subs h.store
    (⟨h.groups ++ [⟨a.ungrouped ++ b.ungrouped, setUnion a.simple b.simple, setUnion a.chained b.chained,
        l ++ b.subs.filter fun e => decide (e.1 ∉ a.subs.map (·.1))⟩], st⟩, .ok h.groups.length)
  | _, _ => (h, .error .attribute)

/-- `ExpressionGroup()` (api.py:148-152) -/
def GHeap.new (h : GHeap) : GHeap := { h with groups := h.groups ++ [⟨[], [], [], []⟩] }

inductive GHeapOp where
  | new
  | append (i : Nat) (e : Str) (k : Option Nat)
  | clear (i : Nat)
  | drop (i k : Nat)
  | copy (i : Nat)
  | plus (i j : Nat)

def GHeap.step (env : PyEnv) (py : PyParser) (h : GHeap) : GHeapOp → GHeap
  | .new => h.new
  | .append i e k => (h.append env py i e k).1
  | .clear i => h.clear i
  | .drop i k => (h.drop i k).1
  | .copy i => (h.copy i).1
  | .plus i j => (h.plus i j).1

def GHeap.run (env : PyEnv) (py : PyParser) (h : GHeap) (ops : List GHeapOp) : GHeap := ops.foldl (GHeap.step env py) h

/-- the group a call is made on -/
def GHeapOp.target : GHeapOp → Option Nat
  | .append i _ _ => some i
  | .clear i => some i
  | .drop i _ => some i
  | _ => none

/-- is the call a sum? -/
def GHeapOp.isSum : GHeapOp → Bool
  | .plus _ _ => true
  | _ => false

end Cheval
