import Verif.Core.Alias

/-!
# Specification for C66: what became of the data given to `assign`
-/
namespace Cheval.Spec
open Cheval
variable {U F : Type}

/-- the memory an object had, after later calls and changes: cell writes reach it until the object is restructured, which gives it new memory -/
def oldMemory (o : Nat) : Data U F → List (AOp U F) → Data U F
  | d, [] => d
  | d, .write x d' :: ops => oldMemory o (if x = o then d.write d' else d) ops
  | d, .rework x _ _ :: ops => if x = o then d else oldMemory o d ops
  | d, _ :: ops => oldMemory o d ops

/-- the object itself, after later calls and changes -/
def objectNow (o : Nat) : Data U F → List (AOp U F) → Data U F
  | d, [] => d
  | d, .write x d' :: ops => objectNow o (if x = o then d.write d' else d) ops
  | d, .rework x d' _ :: ops => objectNow o (if x = o then d' else d) ops
  | d, _ :: ops => objectNow o d ops

/-- the calls after which a symbol need not hold its data any more: it is declared or assigned again, the decision units change, the scope is
cleared -/
def Rebinds (name : Str) : AOp U F → Prop
  | .assign n _ => n = name
  | .declare n _ => n = name
  | .setUnits _ => True
  | .clearScope => True
  | .run _ clear => clear = true
  | _ => False

/-- the caller leaves the object alone -/
def LeavesAlone (o : Nat) : AOp U F → Prop
  | .write x _ => x ≠ o
  | .rework x _ _ => x ≠ o
  | _ => True

/-- assigning data to the symbol makes a vector or matrix over the caller's memory: an array or a Series of a NumPy number or boolean
dtype is assigned to a vector, or a DataFrame of one such dtype that has the labels of the model, in the order of the model, to a matrix -/
def SharesMemory (m : CModel U F) (s : Sym F) (b : Buf U F) : Prop :=
  match s, b.data with
  | .vector _ _, .array1 _ _ => True
  | .vector _ _, .series _ _ => b.direct = true
  | .matrix tr _ _ _ _, .frame index columns _ _ _ =>
    b.direct = true ∧ m.labels false = .ok (if tr then columns else index) ∧ m.labels true = .ok (if tr then index else columns)
  | _, _ => False

/-- the table symbols look up attributes in: the DataFrame, if it is one -/
def tableNow : Data U F → Option (TableData F)
  | .frame _ _ _ _ t => some t
  | _ => none

/-- the caller never changes an object after it was given to `assign`; `given` lists the objects given so far -/
def HandsOff : List Nat → List (AOp U F) → Prop
  | _, [] => True
  | given, .write x _ :: ops => x ∉ given ∧ HandsOff given ops
  | given, .rework x _ _ :: ops => x ∉ given ∧ HandsOff given ops
  | given, .assign _ x :: ops => HandsOff (x :: given) ops
  | given, _ :: ops => HandsOff given ops

/-- the calls on the model, each with the data as they are at the time of the call; `now o` is what object `o` is at present, `n` the number of
objects -/
def callsBy (n : Nat) (now : Nat → Data U F) : List (AOp U F) → List (ModelOp U F)
  | [] => []
  | .create d _ :: ops => callsBy (n + 1) (fun x => if x = n then d else now x) ops
  | .write o d :: ops => callsBy n (fun x => if x = o then (now x).write d else now x) ops
  | .rework o d _ :: ops => callsBy n (fun x => if x = o ∧ o < n then d else now x) ops
  | .assign name o :: ops => .assign name (now o) :: callsBy n now ops
  | .declare name s :: ops => .declare name s :: callsBy n now ops
  | .setUnits u :: ops => .setUnits u :: callsBy n now ops
  | .clearScope :: ops => .clearScope :: callsBy n now ops
  | .expr op :: ops => .expr op :: callsBy n now ops
  | .addChoice name sc :: ops => .addChoice name sc :: callsBy n now ops
  | .addNested h name sc :: ops => .addNested h name sc :: callsBy n now ops
  | .run g c :: ops => .run g c :: callsBy n now ops

end Cheval.Spec
