import Verif.Core.ModelHistory

/-!
# The caller's data objects and the memory they share with a model
(cheval/api.py:268-487, cheval/utils.py:13-61)

`Core/Model` takes the data given to `assign` as values. Here they are objects of the caller, which the caller may change in place
later on. An object (a Series, an array, a DataFrame) has a buffer with its cells. Writing cells changes the buffer; restructuring the object in
place (sorting, dropping rows, replacing the index) gives it another buffer. Simplified: different objects never share a buffer, and a
buffer is used by at most one object at a time (a view of an array counts as the array itself).
-/
namespace Cheval
open FOps Spec

/-- a buffer: the data, and whether asking the object for an array gives the memory itself: plain arrays, Series of a NumPy number or
boolean dtype and DataFrames of one such dtype do, text, categorical and nullable columns and DataFrames of mixed dtypes are converted
to a new array (utils.py:23-61, `to_numpy` utils.py:13-21) -/
structure Buf (U F : Type) where
  data : Data U F
  direct : Bool

/-- the objects of the caller (with the number of their buffer) and the buffers -/
structure Store (U F : Type) where
  objs : List Nat
  bufs : List (Buf U F)

variable {U F : Type}

def Store.empty : Store U F := ⟨[], []⟩

/-- the number of the buffer of an object -/
def Store.bufOf (st : Store U F) (o : Nat) : Nat := st.objs.getD o st.bufs.length

/-- a buffer; `other` stands for objects that do not exist -/
def Store.buf (st : Store U F) (b : Nat) : Buf U F := st.bufs.getD b ⟨.other, false⟩

/-- an object as it is now -/
def Store.content (st : Store U F) (o : Nat) : Buf U F := st.buf (st.bufOf o)

/-- a new object -/
def Store.create (st : Store U F) (d : Data U F) (direct : Bool) : Store U F :=
  ⟨st.objs ++ [st.bufs.length], st.bufs ++ [⟨d, direct⟩]⟩

/-- cells are overwritten, with the values of the second argument; labels and sizes stay -/
def Data.write : Data U F → Data U F → Data U F
  | .series ix (.ok _), .series _ (.ok f) => .series ix (.ok f)
  | .array1 n _, .array1 _ f => .array1 n f
  | .frame ix cols _ cast _, .frame _ _ val _ t => .frame ix cols val cast t
  | d, _ => d

/-- the caller writes cells of an object: `array[...] = ...`, `series.iloc[...] = ...`, `frame.iloc[...] = ...` -/
def Store.write (st : Store U F) (o : Nat) (d : Data U F) : Store U F :=
  { st with bufs := st.bufs.modify (st.bufOf o) fun b => { b with data := b.data.write d } }

/-- the caller restructures an object in place: `sort_values(inplace=True)`, `drop(..., inplace=True)`, `frame.index = ...` -/
def Store.rework (st : Store U F) (o : Nat) (d : Data U F) (direct : Bool) : Store U F :=
  ⟨st.objs.set o st.bufs.length, st.bufs ++ [⟨d, direct⟩]⟩

/-- what a symbol holds: its own values; a vector or matrix over the memory of a buffer; the caller's DataFrame itself -/
inductive ASym (F : Type) where
  | own (s : Sym F)
  | vector (byChoice : Bool) (n : Nat) (b : Nat)
  | matrix (transposed reindexCols reindexRows : Bool) (fill : Val F) (rows cols : Nat) (b : Nat)
  | table (byChoice : Bool) (mandatory : List Str) (allowLinks : Bool) (o : Nat)

/-- the symbol as it is seen by the next evaluation -/
def Store.resolve (st : Store U F) : ASym F → Sym F
  | .own s => s
  | .vector o n b => match (st.buf b).data with
    | .series _ (.ok f) => .vector o (some (shapeVector o n f))
    | .array1 _ f => .vector o (some (shapeVector o n f))
    | _ => .vector o none
  | .matrix tr rc rr fill rows cols b => match (st.buf b).data with
    | .frame _ _ val _ _ => .matrix tr rc rr fill (some ⟨rows, cols, if tr then fun i j => val j i else val⟩)
    | _ => .matrix tr rc rr fill none
  | .table o ma al x => match (st.content x).data with
    | .frame _ _ _ _ t => .table o ma al (some t)
    | _ => .table o ma al none

/-- a model together with the caller's objects; the scope of `base` is not used -/
structure AModel (U F : Type) where
  base : CModel U F
  scope : List (Str × ASym F)
  store : Store U F

/-- the model as `Core/Model` describes it -/
def AModel.view (a : AModel U F) : CModel U F := { a.base with scope := a.scope.map fun e => (e.1, a.store.resolve e.2) }

/-- what a symbol holds after an assignment that was accepted with the result `s'`. Vectors keep a view of the array they get
(`vector[...]`, api.py:308-316), which is the caller's memory for arrays and for Series converted without a copy; tables keep the DataFrame
(api.py:373); matrices keep the array of the DataFrame if the labels are equal (api.py:438-442; transposing does not copy), otherwise
the new array they filled (api.py:443-467). -/
def holds [DecidableEq U] (m : CModel U F) (o b : Nat) (buf : Buf U F) : Sym F → ASym F
  | .vector byC (some arr) => match buf.data with
    | .array1 _ _ => .vector byC (if byC then arr.cols else arr.rows) b
    | _ => if buf.direct then .vector byC (if byC then arr.cols else arr.rows) b else .own (.vector byC (some arr))
  | .table byC ma al _ => .table byC ma al o
  | .matrix tr rc rr fill (some arr) => match buf.data with
    | .frame index columns _ _ _ =>
      if buf.direct ∧ m.labels false = .ok (if tr then columns else index) ∧ m.labels true = .ok (if tr then index else columns) then
        .matrix tr rc rr fill arr.rows arr.cols b
      else .own (.matrix tr rc rr fill (some arr))
    | _ => .own (.matrix tr rc rr fill (some arr))
  | s => .own s

/-- `model[name].assign(object)` -/
def AModel.assign [DecidableEq U] (a : AModel U F) (name : Str) (o : Nat) : AModel U F × Except Err Unit :=
  match dictGet a.scope name with
  | none => (a, .error .key)
  | some s => match (a.store.resolve s).assign a.view (a.store.content o).data with
    | .error e => (a, .error e)
    | .ok s' => ({ a with scope := dictSet a.scope name (holds a.view o (a.store.bufOf o) (a.store.content o) s') }, .ok ())

/-- the calls, and the changes the caller makes to the objects -/
inductive AOp (U F : Type) where
  | create (d : Data U F) (direct : Bool)
  | write (o : Nat) (d : Data U F)
  | rework (o : Nat) (d : Data U F) (direct : Bool)
  | assign (name : Str) (o : Nat)
  | declare (name : Str) (s : Sym F)
  | setUnits (u : List U)
  | clearScope
  | expr (op : GroupOp)
  | addChoice (name : Name) (scale : F)
  | addNested (h : Nat) (name : Name) (scale : F)
  | run (group : Option Nat) (clear : Bool)

variable [DecidableEq U] [FOps F]

/-- `decision_units = ...` empties all symbols but numbers (model.py:228-242) -/
def ASym.afterUnits (st : Store U F) (s : ASym F) : ASym F := match st.resolve s with
  | .number v => .own (.number v)
  | s => .own s.empty

def AModel.step (K : Kernel F) (env : PyEnv) (py : PyParser) (a : AModel U F) : AOp U F → AModel U F
  | .create d direct => { a with store := a.store.create d direct }
  | .write o d => { a with store := a.store.write o d }
  | .rework o d direct => { a with store := a.store.rework o d direct }
  | .assign n o => (a.assign n o).1
  | .declare n s => if n ∈ reserved then a else { a with scope := dictSet a.scope n (.own s.empty) }
  | .setUnits u => { a with base := a.view.setUnits u, scope := a.scope.map fun e => (e.1, e.2.afterUnits a.store) }
  | .clearScope => { a with scope := [] }
  | .expr op => { a with base := { a.base with exprs := (groupStep env py a.base.exprs op).1 } }
  | .addChoice n sc => { a with base := (a.view.addChoice n sc).1 }
  | .addNested h n sc => { a with base := (a.view.addNested h n sc).1 }
  | .run g c => match a.view.runUtilities K g c with
    | (m, .ok _) => { a with base := m, scope := if c then [] else a.scope }
    | (m, .error _) => { a with base := m }

def AModel.run (K : Kernel F) (env : PyEnv) (py : PyParser) (a : AModel U F) (ops : List (AOp U F)) : AModel U F :=
  ops.foldl (AModel.step K env py) a

end Cheval
