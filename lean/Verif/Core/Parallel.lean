import Verif.Core.Logit

/-!
# Parallel loops (`prange`)

A parallel loop is a list of iterations, each a list of atomic memory operations in program order. A run is any
interleaving of these lists: this covers every number of threads, every assignment of iterations to threads and every
preemption point between two memory operations.
-/
namespace Cheval

/-- `s` is an interleaving of the operation lists `ts` (one list per iteration of the parallel loop) -/
inductive Interleaving {α : Type} : List (List α) → List α → Prop where
  | nil (ts : List (List α)) : (∀ t ∈ ts, t = []) → Interleaving ts []
  | step (ts : List (List α)) (i : Nat) (a : α) (rest s : List α) :
      ts[i]? = some (a :: rest) → Interleaving (ts.set i rest) s → Interleaving ts (a :: s)

/-- Memory cells: array number, row, column -/
abbrev Loc := Nat × Nat × Nat

/-- content of a cell -/
inductive Cell (F : Type) where
  | num (x : F)
  | idx (k : Int)

abbrev Mem (F : Type) := Loc → Cell F

/-- an atomic store -/
abbrev Write (F : Type) := Loc × Cell F

def doWrite {F : Type} (m : Mem F) (w : Write F) : Mem F := fun l => if l = w.1 then w.2 else m l

/-- `array[i, :] = values` : element stores from column 0 on -/
def rowWrites {F α : Type} (array i : Nat) (f : α → Cell F) (vs : List α) : List (Write F) :=
  vs.mapIdx fun j v => ((array, i, j), f v)

/-- Outcome of `for i in prange(n): body(i)` where iteration `i` only reads immutable inputs and performs the stores
`body i`. An exception raised by any iteration is raised by the loop (what is in the arrays then is not modelled, the
arrays are local to the worker). -/
def ParLoop {F : Type} (n : Nat) (body : Nat → Except Err (List (Write F))) (init : Mem F) (out : Except Err (Mem F)) : Prop :=
  (∃ (bodies : Nat → List (Write F)) (s : List (Write F)), (∀ i < n, body i = .ok (bodies i)) ∧
      Interleaving ((List.range n).map bodies) s ∧ out = .ok (s.foldl doWrite init)) ∨
  (∃ i < n, ∃ e, body i = .error e ∧ out = .error e)

section workers
open FOps
variable {F : Type} [FOps F]

/-- array numbers inside a worker: `result`, `ls_array`/`top_ls_array`, `nested_ls_terms` -/
def aRes : Nat := 0
def aLs : Nat := 1
def aTerms : Nat := 2

/-- arrays start as zeros (core.py:309, 334-335, 361-363, 383-384, 416-418) -/
def zeroMem : Mem F := fun l => if l.1 = aRes then .idx 0 else .num zero

/-- iteration of `worker_multinomial_probabilities` (core.py:365-370) and `worker_nested_probabilities` (core.py:420-427):
stores of one row -/
def probBody (f : List F → Except Err (List F × F × List F)) (rows : List (List F)) (i : Nat) :
    Except Err (List (Write F)) := do
  let (p, ls, terms) ← f (rows.getD i [])
  return rowWrites aRes i .num p ++ [((aLs, i, 0), .num ls)] ++ rowWrites aTerms i .num terms

/-- iteration of the sampling workers for `n <= 1` (core.py:339-343, 388-395). With `n = 0` the store to `result[i, 0]`
is out of bounds; the callers guarantee `n >= 1` (model.py `run_discrete`). -/
def sampleBody (f : List F → F → Except Err (Int × F)) (rows : List (List F)) (draws : List F) (i : Nat) :
    Except Err (List (Write F)) := do
  let (k, ls) ← f (rows.getD i []) (draws.getD i zero)
  return [((aRes, i, 0), .idx k), ((aLs, i, 0), .num ls)]

/-- iteration of the sampling workers for `n > 1` (core.py:346-350, 398-404): `result[i, :]` is filled in place -/
def multiBody (f : List F → Int → Except Err (List Nat × F)) (rows : List (List F)) (seeds : List Int) (i : Nat) :
    Except Err (List (Write F)) := do
  let (ks, ls) ← f (rows.getD i []) (seeds.getD i 0)
  return rowWrites aRes i (fun (k : Nat) => .idx (k : Int)) ks ++ [((aLs, i, 0), .num ls)]

/-- `worker_multinomial_probabilities` (core.py:354-372) -/
def WorkerMnlProb (rows : List (List F)) (check : Bool) (out : Except Err (Mem F)) : Prop :=
  ParLoop rows.length (probBody (fun u => multinomial u check) rows) zeroMem out

/-- `worker_nested_probabilities` (core.py:408-429) -/
def WorkerNestedProb (rows : List (List F)) (t : Flat F) (scaleU check : Bool) (out : Except Err (Mem F)) : Prop :=
  ParLoop rows.length (probBody (fun u => nested u t scaleU check) rows) zeroMem out

/-- `worker_multinomial_sample` (core.py:326-351) -/
def WorkerMnlSample (g : Rng F) (rows : List (List F)) (n : Nat) (seed : Int) (out : Except Err (Mem F)) : Prop :=
  if n ≤ 1 then
    ParLoop rows.length (sampleBody multinomialSample rows (genFloats g seed rows.length)) zeroMem out
  else
    ParLoop rows.length (multiBody (fun u s => multinomialMultisample g u n s (some n)) rows (genInts g seed rows.length))
      zeroMem out

/-- `worker_nested_sample` (core.py:375-405) -/
def WorkerNestedSample (g : Rng F) (rows : List (List F)) (t : Flat F) (n : Nat) (seed : Int) (scaleU : Bool)
    (out : Except Err (Mem F)) : Prop :=
  if n ≤ 1 then
    ParLoop rows.length (sampleBody (fun u r => nestedSample u r t scaleU) rows (genFloats g seed rows.length)) zeroMem out
  else
    ParLoop rows.length (multiBody (fun u s => nestedMultisample g u t n s scaleU (some n)) rows
      (genInts g seed rows.length)) zeroMem out

/-- iteration of `worker_weighted_sample` for `n >= 2` (core.py:319-323): `_, ls = simple_multisample(...)` unpacks the
returned array of `n` positions into two names, which raises ValueError unless `n = 2`. -/
def weightedMultiBody (g : Rng F) (rows : List (List F)) (n : Nat) (seeds : List Int) (i : Nat) :
    Except Err (List (Write F)) := do
  let ks ← simpleMultisample g (rows.getD i []) n (seeds.getD i 0) (some n)
  if n = 2 then return rowWrites aRes i (fun (k : Nat) => .idx (k : Int)) ks else .error .value

/-- An array of `n` random numbers drawn inside a `parallel=True` function (core.py:313, 319): numba runs the call itself as a parallel
loop, in which every element comes from the generator of the thread that computes it. `th i` is the thread that computes element `i`;
each thread takes its elements in order. `np.random.seed` (core.py:311) seeds the calling thread, number 0, only: `seeded` is its
stream, `others t` the stream of thread `t`. (The workers used by the model avoid this by drawing in the functions of core.py:90-101,
which are not parallel.) -/
def ParRandom {α : Type} (seeded : Nat → α) (others : Nat → Nat → α) (n : Nat) (out : List α) : Prop :=
  ∃ th : Nat → Nat, out = (List.range n).map fun i =>
    let k := ((List.range i).filter fun j => th j = th i).length
    if th i = 0 then seeded k else others (th i) k

/-- `worker_weighted_sample` (core.py:306-324). `otherU` and `otherI` are what the generators of the other threads yield. -/
def WorkerWeighted (g : Rng F) (otherU : Nat → Nat → F) (otherI : Nat → Nat → Int) (rows : List (List F)) (n : Nat) (seed : Int)
    (out : Except Err (Mem F)) : Prop :=
  if n ≤ 1 then
    ∃ rs, ParRandom (g.uniform seed) otherU rows.length rs ∧
      ParLoop rows.length (fun i => .ok [((aRes, i, 0), .idx (simpleSample (rows.getD i []) (rs.getD i zero)))]) zeroMem out
  else
    ∃ seeds, ParRandom (g.randint seed) otherI rows.length seeds ∧ ParLoop rows.length (weightedMultiBody g rows n seeds) zeroMem out

end workers

/-! ## `fast_indexed_add` (core.py:436-504): read-modify-write iterations -/
section add
open FOps
variable {F : Type} [FOps F]

/-- memory operations of iteration `o`: load `out[loc]` into a register, store `register + addend` -/
inductive AddOp where
  | load (o : Nat)
  | store (o : Nat)

/-- table and the registers of the iterations -/
structure AddSt (F : Type) where
  mem : Nat × Nat → F
  reg : Nat → F

/-- `loc o`: target cell of iteration `o`; `a o`: value to add (`out[...] += addition[...]`, core.py:471, 481, 491, 502) -/
def addStep (loc : Nat → Nat × Nat) (a : Nat → F) (st : AddSt F) : AddOp → AddSt F
  | .load o => { st with reg := upd st.reg o (st.mem (loc o)) }
  | .store o => { st with mem := fun l => if l = loc o then add (st.reg o) (a o) else st.mem l }

/-- outcome of the parallel loop over `N` offsets -/
def AddLoop (N : Nat) (loc : Nat → Nat × Nat) (a : Nat → F) (mem : Nat × Nat → F) (out : Nat × Nat → F) : Prop :=
  ∃ (s : List AddOp), Interleaving ((List.range N).map fun o => [AddOp.load o, AddOp.store o]) s ∧
    out = (s.foldl (addStep loc a) ⟨mem, fun _ => zero⟩).mem

/-- the assertions on one optional index (core.py:441-451): length, `min() >= 0`, `max() < bound`; `min()` of an empty
array raises ValueError -/
def checkIndex (index : Option (List Int)) (lenA bound : Nat) : Except Err Unit :=
  match index with
  | none => if lenA = bound then .ok () else .error .assertion
  | some ix =>
    if ix.length ≠ lenA then .error .assertion
    else if ix.isEmpty then .error .value
    else if ix.all (fun k => 0 ≤ k ∧ k < (bound : Int)) then .ok () else .error .assertion

/-- target of row/column `k` under an optional index (`_n_` / `_i_` kernels, core.py:465-504) -/
def target (index : Option (List Int)) (k : Nat) : Nat :=
  match index with
  | none => k
  | some ix => (ix.getD k 0).toNat

/-- `fast_indexed_add` (core.py:436-462): `rowsO x colsO` output, `rowsA x colsA` addition. Relates the initial table to
every possible outcome. -/
def FastIndexedAdd (rowsO colsO rowsA colsA : Nat) (add : Nat → Nat → F) (ri ci : Option (List Int))
    (mem : Nat × Nat → F) (out : Except Err (Nat × Nat → F)) : Prop :=
  match checkIndex ri rowsA rowsO, checkIndex ci colsA colsO with
  | .error e, _ => out = .error e
  | .ok _, .error e => out = .error e
  | .ok _, .ok _ =>
    ∃ m, out = .ok m ∧ AddLoop (rowsA * colsA) (fun o => (target ri (o / colsA), target ci (o % colsA)))
      (fun o => add (o / colsA) (o % colsA)) mem m

/-- `Index.get_indexer(other)` for a unique index: position or -1 -/
def getIndexer {L : Type} [DecidableEq L] (index other : List L) : List Int :=
  other.map fun l => if l ∈ index then (index.idxOf l : Int) else -1

/-- a labelled table -/
structure Table (L C F : Type) where
  rows : List L
  cols : List C
  val : Nat → Nat → F

/-- `ChoiceModel.add_partial_utilities` (model.py:752-780) on the cached utility table `mem` of a validated model;
`units`/`choices` are unique indexes. -/
def AddPartial {L C : Type} [DecidableEq L] [DecidableEq C] (units : List L) (choices : List C) (tb : Table L C F)
    (reindexRows reindexCols : Bool) (mem : Nat × Nat → F) (out : Except Err (Nat × Nat → F)) : Prop :=
  if units ≠ tb.rows ∧ reindexRows = false then out = .error .key
  else if choices ≠ tb.cols ∧ reindexCols = false then out = .error .key
  else
    let ri := if units = tb.rows then none else some (getIndexer units tb.rows)
    let ci := if choices = tb.cols then none else some (getIndexer choices tb.cols)
    FastIndexedAdd units.length choices.length tb.rows.length tb.cols.length tb.val ri ci mem out

end add
end Cheval
