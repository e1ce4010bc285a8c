import Verif.Core.Err
import Verif.Core.Dict
import Verif.Core.Expr
import Verif.Core.Parallel
import Verif.Core.RunCalls
import Mathlib.Data.List.Sort
import Mathlib.Data.List.Dedup

/-!
# Model of cheval/ldf: LinkedDataFrame

A world holds every frame the program has created; a reference is the position of a frame in it, so that the `owner` and
`other` references of a link (api.py:92-93) and the in-place changes of a frame are visible through every link. Cell values
and keys come from one type `V` with equality (NaN is one value of `V`, equal to itself, as in `Index.get_indexer` and
`Index.is_unique`). What pandas and NumPy do with single values - casting a fill value to an array's dtype, reducing the
values of a group - is the environment `LEnv`.
-/
namespace Cheval
variable {V : Type}

/-- `PandasDtype` (missing_data.py:21-30) -/
inductive DKind where
  | int | uint | float | bool | text | object | category | datetime
deriving DecidableEq

/-- what pandas and NumPy do with single values -/
structure LEnv (V : Type) where
  /-- `isna` of a single key -/
  isNa : V → Bool
  /-- the value stored when a fill value is written into an array of that dtype (`series[missing] = fill_value`) -/
  store : DKind → V → Except Err V
  /-- a reduction of one group's values, in row order, `none` when the group yields no row (`nth` past the end) -/
  agg : Str → DKind → List V → Option V
  /-- dtype of the reduced values -/
  aggKind : Str → DKind → DKind
  /-- `_default_fills` (missing_data.py:55-59) -/
  defaultFill : DKind → V
  /-- `np.nan` -/
  nan : V

/-- a column: dtype and values -/
structure LCol (V : Type) where
  kind : DKind
  vals : List V
deriving DecidableEq

/-- `_IndexMeta` (api.py:30-41); level numbers are left out -/
structure KeySpec where
  labels : Option (List Str)
  fromRows : Bool
deriving DecidableEq

/-- `_LinkMeta` (api.py:91-128) -/
structure Link where
  owner : Nat
  other : Nat
  selfSpec : KeySpec
  otherSpec : KeySpec
  chained : Bool
  agg : Bool
  flat : Option (List Int)
  grouper : Option (List Int)
  missing : Option (List Nat)
deriving DecidableEq

/-- a DataFrame (`linked = false`) or LinkedDataFrame (api.py:210-270): index level names and row keys, columns with unique
names, and the five private attributes -/
structure LFrame (V : Type) where
  linked : Bool
  levels : List (Option Str)
  index : List (List V)
  cols : List (Str × LCol V)
  links : List (Str × Link)
  identified : List Str
  filler : DKind → V
  colFills : List (Str × V)

/-- all frames, and `LinkedDataFrame._class_filler` (api.py:214) -/
structure LWorld (V : Type) where
  frames : List (LFrame V)
  classFill : DKind → V

/-- number of rows -/
def LFrame.rows (f : LFrame V) : Nat := f.index.length

/-- `_IndexMeta.__init__` (api.py:35-41) -/
def KeySpec.make (labels : Option (List Str)) (fromRows : Bool) : KeySpec :=
  match labels with
  | none => ⟨none, true⟩
  | some l => ⟨some l, fromRows⟩

/-- `frame.index.get_level_values(label)` and the re-raise (api.py:57-63); pandas refuses an ambiguous name -/
def LFrame.level (f : LFrame V) (label : Str) : Except Err (List V) :=
  if 1 < f.levels.count (some label) then .error .value
  else if some label ∈ f.levels then
    .ok (f.index.filterMap fun k => k[f.levels.idxOf (some label)]?)
  else .error .linkageSpec

/-- `to_numpy(frame[label])` for a label of the columns (api.py:66-69): `__getitem__` serves links first (api.py:408-411), and a
link node is no Series -/
def LFrame.keyColumn (f : LFrame V) (label : Str) : Except Err (List V) :=
  match dictGet f.cols label with
  | none => .error .linkageSpec
  | some c => if label ∈ f.links.map (·.1) then .error .attribute else .ok c.vals

/-- run over the labels, first error wins -/
def collect (g : Str → Except Err (List V)) : List Str → Except Err (List (List V))
  | [] => .ok []
  | l :: ls => match g l with
    | .error e => .error e
    | .ok a => match collect g ls with
      | .error e => .error e
      | .ok r => .ok (a :: r)

/-- the rows of a list of key arrays of length `n`: `Index(arrays[0])` or `MultiIndex.from_arrays(arrays)` (api.py:71-74) -/
def zipKeys (n : Nat) (arrays : List (List V)) : List (List V) :=
  (List.range n).map fun i => arrays.filterMap fun a => a[i]?

/-- `_IndexMeta.get_indexer` (api.py:48-74) -/
def LFrame.keys (f : LFrame V) (s : KeySpec) : Except Err (List (List V)) :=
  match s.labels with
  | none => .ok f.index
  | some ls =>
    if s.fromRows && decide (f.levels.length < ls.length) then .error .linkageSpec
    else match collect (if s.fromRows then f.level else f.keyColumn) ls with
      | .error e => .error e
      | .ok [] => .error .value
      | .ok arrays => .ok (zipKeys f.rows arrays)

/-- `_IndexMeta.nlevels` (api.py:76-79) -/
def LFrame.nlevels (f : LFrame V) (s : KeySpec) : Nat :=
  match s.labels with
  | none => f.levels.length
  | some ls => ls.length

def LWorld.keys (w : LWorld V) (r : Nat) (s : KeySpec) : Except Err (List (List V)) :=
  match w.frames[r]? with
  | none => .error .key
  | some f => f.keys s

variable [DecidableEq V]

/-- `isna` of a row key: only a single-level key can be NaN -/
def LEnv.naKey (E : LEnv V) (k : List V) : Bool := match k with
  | [v] => E.isNa v
  | _ => false

/-- the uniques of `Index.factorize()`: keys in order of first appearance, NaN left out -/
def LEnv.uniques (E : LEnv V) (ks : List (List V)) : List (List V) :=
  (ks.filter fun k => !E.naKey k).reverse.dedup.reverse

/-- the codes of `Index.factorize()`: NaN gets -1 -/
def LEnv.codes (E : LEnv V) (ks : List (List V)) : List Int := getIndexer (E.uniques ks) ks

/-- `_LinkMeta._make_indexer` (api.py:153-165); `get_indexer` refuses an index with duplicates -/
def LEnv.makeIndexer (E : LEnv V) (l : Link) (self other : List (List V)) : Except Err Link :=
  if l.agg then
    .ok { l with grouper := some (E.codes other), flat := some (getIndexer (E.uniques other) self) }
  else if self = other then
    .ok { l with flat := some ((List.range other.length).map fun (i : Nat) => (i : Int)) }
  else if other.Nodup then .ok { l with flat := some (getIndexer other self) }
  else .error .index

/-- `_LinkMeta.precompute` (api.py:150-151, 184-186): the key arrays come from the `owner` -/
def LEnv.precompute (E : LEnv V) (w : LWorld V) (l : Link) : Except Err Link :=
  match w.keys l.owner l.selfSpec with
  | .error e => .error e
  | .ok a => match w.keys l.other l.otherSpec with
    | .error e => .error e
    | .ok b => E.makeIndexer l a b

/-- `np.nonzero(self.flat_indexer == -1)[0]` (api.py:167-170) -/
def missingOf (flat : List Int) : List Nat := (List.range flat.length).filter fun i => decide (flat[i]? = some (-1))

/-- replace a frame -/
def LWorld.setFrame (w : LWorld V) (r : Nat) (g : LFrame V → LFrame V) : LWorld V :=
  { w with frames := w.frames.modify r g }

def LWorld.setLink (w : LWorld V) (r : Nat) (name : Str) (l : Link) : LWorld V :=
  w.setFrame r fun f => { f with links := dictSet f.links name l }

def LWorld.link? (w : LWorld V) (r : Nat) (name : Str) : Option Link :=
  match w.frames[r]? with
  | none => none
  | some f => dictGet f.links name

/-- the arguments of `link_to` (api.py:272-274); a single label is a list of one -/
structure LinkArgs where
  on : Option (List Str) := none
  levels : Option (List Str) := none
  onSelf : Option (List Str) := none
  onOther : Option (List Str) := none
  selfLevels : Option (List Str) := none
  otherLevels : Option (List Str) := none
  precompute : Bool := true

/-- the argument checks of `link_to` (api.py:323-349): the two key specifications -/
def LinkArgs.specs (a : LinkArgs) : Except Err (KeySpec × KeySpec) :=
  if a.on.isSome && a.levels.isSome then .error .linkageSpec
  else
    let onSelf := if a.on.isSome then a.on else a.onSelf
    let onOther := if a.on.isSome then a.on else a.onOther
    let selfLevels := if a.levels.isSome then a.levels else a.selfLevels
    let otherLevels := if a.levels.isSome then a.levels else a.otherLevels
    if onSelf.isSome && selfLevels.isSome then .error .linkageSpec
    else if onOther.isSome && otherLevels.isSome then .error .linkageSpec
    else .ok (if selfLevels.isSome then KeySpec.make selfLevels true else KeySpec.make onSelf false,
              if otherLevels.isSome then KeySpec.make otherLevels true else KeySpec.make onOther false)

/-- `_determine_aggregation` (api.py:130-145): the flag, or the refusal of a many-to-many link -/
def aggFlag (self other : List (List V)) : Except Err Bool :=
  if self.Nodup ∧ other.Nodup then .ok false
  else if self.Nodup then .ok true
  else if other.Nodup then .ok false
  else .error .runtime

/-- `_LinkMeta.create` (api.py:103-117, 119-148) for frames `f` (at `r`) and `g` (at `o`) -/
def LEnv.createLink (E : LEnv V) (r o : Nat) (f g : LFrame V) (ss os : KeySpec) (precompute : Bool) : Except Err Link :=
  if f.nlevels ss ≠ g.nlevels os then .error .assertion
  else match f.keys ss with
    | .error e => .error e
    | .ok a => match g.keys os with
      | .error e => .error e
      | .ok b => match aggFlag a b with
        | .error e => .error e
        | .ok flag =>
          let l : Link := ⟨r, o, ss, os, g.linked, flag, none, none, none⟩
          if precompute then E.makeIndexer l a b else .ok l

/-- `LinkedDataFrame.link_to` (api.py:272-357); `isid` is `name.isidentifier()`. Tables with multi-level columns are not
represented. The result is the aggregation requirement. -/
def LEnv.linkTo (E : LEnv V) (isid : Str → Bool) (w : LWorld V) (r o : Nat) (name : Str) (a : LinkArgs) :
    LWorld V × Except Err Bool :=
  match a.specs with
  | .error e => (w, .error e)
  | .ok (ss, os) => match w.frames[r]?, w.frames[o]? with
    | some f, some g => if !f.linked then (w, .error .attribute) else match E.createLink r o f g ss os a.precompute with
      | .error e => (w, .error e)
      | .ok l =>
        (w.setFrame r fun f => { f with links := dictSet f.links name l,
                                        identified := if isid name && decide (name ∉ f.identified) then f.identified ++ [name] else f.identified },
         .ok l.agg)
    | _, _ => (w, .error .attribute)

/-! ## Fill values (api.py:363-404, missing_data.py:62-96) -/

/-- one assignment `_fill_values[enum_] = value` (missing_data.py:80) -/
def setFill (g : DKind → V) (k : DKind) (v : V) : DKind → V := fun j => if j = k then v else g j

/-- `PandasDtype[type_name]` (missing_data.py:21-30): a lookup by the NAME of the enum member -/
def DKind.ofName (n : Str) : Option DKind :=
  if n = "INT_NAME".toList then some .int
  else if n = "UINT_NAME".toList then some .uint
  else if n = "FLOAT_NAME".toList then some .float
  else if n = "BOOL_NAME".toList then some .bool
  else if n = "TEXT_NAME".toList then some .text
  else if n = "OBJ_NAME".toList then some .object
  else if n = "CAT_NAME".toList then some .category
  else if n = "TIME_NAME".toList then some .datetime
  else none

/-- `SeriesFillManager.set_fill_defaults(**kwargs)` (missing_data.py:77-80): KeyError at the first unknown name, what was set before
it stays -/
def setFills (g : DKind → V) : List (Str × V) → (DKind → V) × Except Err Unit
  | [] => (g, .ok ())
  | e :: es => match DKind.ofName e.1 with
    | none => (g, .error .key)
    | some k => setFills (setFill g k e.2) es

/-- the `try` part of `SeriesFillManager.temporary_fill_defaults` (missing_data.py:84-90): the values, and the previous values by kind -/
def tempTry (g : DKind → V) (prev : List (DKind × V)) : List (Str × V) → (DKind → V) × List (DKind × V) × Except Err Unit
  | [] => (g, prev, .ok ())
  | e :: es => match DKind.ofName e.1 with
    | none => (g, prev, .error .key)
    | some k => tempTry (setFill g k e.2) (dictSet prev k (g k)) es

/-- the `finally` part (missing_data.py:91-93) -/
def tempFinally (g : DKind → V) (prev : List (DKind × V)) : DKind → V := prev.foldl (fun g e => setFill g e.1 e.2) g

/-- `SeriesFillManager.temporary_fill_defaults` (missing_data.py:82-93). The function contains no `yield`, so that `contextmanager` runs all of it
when it is called; the `yield from` in `LinkedDataFrame.temporary_fill_defaults` (api.py:387-389) then meets an object that is no iterator
(TypeError). That method being a generator function, this is what happens when its first item is asked for; calling it does nothing, and a
`with` statement refuses the generator. -/
def tempFills (g : DKind → V) (kvs : List (Str × V)) : (DKind → V) × Except Err Unit :=
  match tempTry g [] kvs with
  | (g1, prev, .error e) => (tempFinally g1 prev, .error e)
  | (g1, prev, .ok _) => (tempFinally g1 prev, .error .type)

/-- `set_column_fill` (api.py:365-378) -/
def LWorld.setColumnFill (w : LWorld V) (r : Nat) (col : Str) (v : V) : LWorld V × Except Err Unit :=
  match w.frames[r]? with
  | none => (w, .error .attribute)
  | some f => if !f.linked then (w, .error .attribute)
    else if col ∈ f.cols.map (·.1) then (w.setFrame r fun f => { f with colFills := dictSet f.colFills col v }, .ok ())
    else (w, .error .key)

/-- `set_fill_defaults`, `temporary_fill_defaults`, `reset_fill_defaults` (api.py:383-393) of the class (`none`) or of a frame, `g` being the
change of the fill manager; a plain DataFrame has no such method -/
def LWorld.changeFill (w : LWorld V) (r : Option Nat) (g : (DKind → V) → (DKind → V) × Except Err Unit) : LWorld V × Except Err Unit :=
  match r with
  | none => ({ w with classFill := (g w.classFill).1 }, (g w.classFill).2)
  | some r => match w.frames[r]? with
    | none => (w, .error .attribute)
    | some f => if !f.linked then (w, .error .attribute)
      else (w.setFrame r fun f => { f with filler := (g f.filler).1 }, (g f.filler).2)

/-- `_get_fill` (api.py:399-402) -/
def LFrame.fillOf (f : LFrame V) (col : Str) (k : DKind) : V :=
  match dictGet f.colFills col with
  | some v => v
  | none => f.filler k

/-! ## Lookups (api.py:406-569) -/

/-- NumPy integer indexing `a[indexer]`: negative positions count from the end -/
def takeInts {A : Type} (a : List A) : List Int → Except Err (List A)
  | [] => .ok []
  | k :: ks => match takeAt a.length k with
    | none => .error .index
    | some i => match a[i]?, takeInts a ks with
      | some x, .ok r => .ok (x :: r)
      | _, _ => .error .index

/-- `a[positions] = v` -/
def putAll {A : Type} (a : List A) (ps : List Nat) (v : A) : Except Err (List A) :=
  if ∀ p ∈ ps, p < a.length then .ok (ps.foldl (fun b p => b.set p v) a) else .error .index

/-- `indexer_and_missing` (api.py:176-182) of link `name` of frame `r`: fills the caches of the link -/
def LEnv.indexerMissing (E : LEnv V) (w : LWorld V) (r : Nat) (name : Str) : LWorld V × Except Err (List Int × List Nat) :=
  match w.link? r name with
  | none => (w, .error .key)
  | some l =>
    match (if l.flat.isSome then .ok l else E.precompute w l) with
    | .error e => (w, .error e)
    | .ok l1 => match l1.flat with
      | none => (w, .error .type)
      | some fl =>
        let m := l1.missing.getD (missingOf fl)
        (w.setLink r name { l1 with missing := some m }, .ok (fl, m))

/-- the loop of `_resolve_history` (api.py:461-467); the links nearest to the data come first -/
def LEnv.resolve (E : LEnv V) (kind : DKind) (fill : V) :
    LWorld V → List (Nat × Str) → List V → LWorld V × Except Err (List V)
  | w, [], a => (w, .ok a)
  | w, h :: hs, a => match E.indexerMissing w h.1 h.2 with
    | (w1, .error e) => (w1, .error e)
    | (w1, .ok (fl, m)) => match takeInts a fl with
      | .error e => (w1, .error e)
      | .ok b => match E.store kind fill with
        | .error e => (w1, .error e)
        | .ok v => match putAll b m v with
          | .error e => (w1, .error e)
          | .ok c => E.resolve kind fill w1 hs c

/-- `Series(series, index=self._root_index)` (api.py:468) -/
def asSeries {A B : Type} (n : Nat) (kind : DKind) : A × Except Err (List B) → A × Except Err (LCol B)
  | (w, .error e) => (w, .error e)
  | (w, .ok a) => (w, if a.length = n then .ok ⟨kind, a⟩ else .error .value)

/-- node classes (api.py:476, 491, 519), chosen by `_init_link` (api.py:418-427) and `_LinkNode.__getitem__` (api.py:507-512) -/
inductive NodeKind where
  | leaf | node | aggr
deriving DecidableEq

def Link.node (l : Link) : NodeKind := if l.agg then .aggr else if l.chained then .node else .leaf

/-- following link names from a node; `h` is the history, last link first (api.py:418-427, 498-512). A name that is no link
of the reached table is a KeyError (a column there would be a Series, which has no such label), an aggregating node or a
plain table has no links. -/
def LWorld.walk (w : LWorld V) : Nat → List Str → List (Nat × Str) → Except Err (Link × List (Nat × Str))
  | _, [], _ => .error .key
  | r, n :: ns, h => match w.link? r n with
    | none => .error .key
    | some l => match ns with
      | [] => .ok (l, (r, n) :: h)
      | _ :: _ => match l.node with
        | .node => w.walk l.other ns ((r, n) :: h)
        | .leaf => .error .key
        | .aggr => .error .type

/-- `frame[l1]...[lk][column]` (api.py:408-416, 483-489, 498-517) -/
def LEnv.lookup (E : LEnv V) (w : LWorld V) (r : Nat) (path : List Str) (col : Str) : LWorld V × Except Err (LCol V) :=
  match w.walk r path [] with
  | .error e => (w, .error e)
  | .ok (l, h) => match w.frames[l.other]? with
    | none => (w, .error .key)
    | some g => match l.node with
      | .aggr => (w, .error .type)
      | .leaf => match dictGet g.cols col with
        | none => (w, .error .key)
        | some c => asSeries (w.frames[r]?.elim 0 LFrame.rows) c.kind (E.resolve c.kind (w.classFill c.kind) w h c.vals)
      | .node =>
        if col ∈ g.links.map (·.1) then (w, .error .attribute)
        else match dictGet g.cols col with
        | none => (w, .error .key)
        | some c => asSeries (w.frames[r]?.elim 0 LFrame.rows) c.kind (E.resolve c.kind (g.fillOf col c.kind) w h c.vals)

/-- `_NUMERIC_AGGREGATIONS` (api.py:24) -/
def numericAggs : List Str := ["max".toList, "min".toList, "mean".toList, "median".toList, "prod".toList, "std".toList,
  "sum".toList, "var".toList, "quantile".toList]

/-- `_NON_NUMERIC_AGGREGATIONS` (api.py:25) -/
def otherAggs : List Str := ["count".toList, "first".toList, "last".toList, "nth".toList]

/-- `_NUMERIC_TYPES` (api.py:27) -/
def DKind.numeric : DKind → Bool
  | .int | .uint | .float | .bool => true
  | _ => false

/-- the types filled with `int_fill` (api.py:557-559) -/
def DKind.intLike : DKind → Bool
  | .int | .uint | .bool => true
  | _ => false

/-- the group numbers of `groupby(codes)`, sorted -/
def groupNumbers (codes : List Int) : List Int := codes.dedup.insertionSort (· ≤ ·)

/-- the values of the rows in a group, in row order -/
def groupValues (codes : List Int) (vals : List V) (c : Int) : List V :=
  (codes.zip vals).filterMap fun p => if p.1 = c then some p.2 else none

/-- `to_numpy(getattr(evaluation.groupby(grouper), func)())` (api.py:565) -/
def LEnv.reduce (E : LEnv V) (func : Str) (kind : DKind) (codes : List Int) (vals : List V) : List V :=
  (groupNumbers codes).filterMap fun c => E.agg func kind (groupValues codes vals c)

/-- the argument of an aggregation called from Python, `link.func("arg")` (api.py:541-549): the text may be the name of a column
of the target (`expr in df.columns`), else `ev` evaluates it. Aggregations inside an expression do not take this shortcut: their
argument is printed by astor with a final newline (parsing/ast_transformer.py:271), so that it is no column's name. -/
def orColumn (ev : LWorld V → Nat → PExpr → LWorld V × Except Err (LCol V)) (w : LWorld V) (o : Nat) (arg : PExpr) :
    LWorld V × Except Err (LCol V) :=
  match w.frames[o]?, arg with
  | some g, .name n => match dictGet g.cols n with
    | some c => if n ∈ g.links.map (·.1) then (w, .error .type) else (w, .ok c)
    | none => ev w o arg
  | _, _ => ev w o arg

/-- how the argument is evaluated: for a call from Python (`py`), or inside an expression -/
def called (ev : LWorld V → Nat → PExpr → LWorld V × Except Err (LCol V)) (py : Bool) := if py then orColumn ev else ev

/-- `frame[l1]...[lk].func(arg, int_fill=..., **kwargs)` (api.py:519-567), `ev` evaluating the argument on the target: `orColumn ..` for a
call from Python. The keyword arguments passed on to pandas, such as `nth(n=1)`, are part of `func` for `E.agg`. -/
def LEnv.aggregate (E : LEnv V) (ev : LWorld V → Nat → PExpr → LWorld V × Except Err (LCol V)) (w : LWorld V) (r : Nat)
    (path : List Str) (func : Str) (arg : PExpr) (intFill : V) : LWorld V × Except Err (LCol V) :=
  match w.walk r path [] with
  | .error e => (w, .error e)
  | .ok (l, h) => match w.frames[l.other]? with
    | none => (w, .error .key)
    | some g => match l.node with
      | .leaf => (w, .error .attribute)
      | .node => (w, .error .attribute)
      | .aggr =>
        if func ∉ numericAggs ++ otherAggs then (w, .error .attribute)
        else match ev w l.other arg with
          | (w1, .error e) => (w1, .error e)
          | (w1, .ok c) =>
            if func ∈ numericAggs ∧ c.kind.numeric = false then (w1, .error .runtime)
            else if c.kind = .datetime then (w1, .error .notImplemented)
            else match (match h with | [] => none | p :: _ => (w1.link? p.1 p.2).bind (·.grouper)) with
              | none => (w1, .error .type)
              | some codes =>
                if codes.length ≠ c.vals.length then (w1, .error .value)
                else asSeries (w1.frames[r]?.elim 0 LFrame.rows) (E.aggKind func c.kind)
                  (E.resolve (E.aggKind func c.kind) (if c.kind.intLike then intFill else E.nan) w1 h
                    (E.reduce func c.kind codes c.vals))

/-! ## Derived frames (api.py:613-688) -/

/-- `_LinkMeta.copy_meta` (api.py:188-191) -/
def Link.copyMeta (l : Link) : Link := { l with flat := none, grouper := none, missing := none }

/-- `_LinkMeta.copy(indices)` (api.py:193-207). Positions stand for masks and slices too; a slice object would clip instead of
raising if the indexer were shorter than the frame. -/
def Link.copy (l : Link) : Option (List Int) → Except Err Link
  | none => .ok l
  | some ix => match l.flat with
    | none => .ok { l with missing := none }
    | some fl => match takeInts fl ix with
      | .error e => .error e
      | .ok fl1 => .ok { l with flat := some fl1, missing := none }

/-- copying all links of a parent (api.py:633-651, 685-686) -/
def copyLinks (ix : Option (List Int)) : List (Str × Link) → Except Err (List (Str × Link))
  | [] => .ok []
  | e :: es => match e.2.copy ix with
    | .error er => .error er
    | .ok l => match copyLinks ix es with
      | .error er => .error er
      | .ok r => .ok ((e.1, l) :: r)

/-- a new (Linked)DataFrame object holding the given data: `__init__` (api.py:264-270) -/
def LEnv.newFrame (E : LEnv V) (linked : Bool) (levels : List (Option Str)) (index : List (List V))
    (cols : List (Str × LCol V)) : LFrame V := ⟨linked, levels, index, cols, [], [], E.defaultFill, []⟩

/-- row selection `super()._take/_slice/_reindex_with_indexers`: rows `ix`; rows with position -1 (labels that are not in the
frame) get the index label and the cells given by `pad` -/
def pickRows {A : Type} (a : List A) (ix : List Int) (pad : Nat → A) : List A :=
  ix.zipIdx.map fun p => if 0 ≤ p.1 then (a[p.1.toNat]?).getD (pad p.2) else pad p.2

/-- `_take_with_is_copy`, `_take`, `_slice`, `_reindex_with_indexers` on axis 0 (api.py:649-679): boolean masks, lists of
positions or labels, slices, head, tail, reindex. `pad` supplies labels and cells of rows that are new (only reindex; that the
dtype may widen then is left out). -/
def LEnv.select (E : LEnv V) (f : LFrame V) (ix : List Int) (padKey : Nat → List V) (padCell : Str → Nat → V) :
    Except Err (LFrame V) :=
  match copyLinks (some ix) f.links with
  | .error e => .error e
  | .ok ls => .ok { E.newFrame f.linked f.levels (pickRows f.index ix padKey)
      (f.cols.map fun c => (c.1, ⟨c.2.kind, pickRows c.2.vals ix (padCell c.1)⟩)) with
    links := ls, identified := f.identified }

/-- an operation that only passes through `__finalize__` (api.py:613-631) and produces the given data: sort_values, take,
sample, column selection, ... -/
def LEnv.finalized (E : LEnv V) (f : LFrame V) (levels : List (Option Str)) (index : List (List V))
    (cols : List (Str × LCol V)) : LFrame V :=
  { E.newFrame f.linked levels index cols with
    links := f.links.map fun e => (e.1, e.2.copyMeta), identified := f.identified }

/-- a group of a `groupby` (api.py:624-625, 633-647): links are re-indexed by looking the rows' labels up in the parent -/
def LEnv.grouped (E : LEnv V) (f : LFrame V) (ix : List Nat) : Except Err (LFrame V) :=
  let pos := ix.map fun (i : Nat) => (i : Int)
  let index := pickRows f.index pos fun _ => []
  if f.index.Nodup then
    match copyLinks (some (getIndexer f.index index)) f.links with
    | .error e => .error e
    | .ok ls => .ok { E.newFrame f.linked f.levels index
            (f.cols.map fun c => (c.1, ⟨c.2.kind, pickRows c.2.vals pos fun _ => E.nan⟩)) with
          links := ls, identified := f.links.map (·.1) }
  else .error .index

/-- `copy` (api.py:681-688) -/
def LEnv.copyFrame (E : LEnv V) (f : LFrame V) : Except Err (LFrame V) :=
  match copyLinks none f.links with
  | .error e => .error e
  | .ok ls => .ok { E.newFrame f.linked f.levels f.index f.cols with links := ls, identified := f.identified }

/-- `compute_indexers` (api.py:780-790): the loop over the links, stopping at the first error -/
def LEnv.computeLinks (E : LEnv V) (refresh : Bool) (r : Nat) : LWorld V → List Str → LWorld V × Except Err Unit
  | w, [] => (w, .ok ())
  | w, n :: ns => match w.link? r n with
    | none => (w, .error .key)
    | some l =>
      if refresh || l.flat.isNone then
        match E.precompute w l with
        | .error e => (w, .error e)
        | .ok l1 => E.computeLinks refresh r (w.setLink r n l1) ns
      else E.computeLinks refresh r w ns

def LEnv.computeIndexers (E : LEnv V) (w : LWorld V) (r : Nat) (refresh : Bool) : LWorld V × Except Err Unit :=
  match w.frames[r]? with
  | none => (w, .error .attribute)
  | some f => if !f.linked then (w, .error .attribute) else E.computeLinks refresh r w (f.links.map (·.1))

/-- `frame[col] = values` of a fitting length -/
def LWorld.setColumn (w : LWorld V) (r : Nat) (col : Str) (c : LCol V) : LWorld V × Except Err Unit :=
  match w.frames[r]? with
  | none => (w, .error .attribute)
  | some f => if c.vals.length = f.rows then (w.setFrame r fun f => { f with cols := dictSet f.cols col c }, .ok ())
    else (w, .error .value)

end Cheval
