import Verif.Core.LdfChange

/-!
# Histories of operations on linked frames
-/
namespace Cheval
variable {V : Type} [DecidableEq V]

/-- the operations of a program; a derived frame is added to the world -/
inductive LOp (V : Type) where
  /-- `DataFrame(...)` / `LinkedDataFrame(...)` -/
  | new (linked : Bool) (levels : List (Option Str)) (index : List (List V)) (cols : List (Str × LCol V))
  | linkTo (r o : Nat) (name : Str) (args : LinkArgs)
  | lookup (r : Nat) (path : List Str) (col : Str)
  /-- `frame.l1...lk.func(arg)`, from Python (`py`) or inside an expression -/
  | aggregate (py : Bool) (r : Nat) (path : List Str) (func : Str) (arg : PExpr) (intFill : V)
  /-- masks, lists of positions or labels, slices, head, tail, reindex -/
  | select (r : Nat) (ix : List Int) (padKey : Nat → List V) (padCell : Str → Nat → V)
  /-- operations that only pass through `__finalize__` -/
  | finalized (r : Nat) (levels : List (Option Str)) (index : List (List V)) (cols : List (Str × LCol V))
  | grouped (r : Nat) (ix : List Nat)
  | copy (r : Nat)
  | computeIndexers (r : Nat) (refresh : Bool)
  | setColumn (r : Nat) (col : Str) (c : LCol V)
  | setColumnFill (r : Nat) (col : Str) (v : V)
  /-- `frame.set_fill_defaults(NAME=v, ...)` / `LinkedDataFrame.set_fill_defaults(NAME=v, ...)` -/
  | setFill (r : Option Nat) (kvs : List (Str × V))
  /-- `temporary_fill_defaults` of a frame / of the class -/
  | tempFill (r : Option Nat) (kvs : List (Str × V))
  /-- `reset_fill_defaults` of a frame / of the class -/
  | resetFill (r : Option Nat)

/-- what an operation returns: a new frame (its reference), the aggregation flag, a Series, or nothing -/
inductive LOut (V : Type) where
  | frame (r : Nat)
  | flag (b : Bool)
  | series (c : LCol V)
  | unit

variable (E : LEnv V) (isid : Str → Bool) (ev : LWorld V → Nat → PExpr → LWorld V × Except Err (LCol V))

/-- add a derived frame -/
def LWorld.derive (w : LWorld V) (r : Nat) (g : LFrame V → Except Err (LFrame V)) : LWorld V × Except Err (LOut V) :=
  match w.frames[r]? with
  | none => (w, .error .attribute)
  | some f => match g f with
    | .error e => (w, .error e)
    | .ok f' => (w.push f', .ok (.frame w.frames.length))

/-- one operation -/
def lstep (w : LWorld V) : LOp V → LWorld V × Except Err (LOut V)
  | .new linked levels index cols => (w.push (E.newFrame linked levels index cols), .ok (.frame w.frames.length))
  | .linkTo r o name args => match E.linkTo isid w r o name args with
    | (w', x) => (w', x.map .flag)
  | .lookup r path col => match E.lookup w r path col with
    | (w', x) => (w', x.map .series)
  | .aggregate py r path func arg intFill => match E.aggregate (called ev py) w r path func arg intFill with
    | (w', x) => (w', x.map .series)
  | .select r ix pk pc => w.derive r fun f => E.select f ix pk pc
  | .finalized r levels index cols => w.derive r fun f => .ok (E.finalized f levels index cols)
  | .grouped r ix => w.derive r fun f => E.grouped f ix
  | .copy r => w.derive r fun f => E.copyFrame f
  | .computeIndexers r refresh => match E.computeIndexers w r refresh with
    | (w', x) => (w', x.map fun _ => .unit)
  | .setColumn r col c => match w.setColumn r col c with
    | (w', x) => (w', x.map fun _ => .unit)
  | .setColumnFill r col v => match w.setColumnFill r col v with
    | (w', x) => (w', x.map fun _ => .unit)
  | .setFill r kvs => match w.changeFill r fun g => setFills g kvs with
    | (w', x) => (w', x.map fun _ => .unit)
  | .tempFill r kvs => match w.changeFill r fun g => tempFills g kvs with
    | (w', x) => (w', x.map fun _ => .unit)
  | .resetFill r => match w.changeFill r fun _ => (E.defaultFill, .ok ()) with
    | (w', x) => (w', x.map fun _ => .unit)

/-- a history, errors being caught -/
def lrun (w : LWorld V) (ops : List (LOp V)) : LWorld V := ops.foldl (fun w op => (lstep E isid ev w op).1) w

/-- before the program starts -/
def LEnv.start : LWorld V := ⟨[], E.defaultFill⟩

/-- the operations that keep links right. The excluded ones are: naming a link like a column; slicing a frame some link of
which is not computed yet, or reindexing it to new labels; operations that only pass through `__finalize__`, unless they keep
the rows and the key columns of a frame the links were made on; refreshing the links of a derived frame; changing a key
column in place. -/
def SafeOp (w : LWorld V) : LOp V → Prop
  | .new _ levels index cols => (∀ k ∈ index, k.length = levels.length) ∧ ∀ e ∈ cols, e.2.vals.length = index.length
  | .linkTo r _ name _ => ∀ f, w.frames[r]? = some f → name ∉ f.cols.map (·.1)
  | .select r ix _ _ => ∀ f, w.frames[r]? = some f → InRange f.rows ix ∧ AllComputed f
  | .finalized r levels index cols => ∀ f, w.frames[r]? = some f → levels = f.levels ∧ index = f.index ∧
      (∀ e ∈ f.links, e.2.owner = r) ∧ (∀ e ∈ cols, e.2.vals.length = f.rows) ∧ (∀ n ∈ f.links.map (·.1), n ∉ cols.map (·.1)) ∧
      ∀ e ∈ f.links, ∀ n ∈ e.2.selfSpec.columns, dictGet cols n = dictGet f.cols n
  | .grouped r ix => ∀ f, w.frames[r]? = some f → (∀ i ∈ ix, i < f.rows) ∧ AllComputed f
  | .computeIndexers r refresh => refresh = true → ∀ n l, w.link? r n = some l → l.owner = r
  | .setColumn r col _ => ¬ KeyColumn w r col ∧ ∀ f, w.frames[r]? = some f → col ∉ f.links.map (·.1)
  | _ => True

/-- a history of such operations -/
def SafeRun : LWorld V → List (LOp V) → Prop
  | _, [] => True
  | w, op :: ops => SafeOp w op ∧ SafeRun (lstep E isid ev w op).1 ops

variable {E isid ev}

theorem LGood.start : LGood E E.start := ⟨fun f hf => by simp [LEnv.start] at hf, fun f hf => by simp [LEnv.start] at hf⟩

theorem LGood.derive {w : LWorld V} (h : LGood E w) {r : Nat} {g : LFrame V → Except Err (LFrame V)}
    (hg : ∀ f f', w.frames[r]? = some f → g f = .ok f' → LGood E (w.push f')) : LGood E (w.derive r g).1 := by
  unfold LWorld.derive
  cases hf : w.frames[r]? with
  | none => exact h
  | some f =>
    simp only
    cases hr : g f with
    | error e => exact h
    | ok f' => exact hg f f' hf hr

theorem setFrame_none {w : LWorld V} {r : Nat} (hf : w.frames[r]? = none) (g : LFrame V → LFrame V) : w.setFrame r g = w := by
  have : w.frames.modify r g = w.frames := by
    apply List.ext_getElem?
    intro i
    rw [List.getElem?_modify]
    by_cases h : r = i
    · subst h; simp [hf]
    · simp [h]
  unfold LWorld.setFrame
  rw [this]

theorem LGood.changeFill {w : LWorld V} (h : LGood E w) (r : Option Nat) (g : (DKind → V) → (DKind → V) × Except Err Unit) :
    LGood E (w.changeFill r g).1 := by
  cases r with
  | none => exact ⟨h.wf, fun f hf e he => by obtain ⟨g, ks, ko, hk⟩ := h.links f hf e he; exact ⟨g, ks, ko, hk.transfer hk.target rfl rfl rfl fun _ => rfl⟩⟩
  | some r =>
    cases hf : w.frames[r]? with
    | none => simp only [LWorld.changeFill, hf]; exact h
    | some f =>
      simp only [LWorld.changeFill, hf]
      split
      · exact h
      · exact h.setFills hf (fun f => (g f.filler).1) fun f => f.colFills

theorem good_step (hev : EvKeeps E ev) {w : LWorld V} (h : LGood E w) {op : LOp V} (hs : SafeOp w op) : LGood E (lstep E isid ev w op).1 := by
  cases op with
  | new linked levels index cols =>
    refine h.push ⟨hs.1, hs.2, ?_, ?_, ?_⟩ ?_ <;> simp [LEnv.newFrame]
  | linkTo r o name args =>
    simp only [lstep]
    unfold LEnv.linkTo
    cases args.specs with
    | error e => exact h
    | ok p =>
      obtain ⟨ss, os⟩ := p
      simp only
      cases hf : w.frames[r]? with
      | none => exact h
      | some f =>
        cases hg : w.frames[o]? with
        | none => exact h
        | some g =>
          simp only
          split
          · exact h
          · rename_i hlin
            cases hc : E.createLink r o f g ss os args.precompute with
            | error e => exact h
            | ok l => exact h.addLink hf hg (by simpa using hlin) hc (hs f hf) _
  | lookup r path col => exact (lookup_keeps h r path col).2.1
  | aggregate py r path func arg intFill => exact (aggregate_keeps (called_keeps hev py) h r path func arg intFill).2.1
  | select r ix pk pc => exact h.derive fun f f' hf hg => h.select hf (hs f hf).1 (hs f hf).2 hg
  | finalized r levels index cols =>
    refine h.derive fun f f' hf hg => ?_
    simp only [Except.ok.injEq] at hg
    subst hg
    obtain ⟨rfl, rfl, h3, h4, h5, h6⟩ := hs f hf
    exact h.finalized hf h3 h4 h5 h6
  | grouped r ix => exact h.derive fun f f' hf hg => h.grouped hf (hs f hf).1 (hs f hf).2 hg
  | copy r => exact h.derive fun f f' hf hg => h.copy hf hg
  | computeIndexers r refresh =>
    simp only [lstep]
    unfold LEnv.computeIndexers
    cases hf : w.frames[r]? with
    | none => exact h
    | some f =>
      simp only
      split
      · exact h
      · exact (computeLinks_keeps refresh r _ h hs).2.1
  | setColumn r col c =>
    simp only [lstep]
    unfold LWorld.setColumn
    cases hf : w.frames[r]? with
    | none => exact h
    | some f =>
      simp only
      split
      · rename_i hl; exact h.setColumn hf hl (hs.2 f hf) hs.1
      · exact h
  | setColumnFill r col v =>
    simp only [lstep]
    unfold LWorld.setColumnFill
    cases hf : w.frames[r]? with
    | none => exact h
    | some f =>
      simp only
      split
      · exact h
      · split
        · exact h.setFills hf (fun f => f.filler) fun f => dictSet f.colFills col v
        · exact h
  | setFill r kvs => simp only [lstep]; exact h.changeFill r _
  | tempFill r kvs => simp only [lstep]; exact h.changeFill r _
  | resetFill r => simp only [lstep]; exact h.changeFill r _

theorem good_run (hev : EvKeeps E ev) : ∀ {ops : List (LOp V)} {w : LWorld V}, LGood E w → SafeRun E isid ev w ops → LGood E (lrun E isid ev w ops)
  | [], _, h, _ => h
  | op :: ops, w, h, hs => by
    show LGood E (lrun E isid ev (lstep E isid ev w op).1 ops)
    exact good_run hev (good_step hev h hs.1) hs.2

end Cheval
