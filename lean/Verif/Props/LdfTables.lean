import Verif.Core.LdfTable
import Verif.Props.LdfEvaluate
import Verif.Props.ExampleModel
import Verif.Props.Subset

/-!
# C52: links of tables in utility expressions
-/
namespace Cheval
open Spec FOps
variable {U V F : Type} [DecidableEq V] [FOps F] {E : LEnv V} {K : EvEnv V F}

/-! ## a model with one expression -/

/-- the only expression of the model is `text`, without `@` filter, and Python parses it as `e` -/
structure OnlyExpr (env : PyEnv) (py : PyParser) (m : CModel U F) (text : Str) (e : PExpr) : Prop where
  exprs : m.exprs = groupRun env py ExprGroup.empty [.append text none]
  text : ∃ body, splitFilter text = .ok (body, none) ∧ py body = .ok e

/-- `e` is a dotted lookup in the symbol `t`: with an aggregation, `t.a.b.f(arg)`, or without, `t.a.b` -/
inductive DottedLookup : PExpr → Str → List Str → Option (Str × PExpr) → Prop
  | agg {e : PExpr} {t : Str} {path : List Str} {fn : Str} {arg : PExpr} (h : dotted e = some (t, path)) (hf : fn ∈ aggregationNames) :
    DottedLookup (.call (.attr e fn) (.cons arg .nil) .nil) t path (some (fn, arg))
  | plain {e : PExpr} {field t : Str} {path : List Str} (h : dotted (.attr e field) = some (t, path)) :
    DottedLookup (.attr e field) t path none

/-- what is parsed -/
def oneLookup (text t : Str) (path : List Str) (func : Option (Str × PExpr)) : Expression :=
  ⟨text, .name (subName t 0), [(t, [(subName t 0, ⟨path.reverse, func⟩)])], [], none, []⟩

theorem DottedLookup.parse {e : PExpr} {t : Str} {path : List Str} {func : Option (Str × PExpr)} (h : DottedLookup e t path func) (env : PyEnv) :
    visit env e ⟨[], [], [], [], []⟩ = (⟨[], [t], [(t, [(subName t 0, ⟨path.reverse, func⟩)])], [], []⟩, .ok (.name (subName t 0))) := by
  cases h with
  | @agg e t path fn arg h hf =>
    have h1 := nameOfAttr_dotted e _ _ h
    rw [visit]
    simp only [visitMethod, nameOfAttr, h1]
    rw [if_neg (by rw [aggregations_names]; simpa using hf)]
    simp [addChain, setAdd, dictGet, dictSet, subName]
  | @plain e field t path h =>
    have h1 := nameOfAttr_dotted _ _ _ h
    rw [visit]
    simp [visitAttr, h1, addChain, setAdd, dictGet, dictSet, subName]

theorem OnlyExpr.container {env : PyEnv} {py : PyParser} {m : CModel U F} {text : Str} {e : PExpr} (h : OnlyExpr env py m text e)
    {t : Str} {path : List Str} {func : Option (Str × PExpr)} (hd : DottedLookup e t path func) :
    m.container none = .ok ⟨[], [t], [oneLookup text t path func]⟩ := by
  obtain ⟨body, h1, h2⟩ := h.text
  have hp : parse env py text [] [] = (([], [t]), .ok (oneLookup text t path func)) := by
    simp only [Cheval.parse, h1, h2, hd.parse]
    rfl
  simp [CModel.container, h.exprs, groupRun, groupStep, ExprGroup.append, ExprGroup.empty, hp, ExprGroup.itersimple, ExprGroup.iterchained,
    ExprGroup.all, setUnion, setAdd, oneLookup]

/-- the run of the model when the lookup raises -/
theorem OnlyExpr.fails {env : PyEnv} {py : PyParser} (A : Kernel F) {m : CModel U F} {text : Str} {e : PExpr} (h : OnlyExpr env py m text e)
    {t : Str} {path : List Str} {func : Option (Str × PExpr)} (hd : DottedLookup e t path func)
    {paths : List (List Name)} {depth : Nat} {units : List U} (hm : Consistent m paths depth units) (hvt : validateTree m.tree = .ok ())
    {s : Sym F} (hs : dictGet m.scope t = some s) (hfill : s.filled = true) {er : Err} (hch : s.getChain ⟨path.reverse, func⟩ = .error er) (clear : Bool) :
    (m.runUtilities A none clear).2 = .error er := by
  have hc := h.container hd
  obtain ⟨labels, hl, hL⟩ := hm.choices
  have hv : m.validate true true true true none = .ok () := by
    simp [CModel.validate, bind, Except.bind, hvt, CModel.decisionUnits, hm.unitsEq, hc, checkSymbols, hs, hfill]
  have hv0 : m.validate true true false false none = .ok () := by
    simp [CModel.validate, bind, Except.bind, hvt, CModel.decisionUnits, hm.unitsEq]
  have hpu : ∃ m' p, m.partialUtilities = (m', .ok p) ∧ m'.scope = m.scope := by
    unfold CModel.partialUtilities
    simp only [hv0, CModel.decisionUnits, hm.unitsEq, hl]
    cases hca : m.cached with
    | none => exact ⟨_, _, rfl, rfl⟩
    | some p => exact ⟨_, _, rfl, rfl⟩
  obtain ⟨m', ⟨ix, u⟩, hp, hsc⟩ := hpu
  have he : ∀ syms, evalExpr A m.scope labels syms u (oneLookup text t path func) = .error er := by
    intro syms
    simp [evalExpr, oneLookup, columnMask, addDicts, addChains, List.foldlM, hs, hch, bind, Except.bind, pure, Except.pure, Except.map]
  unfold CModel.runUtilities
  simp only [hv, hc]
  unfold CModel.evaluate
  simp only [hm.unitsEq, hl, hp, hsc, symLocals, List.foldlM_nil, pure, Except.pure, evalLoop, he]

omit [FOps F] in
theorem shapeVector_at {o : Bool} {n m : Nat} {g : Nat → Val F} {i j : Nat} (hi : i < n) (hj : j < m) :
    Local.at none n m i j (.array (shapeVector o (if o then m else n) g)) = some (g (if o then j else i)) := by
  cases o with
  | false =>
    by_cases h1 : n = 1
    · subst h1; simp [Local.at, Arr.cell, shapeVector, show i = 0 by omega]
    · simp [Local.at, Arr.cell, shapeVector, h1]
  | true =>
    by_cases h1 : m = 1
    · subst h1; simp [Local.at, Arr.cell, shapeVector, show j = 0 by omega]
    · simp [Local.at, Arr.cell, shapeVector, h1]

open Classical in
/-- the run of the model when the lookup succeeds -/
theorem OnlyExpr.computes {env : PyEnv} {py : PyParser} (A : Kernel F) {m : CModel U F} {text : Str} {e : PExpr} (h : OnlyExpr env py m text e)
    {t : Str} {path : List Str} {func : Option (Str × PExpr)} (hd : DottedLookup e t path func)
    {paths : List (List Name)} {depth : Nat} {units : List U} (hm : Consistent m paths depth units) (hvt : validateTree m.tree = .ok ())
    {o al : Bool} {ma : List Str} {T : TableData F} (hs : dictGet m.scope t = some (.table o ma al (some T)))
    {g : Nat → Val F} (hch : (Sym.table o ma al (some T)).getChain ⟨path.reverse, func⟩ = .ok (.array (shapeVector o T.rows g)))
    {v : Nat → Nat → F} (hacc : ∀ i j, i < units.length → j < paths.length → A.acc (startAt m i j) (g (if o then j else i)) = some (v i j))
    (clear : Bool) :
    ∃ u : Tab F, u.rows = units.length ∧ u.cols = paths.length ∧ (∀ i j, i < units.length → j < paths.length → u.val i j = v i j) ∧
      (m.runUtilities A none clear).2 = if ∃ i j, i < units.length ∧ j < paths.length ∧ isNan (v i j) = true then .error .utilityBounds else .ok u := by
  have hc := h.container hd
  obtain ⟨labels, hl, hL⟩ := hm.choices
  have hlen : labels.length = paths.length := by rw [hL.labels]; simp
  have hv : m.validate true true true true none = .ok () := by
    simp [CModel.validate, bind, Except.bind, hvt, CModel.decisionUnits, hm.unitsEq, hc, checkSymbols, hs, Sym.filled]
  have hv0 : m.validate true true false false none = .ok () := by
    simp [CModel.validate, bind, Except.bind, hvt, CModel.decisionUnits, hm.unitsEq]
  have hrow : T.rows = if o then paths.length else units.length := hm.fits _ (dictGet_mem hs)
  have hpu : ∃ m' ix u, m.partialUtilities = (m', .ok (ix, u)) ∧ m'.scope = m.scope ∧ u.rows = units.length ∧ u.cols = paths.length ∧
      ∀ i j, u.val i j = startAt m i j := by
    unfold CModel.partialUtilities
    simp only [hv0, CModel.decisionUnits, hm.unitsEq, hl]
    cases hca : m.cached with
    | none => exact ⟨_, _, _, rfl, rfl, rfl, hlen, fun i j => by simp [startAt, hca]⟩
    | some p => exact ⟨_, _, _, rfl, rfl, (hm.cached p.1 p.2 hca).1, (hm.cached p.1 p.2 hca).2, fun i j => by simp [startAt, hca]⟩
  obtain ⟨m', ix, u, hp, hsc, hur, huc, huv⟩ := hpu
  have hcell : ∀ syms i j, i < units.length → j < paths.length →
      newCell A (.name (subName t 0)) (dictSet (reservedLocals A u ++ syms) (subName t 0) (.array (shapeVector o T.rows g))) u none i j = some (v i j) := by
    intro syms i j hi hj
    simp only [newCell, ne, dictGet_dictSet, if_true, Option.bind_some]
    rw [hur, huc, hrow, shapeVector_at hi hj, Option.bind_some, huv]
    exact hacc i j hi hj
  obtain ⟨u', he, hr', hc', hv'⟩ : ∃ u' : Tab F, evalExpr A m.scope labels [] u (oneLookup text t path func) = .ok u' ∧ u'.rows = units.length ∧ u'.cols = paths.length ∧
      ∀ i j, i < units.length → j < paths.length → u'.val i j = v i j := by
    refine ⟨⟨u.rows, u.cols, fun i j => if i < u.rows ∧ j < u.cols ∧ applies none j then (newCell A (.name (subName t 0))
      (dictSet (reservedLocals A u ++ []) (subName t 0) (.array (shapeVector o T.rows g))) u none i j).getD (u.val i j) else u.val i j⟩, ?_, hur, huc, ?_⟩
    · simp only [evalExpr, oneLookup, columnMask, addDicts, addChains, List.foldlM_cons, List.foldlM_nil, hs, hch, bind, Except.bind, pure, Except.pure,
        Except.map]
      unfold kernelEval
      rw [if_neg, if_pos]
      · simp only [List.all_eq_true, List.mem_range, hur, huc]
        intro i hi j hj
        rw [hcell [] i j hi hj]; simp
      · simp [badColumn, badOut]
    · intro i j hi hj
      simp only [hur, huc, hi, hj, applies, and_self, if_true]
      rw [hcell [] i j hi hj]; rfl
  refine ⟨u', hr', hc', hv', ?_⟩
  have hnan : hasNan u' = true ↔ ∃ i j, i < units.length ∧ j < paths.length ∧ isNan (v i j) = true := by
    rw [hasNan_iff, hr', hc']
    constructor
    · rintro ⟨i, j, hi, hj, hn⟩; exact ⟨i, j, hi, hj, hv' i j hi hj ▸ hn⟩
    · rintro ⟨i, j, hi, hj, hn⟩; exact ⟨i, j, hi, hj, (hv' i j hi hj).symm ▸ hn⟩
  unfold CModel.runUtilities
  simp only [hv, hc]
  unfold CModel.evaluate
  simp only [hm.unitsEq, hl, hp, hsc, symLocals, List.foldlM_nil, pure, Except.pure, evalLoop, he]
  by_cases hn : hasNan u' = true
  · rw [if_pos (hnan.mp hn), if_pos hn]
  · rw [if_neg (fun hh => hn (hnan.mpr hh)), if_neg hn]
    simp [hr', hc', hlen]

/-! ## the theorems -/

omit [FOps F] in
theorem vector_ok {c : LCol V} {a : List (Val F)} (h : K.conv c = .ok a) : K.vector (.ok c) = .ok fun i => a[i]?.getD (.bool false) := by
  simp [EvEnv.vector, h]

omit [FOps F] in
theorem getChain_long {o al : Bool} {ma : List Str} {T : TableData F} {path : List Str} {func : Option (Str × PExpr)} (hp : 2 ≤ path.length)
    (hl : T.linked = true) {g : Nat → Val F} (hw : T.walk path func = .ok g) :
    (Sym.table o ma al (some T)).getChain ⟨path.reverse, func⟩ = .ok (.array (shapeVector o T.rows g)) := by
  have hlen : 2 ≤ path.reverse.length := by simpa using hp
  have hrr : path.reverse.reverse = path := List.reverse_reverse path
  unfold Sym.getChain
  simp only
  match hq : path.reverse with
  | [] => rw [hq] at hlen; simp at hlen
  | [_] => rw [hq] at hlen; simp at hlen
  | a :: b :: rest =>
    rw [hq] at hrr
    simp only [hl, if_true, hrr, hw, Except.map]

open Classical in
/-- **C52 (partial: two links or more)** A model whose only expression is the aggregation `t.l1.l2...lk.f(arg)` with k ≥ 2, where `t` is a
table over units (or choices) to which a LinkedDataFrame was assigned: if the same aggregation, written in Python on the frame,
succeeds, the utilities are these values, in the row of each unit (or choice), added to what there was. -/
theorem C52_aggregation_partial {env : PyEnv} {py : PyParser} (A : Kernel F) {m : CModel U F} {text : Str} {e : PExpr} (h : OnlyExpr env py m text e)
    {t fn : Str} {path : List Str} {arg : PExpr} (he : ∃ d, e = .call (.attr d fn) (.cons arg .nil) .nil ∧ dotted d = some (t, path)) (hfn : fn ∈ aggregationNames)
    (hlen : 2 ≤ path.length)
    {paths : List (List Name)} {depth : Nat} {units : List U} (hm : Consistent m paths depth units) (hvt : validateTree m.tree = .ok ())
    {o al : Bool} {ma : List Str} {w : LWorld V} {r : Nat} {f : LFrame V} (hl : f.linked = true)
    (hs : dictGet m.scope t = some (.table o ma al (some (K.tableData E w r f))))
    {c : LCol V} {a : List (Val F)} (hagg : (E.aggregate (K.argEval E) w r path fn arg K.intFill).2 = .ok c) (hconv : K.conv c = .ok a)
    {v : Nat → Nat → F} (hacc : ∀ i j, i < units.length → j < paths.length → ∃ x, a[if o then j else i]? = some x ∧ A.acc (startAt m i j) x = some (v i j))
    (clear : Bool) :
    ∃ u : Tab F, u.rows = units.length ∧ u.cols = paths.length ∧ (∀ i j, i < units.length → j < paths.length → u.val i j = v i j) ∧
      (m.runUtilities A none clear).2 = if ∃ i j, i < units.length ∧ j < paths.length ∧ isNan (v i j) = true then .error .utilityBounds else .ok u := by
  obtain ⟨d, rfl, hd⟩ := he
  refine h.computes A (.agg hd hfn) hm hvt hs (g := fun i => a[i]?.getD (.bool false)) (getChain_long hlen hl ?_) ?_ clear
  · simp [EvEnv.tableData, hagg, vector_ok hconv]
  · intro i j hi hj
    obtain ⟨x, h1, h2⟩ := hacc i j hi hj
    rw [h1]; exact h2

open Classical in
/-- **C52 without aggregation** `t.l1...lk.col` with k ≥ 1 is the lookup on the frame. -/
theorem C52_lookup {env : PyEnv} {py : PyParser} (A : Kernel F) {m : CModel U F} {text : Str} {e : PExpr} (h : OnlyExpr env py m text e)
    {t col : Str} {path : List Str} (he : ∃ d, e = .attr d col ∧ dotted d = some (t, path)) (hlen : path ≠ [])
    {paths : List (List Name)} {depth : Nat} {units : List U} (hm : Consistent m paths depth units) (hvt : validateTree m.tree = .ok ())
    {o al : Bool} {ma : List Str} {w : LWorld V} {r : Nat} {f : LFrame V} (hl : f.linked = true)
    (hs : dictGet m.scope t = some (.table o ma al (some (K.tableData E w r f))))
    {c : LCol V} {a : List (Val F)} (hlook : (E.lookup w r path col).2 = .ok c) (hconv : K.conv c = .ok a)
    {v : Nat → Nat → F} (hacc : ∀ i j, i < units.length → j < paths.length → ∃ x, a[if o then j else i]? = some x ∧ A.acc (startAt m i j) x = some (v i j))
    (clear : Bool) :
    ∃ u : Tab F, u.rows = units.length ∧ u.cols = paths.length ∧ (∀ i j, i < units.length → j < paths.length → u.val i j = v i j) ∧
      (m.runUtilities A none clear).2 = if ∃ i j, i < units.length ∧ j < paths.length ∧ isNan (v i j) = true then .error .utilityBounds else .ok u := by
  obtain ⟨d, rfl, hd⟩ := he
  have hd' : dotted (.attr d col) = some (t, path ++ [col]) := by simp [dotted, hd]
  have h2 : 2 ≤ (path ++ [col]).length := by
    have := List.length_pos_iff.mpr hlen
    simp; omega
  refine h.computes A (.plain hd') hm hvt hs (g := fun i => a[i]?.getD (.bool false)) (getChain_long h2 hl ?_) ?_ clear
  · simp [EvEnv.tableData, hlook, vector_ok hconv]
  · intro i j hi hj
    obtain ⟨x, h1, h2⟩ := hacc i j hi hj
    rw [h1]; exact h2

/-- **C52 (violated over one link)** `t.link.f(arg)`, for every link of the assigned frame, every reduction and argument: the run raises
AttributeError, whatever the aggregation on the frame gives. -/
theorem C52_one_link_refuted {env : PyEnv} {py : PyParser} (A : Kernel F) {m : CModel U F} {text : Str} {e : PExpr} (h : OnlyExpr env py m text e)
    {t fn link : Str} {arg : PExpr} (he : e = .call (.attr (.attr (.name t) link) fn) (.cons arg .nil) .nil) (hfn : fn ∈ aggregationNames)
    {paths : List (List Name)} {depth : Nat} {units : List U} (hm : Consistent m paths depth units) (hvt : validateTree m.tree = .ok ())
    {o al : Bool} {ma : List Str} {w : LWorld V} {r : Nat} {f : LFrame V} (hlink : link ∈ f.links.map (·.1))
    (hs : dictGet m.scope t = some (.table o ma al (some (K.tableData E w r f)))) (clear : Bool) :
    (m.runUtilities A none clear).2 = .error .attribute := by
  subst he
  refine h.fails A (.agg (path := [link]) rfl hfn) hm hvt hs rfl ?_ clear
  simp only [Sym.getChain, List.reverse_singleton, EvEnv.tableData, if_pos hlink, Except.map]

open Classical in
/-- **C52 (violated over a column)** `t.col.f(arg)`, which has no meaning, evaluates to the column itself: the reduction and its argument are
ignored. -/
theorem C52_column_refuted {env : PyEnv} {py : PyParser} (A : Kernel F) {m : CModel U F} {text : Str} {e : PExpr} (h : OnlyExpr env py m text e)
    {t fn col : Str} {arg : PExpr} (he : e = .call (.attr (.attr (.name t) col) fn) (.cons arg .nil) .nil) (hfn : fn ∈ aggregationNames)
    {paths : List (List Name)} {depth : Nat} {units : List U} (hm : Consistent m paths depth units) (hvt : validateTree m.tree = .ok ())
    {o al : Bool} {ma : List Str} {w : LWorld V} {r : Nat} {f : LFrame V} (hw : w.frames[r]? = some f) (hlink : col ∉ f.links.map (·.1))
    (hs : dictGet m.scope t = some (.table o ma al (some (K.tableData E w r f))))
    {c : LCol V} {a : List (Val F)} (hcol : dictGet f.cols col = some c) (hconv : K.conv c = .ok a)
    {v : Nat → Nat → F} (hacc : ∀ i j, i < units.length → j < paths.length → ∃ x, a[if o then j else i]? = some x ∧ A.acc (startAt m i j) x = some (v i j))
    (clear : Bool) :
    (∃ u : Tab F, u.rows = units.length ∧ u.cols = paths.length ∧ (∀ i j, i < units.length → j < paths.length → u.val i j = v i j) ∧
      (m.runUtilities A none clear).2 = if ∃ i j, i < units.length ∧ j < paths.length ∧ isNan (v i j) = true then .error .utilityBounds else .ok u) ∧
    ∃ er, (E.aggregate (K.argEval E) w r [col] fn arg K.intFill).2 = .error er := by
  subst he
  constructor
  · refine h.computes A (.agg (path := [col]) rfl hfn) hm hvt hs (g := fun i => a[i]?.getD (.bool false)) ?_ ?_ clear
    · simp only [Sym.getChain, List.reverse_singleton, EvEnv.tableData, if_neg hlink, hcol, vector_ok hconv, Except.map]
    · intro i j hi hj
      obtain ⟨x, h1, h2⟩ := hacc i j hi hj
      rw [h1]; exact h2
  · have hn : w.link? r col = none := by
      unfold LWorld.link?
      rw [hw]
      simp only [Option.bind_some]
      cases hg : dictGet f.links col with
      | none => rfl
      | some l => exact absurd (List.mem_map.mpr ⟨_, dictGet_mem hg, rfl⟩) hlink
    have hwk : ∃ er, w.walk r [col] [] = .error er := by
      rw [LWorld.walk, hn]
      exact ⟨_, rfl⟩
    obtain ⟨er, hwk⟩ := hwk
    refine ⟨er, ?_⟩
    unfold LEnv.aggregate
    rw [hwk]

theorem reads_calm {ev : Evaluator V} (hev : EvCalm E ev) {isid : Str → Bool} : ∀ {ops : List (LOp V)} {w : LWorld V}, LGood E w → (∀ op ∈ ops, ReadOp op) →
    Calm E w (lrun E isid ev w ops)
  | [], _, h, _ => Calm.refl h
  | op :: ops, w, h, hr => by
    have h1 : Calm E w (lstep E isid ev w op).1 := by
      cases hr op List.mem_cons_self with
      | lookup r path col => exact lookup_calm h r path col
      | aggregate py r path func arg intFill => exact aggregate_calm (by cases py <;> [exact hev; exact orColumn_calm hev]) h r path func arg intFill
    exact h1.trans (reads_calm hev h1.1.2.1 fun o ho => hr o (List.mem_cons_of_mem _ ho))

omit [FOps F] in
/-- what a table's lookups give does not depend on what was looked up before -/
theorem C52_stable (hK : K.Ok) {isid : Str → Bool} {ops reads : List (LOp V)} (hs : SafeRun E isid (K.argEval E) E.start ops)
    (hr : ∀ op ∈ reads, ReadOp op) {r : Nat} {f f' : LFrame V} :
    let w := lrun E isid (K.argEval E) E.start ops
    let w' := lrun E isid (K.argEval E) w reads
    w.frames[r]? = some f → w'.frames[r]? = some f' → K.tableData E w' r f' = K.tableData E w r f := by
  intro w w' hf hf'
  have hg : LGood E w := good_run (argEval_keeps hK) LGood.start hs
  have hc : Calm E w w' := reads_calm (argEval_calm hK) hg hr
  have hl : LikeWorld E w w' := ⟨hc.1.1, hc.2, hg, hc.1.2.1⟩
  obtain ⟨f2, hf2, hsf⟩ := hc.1.1.frame hf
  rw [hf'] at hf2
  obtain rfl := Option.some.inj hf2
  have c1 : f'.cols = f.cols := by rw [hsf.1]
  have c2 : f'.links.map (·.1) = f.links.map (·.1) := hsf.names
  have c3 : f'.rows = f.rows := by rw [hsf.1]; rfl
  have c4 : f'.linked = f.linked := by rw [hsf.1]
  unfold EvEnv.tableData
  simp only [c1, c2, c3, c4, TableData.mk.injEq, true_and]
  funext path func
  cases func with
  | some p =>
    obtain ⟨fn, arg⟩ := p
    simp only
    rw [aggregate_cache (argEval_calm hK) (argEval_cache hK) hl]
  | none =>
    simp only
    cases path.getLast? with
    | none => rfl
    | some col => simp only; rw [lookup_cache hl.cache hl.left hl.right]

/-! ## copy_subset of a model with linked tables -/

/-- converting some rows of a column gives these rows of the converted column -/
def EvEnv.Rowwise (K : EvEnv V F) : Prop :=
  ∀ c a ix, K.conv c = .ok a → InRange c.vals.length ix → K.conv ⟨c.kind, pick c.vals ix⟩ = .ok (pick a ix)

omit [FOps F] in
theorem vector_pick (hK : K.Ok) (hrw : K.Rowwise) {c : LCol V} {pos : List Nat} {n : Nat} (hlen : c.vals.length = n) (hpos : ∀ i ∈ pos, i < n)
    {g : Nat → Val F} (h : K.vector (.ok c) = .ok g) :
    ∃ g', K.vector (.ok ⟨c.kind, pick c.vals (pos.map fun (i : Nat) => (i : Int))⟩) = .ok g' ∧ ∀ i, i < pos.length → g' i = g (pos.getD i 0) := by
  unfold EvEnv.vector at h ⊢
  simp only at h ⊢
  cases hc : K.conv c with
  | error e => rw [hc] at h; simp at h
  | ok a =>
    rw [hc] at h
    simp only [Except.ok.injEq] at h
    have hir : InRange c.vals.length (pos.map fun (i : Nat) => (i : Int)) := by rw [hlen]; exact natPos_inRange hpos
    rw [hrw c a _ hc hir]
    refine ⟨_, rfl, fun i hi => ?_⟩
    have hal := hK.conv c a hc
    rw [pick_get (by rw [hal]; exact hir)]
    simp only [List.getElem?_map, List.getElem?_eq_getElem hi, Option.map_some, Option.bind_some, Int.toNat_natCast]
    rw [← h]
    simp [List.getD, List.getElem?_eq_getElem hi]

omit [FOps F] in
/-- **C41 for linked tables** The table `t.loc[mask]` a subset of a model gets (`TableData.take`) is right for LinkedDataFrames with precomputed
links: after any history of eager operations, what a column, a chained lookup or an aggregated lookup gives on the selected frame is what
it gives on the frame, at the selected rows. -/
theorem C41_linked (hK : K.Ok) (hrw : K.Rowwise) {isid : Str → Bool} {ops : List (LOp V)} (hs : EagerRun E isid (K.argEval E) E.start ops)
    {w : LWorld V} (hw : w = lrun E isid (K.argEval E) E.start ops) {r : Nat} {f : LFrame V} (hf : w.frames[r]? = some f)
    {mask : List Bool} (hmask : mask.length = f.rows) (pk : Nat → List V) (pc : Str → Nat → V) :
    ∃ w2 r' f', lstep E isid (K.argEval E) w (.select r ((maskPositions mask).map fun (i : Nat) => (i : Int)) pk pc) = (w2, .ok (.frame r')) ∧
      w2.frames[r']? = some f' ∧
      let T := (K.tableData E w r f).take mask
      let T' := K.tableData E w2 r' f'
      T'.rows = T.rows ∧ T'.linked = T.linked ∧ T'.columns = T.columns ∧
      (∀ a g, T.column a = .ok g → ∃ g', T'.column a = .ok g' ∧ ∀ i, i < T.rows → g' i = g i) ∧
      (∀ path func g, T.walk path func = .ok g → ∃ g', T'.walk path func = .ok g' ∧ ∀ i, i < T.rows → g' i = g i) := by
  obtain ⟨h, ha⟩ : LGood E w ∧ AllEager w := by rw [hw]; exact hs.good (argEval_keeps hK)
  have hpos : ∀ i ∈ maskPositions mask, i < f.rows := fun i hi => hmask ▸ maskPositions_lt hi
  have hir := natPos_inRange hpos
  obtain ⟨f', hf'⟩ := select_total h hf hir pk pc
  have hro := select_rowsOf (h.wf f (List.mem_of_getElem? hf)) hir hf'
  have hsl : SliceOf w r f f' _ := ⟨hf, hir, ha f (List.mem_of_getElem? hf), hro.1, hro.2⟩
  refine ⟨w.push f', w.frames.length, f', by simp [lstep, LWorld.derive, hf, hf'], push_new _ _, ?_⟩
  refine ⟨?_, hro.1.linked, ?_, ?_, ?_⟩
  · simp only [EvEnv.tableData, TableData.take]
    rw [hro.1.rows hir]; simp
  · simp [EvEnv.tableData, TableData.take, hro.1.cols, Function.comp_def]
  · intro a g hg
    simp only [EvEnv.tableData, TableData.take] at hg ⊢
    rw [hro.1.names]
    split at hg
    · simp [Except.map] at hg
    · rename_i hln
      rw [if_neg hln]
      cases hc : dictGet f.cols a with
      | none => rw [hc] at hg; simp [Except.map] at hg
      | some c =>
        rw [hc] at hg
        simp only at hg
        cases hv : K.vector (.ok c) with
        | error e => rw [hv] at hg; simp [Except.map] at hg
        | ok g0 =>
          rw [hv] at hg
          simp only [Except.map, Except.ok.injEq] at hg
          have hlen : c.vals.length = f.rows := (h.wf f (List.mem_of_getElem? hf)).cols _ (dictGet_mem hc)
          obtain ⟨g', h1, h2⟩ := vector_pick hK hrw hlen hpos hv
          have hd : dictGet f'.cols a = some ⟨c.kind, pick c.vals ((maskPositions mask).map fun (i : Nat) => (i : Int))⟩ := by
            rw [hro.1.cols]
            rw [dictGet_mapCols f.cols (fun _ c => (⟨c.kind, pick c.vals ((maskPositions mask).map fun (i : Nat) => (i : Int))⟩ : LCol V)), hc]; rfl
          rw [hd]
          exact ⟨g', h1, fun i hi => by rw [h2 i hi, ← hg]⟩
  · intro path func g hg
    have fin : ∀ x x' : Except Err (LCol V), (∀ c, x = .ok c → c.vals.length = f.rows ∧
          x' = .ok ⟨c.kind, pick c.vals ((maskPositions mask).map fun (i : Nat) => (i : Int))⟩) →
        ((K.vector x).map fun f i => f ((maskPositions mask).getD i 0)) = .ok g → ∃ g', K.vector x' = .ok g' ∧ ∀ i, i < (maskPositions mask).length → g' i = g i := by
      intro x x' hx hg
      cases x with
      | error e => simp [EvEnv.vector, Except.map] at hg
      | ok c =>
        obtain ⟨hlen, rfl⟩ := hx c rfl
        cases hv : K.vector (.ok c) with
        | error e => rw [hv] at hg; simp [Except.map] at hg
        | ok g0 =>
          rw [hv] at hg
          simp only [Except.map, Except.ok.injEq] at hg
          obtain ⟨g', h1, h2⟩ := vector_pick hK hrw hlen hpos hv
          exact ⟨g', h1, fun i hi => by rw [h2 i hi, ← hg]⟩
    simp only [EvEnv.tableData, TableData.take] at hg ⊢
    cases func with
    | some p =>
      obtain ⟨fn, arg⟩ := p
      exact fin _ _ (fun c hc => ⟨aggregate_length (argEval_keeps hK) h hf hc, hsl.aggregate (argEval_keeps hK) (argEval_push hK) h hc⟩) hg
    | none =>
      simp only at hg ⊢
      cases hp : path.getLast? with
      | none => rw [hp] at hg; simp [Except.map] at hg
      | some col =>
        rw [hp] at hg
        exact fin _ _ (fun c hc => ⟨lookup_length hf hc, hsl.lookup h hc⟩) hg

/-! ## a concrete model -/

/-- frame 0: households 10 and 20; frame 1: persons in households 20, 10, 10, a plain DataFrame; frame 2: the decision makers, in households 20
and 10, with a column `a` -/
def txOps : List (LOp Int) := [
  .new true [some lxH] [[10], [20]] [],
  .new false [some lxP] [[0], [1], [2]] [(lxH, ⟨.int, [20, 10, 10]⟩)],
  .new true [some lxP] [[7], [8]] [(lxH, ⟨.int, [20, 10]⟩), (lxA, ⟨.int, [5, 6]⟩)],
  .linkTo 0 1 lxP { onOther := some [lxH] },
  .linkTo 2 0 lxHh { onSelf := some [lxH] }]

/-- `1` for every row, whatever pandas is asked to evaluate -/
noncomputable def txK : EvEnv Int XR where
  arith := { lit := fun q => .fin q, nan := .nan, neg := fun _ => none, bin := fun _ _ _ => none, inv := fun _ => none, cmp := fun _ _ _ => none, fn := fun _ _ => none }
  py := { strNodes := true, isFunction := fun _ => false, f32 := id, mode := .cheval }
  conv c := .ok (c.vals.map fun (x : Int) => .num (.fin (x : ℝ)))
  back a := ⟨.int, a.map fun _ => 0⟩
  negInf := .ninf
  intFill := -1
  pandasEval _ ix _ _ := .ok ⟨.int, ix.map fun _ => 1⟩

theorem txK_ok : txK.Ok where
  conv c a h := by simp only [txK, Except.ok.injEq] at h; rw [← h]; simp
  back a := by simp [txK]
  pandasEval lv ix cols e c h := by simp only [txK, Except.ok.injEq] at h; rw [← h]; simp

theorem txK_rowwise : txK.Rowwise := by
  intro c a ix h _
  simp only [txK, Except.ok.injEq] at h ⊢
  subst h
  simp only [pick, List.map_filterMap]
  congr 1
  funext i
  simp

noncomputable def txW : LWorld Int := lrun lxE lxId (txK.argEval lxE) lxE.start txOps

theorem tx_safe : SafeRun lxE lxId (txK.argEval lxE) lxE.start txOps := safeRunCheck_ok (by decide)

def txText : Str := ['e']
/-- `t.hh.p.sum(x)` -/
def txTwo : PExpr := .call (.attr (.attr (.attr (.name exT) lxHh) lxP) "sum".toList) (.cons (.name exX) .nil) .nil
/-- `t.p.sum(x)` -/
def txOne : PExpr := .call (.attr (.attr (.name exT) lxP) "sum".toList) (.cons (.name exX) .nil) .nil
/-- `t.a.sum(x)` -/
def txCol : PExpr := .call (.attr (.attr (.name exT) lxA) "sum".toList) (.cons (.name exX) .nil) .nil

/-- a model with units 7 and 8, the table `t` and one expression -/
noncomputable def txModel (env : PyEnv) (py : PyParser) (T : TableData XR) : CModel Nat XR :=
  ⟨after exampleOps, groupRun env py ExprGroup.empty [.append txText none], [(exT, .table false [] true (some T))], some [7, 8], none, 8⟩

theorem tx_consistent (env : PyEnv) (py : PyParser) {T : TableData XR} (hT : T.rows = 2) : Consistent (txModel env py T) emPaths 2 [7, 8] := by
  refine ⟨rfl, ?_, ?_, by intro ix u h; cases h⟩
  · obtain ⟨labels, h1, h2⟩ := labelled_after exampleOps exampleOps_clean exampleOps_valid
    refine ⟨labels, h1, ?_⟩
    rw [exampleOps_expected] at h2
    simpa [Choices.depth, emPaths] using h2
  · intro e he
    simp only [txModel, List.mem_singleton] at he
    subst he
    exact hT

theorem tx_only (env : PyEnv) {e : PExpr} (T : TableData XR) : OnlyExpr env (fun _ => .ok e) (txModel env (fun _ => .ok e) T) txText e :=
  ⟨rfl, txText, by decide, rfl⟩

/-- addition of exact numbers -/
noncomputable def txA : Kernel XR := { txK.arith with acc := fun a v => match v with | .num x => some (add a x) | _ => none }

/-- `t.hh.p.sum(x)` on the decision makers: 1 for the one in household 20, 2 for the other, for all choices -/
example (env : PyEnv) : ∃ f, txW.frames[2]? = some f ∧
    ∃ u : Tab XR, u.rows = 2 ∧ u.cols = 4 ∧ (∀ i j, i < 2 → j < 4 → u.val i j = .fin (if i = 0 then 1 else 2)) ∧
      ((txModel env (fun _ => .ok txTwo) (txK.tableData lxE txW 2 f)).runUtilities txA none false).2 = .ok u := by
  obtain ⟨f, hf, hl, hr⟩ : ∃ f, txW.frames[2]? = some f ∧ f.linked = true ∧ f.rows = 2 := ⟨_, rfl, rfl, rfl⟩
  refine ⟨f, hf, ?_⟩
  have hagg : (lxE.aggregate (txK.argEval lxE) txW 2 [lxHh, lxP] "sum".toList (.name exX) txK.intFill).2 = .ok ⟨.int, [1, 2]⟩ := rfl
  obtain ⟨u, h1, h2, h3, h4⟩ := C52_aggregation_partial (K := txK) (E := lxE) txA (tx_only env (e := txTwo) (txK.tableData lxE txW 2 f))
    (path := [lxHh, lxP]) ⟨_, rfl, rfl⟩ (by decide) (by decide) (tx_consistent env _ hr) exampleOps_valid hl
    (o := false) (ma := []) (al := true) (by simp [txModel, dictGet]) hagg (a := [.num (.fin 1), .num (.fin 2)]) (by simp [txK])
    (v := fun i _ => .fin (if i = 0 then 1 else 2)) (by
      intro i j hi hj
      have : i = 0 ∨ i = 1 := by simp at hi; omega
      rcases this with rfl | rfl
      · exact ⟨_, rfl, by simp [txA, startAt, txModel, add, zero]; simp [XR.add]⟩
      · exact ⟨_, rfl, by simp [txA, startAt, txModel, add, zero]; simp [XR.add]⟩) false
  refine ⟨u, h1, h2, h3, ?_⟩
  rw [h4, if_neg]
  rintro ⟨i, j, -, -, hn⟩
  simp [isNan, XR.isNan] at hn

/-- `t.p.sum(x)` on the households raises, although the aggregation is 2 and 1 -/
example (env : PyEnv) : ∃ f, txW.frames[0]? = some f ∧
    ((txModel env (fun _ => .ok txOne) (txK.tableData lxE txW 0 f)).runUtilities txA none false).2 = .error .attribute ∧
    (lxE.aggregate (txK.argEval lxE) txW 0 [lxP] "sum".toList (.name exX) txK.intFill).2 = .ok ⟨.int, [2, 1]⟩ := by
  obtain ⟨f, hf, hl, hr⟩ : ∃ f, txW.frames[0]? = some f ∧ lxP ∈ f.links.map (·.1) ∧ f.rows = 2 := ⟨_, rfl, by decide, rfl⟩
  exact ⟨f, hf, C52_one_link_refuted (K := txK) (E := lxE) txA (tx_only env (e := txOne) (txK.tableData lxE txW 0 f)) rfl (by decide)
    (tx_consistent env _ hr) exampleOps_valid (w := txW) (r := 0) hl (o := false) (ma := []) (al := true) (by simp [txModel, dictGet]) false, rfl⟩

/-- `t.a.sum(x)` on the decision makers is `t.a` -/
example (env : PyEnv) : ∃ f, txW.frames[2]? = some f ∧
    ∃ u : Tab XR, u.rows = 2 ∧ u.cols = 4 ∧ (∀ i j, i < 2 → j < 4 → u.val i j = .fin (if i = 0 then 5 else 6)) ∧
      ((txModel env (fun _ => .ok txCol) (txK.tableData lxE txW 2 f)).runUtilities txA none false).2 = .ok u := by
  obtain ⟨f, hf, hlk, hc, hr⟩ : ∃ f, txW.frames[2]? = some f ∧ lxA ∉ f.links.map (·.1) ∧ dictGet f.cols lxA = some ⟨.int, [5, 6]⟩ ∧ f.rows = 2 :=
    ⟨_, rfl, by decide, rfl, rfl⟩
  refine ⟨f, hf, ?_⟩
  obtain ⟨⟨u, h1, h2, h3, h4⟩, -⟩ := C52_column_refuted (K := txK) (E := lxE) txA (tx_only env (e := txCol) (txK.tableData lxE txW 2 f))
    rfl (by decide) (tx_consistent env _ hr) exampleOps_valid hf hlk
    (o := false) (ma := []) (al := true) (by simp [txModel, dictGet]) hc (a := [.num (.fin 5), .num (.fin 6)]) (by simp [txK])
    (v := fun i _ => .fin (if i = 0 then 5 else 6)) (by
      intro i j hi hj
      have : i = 0 ∨ i = 1 := by simp at hi; omega
      rcases this with rfl | rfl
      · exact ⟨_, rfl, by simp [txA, startAt, txModel, add, zero]; simp [XR.add]⟩
      · exact ⟨_, rfl, by simp [txA, startAt, txModel, add, zero]; simp [XR.add]⟩) false
  refine ⟨u, h1, h2, h3, ?_⟩
  rw [h4, if_neg]
  rintro ⟨i, j, -, -, hn⟩
  simp [isNan, XR.isNan] at hn

/-- the hypotheses of `C41_linked` on the decision makers: the second one alone -/
example : ∃ f, txW.frames[2]? = some f ∧ [false, true].length = f.rows ∧ EagerRun lxE lxId (txK.argEval lxE) lxE.start txOps := by
  refine ⟨_, rfl, rfl, ?_⟩
  simp only [EagerRun, EagerOp, txOps]
  decide

end Cheval
