import Verif.Core.Dtype
import Verif.Spec.ColumnTypes
import Verif.Props.LdfFills
import Verif.Props.LdfAggregates

/-!
# C79: columns are treated by the type of their values (cheval/ldf/missing_data.py:33-59, api.py:551-561)
-/
namespace Cheval
open Spec
variable {V : Type} [DecidableEq V] {E : LEnv V} {isid : Str → Bool} {ev : LWorld V → Nat → PExpr → LWorld V × Except Err (LCol V)}

theorem present_mem {cells : List ObjClass} {c : ObjClass} : c ∈ present cells ↔ c ∈ cells ∧ c ≠ .missing := by
  simp [present]

theorem present_all {cells : List ObjClass} {p : ObjClass → Prop} [DecidablePred p] :
    (present cells).all (fun c => decide (p c)) = true ↔ ∀ c ∈ cells, c = .missing ∨ p c := by
  simp only [List.all_eq_true, present_mem, decide_eq_true_eq]
  constructor
  · intro h c hc
    by_cases hm : c = .missing
    · exact Or.inl hm
    · exact Or.inr (h c ⟨hc, hm⟩)
  · intro h c hc
    exact (h c hc.1).resolve_left hc.2

/-- what the `.str` accessor accepts, by the values -/
theorem strInferred_iff (cells : List ObjClass) : strInferred cells = true ↔
    (∀ c ∈ cells, c = .missing ∨ c = .text) ∨ (∀ c ∈ cells, c = .missing ∨ c = .bytes) ∨
    ¬ ((∀ c ∈ cells, c = .missing ∨ c = .int ∨ c = .float) ∨ (∀ c ∈ cells, c = .missing ∨ c = .bool) ∨
      ∃ k, (∃ c ∈ cells, c = .special k) ∧ ∀ c ∈ cells, c = .missing ∨ c = .special k) := by
  have hs : (match present cells with
      | .special k :: _ => (present cells).all fun c => decide (c = .special k)
      | _ => false) = true ↔ ∃ k, (∃ c ∈ cells, c = .special k) ∧ ∀ c ∈ cells, c = .missing ∨ c = .special k := by
    constructor
    · intro h
      split at h
      · rename_i k l e
        refine ⟨k, ⟨.special k, ?_, rfl⟩, present_all.mp h⟩
        have : ObjClass.special k ∈ present cells := by rw [e]; simp
        exact (present_mem.mp this).1
      · exact absurd h (by simp)
    · rintro ⟨k, ⟨c, hc, rfl⟩, h⟩
      have hm : ObjClass.special k ∈ present cells := present_mem.mpr ⟨hc, by simp⟩
      cases e : present cells with
      | nil => rw [e] at hm; simp at hm
      | cons d l =>
        have hd : d = .special k := by
          have hd : d ∈ present cells := by rw [e]; simp
          exact (h d (present_mem.mp hd).1).resolve_left (present_mem.mp hd).2
        subst hd
        simp only
        rw [← e]
        exact present_all.mpr h
  unfold strInferred
  simp only [Bool.or_eq_true, Bool.not_eq_true', Bool.or_eq_false_iff, present_all]
  rw [← hs]
  have hn : ∀ b : Bool, b = false ↔ ¬ b = true := by intro b; cases b <;> simp
  rw [hn, hn, hn]
  rw [present_all, present_all]
  tauto

/-- `infer_dtype` of an object column -/
theorem inferDtype_object (cells : List ObjClass) : inferDtype (.object cells) = if strInferred cells then .text else .object := by
  simp [inferDtype, SDtype.hasCat, SDtype.hasStr, SDtype.hasDt, SDtype.inInts, SDtype.inUints, SDtype.inFloats]

/-- the treatment of a column is the documented one for what it holds: the fill, and whether numeric aggregations are offered -/
def TreatedRight (s : SDtype) : Prop :=
  defaultFills (inferDtype s) = documentedFill (holds s) ∧ ∀ func, func ∈ numericAggs → (Admitted func (inferDtype s) ↔ isNumeric (holds s))

theorem admitted_numeric {func : Str} (h : func ∈ numericAggs) (k : DKind) :
    Admitted func k ↔ (k = .int ∨ k = .uint ∨ k = .float ∨ k = .bool) := by
  unfold Admitted
  constructor
  · rintro (⟨h', -⟩ | ⟨-, h'⟩)
    · exfalso
      simp only [numericAggs, List.mem_cons, List.not_mem_nil, or_false] at h h'
      rcases h with rfl | rfl | rfl | rfl | rfl | rfl | rfl | rfl | rfl <;> revert h' <;> decide
    · exact h'
  · exact fun h' => Or.inr ⟨h, h'⟩

theorem treatedRight_iff (s : SDtype) : TreatedRight s ↔ defaultFills (inferDtype s) = documentedFill (holds s) ∧
    ((inferDtype s = .int ∨ inferDtype s = .uint ∨ inferDtype s = .float ∨ inferDtype s = .bool) ↔ isNumeric (holds s)) := by
  unfold TreatedRight
  constructor
  · rintro ⟨h1, h2⟩
    exact ⟨h1, by rw [← admitted_numeric (func := "sum".toList) (by decide)]; exact h2 _ (by decide)⟩
  · rintro ⟨h1, h2⟩
    exact ⟨h1, fun f hf => by rw [admitted_numeric hf]; exact h2⟩

/-- **C79 (exactly)** For every dtype, a column is treated as documented for the values it holds if and only if it is none of these: nullable
integers, floats or truth values; `longdouble`; an object column whose present values are not all texts, nor all of one of pandas' special
classes (so: numbers or truth values as objects, mixed or plain objects, no value at all). -/
theorem C79_exact_partial (s : SDtype) (hr : SDtype.real s) : TreatedRight s ↔ ¬ misjudged s := by
  rw [treatedRight_iff]
  cases s with
  | int b => rcases hr with rfl | rfl | rfl | rfl <;> simp [inferDtype, SDtype.hasCat, SDtype.hasStr, SDtype.hasDt, SDtype.inInts, defaultFills, holds, documentedFill, isNumeric, misjudged]
  | uint b => rcases hr with rfl | rfl | rfl | rfl <;> simp [inferDtype, SDtype.hasCat, SDtype.hasStr, SDtype.hasDt, SDtype.inInts, SDtype.inUints, defaultFills, holds, documentedFill, isNumeric, misjudged]
  | float b => rcases hr with rfl | rfl | rfl | rfl | rfl <;> simp [inferDtype, SDtype.hasCat, SDtype.hasStr, SDtype.hasDt, SDtype.inInts, SDtype.inUints, SDtype.inFloats, defaultFills, holds, documentedFill, isNumeric, misjudged]
  | object cells =>
    rw [inferDtype_object]
    have hi := strInferred_iff cells
    have hh : holds (.object cells) = if ∀ c ∈ cells, c = .missing then .anything
        else if ∀ c ∈ cells, c = .missing ∨ c = .text then .texts
        else if ∀ c ∈ cells, c = .missing ∨ c = .int then .integers
        else if ∀ c ∈ cells, c = .missing ∨ c = .bool then .truthValues
        else if ∀ c ∈ cells, c = .missing ∨ c = .int ∨ c = .float then .floats
        else .anything := rfl
    have hmis : misjudged (.object cells) ↔ ¬ ((∃ c ∈ cells, c = .text) ∧ ∀ c ∈ cells, c = .missing ∨ c = .text) ∧
      ¬ ∃ k, (∃ c ∈ cells, c = .special k) ∧ ∀ c ∈ cells, c = .missing ∨ c = .special k := Iff.rfl
    by_cases hm : ∀ c ∈ cells, c = .missing
    · have ht : strInferred cells = true := hi.mpr (Or.inl fun c hc => Or.inl (hm c hc))
      rw [hh, if_pos hm, ht]
      have : misjudged (.object cells) := by
        rw [hmis]
        refine ⟨?_, ?_⟩
        · rintro ⟨⟨c, hc, rfl⟩, -⟩; simpa using hm _ hc
        · rintro ⟨k, ⟨c, hc, rfl⟩, -⟩; simpa using hm _ hc
      simp [this, defaultFills, documentedFill]
    · rw [hh, if_neg hm]
      push Not at hm
      obtain ⟨c0, hc0, hne⟩ := hm
      by_cases hA : ∀ c ∈ cells, c = .missing ∨ c = .text
      · have ht : strInferred cells = true := hi.mpr (Or.inl hA)
        rw [if_pos hA, ht]
        have : ¬ misjudged (.object cells) := by
          rw [hmis]
          exact fun h => h.1 ⟨⟨c0, hc0, (hA c0 hc0).resolve_left hne⟩, hA⟩
        simp [this, defaultFills, documentedFill, isNumeric]
      · rw [if_neg hA]
        have hnum : ∀ {p : ObjClass → Prop}, (∀ c, p c → ∀ k, c ≠ .special k) → (∀ c ∈ cells, c = .missing ∨ p c) → misjudged (.object cells) := by
          intro p hp h
          rw [hmis]
          refine ⟨fun h' => hA h'.2, ?_⟩
          rintro ⟨k, -, h'⟩
          exact hp c0 ((h c0 hc0).resolve_left hne) k ((h' c0 hc0).resolve_left hne)
        by_cases hI : ∀ c ∈ cells, c = .missing ∨ c = .int
        · have hx := hnum (p := fun c => c = .int) (by rintro c rfl k; simp) hI
          rw [if_pos hI]
          simp [hx, documentedFill]
          split <;> simp [defaultFills]
        · rw [if_neg hI]
          by_cases hB : ∀ c ∈ cells, c = .missing ∨ c = .bool
          · have hx := hnum (p := fun c => c = .bool) (by rintro c rfl k; simp) hB
            rw [if_pos hB]
            simp [hx, documentedFill]
            split <;> simp [defaultFills]
          · rw [if_neg hB]
            by_cases hN : ∀ c ∈ cells, c = .missing ∨ c = .int ∨ c = .float
            · have hx := hnum (p := fun c => c = .int ∨ c = .float) (by rintro c (rfl | rfl) k <;> simp) hN
              rw [if_pos hN]
              simp [hx, documentedFill]
              split <;> simp [defaultFills]
            · rw [if_neg hN, hmis]
              by_cases hS : ∃ k, (∃ c ∈ cells, c = .special k) ∧ ∀ c ∈ cells, c = .missing ∨ c = .special k
              · have hf : strInferred cells = false := by
                  rw [Bool.eq_false_iff, ne_eq, hi]
                  rintro (h | h | h)
                  · exact hA h
                  · obtain ⟨k, ⟨c, hc, rfl⟩, -⟩ := hS
                    simpa using h _ hc
                  · exact h (Or.inr (Or.inr hS))
                rw [hf]
                have hn : ¬ (¬ ((∃ c ∈ cells, c = .text) ∧ ∀ c ∈ cells, c = .missing ∨ c = .text) ∧
                    ¬ ∃ k, (∃ c ∈ cells, c = ObjClass.special k) ∧ ∀ c ∈ cells, c = .missing ∨ c = .special k) := fun h => h.2 hS
                simp only [hn, defaultFills, documentedFill, isNumeric]
                simp
              · have ht : strInferred cells = true := hi.mpr (Or.inr (Or.inr fun h => by
                  rcases h with h | h | h
                  · exact hN h
                  · exact hB h
                  · exact hS h))
                rw [ht]
                have hy : (¬ ((∃ c ∈ cells, c = .text) ∧ ∀ c ∈ cells, c = .missing ∨ c = .text) ∧
                    ¬ ∃ k, (∃ c ∈ cells, c = ObjClass.special k) ∧ ∀ c ∈ cells, c = .missing ∨ c = .special k) := ⟨fun h => hA h.2, hS⟩
                simp only [hy, defaultFills, documentedFill, isNumeric]
                simp
  | _ => simp [inferDtype, SDtype.hasCat, SDtype.hasStr, SDtype.hasDt, SDtype.inInts, SDtype.inUints, SDtype.inFloats, defaultFills, holds, documentedFill, isNumeric, misjudged]

/-- **C79 (fills, plain target)** After any safe history in which no class default for the column's kind was requested, rows without a
partner get the fill documented for what the column holds, if the column is not one of the misjudged ones. `val` are the values of the
built-in fills. -/
theorem C79_fill_partial (hev : EvKeeps E ev) (hef : ∀ w o a, FillSame w (ev w o a).1) {ops : List (LOp V)}
    (hs : SafeRun E isid ev E.start ops) {w : LWorld V} (hw : w = lrun E isid ev E.start ops) (hkw : ∀ x ∈ ops, KwOk x)
    {val : FillVal → V} (hE : ∀ k, E.defaultFill k = val (defaultFills k))
    {r : Nat} {name : Str} {l : Link} (hl : w.link? r name = some l) (ha : l.agg = false)
    {g : LFrame V} (hg : w.frames[l.other]? = some g) (hgl : g.linked = false) {col : Str} {c : LCol V} (hc : dictGet g.cols col = some c)
    {s : SDtype} (hty : c.kind = inferDtype s) (hr : SDtype.real s) (hok : ¬ misjudged s)
    (hreq : lastRequest E none c.kind ops = none) {v : V} (hv : E.store c.kind (val (documentedFill (holds s))) = .ok v) (hne : g.rows ≠ 0) :
    ∃ w' out, E.lookup w r [name] col = (w', .ok ⟨c.kind, out⟩) ∧ out.length = w.rows r ∧
      ∀ i, i < w.rows r → ∃ k, w.keyAt r l.selfSpec i = some k ∧ ((∀ j, g.keyAt l.otherSpec j ≠ some k) → out[i]? = some v) := by
  have ht := ((C79_exact_partial s hr).mpr hok).1
  refine C50_plain hev hef hs hw hkw hl ha hg hgl hc ?_ hne
  rw [hreq, Option.getD_none, hE, hty, ht, ← hty]
  exact hv

/-- **C79 (fills, linked target)** The same for a target that is a LinkedDataFrame, if no fill was requested from it since it exists. -/
theorem C79_fill_linked_partial (hev : EvKeeps E ev) (hef : ∀ w o a, FillSame w (ev w o a).1) {pre post : List (LOp V)} {op : LOp V} {w0 : LWorld V}
    (hs : SafeRun E isid ev E.start (pre ++ op :: post)) {o : Nat} (ho : lstep E isid ev (lrun E isid ev E.start pre) op = (w0, .ok (.frame o)))
    {w : LWorld V} (hw : w = lrun E isid ev E.start (pre ++ op :: post)) (hkw : ∀ x ∈ post, KwOk x)
    {val : FillVal → V} (hE : ∀ k, E.defaultFill k = val (defaultFills k))
    {r : Nat} {name : Str} {l : Link} (hl : w.link? r name = some l) (ha : l.agg = false) (hlo : l.other = o)
    {g : LFrame V} (hg : w.frames[o]? = some g) (hgl : g.linked = true) {col : Str} {c : LCol V} (hc : dictGet g.cols col = some c)
    {s : SDtype} (hty : c.kind = inferDtype s) (hr : SDtype.real s) (hok : ¬ misjudged s)
    (hcf : lastColumnFill o col (lcalls E isid ev w0 post) = none) (hreq : lastRequest E (some o) c.kind post = none)
    {v : V} (hv : E.store c.kind (val (documentedFill (holds s))) = .ok v) (hne : g.rows ≠ 0) :
    ∃ w' out, E.lookup w r [name] col = (w', .ok ⟨c.kind, out⟩) ∧ out.length = w.rows r ∧
      ∀ i, i < w.rows r → ∃ k, w.keyAt r l.selfSpec i = some k ∧ ((∀ j, g.keyAt l.otherSpec j ≠ some k) → out[i]? = some v) := by
  have ht := ((C79_exact_partial s hr).mpr hok).1
  refine C50_lookup hev hef hs ho hw hkw hl ha hlo hg hgl hc ?_ hne
  rw [hreq, hcf, Option.getD_none, Option.getD_none, hE, hty, ht, ← hty]
  exact hv

/-- a column that holds numbers or truth values but is misjudged is taken for objects or texts -/
theorem misjudged_kind {s : SDtype} (hr : SDtype.real s) (hm : misjudged s) (hn : isNumeric (holds s)) :
    inferDtype s = .text ∨ inferDtype s = .object := by
  cases s with
  | nullableInt b => simp [inferDtype, SDtype.hasCat, SDtype.hasStr, SDtype.hasDt, SDtype.inInts, SDtype.inUints, SDtype.inFloats]
  | nullableUint b => simp [inferDtype, SDtype.hasCat, SDtype.hasStr, SDtype.hasDt, SDtype.inInts, SDtype.inUints, SDtype.inFloats]
  | nullableFloat b => simp [inferDtype, SDtype.hasCat, SDtype.hasStr, SDtype.hasDt, SDtype.inInts, SDtype.inUints, SDtype.inFloats]
  | nullableBool => decide
  | float b =>
    rcases hr with rfl | rfl | rfl | rfl | rfl <;> first | decide | (exact absurd hm (by simp [misjudged]))
  | object cells =>
    rw [inferDtype_object]
    split <;> decide
  | _ => exact absurd hm (by simp [misjudged])

/-- **C79 (aggregations)** Over a computed link that needs aggregation, the column `col` of the target can be summed, averaged and so on
if it holds numbers or truth values and is none of the misjudged ones. -/
theorem C79_aggregated_partial (hev : EvKeeps E ev) {ops : List (LOp V)} (hs : SafeRun E isid ev E.start ops) {w : LWorld V}
    (hw : w = lrun E isid ev E.start ops) {r : Nat} {n : Str} {l : Link} (hl : w.link? r n = some l) (ha : l.agg = true)
    (hcomp : l.flat.isSome = true) {g : LFrame V} (hg : w.frames[l.other]? = some g) (hrows : g.rows ≠ 0)
    {func : Str} (hfunc : func ∈ numericAggs) {col : Str} {c : LCol V}
    (hcol : dictGet g.cols col = some c) (hlink : col ∉ g.links.map (·.1))
    {s : SDtype} (hty : c.kind = inferDtype s) (hr : SDtype.real s) (hok : ¬ misjudged s) (hn : isNumeric (holds s))
    (hna : ∀ j k, g.keyAt l.otherSpec j = some k → E.naKey k = false)
    (hagg : ∀ vs, vs ≠ [] → (E.agg func c.kind vs).isSome = true) {intFill v : V}
    (hv : E.store (E.aggKind func c.kind) (groupFill c.kind intFill E.nan) = .ok v) :
    ∃ w' out, E.aggregate (orColumn ev) w r [n] func (.name col) intFill = (w', .ok ⟨E.aggKind func c.kind, out⟩) ∧ out.length = w.rows r ∧
      ∀ i k, i < w.rows r → w.keyAt r l.selfSpec i = some k →
        out[i]? = if g.matching l.otherSpec k c.vals = [] then some v else E.agg func c.kind (g.matching l.otherSpec k c.vals) :=
  C45_column_partial hev hs hw hl ha hcomp hg hrows hcol hlink
    (by rw [hty]; exact (((C79_exact_partial s hr).mpr hok).2 func hfunc).mpr hn) hna hagg hv

/-- **C79 fails** for columns that hold numbers or truth values but are nullable, `longdouble`, or stored as objects: over any link that needs
aggregation, in any state, every numeric aggregation of such a column raises RuntimeError, and the column's default fill is that of objects
or texts, not the one documented for what it holds. -/
theorem C79_numbers_refuted (w : LWorld V) {r : Nat} {path : List Str} {l : Link} {hist : List (Nat × Str)}
    (hwalk : w.walk r path [] = .ok (l, hist)) (ha : l.agg = true) {g : LFrame V} (hg : w.frames[l.other]? = some g)
    {func : Str} (hfunc : func ∈ numericAggs) {col : Str} {c : LCol V}
    (hcol : dictGet g.cols col = some c) (hlink : col ∉ g.links.map (·.1))
    {s : SDtype} (hty : c.kind = inferDtype s) (hr : SDtype.real s) (hm : misjudged s) (hn : isNumeric (holds s)) (intFill : V) :
    E.aggregate (orColumn ev) w r path func (.name col) intFill = (w, .error .runtime) ∧
    defaultFills c.kind ≠ documentedFill (holds s) := by
  have hk' := misjudged_kind hr hm hn
  rw [← hty] at hk'
  have hk : c.kind.numeric = false := by rcases hk' with h | h <;> rw [h] <;> rfl
  refine ⟨?_, ?_⟩
  · unfold LEnv.aggregate
    have hnode : l.node = .aggr := by simp [Link.node, ha]
    have hf : func ∈ numericAggs ++ otherAggs := List.mem_append_left _ hfunc
    have ho : orColumn ev w l.other (.name col) = (w, .ok c) := by simp [orColumn, hg, hcol, hlink]
    simp only [hwalk, hg, hnode]
    rw [if_neg (not_not.mpr hf), ho]
    simp only
    rw [if_pos ⟨hfunc, hk⟩]
  · revert hn
    rcases hk' with h | h <;> rw [h] <;> cases holds s <;> simp [defaultFills, documentedFill, isNumeric]

/-! ### Cases -/

/-- a nullable integer column, its values stored as NumPy integers, and as objects with a missing one -/
example : holds (.nullableInt 64) = .integers ∧ misjudged (.nullableInt 64) ∧ ¬ TreatedRight (.nullableInt 64) ∧ TreatedRight (.int 64) ∧
    holds (.object [.int, .missing]) = .integers ∧ misjudged (.object [.int, .missing]) ∧
    inferDtype (.object [.text, .int]) = .text ∧ inferDtype (.object [.missing]) = .text ∧ TreatedRight (.object [.missing, .text]) := by
  have hi : ¬ TreatedRight (.nullableInt 64) := fun h => (C79_exact_partial (.nullableInt 64) trivial).mp h trivial
  have hj : TreatedRight (.int 64) := (C79_exact_partial _ (by simp [SDtype.real])).mpr (by simp [misjudged])
  have hk : TreatedRight (.object [.missing, .text]) := (C79_exact_partial (.object [.missing, .text]) trivial).mpr (by simp [misjudged])
  exact ⟨rfl, trivial, hi, hj, by simp [holds], by simp [misjudged], by decide, by decide, hk⟩

/-- the persons' numbers as nullable integers: the households cannot sum them -/
def ctOps : List (LOp Int) := [
  .new true [some lxH] [[10], [20]] [],
  .new false [some lxP] [[0], [1], [2]] [(lxH, ⟨.int, [20, 10, 10]⟩), (lxA, ⟨inferDtype (.nullableInt 64), [2, 3, 4]⟩), (lxZ, ⟨inferDtype (.int 64), [2, 3, 4]⟩)],
  .linkTo 0 1 lxP { onOther := some [lxH] }]

example : SafeRun lxE lxId lxEv lxE.start ctOps ∧
    (lxE.aggregate (orColumn lxEv) (lrun lxE lxId lxEv lxE.start ctOps) 0 [lxP] "sum".toList (.name lxA) 0).2 = .error .runtime ∧
    lxVals (lxE.aggregate (orColumn lxEv) (lrun lxE lxId lxEv lxE.start ctOps) 0 [lxP] "sum".toList (.name lxZ) 0) = .ok [7, 2] := by
  refine ⟨safeRunCheck_ok (by decide), by decide, by decide⟩

/-- the built-in fills as numbers of the example -/
def ctVal : FillVal → Int
  | .zero => 0
  | .false => 0
  | _ => -99

theorem ct_fills (k : DKind) : lxE.defaultFill k = ctVal (defaultFills k) := by cases k <;> rfl

/-- C79_numbers_refuted on these frames: no mean either -/
example : lxE.aggregate (orColumn lxEv) (lrun lxE lxId lxEv lxE.start ctOps) 0 [lxP] "mean".toList (.name lxA) 0 =
      (lrun lxE lxId lxEv lxE.start ctOps, .error .runtime) := by
  obtain ⟨l, hist, hw⟩ : ∃ l hist, (lrun lxE lxId lxEv lxE.start ctOps).walk 0 [lxP] [] = .ok (l, hist) := ⟨_, _, rfl⟩
  have hl : (lrun lxE lxId lxEv lxE.start ctOps).walk 0 [lxP] [] = .ok (l, hist) := hw
  have hla : l.agg = true := by
    have : ((lrun lxE lxId lxEv lxE.start ctOps).walk 0 [lxP] []).map (·.1.agg) = .ok true := by decide
    rw [hw] at this
    simpa [Except.map] using this
  have hlo : l.other = 1 := by
    have : ((lrun lxE lxId lxEv lxE.start ctOps).walk 0 [lxP] []).map (·.1.other) = .ok 1 := by decide
    rw [hw] at this
    simpa [Except.map] using this
  obtain ⟨g, hg⟩ : ∃ g, (lrun lxE lxId lxEv lxE.start ctOps).frames[1]? = some g := ⟨_, rfl⟩
  have hgc : ((lrun lxE lxId lxEv lxE.start ctOps).frames[1]?).map (fun g => (dictGet g.cols lxA, g.links.map (·.1))) =
      some (some ⟨inferDtype (.nullableInt 64), [2, 3, 4]⟩, []) := by decide
  rw [hg] at hgc
  simp only [Option.map_some, Option.some.injEq, Prod.mk.injEq] at hgc
  exact (C79_numbers_refuted (s := .nullableInt 64) _ hw hla (by rw [hlo]; exact hg) (by decide) hgc.1 (by rw [hgc.2]; simp) rfl trivial trivial trivial 0).1

/-- zones with a column of small unsigned integers, and persons in zones 2, 9 (not a zone) and 1 -/
def ctZones : List (LOp Int) := [
  .new false [some lxZ] [[1], [2]] [(lxA, ⟨inferDtype (.uint 8), [100, 200]⟩)],
  .new true [some lxP] [[0], [1], [2]] [(lxH, ⟨.int, [2, 9, 1]⟩)],
  .linkTo 1 0 lxZ { onSelf := some [lxH] }]

/-- C79_fill_partial there: person 1 gets 0 -/
example : ∃ w' out, lxE.lookup (lrun lxE lxId lxEv lxE.start ctZones) 1 [lxZ] lxA = (w', .ok ⟨.uint, out⟩) ∧ out[1]? = some 0 := by
  obtain ⟨l, hl⟩ : ∃ l, (lrun lxE lxId lxEv lxE.start ctZones).link? 1 lxZ = some l := ⟨_, rfl⟩
  have hle : ((lrun lxE lxId lxEv lxE.start ctZones).link? 1 lxZ).map (fun l => (l.agg, l.other, l.selfSpec, l.otherSpec)) =
      some (false, 0, ⟨some [lxH], false⟩, ⟨none, true⟩) := by decide
  rw [hl] at hle
  simp only [Option.map_some, Option.some.injEq, Prod.mk.injEq] at hle
  obtain ⟨ha, ho, hss, hos⟩ := hle
  have hg : (lrun lxE lxId lxEv lxE.start ctZones).frames[l.other]? =
      some (lxE.newFrame false [some lxZ] [[1], [2]] [(lxA, ⟨inferDtype (.uint 8), [100, 200]⟩)]) := by rw [ho]; rfl
  obtain ⟨w', out, h1, -, h2⟩ := C79_fill_partial (s := .uint 8) (v := 0) (col := lxA) lxEv_keeps (fun w o a => .refl w) (isid := lxId)
    (safeRunCheck_ok (ops := ctZones) (by decide)) rfl (by simp [ctZones, KwOk]) ct_fills hl ha hg rfl rfl rfl (by simp [SDtype.real]) (by simp [misjudged])
    (by simp [lastRequest, ctZones, fillRequests]) rfl (by decide)
  obtain ⟨k, hk, hf⟩ := h2 1 (by decide)
  refine ⟨w', out, h1, hf ?_⟩
  have : k = [9] := by
    rw [hss] at hk
    have hd : (lrun lxE lxId lxEv lxE.start ctZones).keyAt 1 ⟨some [lxH], false⟩ 1 = some [9] := by decide
    rw [hd] at hk
    simpa using hk.symm
  subst this
  rw [hos]
  intro j
  have : ∀ j, j < 2 → (lxE.newFrame false [some lxZ] [[1], [2]] [(lxA, (⟨inferDtype (.uint 8), [100, 200]⟩ : LCol Int))]).keyAt ⟨none, true⟩ j ≠ some [9] := by decide
  by_cases hj : j < 2
  · exact this j hj
  · match j, hj with
    | 0, hj => omega
    | 1, hj => omega
    | j + 2, _ => simp [LFrame.keyAt, LEnv.newFrame]

end Cheval
