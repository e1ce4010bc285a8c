import Verif.Spec.Pivot
import Verif.Props.LdfEvaluate

/-!
# C65: pivot tables of linked frames
-/
namespace Cheval
open Spec
variable {V F P : Type}

/-! ## the loop without the state -/

/-- the loop of `_resolve_columns` for columns that are known -/
def pureItems (g : Str → Except Err (LCol V)) : List Str → List (Str × LCol V) → Except Err (List (Str × LCol V))
  | [], d => .ok d
  | s :: l, d => match g s with
    | .error e => .error e
    | .ok c => pureItems g l (dictSet d s c)

theorem pureItems_error {g : Str → Except Err (LCol V)} {e : Err} : ∀ {l : List Str} {d : List (Str × LCol V)}, pureItems g l d = .error e →
    ∃ s ∈ l, g s = .error e
  | [], d, h => by cases h
  | s :: l, d, h => by
    rw [pureItems] at h
    cases hg : g s with
    | error e' => rw [hg] at h; cases h; exact ⟨s, by simp, hg⟩
    | ok c =>
      rw [hg] at h
      obtain ⟨t, ht, h'⟩ := pureItems_error h
      exact ⟨t, List.mem_cons_of_mem _ ht, h'⟩

theorem pureItems_ok {g : Str → Except Err (LCol V)} : ∀ {l : List Str} {d d' : List (Str × LCol V)}, pureItems g l d = .ok d' →
    (∀ s ∈ l, ∃ c, g s = .ok c) ∧ ((d.map (·.1)).Nodup → (d'.map (·.1)).Nodup) ∧
      ∀ s, dictGet d' s = if s ∈ l then (g s).toOption else dictGet d s
  | [], d, d', h => by cases h; simp
  | s :: l, d, d', h => by
    rw [pureItems] at h
    cases hg : g s with
    | error e' => rw [hg] at h; cases h
    | ok c =>
      rw [hg] at h
      obtain ⟨h1, h2, h3⟩ := pureItems_ok h
      refine ⟨?_, fun hd => h2 (dictSet_keys_nodup hd _ _), fun t => ?_⟩
      · intro t ht
        rcases List.mem_cons.mp ht with rfl | ht
        · exact ⟨c, hg⟩
        · exact h1 t ht
      · rw [h3]
        by_cases ht : t ∈ l
        · simp [ht]
        · rw [if_neg ht, dictGet_dictSet]
          by_cases hts : t = s
          · subst hts; simp [hg, Except.toOption]
          · simp [hts, ht]

theorem dictUpdate_facts : ∀ (e d : List (Str × LCol V)), (d.map (·.1)).Nodup → (e.map (·.1)).Nodup →
    ((dictUpdate d e).map (·.1)).Nodup ∧ ∀ s, dictGet (dictUpdate d e) s = (dictGet e s).or (dictGet d s)
  | [], d, hd, _ => ⟨hd, fun s => by simp [dictUpdate, dictGet]⟩
  | x :: e, d, hd, he => by
    have he' : x.1 ∉ e.map (·.1) ∧ (e.map (·.1)).Nodup := List.nodup_cons.mp he
    obtain ⟨h1, h2⟩ := dictUpdate_facts e (dictSet d x.1 x.2) (dictSet_keys_nodup hd _ _) he'.2
    refine ⟨h1, fun s => ?_⟩
    show dictGet (dictUpdate (dictSet d x.1 x.2) e) s = _
    rw [h2, dictGet_dictSet, dictGet_cons]
    by_cases hs : s = x.1
    · subst hs
      have : dictGet e x.1 = none := dictGet_eq_none.mpr he'.1
      simp [this]
    · simp [hs, Ne.symm hs]

variable [DecidableEq V] {E : LEnv V} {K : EvEnv V F} {isid : Str → Bool} {py : PyParser}

/-- `one` fills caches only, and what it returns does not depend on them -/
theorem resolveItems_pure {one : LWorld V → Str → LWorld V × Except Err (LCol V)} {g : Str → Except Err (LCol V)} {w : LWorld V} :
    ∀ (l : List Str) (w1 : LWorld V) (d : List (Str × LCol V)),
      (∀ s ∈ l, ∀ w1, Calm E w w1 → Calm E w1 (one w1 s).1 ∧ (one w1 s).2 = g s) → Calm E w w1 →
      Calm E w1 (resolveItems one w1 l d).1 ∧ (resolveItems one w1 l d).2 = pureItems g l d
  | [], w1, d, _, h => ⟨Calm.refl h.1.2.1, rfl⟩
  | s :: l, w1, d, hone, h => by
    obtain ⟨h1, h2⟩ := hone s (by simp) w1 h
    rw [resolveItems, pureItems, ← h2]
    rcases hx : one w1 s with ⟨w2, e | c⟩
    · rw [hx] at h1; exact ⟨h1, rfl⟩
    · rw [hx] at h1
      obtain ⟨h3, h4⟩ := resolveItems_pure l w2 (dictSet d s c) (fun s hs => hone s (List.mem_cons_of_mem _ hs)) (h.trans h1)
      exact ⟨h1.trans h3, h4⟩

theorem evaluateText_calm (hK : K.Ok) {w w1 : LWorld V} (hg : LGood E w) (h : Calm E w w1) (r : Nat) (s : Str) :
    Calm E w1 (K.evaluateText E py r w1 s).1 ∧ (K.evaluateText E py r w1 s).2 = (K.evaluateText E py r w s).2 := by
  have hg1 := h.1.2.1
  unfold EvEnv.evaluateText
  cases splitFilter s with
  | error e => exact ⟨Calm.refl hg1, rfl⟩
  | ok x =>
    simp only
    cases py x.1 with
    | error e => exact ⟨Calm.refl hg1, rfl⟩
    | ok tree =>
      refine ⟨evaluate_calm hK hg1 r tree [], ?_⟩
      exact (evalWith_cache (argEval_calm hK) (argEval_cache hK) ⟨h.1.1, h.2, hg, hg1⟩ r tree []).symm

theorem pivotText_calm (hK : K.Ok) {w w1 : LWorld V} (hg : LGood E w) (h : Calm E w w1) {r : Nat} {f : LFrame V} (hf : w.frames[r]? = some f) (s : Str)
    (hl : s ∈ f.cols.map (·.1) → s ∉ f.links.map (·.1)) :
    Calm E w1 (K.pivotText E py r w1 s).1 ∧ (K.pivotText E py r w1 s).2 = K.pivotColumn E py w r s := by
  obtain ⟨f1, hf1, hs⟩ := h.1.1.frame hf
  have c1 : f1.cols = f.cols := by rw [hs.1]
  have c2 : f1.links.map (·.1) = f.links.map (·.1) := hs.names
  unfold EvEnv.pivotText EvEnv.pivotColumn
  simp only [hf1, hf, c1, c2, Option.bind_some]
  cases hc : dictGet f.cols s with
  | none => exact evaluateText_calm hK hg h r s
  | some c =>
    simp only
    rw [if_neg (hl (List.mem_map.mpr ⟨_, dictGet_mem hc, rfl⟩))]
    exact ⟨Calm.refl h.1.2.1, rfl⟩

/-- the arguments that are understood: texts, and tuples none of whose items is the name of a column -/
def PivotArg.Clear (f : LFrame V) : PivotArg → Prop
  | .nothing => True
  | .text s => s ∈ f.cols.map (·.1) → s ∉ f.links.map (·.1)
  | .list l => l = []
  | .tuple l => ∀ s ∈ l, s ∉ f.cols.map (·.1)

theorem resolveColumns_pure (hK : K.Ok) {w w1 : LWorld V} (hg : LGood E w) (h : Calm E w w1) {r : Nat} {f : LFrame V} (hf : w.frames[r]? = some f)
    {a : PivotArg} (ha : a.Clear f) :
    Calm E w1 (K.resolveColumns E py r w1 a).1 ∧ (K.resolveColumns E py r w1 a).2 = pureItems (K.pivotColumn E py w r) a.names [] := by
  cases a with
  | nothing => exact ⟨Calm.refl h.1.2.1, rfl⟩
  | text s =>
    refine resolveItems_pure _ w1 [] (fun t ht w2 h2 => ?_) h
    rw [List.mem_singleton] at ht
    subst ht
    exact pivotText_calm hK hg h2 hf t ha
  | list l =>
    have hl : l = [] := ha
    subst hl
    exact ⟨Calm.refl h.1.2.1, rfl⟩
  | tuple l =>
    refine resolveItems_pure _ w1 [] (fun t ht w2 h2 => ?_) h
    have hc : dictGet f.cols t = none := dictGet_eq_none.mpr (ha t ht)
    obtain ⟨h3, h4⟩ := evaluateText_calm (py := py) hK hg h2 r t
    refine ⟨h3, h4.trans ?_⟩
    unfold EvEnv.pivotColumn
    simp [hf, hc]

/-- **C65 (partial: no lists, no tuples that name columns)** After any history of calls on linked frames (without the operations of C47 and
C49), `pivot_table` returns pandas' pivot table, for the same arguments, of the DataFrame that has the index of the frame and one column
for every text in the arguments: the column of that name or else the expression evaluated on the frame. If one of the texts has no
value, its error is raised. In every case only caches change. -/
theorem C65_pivot_partial (hK : K.Ok) {ops : List (LOp V)} (hs : SafeRun E isid (K.argEval E) E.start ops)
    (pivot : PivotTab V → PivotArg → PivotArg → PivotArg → Except Err P) {r : Nat} {f : LFrame V} {values index columns : PivotArg} :
    let w := lrun E isid (K.argEval E) E.start ops
    let names := values.names ++ index.names ++ columns.names
    w.frames[r]? = some f → values.Clear f → index.Clear f → columns.Clear f →
    CacheOnly w (K.pivotTable E py pivot w r values index columns).1 ∧
    ((∀ s ∈ names, ∃ c, K.pivotColumn E py w r s = .ok c) →
      ∃ t, Meant f names (K.pivotColumn E py w r) t ∧ (K.pivotTable E py pivot w r values index columns).2 = pivot t values index columns) ∧
    (∀ s ∈ names, ∀ e, K.pivotColumn E py w r s = .error e →
      ∃ s' ∈ names, ∃ e', K.pivotColumn E py w r s' = .error e' ∧ (K.pivotTable E py pivot w r values index columns).2 = .error e') := by
  intro w names hf hv hi hc
  have hg : LGood E w := good_run (argEval_keeps hK) LGood.start hs
  obtain ⟨hv1, hv2⟩ := resolveColumns_pure (py := py) hK hg (Calm.refl hg) hf hv
  have hnames : ∀ s, s ∈ names ↔ s ∈ values.names ∨ s ∈ index.names ∨ s ∈ columns.names := fun s => by simp [names]
  have bad : ∀ {l : List Str} {e : Err} {x : LWorld V × Except Err P}, (∀ s ∈ l, s ∈ names) → pureItems (K.pivotColumn E py w r) l [] = .error e →
      x.2 = .error e → CacheOnly w x.1 → CacheOnly w x.1 ∧
      ((∀ s ∈ names, ∃ c, K.pivotColumn E py w r s = .ok c) →
        ∃ t, Meant f names (K.pivotColumn E py w r) t ∧ x.2 = pivot t values index columns) ∧
      (∀ s ∈ names, ∀ e, K.pivotColumn E py w r s = .error e →
        ∃ s' ∈ names, ∃ e', K.pivotColumn E py w r s' = .error e' ∧ x.2 = .error e') := by
    intro l e x hl he hx hcache
    obtain ⟨s, hs, hse⟩ := pureItems_error he
    refine ⟨hcache, fun hok => ?_, fun _ _ _ _ => ⟨s, hl s hs, e, hse, hx⟩⟩
    obtain ⟨c, hc⟩ := hok s (hl s hs)
    rw [hse] at hc; cases hc
  unfold EvEnv.pivotTable
  simp only [hf]
  rcases hxv : K.resolveColumns E py r w values with ⟨w1, e | vs⟩
  · rw [hxv] at hv1 hv2
    exact bad (fun s h => (hnames s).mpr (.inl h)) hv2.symm rfl hv1.1.1
  rw [hxv] at hv1 hv2
  obtain ⟨hi1, hi2⟩ := resolveColumns_pure (py := py) hK hg hv1 hf hi
  simp only
  rcases hxi : K.resolveColumns E py r w1 index with ⟨w2, e | is⟩
  · rw [hxi] at hi1 hi2
    exact bad (fun s h => (hnames s).mpr (.inr (.inl h))) hi2.symm rfl (hv1.trans hi1).1.1
  rw [hxi] at hi1 hi2
  obtain ⟨hc1, hc2⟩ := resolveColumns_pure (py := py) hK hg (hv1.trans hi1) hf hc
  simp only
  rcases hxc : K.resolveColumns E py r w2 columns with ⟨w3, e | cs⟩
  · rw [hxc] at hc1 hc2
    exact bad (fun s h => (hnames s).mpr (.inr (.inr h))) hc2.symm rfl ((hv1.trans hi1).trans hc1).1.1
  rw [hxc] at hc1 hc2
  obtain ⟨a1, a2, a3⟩ := pureItems_ok hv2.symm
  obtain ⟨b1, b2, b3⟩ := pureItems_ok hi2.symm
  obtain ⟨d1, d2, d3⟩ := pureItems_ok hc2.symm
  have n0 : (([] : List (Str × LCol V)).map (·.1)).Nodup := by simp
  obtain ⟨u1, u2⟩ := dictUpdate_facts vs [] n0 (a2 n0)
  obtain ⟨u3, u4⟩ := dictUpdate_facts is _ u1 (b2 n0)
  obtain ⟨u5, u6⟩ := dictUpdate_facts cs _ u3 (d2 n0)
  have hall : ∀ s ∈ names, ∃ c, K.pivotColumn E py w r s = .ok c := by
    intro s h
    rcases (hnames s).mp h with h | h | h
    · exact a1 s h
    · exact b1 s h
    · exact d1 s h
  refine ⟨((hv1.trans hi1).trans hc1).1.1, fun _ => ⟨_, ⟨rfl, rfl, u5, fun s c => ?_⟩, rfl⟩, fun s h e he => ?_⟩
  · rw [← dictGet_eq_some u5]
    rw [u6, u4, u2, a3, b3, d3]
    have hnil : dictGet ([] : List (Str × LCol V)) s = none := rfl
    rw [hnil, hnames]
    by_cases h1 : s ∈ columns.names
    · obtain ⟨x, hx⟩ := d1 s h1
      simp [h1, hx, Except.toOption]
    · by_cases h2 : s ∈ index.names
      · obtain ⟨x, hx⟩ := b1 s h2
        simp [h1, h2, hx, Except.toOption]
      · by_cases h3 : s ∈ values.names
        · obtain ⟨x, hx⟩ := a1 s h3
          simp [h1, h2, h3, hx, Except.toOption]
        · simp [h1, h2, h3]
  · obtain ⟨c, hc⟩ := hall s h
    rw [he] at hc; cases hc

/-! ## caches only, for every argument and every history -/

theorem evaluateText_quiet (r : Nat) (w : LWorld V) (s : Str) : Quiet w (K.evaluateText E py r w s).1 := by
  unfold EvEnv.evaluateText
  split
  · exact .refl w
  · split
    · exact .refl w
    · exact evaluate_quiet w r _ []

theorem pivotText_quiet (r : Nat) (w : LWorld V) (s : Str) : Quiet w (K.pivotText E py r w s).1 := by
  unfold EvEnv.pivotText
  split
  · exact .refl w
  · split
    · split <;> exact .refl w
    · exact evaluateText_quiet r w s

theorem resolveItems_quiet {one : LWorld V → Str → LWorld V × Except Err (LCol V)} (h : ∀ w s, Quiet w (one w s).1) :
    ∀ (l : List Str) (w : LWorld V) (d : List (Str × LCol V)), Quiet w (resolveItems one w l d).1
  | [], w, d => .refl w
  | s :: l, w, d => by
    rw [resolveItems]
    have h1 := h w s
    rcases hx : one w s with ⟨w1, e | c⟩ <;> rw [hx] at h1
    · exact h1
    · exact h1.trans (resolveItems_quiet h l w1 _)

theorem resolveColumns_quiet (r : Nat) (w : LWorld V) (a : PivotArg) : Quiet w (K.resolveColumns E py r w a).1 := by
  cases a with
  | nothing => exact .refl w
  | text s => exact resolveItems_quiet (pivotText_quiet r) _ w []
  | list l => cases l <;> exact .refl w
  | tuple l => exact resolveItems_quiet (evaluateText_quiet r) _ w []

/-- **C65 (no side effects)** Whatever the arguments, and whatever happened before, `pivot_table` changes nothing but caches: columns, index,
links, fill values and targets of every frame stay. (In every state of a program the aliases of a frame's links are distinct.) -/
theorem C65_quiet (pivot : PivotTab V → PivotArg → PivotArg → PivotArg → Except Err P) (w : LWorld V) (r : Nat) (values index columns : PivotArg)
    (ht : ∀ f ∈ w.frames, (f.links.map (·.1)).Nodup) : CacheOnly w (K.pivotTable E py pivot w r values index columns).1 := by
  have key : Quiet w (K.pivotTable E py pivot w r values index columns).1 := by
    unfold EvEnv.pivotTable
    cases w.frames[r]? with
    | none => exact .refl w
    | some f =>
      simp only
      have h1 := resolveColumns_quiet (K := K) (E := E) (py := py) r w values
      rcases hx : K.resolveColumns E py r w values with ⟨w1, e | vs⟩ <;> rw [hx] at h1
      · exact h1
      simp only
      have h2 := resolveColumns_quiet (K := K) (E := E) (py := py) r w1 index
      rcases hy : K.resolveColumns E py r w1 index with ⟨w2, e | is⟩ <;> rw [hy] at h2
      · exact h1.trans h2
      simp only
      have h3 := resolveColumns_quiet (K := K) (E := E) (py := py) r w2 columns
      rcases hz : K.resolveColumns E py r w2 columns with ⟨w3, e | cs⟩ <;> rw [hz] at h3
      · exact (h1.trans h2).trans h3
      · exact (h1.trans h2).trans h3
  exact (key ht).1

/-! ## lists and tuples -/

/-- **C65 (violated for lists)** A list with at least one text makes the call raise, whatever it names; TypeError if it is `values`. -/
theorem C65_list_refuted (pivot : PivotTab V → PivotArg → PivotArg → PivotArg → Except Err P) (w : LWorld V) (r : Nat) (values index columns : PivotArg)
    {f : LFrame V} (hf : w.frames[r]? = some f) (s : Str) (l : List Str) :
    (values = .list (s :: l) → (K.pivotTable E py pivot w r values index columns).2 = .error .type) ∧
    (index = .list (s :: l) ∨ columns = .list (s :: l) → ∃ e, (K.pivotTable E py pivot w r values index columns).2 = .error e) := by
  constructor
  · rintro rfl
    simp [EvEnv.pivotTable, hf, EvEnv.resolveColumns]
  · intro h
    unfold EvEnv.pivotTable
    simp only [hf]
    rcases hx : K.resolveColumns E py r w values with ⟨w1, e | vs⟩
    · exact ⟨e, rfl⟩
    simp only
    rcases h with rfl | rfl
    · exact ⟨.type, rfl⟩
    · rcases hy : K.resolveColumns E py r w1 index with ⟨w2, e | is⟩
      · exact ⟨e, rfl⟩
      · exact ⟨.type, rfl⟩

/-- **C65 (violated for tuples)** A tuple of one text is always evaluated as an expression, also if it is the name of a column: when the
text does not parse, the call raises its error, while the same text given alone is served. -/
theorem C65_tuple_refuted (pivot : PivotTab V → PivotArg → PivotArg → PivotArg → Except Err P) (w : LWorld V) (r : Nat)
    {f : LFrame V} (hf : w.frames[r]? = some f) {s : Str} {c : LCol V} (hc : dictGet f.cols s = some c) (hl : s ∉ f.links.map (·.1))
    {t : Str} {flt : Option Str} {e : Err} (hsp : splitFilter s = .ok (t, flt)) (hpy : py t = .error e) :
    (K.pivotTable E py pivot w r (.tuple [s]) .nothing .nothing).2 = .error e ∧
    (K.pivotTable E py pivot w r (.text s) .nothing .nothing).2 = pivot ⟨f.levels, f.index, [(s, c)]⟩ (.text s) .nothing .nothing := by
  constructor
  · simp [EvEnv.pivotTable, hf, EvEnv.resolveColumns, resolveItems, EvEnv.evaluateText, hsp, hpy]
  · simp [EvEnv.pivotTable, hf, EvEnv.resolveColumns, resolveItems, EvEnv.pivotText, hc, hl, dictUpdate, dictSet]

/-! ## a concrete frame: the households of `LdfExample`, with a parser that reads two texts -/

/-- `"zone.a"` and `"k + 1"`; nothing else parses -/
def pxPy : PyParser := fun t =>
  if t = "zone.a".toList then .ok (.attr (.name lxZone) lxA)
  else if t = "inc + zone.a".toList then .ok (.bin .add (.name lxInc) (.attr (.name lxZone) lxA)) else .error .syntaxErr

/-- the columns pandas sees -/
def pxPivot : PivotTab Int → PivotArg → PivotArg → PivotArg → Except Err (List (Str × LCol Int)) := fun t _ _ _ => .ok t.cols

/-- the sum, by areas: the text of an expression, the text of a lookup -/
example : ∃ f, (lrun lxE lxId (lxK.argEval lxE) lxE.start lxOps).frames[1]? = some f ∧
    PivotArg.Clear f (.text lxInc) ∧ PivotArg.Clear f (.text "zone.a".toList) ∧ PivotArg.Clear f (.tuple ["inc + zone.a".toList]) ∧
    lxK.pivotColumn lxE pxPy (lrun lxE lxId (lxK.argEval lxE) lxE.start lxOps) 1 "zone.a".toList = .ok ⟨.int, [100, -5, 300]⟩ ∧
    (lxK.pivotTable lxE pxPy pxPivot (lrun lxE lxId (lxK.argEval lxE) lxE.start lxOps) 1 (.text lxInc) (.text "zone.a".toList)
      (.tuple ["inc + zone.a".toList])).2 =
    .ok [(lxInc, ⟨.int, [5, 6, 7]⟩), ("zone.a".toList, ⟨.int, [100, -5, 300]⟩), ("inc + zone.a".toList, ⟨.int, [105, 1, 307]⟩)] :=
  ⟨_, rfl, by unfold PivotArg.Clear; decide, by unfold PivotArg.Clear; decide, by unfold PivotArg.Clear; decide, by with_unfolding_all rfl, by with_unfolding_all rfl⟩

/-- lists raise -/
example : (lxK.pivotTable lxE pxPy pxPivot (lrun lxE lxId (lxK.argEval lxE) lxE.start lxOps) 1 (.text lxInc) (.list [lxInc]) .nothing).2 =
    .error .type := rfl

/-- a tuple naming the column `inc`, which this parser does not read -/
example : (lxK.pivotTable lxE pxPy pxPivot (lrun lxE lxId (lxK.argEval lxE) lxE.start lxOps) 1 (.tuple [lxInc]) .nothing .nothing).2 =
    .error .syntaxErr := by
  obtain ⟨f, hf, hc, hl⟩ : ∃ f, (lrun lxE lxId (lxK.argEval lxE) lxE.start lxOps).frames[1]? = some f ∧
    dictGet f.cols lxInc = some ⟨.int, [5, 6, 7]⟩ ∧ lxInc ∉ f.links.map (·.1) := ⟨_, rfl, rfl, by decide⟩
  exact (C65_tuple_refuted pxPivot _ 1 hf hc hl (t := lxInc) (flt := none) rfl rfl).1

end Cheval
