import Verif.Spec.Assign
import Verif.Props.ExampleModel

/-!
# C32-C34, C55: data assigned to symbols
-/
namespace Cheval
open Spec FOps
variable {U F : Type} [FOps F] [DecidableEq U]

/-! ## C32 -/

/-- **C32** A rejected assignment changes nothing. -/
theorem C32_rejected (m : CModel U F) (name : Str) (d : Data U F) (m' : CModel U F) (e : Err) (h : m.assign name d = (m', .error e)) :
    m' = m := by
  unfold CModel.assign at h
  split at h
  · cases h; rfl
  · split at h <;> cases h; rfl

/-- **C32** An accepted assignment changes only the symbol named. -/
theorem C32_only (m : CModel U F) (name : Str) (d : Data U F) (m' : CModel U F) (h : m.assign name d = (m', .ok ())) :
    OnlySymbol name m m' ∧ ∃ s s', dictGet m.scope name = some s ∧ s.assign m d = .ok s' ∧ dictGet m'.scope name = some s' := by
  unfold CModel.assign at h
  cases hs : dictGet m.scope name with
  | none => rw [hs] at h; cases h
  | some s =>
    rw [hs] at h
    simp only at h
    cases ha : s.assign m d with
    | error e => rw [ha] at h; cases h
    | ok s' =>
      rw [ha] at h
      cases h
      refine ⟨⟨rfl, rfl, rfl, rfl, rfl, fun n hn => ?_⟩, s, s', rfl, ha, ?_⟩
      · simp only [dictGet_dictSet, if_neg hn]
      · simp only [dictGet_dictSet, if_true]

omit [DecidableEq U] in
theorem labels_units {m : CModel U F} {u : List U} (h : m.units = some u) : m.labels false = .ok (u.map .unit) := by
  simp [CModel.labels, CModel.decisionUnits, h, Except.map]

omit [DecidableEq U] in
theorem labels_choices {m : CModel U F} {c : List (List Name)} (h : choices m.tree = .ok c) : m.labels true = .ok (c.map .choice) := by
  simp [CModel.labels, h, Except.map]

/-- **C32** Assigning a Series to a vector symbol over the labels `l` (decision units or choices): accepted iff its index is `l`, in this
order, and its values can be converted; then the symbol's value at a unit and a choice is the Series' value at the position that
carries the label of the unit (of the choice, if the symbol runs over choices). -/
theorem C32_series (m : CModel U F) (name : Str) (o : Bool) (old : Option (Arr F)) (hs : dictGet m.scope name = some (.vector o old))
    (l : List (Lab U)) (hl : m.labels o = .ok l) (index : List (Lab U)) (val : Except Err (Nat → Val F)) :
    ((m.assign name (.series index val)).2 = .ok () ↔ index = l ∧ ∃ f, val = .ok f) ∧
    (index ≠ l → (m.assign name (.series index val)).2 = .error .assertion) ∧
    ∀ f, val = .ok f → index = l → ∃ s, dictGet (m.assign name (.series index val)).1.scope name = some s ∧
      ∀ i j, (if o then j else i) < l.length → ∃ k, index[k]? = l[if o then j else i]? ∧ k = (if o then j else i) ∧ symAt i j s = some (f k) := by
  have ha : m.assign name (.series index val) = if l ≠ index then (m, .error .assertion) else match val with
      | .error e => (m, .error e)
      | .ok f => ({ m with scope := dictSet m.scope name (.vector o (some (shapeVector o l.length f))) }, .ok ()) := by
    unfold CModel.assign
    simp only [hs, Sym.assign, hl, bind, Except.bind]
    by_cases h : l ≠ index
    · simp [h]
    · simp only [if_neg h]; cases val <;> rfl
  rw [ha]
  refine ⟨?_, ?_, ?_⟩
  · by_cases h : l ≠ index
    · rw [if_pos h]; simp [Ne.symm h]
    · rw [if_neg h]
      have h' : index = l := (not_not.mp h).symm
      cases val <;> simp [h']
  · intro h; rw [if_pos (Ne.symm h)]
  · rintro f rfl rfl
    refine ⟨_, by simp [dictGet_dictSet]; rfl, ?_⟩
    intro i j _
    refine ⟨_, rfl, rfl, ?_⟩
    cases o <;> simp [shapeVector, symAt]

/-- **C32** An array is accepted by a vector symbol iff it has one dimension and the length of the units or choices; it is read by position. -/
theorem C32_array (m : CModel U F) (name : Str) (o : Bool) (old : Option (Arr F)) (hs : dictGet m.scope name = some (.vector o old))
    (l : List (Lab U)) (hl : m.labels o = .ok l) (n : Nat) (f : Nat → Val F) :
    ((m.assign name (.array1 n f)).2 = .ok () ↔ n = l.length) ∧
    (n ≠ l.length → (m.assign name (.array1 n f)).2 = .error .assertion) ∧
    (m.assign name .arrayND).2 = .error .assertion ∧
    (n = l.length → ∃ s, dictGet (m.assign name (.array1 n f)).1.scope name = some s ∧
      ∀ i j, symAt i j s = some (f (if o then j else i))) := by
  have ha : m.assign name (.array1 n f) = if n ≠ l.length then (m, .error .assertion) else
      ({ m with scope := dictSet m.scope name (.vector o (some (shapeVector o l.length f))) }, .ok ()) := by
    unfold CModel.assign
    simp only [hs, Sym.assign, hl, bind, Except.bind]
    by_cases h : n ≠ l.length
    · simp only [if_pos h]
    · simp only [if_neg h]
  rw [ha]
  refine ⟨?_, ?_, ?_, ?_⟩
  · by_cases h : n ≠ l.length
    · rw [if_pos h]; simp [h]
    · rw [if_neg h]; simp [not_not.mp h]
  · intro h; rw [if_pos h]
  · unfold CModel.assign
    simp only [hs, Sym.assign, hl, bind, Except.bind]
  · rintro rfl
    refine ⟨_, by simp [dictGet_dictSet]; rfl, ?_⟩
    intro i j
    cases o <;> simp [shapeVector, symAt]

/-- **C32** A DataFrame is accepted by a table symbol iff its index is the list of units (choices), it has the mandatory columns, and it is
a LinkedDataFrame or the symbol was declared with allow_links (the check meant to exclude LinkedDataFrames excludes the others);
then `name.a` denotes its column `a`, along the units (choices). -/
theorem C32_table (m : CModel U F) (name : Str) (o : Bool) (ma : List Str) (al : Bool) (old : Option (TableData F))
    (hs : dictGet m.scope name = some (.table o ma al old)) (l : List (Lab U)) (hl : m.labels o = .ok l)
    (index cols : List (Lab U)) (val : Nat → Nat → Val F) (cast : Val F → Except Err (Val F)) (t : TableData F) :
    ((m.assign name (.frame index cols val cast t)).2 = .ok () ↔ index = l ∧ (∀ c ∈ ma, c ∈ t.columns) ∧ (al = true ∨ t.linked = true)) ∧
    ((m.assign name (.frame index cols val cast t)).2 = .ok () → ∀ a f, t.column a = .ok f →
      lookupCol (m.assign name (.frame index cols val cast t)).1.scope name [a] none = some (o, f)) := by
  have ha : m.assign name (.frame index cols val cast t) = if index ≠ l then (m, .error .assertion) else
      if ∃ c ∈ ma, c ∉ t.columns then (m, .error .assertion) else if !al && !t.linked then (m, .error .type) else
      ({ m with scope := dictSet m.scope name (.table o ma al (some t)) }, .ok ()) := by
    unfold CModel.assign
    simp only [hs, Sym.assign, hl, bind, Except.bind]
    by_cases h1 : index ≠ l
    · simp only [if_pos h1]
    · simp only [if_neg h1]
      by_cases h2 : ∃ c ∈ ma, c ∉ t.columns
      · simp only [if_pos h2]
      · simp only [if_neg h2]
        by_cases h3 : (!al && !t.linked) = true
        · simp only [if_pos h3]
        · simp only [if_neg h3]
  have hiff : (m.assign name (.frame index cols val cast t)).2 = .ok () ↔ index = l ∧ (∀ c ∈ ma, c ∈ t.columns) ∧ (al = true ∨ t.linked = true) := by
    rw [ha]
    by_cases h1 : index ≠ l
    · rw [if_pos h1]; simp [h1]
    · rw [if_neg h1]
      by_cases h2 : ∃ c ∈ ma, c ∉ t.columns
      · rw [if_pos h2]
        obtain ⟨c, hc, hc'⟩ := h2
        simp only [reduceCtorEq, false_iff]
        rintro ⟨_, h, _⟩
        exact hc' (h c hc)
      · rw [if_neg h2]
        have h2' : ∀ c ∈ ma, c ∈ t.columns := by
          intro c hc; by_contra hn; exact h2 ⟨c, hc, hn⟩
        cases al <;> cases t.linked <;> simp [not_not.mp h1] <;> exact h2'
  refine ⟨hiff, ?_⟩
  intro hok a f hf
  obtain ⟨h1, h2, h3⟩ := hiff.mp hok
  rw [ha, if_neg (by simp [h1]), if_neg (by
    rintro ⟨c, hc, hn⟩; exact hn (h2 c hc)), if_neg (by
    rcases h3 with h | h <;> simp [h])]
  simp [lookupCol, dictGet_dictSet, hf]

/-- **C32** A number symbol takes a number and nothing else. -/
theorem C32_number (m : CModel U F) (name : Str) (old : Option F) (hs : dictGet m.scope name = some (.number old)) (d : Data U F) :
    ((m.assign name d).2 = .ok () ↔ ∃ v, d = .number v) ∧
    ∀ v i j, d = .number v → ∃ s, dictGet (m.assign name d).1.scope name = some s ∧ symAt i j s = some (.num v) := by
  refine ⟨?_, ?_⟩
  · unfold CModel.assign
    simp only [hs, Sym.assign]
    cases d <;> simp
  · rintro v i j rfl
    refine ⟨.number (some v), ?_, rfl⟩
    unfold CModel.assign
    simp [hs, Sym.assign, dictGet_dictSet]

omit [FOps F] in
theorem assignMatrix_size {units : List U} {cols : List (List Name)} {rc rr : Bool} {fill : Val F} {index columns : List (Lab U)}
    {val : Nat → Nat → Val F} {cast : Val F → Except Err (Val F)} {a : Arr F}
    (h : assignMatrix units cols rc rr fill index columns val cast = .ok a) :
    a.rows = units.length ∧ a.cols = cols.length := by
  unfold assignMatrix at h
  simp only at h
  split at h
  · rename_i hm
    cases h
    simp only
    rw [← hm.1, ← hm.2]; simp
  · split at h
    · cases h
    · split at h
      · cases h
      · cases h
      · split at h
        · cases h
        · cases h; exact ⟨rfl, rfl⟩

/-- tables have as many rows as their index -/
def Data.Sized : Data U F → Prop
  | .frame index _ _ _ t => t.rows = index.length
  | _ => True

/-- **C32** Assignments keep all data in the size of the model. -/
theorem C32_fits (m : CModel U F) (units : List U) (cols : List (List Name)) (hu : m.units = some units) (hc : choices m.tree = .ok cols)
    (hf : Fits units.length cols.length m.scope) (name : Str) (d : Data U F) (hd : d.Sized) :
    Fits units.length cols.length (m.assign name d).1.scope := by
  unfold CModel.assign
  cases hs : dictGet m.scope name with
  | none => exact hf
  | some s =>
    simp only
    cases ha : s.assign m d with
    | error e => exact hf
    | ok s' =>
      simp only
      have hlab : ∀ o l, m.labels o = .ok l → l.length = if o then cols.length else units.length := by
        intro o l hl
        cases o
        · rw [labels_units hu] at hl; cases hl; simp
        · rw [labels_choices hc] at hl; cases hl; simp
      have hshape : ∀ (o : Bool) (l : List (Lab U)) (f : Nat → Val F), m.labels o = .ok l →
          FitsSym units.length cols.length (.vector o (some (shapeVector o l.length f))) := by
        intro o l f hl
        have := hlab o l hl
        cases o <;> simp [FitsSym, shapeVector] <;> simpa using this
      have hs' : FitsSym units.length cols.length s' := by
        cases s with
        | number v =>
          simp only [Sym.assign] at ha
          split at ha <;> cases ha; trivial
        | vector o v =>
          simp only [Sym.assign, bind, Except.bind] at ha
          split at ha
          · cases ha
          · rename_i l hl
            split at ha
            · rename_i index val
              split at ha
              · cases ha
              · cases val with
                | error e => cases ha
                | ok f => cases ha; exact hshape o l f hl
            · split at ha
              · cases ha
              · cases ha; exact hshape o l _ hl
            · cases ha
            · cases ha
        | table o ma al v =>
          simp only [Sym.assign, bind, Except.bind] at ha
          split at ha
          · split at ha
            · cases ha
            · rename_i l hl
              split at ha
              · cases ha
              · rename_i hix
                split at ha
                · cases ha
                · split at ha
                  · cases ha
                  · cases ha
                    simp only [FitsSym]
                    have hd' := hd
                    simp only [Data.Sized] at hd'
                    rw [hd', not_not.mp hix]
                    exact hlab o l hl
          · cases ha
        | matrix tr rc rr fill v =>
          simp only [Sym.assign, bind, Except.bind, CModel.decisionUnits, hu, hc] at ha
          split at ha
          · split at ha
            · rename_i index columns val cast _ _
              cases hm : assignMatrix units cols rc rr fill columns index (fun i j => val j i) cast with
              | error e => rw [hm] at ha; cases ha
              | ok a => rw [hm] at ha; cases ha; exact assignMatrix_size hm
            · rename_i index columns val cast _ _
              cases hm : assignMatrix units cols rc rr fill index columns val cast with
              | error e => rw [hm] at ha; cases ha
              | ok a => rw [hm] at ha; cases ha; exact assignMatrix_size hm
          · cases ha
          · cases ha
          · cases ha
      intro e he
      unfold dictSet at he
      split at he
      · obtain ⟨e', he', rfl⟩ := List.mem_map.mp he
        split
        · exact hs'
        · exact hf e' he'
      · rcases List.mem_append.mp he with he | he
        · exact hf e he
        · obtain rfl := List.mem_singleton.mp he; exact hs'

/-! ## C33 -/

omit [FOps F] in
/-- with distinct labels, the source of a position is the position of its label -/
theorem axisSource_spec {own given : List (Lab U)} (hn : given.Nodup) (i : Nat) (hi : i < own.length) :
    axisSource own given i = if own[i] ∈ given then some (given.idxOf own[i]) else none := by
  unfold axisSource
  by_cases h : own = given
  · subst h
    rw [if_pos rfl, if_pos (List.getElem_mem hi), hn.idxOf_getElem]
  · rw [if_neg h]
    by_cases hm : own[i] ∈ given
    · rw [if_pos hm]
      have hlt := List.idxOf_lt_length_iff.mpr hm
      cases hf : (List.range given.length).reverse.find? (fun k => decide (given[k]? = own[i]?)) with
      | none =>
        rw [List.find?_eq_none] at hf
        have := hf (given.idxOf own[i]) (by simpa using hlt)
        simp [List.getElem?_eq_getElem hlt, List.getElem?_eq_getElem hi] at this
      | some k =>
        have h1 := List.find?_some hf
        have h2 := List.mem_of_find?_eq_some hf
        simp only [List.mem_reverse, List.mem_range] at h2
        simp only [decide_eq_true_eq, List.getElem?_eq_getElem h2, List.getElem?_eq_getElem hi, Option.some.injEq] at h1
        rw [← h1, hn.idxOf_getElem]
    · rw [if_neg hm, List.find?_eq_none]
      intro k hk
      simp only [List.mem_reverse, List.mem_range] at hk
      simp only [decide_eq_true_eq, List.getElem?_eq_getElem hk, List.getElem?_eq_getElem hi, Option.some.injEq]
      intro hc
      exact hm (hc ▸ List.getElem_mem hk)

omit [FOps F] in
theorem axisError_none {own given : List (Lab U)} {re : Bool} :
    axisError own given re = none ↔ own = given ∨ (re = true ∧ own.Nodup ∧ ∀ c ∈ given, c ∈ own) := by
  unfold axisError
  by_cases h : own = given
  · simp [h]
  · rw [if_neg h]
    cases re with
    | false => simp [h]
    | true =>
      simp only [Bool.not_true, Bool.false_eq_true, if_false, h, false_or, true_and]
      by_cases h2 : own.Nodup
      · rw [if_neg (not_not.mpr h2)]
        by_cases h3 : ∃ c ∈ given, c ∉ own
        · rw [if_pos h3]
          simp only [reduceCtorEq, false_iff, not_and]
          intro _ h4
          obtain ⟨c, hc, hc'⟩ := h3
          exact hc' (h4 c hc)
        · rw [if_neg h3]
          simp only [true_iff]
          exact ⟨h2, fun c hc => by by_contra hn; exact h3 ⟨c, hc, hn⟩⟩
      · rw [if_pos h2]; simp [h2]

omit [FOps F] in
theorem assignMatrix_accept (units : List U) (cols : List (List Name)) (rc rr : Bool) (fill : Val F) (index columns : List (Lab U))
    (val : Nat → Nat → Val F) (cast : Val F → Except Err (Val F)) :
    (∃ a, assignMatrix units cols rc rr fill index columns val cast = .ok a) ↔
      (units.map Lab.unit = index ∧ cols.map Lab.choice = columns) ∨
      ((∃ v, cast fill = .ok v) ∧
       (units.map Lab.unit = index ∨ (rr = true ∧ (units.map (Lab.unit : U → Lab U)).Nodup ∧ ∀ c ∈ index, c ∈ units.map Lab.unit)) ∧
       (cols.map Lab.choice = columns ∨ (rc = true ∧ (cols.map (Lab.choice : List Name → Lab U)).Nodup ∧ ∀ c ∈ columns, c ∈ cols.map Lab.choice)) ∧
       (units.map Lab.unit = index ∨ cols.map Lab.choice = columns ∨ index.length = 1)) := by
  rw [← axisError_none, ← axisError_none]
  unfold assignMatrix
  simp only
  by_cases hm : units.map Lab.unit = index ∧ cols.map Lab.choice = columns
  · rw [if_pos hm]; simp [hm]
  · rw [if_neg hm]
    cases cast fill with
    | error e => simp [hm]
    | ok v =>
      cases axisError (cols.map Lab.choice) columns rc <;> cases axisError (units.map Lab.unit) index rr <;> simp [hm]
      split <;> rename_i h
      · simp only [reduceCtorEq, exists_false, false_iff]
        rintro (h' | h' | h')
        · exact h.1 h'
        · exact h.2.1 h'
        · exact h.2.2 h'
      · constructor
        · intro _
          by_contra hc
          simp only [not_or] at hc
          exact h hc
        · intro _; exact ⟨_, rfl⟩

/-- **C33** When a DataFrame is accepted by a matrix symbol: exactly when its rows (columns) are the units (choices) in this order, or may be
reindexed and are among them; and not both axes need reindexing, unless there is only one row. (For orientation 1, rows and columns
are swapped.) -/
theorem C33_accept (m : CModel U F) (name : Str) (tr rc rr : Bool) (fill : Val F) (old : Option (Arr F))
    (hs : dictGet m.scope name = some (.matrix tr rc rr fill old)) (units : List U) (cols : List (List Name)) (hu : m.units = some units)
    (hc : choices m.tree = .ok cols) (hnu : units.Nodup) (hnc : cols.Nodup)
    (index columns : List (Lab U)) (val : Nat → Nat → Val F) (cast : Val F → Except Err (Val F)) (hcast : ∃ v, cast fill = .ok v) (t : TableData F)
    (rows cols' : List (Lab U)) (val' : Nat → Nat → Val F) (ho : oriented tr index columns val = (rows, cols', val')) :
    (m.assign name (.frame index columns val cast t)).2 = .ok () ↔
      (rows = units.map .unit ∨ (rr = true ∧ ∀ r ∈ rows, r ∈ units.map Lab.unit)) ∧
      (cols' = cols.map .choice ∨ (rc = true ∧ ∀ c ∈ cols', c ∈ cols.map Lab.choice)) ∧
      (rows = units.map .unit ∨ cols' = cols.map .choice ∨ rows.length = 1) := by
  have hu' : (units.map (Lab.unit : U → Lab U)).Nodup := hnu.map (fun _ _ h => by cases h; rfl)
  have hc' : (cols.map (Lab.choice : List Name → Lab U)).Nodup := hnc.map (fun _ _ h => by cases h; rfl)
  have key : (m.assign name (.frame index columns val cast t)).2 = .ok () ↔ ∃ a, assignMatrix units cols rc rr fill rows cols' val' cast = .ok a := by
    unfold CModel.assign
    simp only [hs, Sym.assign, CModel.decisionUnits, hu, hc, bind, Except.bind]
    unfold oriented at ho
    cases tr with
    | true =>
      simp only [if_true, Prod.mk.injEq] at ho ⊢
      obtain ⟨rfl, rfl, rfl⟩ := ho
      cases assignMatrix units cols rc rr fill columns index (fun i j => val j i) cast <;> simp [Except.map]
    | false =>
      simp only [Bool.false_eq_true, if_false, Prod.mk.injEq] at ho ⊢
      obtain ⟨rfl, rfl, rfl⟩ := ho
      cases assignMatrix units cols rc rr fill index columns val cast <;> simp [Except.map]
  rw [key, assignMatrix_accept]
  simp only [hcast, hu', hc', true_and, eq_comm (a := List.map Lab.unit units), eq_comm (a := List.map Lab.choice cols)]
  constructor
  · rintro (⟨h1, h2⟩ | h)
    · exact ⟨.inl h1, .inl h2, .inl h1⟩
    · exact h
  · exact .inr

/-- **C33** The value of an accepted DataFrame with distinct labels at a unit and a choice is the DataFrame's value for these labels, and the fill value
(converted to the type of the data) where the DataFrame has no such row or column. -/
theorem C33_value (m m' : CModel U F) (name : Str) (tr rc rr : Bool) (fill : Val F) (old : Option (Arr F))
    (hs : dictGet m.scope name = some (.matrix tr rc rr fill old)) (units : List U) (cols : List (List Name)) (hu : m.units = some units)
    (hc : choices m.tree = .ok cols)
    (index columns : List (Lab U)) (hni : index.Nodup) (hnc : columns.Nodup) (val : Nat → Nat → Val F) (cast : Val F → Except Err (Val F))
    (v : Val F) (hcast : cast fill = .ok v) (t : TableData F)
    (rows cols' : List (Lab U)) (val' : Nat → Nat → Val F) (ho : oriented tr index columns val = (rows, cols', val'))
    (h : m.assign name (.frame index columns val cast t) = (m', .ok ())) :
    ∃ s, dictGet m'.scope name = some s ∧ ∀ i j (hi : i < units.length) (hj : j < cols.length),
      symAt i j s = some (frameAt rows cols' val' v (.unit units[i]) (.choice cols[j])) := by
  obtain ⟨_, s, s', h1, h2, h3⟩ := C32_only m name _ m' h
  rw [hs] at h1
  cases h1
  refine ⟨s', h3, ?_⟩
  have hn : rows.Nodup ∧ cols'.Nodup := by
    unfold oriented at ho
    split at ho <;> (cases ho; simp [hni, hnc])
  have hmat : ∃ a, assignMatrix units cols rc rr fill rows cols' val' cast = .ok a ∧ s' = .matrix tr rc rr fill (some a) := by
    simp only [Sym.assign, CModel.decisionUnits, hu, hc, bind, Except.bind] at h2
    unfold oriented at ho
    cases tr with
    | true =>
      simp only [if_true, Prod.mk.injEq] at ho h2
      obtain ⟨rfl, rfl, rfl⟩ := ho
      cases ha : assignMatrix units cols rc rr fill columns index (fun i j => val j i) cast with
      | error e => rw [ha] at h2; cases h2
      | ok a => rw [ha] at h2; cases h2; exact ⟨a, rfl, rfl⟩
    | false =>
      simp only [Bool.false_eq_true, if_false, Prod.mk.injEq] at ho h2
      obtain ⟨rfl, rfl, rfl⟩ := ho
      cases ha : assignMatrix units cols rc rr fill index columns val cast with
      | error e => rw [ha] at h2; cases h2
      | ok a => rw [ha] at h2; cases h2; exact ⟨a, rfl, rfl⟩
  obtain ⟨a, ha, rfl⟩ := hmat
  intro i j hi hj
  have hi' : i < (units.map (Lab.unit : U → Lab U)).length := by simpa using hi
  have hj' : j < (cols.map (Lab.choice : List Name → Lab U)).length := by simpa using hj
  have e1 := axisSource_spec hn.1 i hi'
  have e2 := axisSource_spec hn.2 j hj'
  simp only [List.getElem_map] at e1 e2
  simp only [symAt, Option.some.injEq]
  unfold assignMatrix at ha
  simp only at ha
  split at ha
  · rename_i hm
    cases ha
    have f1 : Lab.unit units[i] ∈ rows := by rw [← hm.1]; exact List.mem_map_of_mem (List.getElem_mem hi)
    have f2 : Lab.choice cols[j] ∈ cols' := by rw [← hm.2]; exact List.mem_map_of_mem (List.getElem_mem hj)
    rw [frameAt, if_pos ⟨f1, f2⟩]
    have g1 : rows.idxOf (Lab.unit units[i]) = i := by
      have := hn.1.idxOf_getElem i (by rw [← hm.1]; exact hi')
      simpa [← hm.1] using this
    have g2 : cols'.idxOf (Lab.choice cols[j]) = j := by
      have := hn.2.idxOf_getElem j (by rw [← hm.2]; exact hj')
      simpa [← hm.2] using this
    simp only [g1, g2]
  · simp only [hcast] at ha
    split at ha
    · cases ha
    · cases ha
    · split at ha
      · cases ha
      · cases ha
        simp only [e1, e2, frameAt]
        by_cases f1 : Lab.unit units[i] ∈ rows <;> by_cases f2 : Lab.choice cols[j] ∈ cols' <;> simp [f1, f2]

end Cheval
