import Verif.Props.Assign
import Verif.Props.Scope

/-!
# C32-C34, C55: examples and defects of assigned data
-/
namespace Cheval
open Spec FOps

def emLabels : List (List Name) := [[['B'], ['.']], [['A'], ['.']], [['A'], ['x']], [['A'], ['y']]]

theorem em_choices (env : PyEnv) : choices (emModel env).tree = .ok emLabels := by
  obtain ⟨labels, h1, h2⟩ := (em_consistent env).choices
  rw [h1, h2.labels]
  rfl

/-! ## C32: the example -/

/-- the Series [7 ↦ a, 8 ↦ b] is accepted by the vector `x`, the Series [8 ↦ a, 7 ↦ b] is not -/
example (env : PyEnv) (f : Nat → Val XR) :
    ((emModel env).assign exX (.series [.unit 7, .unit 8] (.ok f))).2 = .ok () ∧
    ((emModel env).assign exX (.series [.unit 8, .unit 7] (.ok f))).2 = .error .assertion := by
  have hs : dictGet (emModel env).scope exX = some (.vector false (some emVector)) := em_getx
  have hl : (emModel env).labels false = .ok [Lab.unit 7, Lab.unit 8] := labels_units (m := emModel env) (u := [7, 8]) rfl
  exact ⟨(C32_series _ exX false _ hs _ hl _ _).1.mpr ⟨rfl, f, rfl⟩, (C32_series _ exX false _ hs _ hl _ _).2.1 (by decide)⟩

/-- a DataFrame over the choices is accepted by the table `t` -/
example (env : PyEnv) (val : Nat → Nat → Val XR) (c : Val XR → Except Err (Val XR)) :
    ((emModel env).assign exT (.frame (emLabels.map .choice) [] val c emTable)).2 = .ok () := by
  have hs : dictGet (emModel env).scope exT = some (.table true [] true (some emTable)) := em_get
  have hl : (emModel env).labels true = .ok (emLabels.map .choice) := labels_choices (em_choices env)
  exact (C32_table _ exT true [] true _ hs _ hl _ _ _ _ _).1.mpr ⟨rfl, by simp, .inl rfl⟩

/-- the example with a matrix symbol -/
noncomputable def mxModel (env : PyEnv) (tr : Bool) (fill : Val XR) : CModel Nat XR :=
  { emModel env with scope := [(exX, .matrix tr true true fill none)] }

theorem mx_get (env : PyEnv) (tr : Bool) (fill : Val XR) : dictGet (mxModel env tr fill).scope exX = some (.matrix tr true true fill none) := by
  simp [mxModel, dictGet]

/-- **C33** Although both reindex flags are True, data that need reindexing in both directions are rejected (a 2 × 2 DataFrame: units in the
other order, two of four choices). -/
theorem C33_both_refuted (env : PyEnv) (fill : Val XR) (val : Nat → Nat → Val XR) (t : TableData XR) :
    ((mxModel env false fill).assign exX (.frame [.unit 8, .unit 7] [.choice [['A'], ['x']], .choice [['B'], ['.']]] val .ok t)).2 ≠ .ok () := by
  intro h
  have := (C33_accept (mxModel env false fill) exX false true true fill none (mx_get env false fill) [7, 8] emLabels rfl (em_choices env)
    (by decide) (by decide) _ _ val .ok ⟨fill, rfl⟩ t _ _ _ rfl).mp h
  rcases this.2.2 with h | h | h
  · exact absurd h (by decide)
  · exact absurd h (by decide)
  · exact absurd h (by decide)

/-- columns only: accepted, expanded by label, filled elsewhere -/
example (env : PyEnv) (fill : Val XR) (val : Nat → Nat → Val XR) (t : TableData XR) :
    ∃ s, dictGet ((mxModel env false fill).assign exX (.frame [.unit 7, .unit 8] [.choice [['A'], ['x']], .choice [['B'], ['.']]] val .ok t)).1.scope exX = some s ∧
      symAt 1 0 s = some (val 1 1) ∧ symAt 1 1 s = some fill ∧ symAt 1 2 s = some (val 1 0) := by
  have hok := (C33_accept (mxModel env false fill) exX false true true fill none (mx_get env false fill) [7, 8] emLabels rfl (em_choices env)
    (by decide) (by decide) [.unit 7, .unit 8] [.choice [['A'], ['x']], .choice [['B'], ['.']]] val .ok ⟨fill, rfl⟩ t _ _ _ rfl).mpr (by decide)
  rcases ha : (mxModel env false fill).assign exX (.frame [.unit 7, .unit 8] [.choice [['A'], ['x']], .choice [['B'], ['.']]] val .ok t) with ⟨m', r⟩
  rw [ha] at hok
  simp only at hok
  subst hok
  obtain ⟨s, h1, h2⟩ := C33_value _ m' exX false true true fill none (mx_get env false fill) [7, 8] emLabels rfl (em_choices env) _ _
    (by decide) (by decide) val .ok fill rfl t _ _ _ rfl ha
  refine ⟨s, h1, ?_, ?_, ?_⟩
  · exact (h2 1 0 (by decide) (by decide)).trans rfl
  · exact (h2 1 1 (by decide) (by decide)).trans rfl
  · exact (h2 1 2 (by decide) (by decide)).trans rfl

/-- **C33** The fill value is converted to the type of the data first: integer data with fill value 1/2 are filled with 0 (`cast` models a type
to which the fill value converts to `v`). -/
theorem C33_fill_refuted (env : PyEnv) (fill v : Val XR) (hne : v ≠ fill) (val : Nat → Nat → Val XR) (t : TableData XR) :
    ∃ s, dictGet ((mxModel env false fill).assign exX (.frame [.unit 7, .unit 8] [.choice [['A'], ['x']]] val (fun _ => .ok v) t)).1.scope exX = some s ∧
      symAt 0 0 s = some v ∧ symAt 0 0 s ≠ some fill := by
  have hok := (C33_accept (mxModel env false fill) exX false true true fill none (mx_get env false fill) [7, 8] emLabels rfl (em_choices env)
    (by decide) (by decide) [.unit 7, .unit 8] [.choice [['A'], ['x']]] val (fun _ => .ok v) ⟨v, rfl⟩ t _ _ _ rfl).mpr (by decide)
  rcases ha : (mxModel env false fill).assign exX (.frame [.unit 7, .unit 8] [.choice [['A'], ['x']]] val (fun _ => .ok v) t) with ⟨m', r⟩
  rw [ha] at hok
  simp only at hok
  subst hok
  obtain ⟨s, h1, h2⟩ := C33_value _ m' exX false true true fill none (mx_get env false fill) [7, 8] emLabels rfl (em_choices env) _ _
    (by decide) (by decide) val (fun _ => .ok v) v rfl t _ _ _ rfl ha
  have h3 : symAt 0 0 s = some v := (h2 0 0 (by decide) (by decide)).trans rfl
  refine ⟨s, h1, h3, ?_⟩
  rw [h3]
  simpa using hne

/-! ## C34 -/

section
variable {U F : Type} [FOps F]

omit [FOps F] in
theorem setUnits_get (m : CModel U F) (u : List U) (n : Str) :
    dictGet (m.setUnits u).scope n = (dictGet m.scope n).map fun s => match s with
      | .number v => .number v
      | s => s.empty := by
  unfold CModel.setUnits
  simp only
  induction m.scope with
  | nil => rfl
  | cons e l ih =>
    simp only [List.map_cons, dictGet_cons]
    by_cases h : e.1 = n
    · simp only [if_pos h, Option.map_some]
      cases e.2 <;> rfl
    · simp only [if_neg h]; exact ih

omit [FOps F] in
/-- **C34** After new decision units were set, they are the decision units; numbers keep their value; every other symbol is declared as before,
and unassigned; the tree, the expressions and the precision stay. (The utilities do not start from zero: see `C34_refuted`.) -/
theorem C34_units_partial (m : CModel U F) (u : List U) :
    (m.setUnits u).units = some u ∧ (m.setUnits u).tree = m.tree ∧ (m.setUnits u).exprs = m.exprs ∧ (m.setUnits u).precision = m.precision ∧
    (∀ n v, dictGet m.scope n = some (.number v) → dictGet (m.setUnits u).scope n = some (.number v)) ∧
    (∀ n s, dictGet m.scope n = some s → (∀ v, s ≠ .number v) → ∃ s', dictGet (m.setUnits u).scope n = some s' ∧ s'.filled = false ∧
      ∀ i j, symAt i j s' = none) ∧
    (∀ n, dictGet m.scope n = none → dictGet (m.setUnits u).scope n = none) := by
  refine ⟨rfl, rfl, rfl, rfl, ?_, ?_, ?_⟩
  · intro n v h
    rw [setUnits_get, h]; rfl
  · intro n s h hs
    rw [setUnits_get, h]
    cases s with
    | number v => exact absurd rfl (hs v)
    | vector o v => exact ⟨_, rfl, rfl, fun i j => by cases o <;> rfl⟩
    | table o ma al v => exact ⟨_, rfl, rfl, fun i j => rfl⟩
    | matrix a b c d v => exact ⟨_, rfl, rfl, fun i j => rfl⟩
  · intro n h
    rw [setUnits_get, h]; rfl

/-- **C34** An expression with such a symbol then makes validation fail until the symbol is assigned again. -/
theorem C34_not_ready (m : CModel U F) (u : List U) (g : Option Nat) (c : Container) (ht : validateTree m.tree = .ok ())
    (hc : m.container g = .ok c) (x : Str) (hx : x ∈ c.simple ∨ x ∈ c.chained) (hr : x ∉ reserved) (s : Sym F)
    (hs : dictGet m.scope x = some s) (hn : ∀ v, s ≠ .number v) :
    (m.setUnits u).validate true true true true g = .error .modelNotReady := by
  classical
  have hc' : (m.setUnits u).container g = .ok c := hc
  rw [C30_validate (m.setUnits u) g c ht u rfl hc', if_neg]
  intro h
  obtain ⟨s', h1, h2⟩ := h x hx hr
  obtain ⟨s'', h3, h4, _⟩ := (C34_units_partial m u).2.2.2.2.2.1 x s hs hn
  rw [h1] at h3
  cases h3
  rw [h2] at h4
  cases h4
end

/-- **C34** The utilities computed before survive new decision units, still labelled with the old ones: after a run for the units 7 and 8, new
units 1 and 2 start from the utilities of 7 and 8 instead of zero. -/
theorem C34_refuted (env : PyEnv) (M : Arith XR) :
    ∃ m1 u, (emModel env).runUtilities (emKernel M) none true = (m1, .ok u) ∧ (m1.setUnits [1, 2]).cached = some ([7, 8], u) ∧
      startAt (m1.setUnits [1, 2]) 0 0 = .fin 100 := by
  obtain ⟨u, h1, _, _, hu⟩ := em_run_state env M true
  refine ⟨_, u, h1, rfl, ?_⟩
  show u.val 0 0 = _
  rw [hu 0 0 (by decide) (by decide)]
  simp

/-! ## C55 -/

/-- choices A and B, then A again -/
noncomputable def abOps : List (TreeOp XR) := [.addTop ['A'] one, .addTop ['B'] one]
noncomputable def abaOps : List (TreeOp XR) := [.addTop ['A'] one, .addTop ['B'] one, .addTop ['A'] one]

theorem ab_choices : choices (after abOps) = .ok [[['A']], [['B']]] := by
  have hc : CleanRun Choices.empty abOps := by
    simp [abOps, CleanRun, Clean, CleanAdd, Choices.step, Choices.add, Choices.empty, Legal, lt, le, zero, one, XR.lt, XR.le]
  have he : (expected abOps).live.map (·.path) = [[['A']], [['B']]] ∧ (expected abOps).depth = 1 := by
    simp [abOps, expected, Choices.run, Choices.step, Choices.add, Choices.empty, Legal, lt, le, zero, one, XR.lt, XR.le, Choices.depth]
  have hv : validateTree (after abOps) = .ok () := by
    rw [(C19_validate abOps hc).1]
    simp [abOps, expected, Choices.run, Choices.step, Choices.add, Choices.empty, Legal, lt, le, zero, one, XR.lt, XR.le,
      Choices.kids, IsChild, List.filter_cons]
  obtain ⟨l, h1, h2⟩ := labelled_after abOps hc hv
  rw [h1, h2.labels, he.1, he.2]
  rfl

theorem aba_choices : choices (after abaOps) = .ok [[['B']], [['A']]] := by
  have hc : CleanRun Choices.empty abaOps := by
    simp [abaOps, CleanRun, Clean, CleanAdd, Choices.step, Choices.add, Choices.empty, Legal, lt, le, zero, one, XR.lt, XR.le]
  have he : (expected abaOps).live.map (·.path) = [[['B']], [['A']]] ∧ (expected abaOps).depth = 1 := by
    simp [abaOps, expected, Choices.run, Choices.step, Choices.add, Choices.empty, Legal, lt, le, zero, one, XR.lt, XR.le, Choices.depth]
  have hv : validateTree (after abaOps) = .ok () := by
    rw [(C19_validate abaOps hc).1]
    simp [abaOps, expected, Choices.run, Choices.step, Choices.add, Choices.empty, Legal, lt, le, zero, one, XR.lt, XR.le,
      Choices.kids, IsChild, List.filter_cons]
  obtain ⟨l, h1, h2⟩ := labelled_after abaOps hc hv
  rw [h1, h2.labels, he.1, he.2]
  rfl

/-- a model with these choices and a vector over the choices -/
noncomputable def abModel (env : PyEnv) : CModel Nat XR :=
  { emModel env with tree := after abOps, scope := [(exX, .vector true none)] }

/-- **C55** Data over the choices are not discarded when the choices change: after assigning the Series [A ↦ a, B ↦ b] to a vector over the choices
and adding A again (with another scale, say), the columns are B, A; the model still validates, but the symbol's value for B is `a`
and for A is `b`. -/
theorem C55_choices_refuted (env : PyEnv) (f : Nat → Val XR) :
    ∃ m1 m2, (abModel env).assign exX (.series [.choice [['A']], .choice [['B']]] (.ok f)) = (m1, .ok ()) ∧
      (m1.addChoice ['A'] one).1 = m2 ∧ choices m2.tree = .ok [[['B']], [['A']]] ∧ validateTree m2.tree = .ok () ∧
      ∃ s, dictGet m2.scope exX = some s ∧ s.filled = true ∧ symAt 0 0 s = some (f 0) ∧ symAt 0 1 s = some (f 1) := by
  have hs : dictGet (abModel env).scope exX = some (.vector true none) := by simp [abModel, dictGet]
  have hl : (abModel env).labels true = .ok [Lab.choice [['A']], Lab.choice [['B']]] := labels_choices (m := abModel env) (c := [[['A']], [['B']]]) ab_choices
  have ha : (abModel env).assign exX (.series [.choice [['A']], .choice [['B']]] (.ok f)) =
      ({ abModel env with scope := [(exX, .vector true (some (shapeVector true 2 f)))] }, .ok ()) := by
    unfold CModel.assign
    simp only [hs, Sym.assign, hl, bind, Except.bind, ne_eq, not_true_eq_false, if_false, Except.map]
    simp [dictSet, abModel]
  refine ⟨_, _, ha, rfl, aba_choices, ?_, .vector true (some (shapeVector true 2 f)), ?_, rfl, rfl, rfl⟩
  · have h : choices (after abaOps) = .ok [[['B']], [['A']]] := aba_choices
    unfold choices at h
    cases hv : validateTree (after abaOps) with
    | error e => rw [hv] at h; cases h
    | ok _ => exact hv
  · simp [CModel.addChoice, dictGet]

/-! ## C56 -/

/-- **C56** `allow_links=False` has the opposite effect: for every data frame with the right index and columns, the assignment is accepted iff the
data frame is a LinkedDataFrame. -/
theorem C56_refuted {U F : Type} [FOps F] [DecidableEq U] (m : CModel U F) (name : Str) (o : Bool) (ma : List Str) (old : Option (TableData F))
    (hs : dictGet m.scope name = some (.table o ma false old)) (l : List (Lab U)) (hl : m.labels o = .ok l)
    (cols : List (Lab U)) (val : Nat → Nat → Val F) (cast : Val F → Except Err (Val F)) (t : TableData F) (ht : ∀ c ∈ ma, c ∈ t.columns) :
    (m.assign name (.frame l cols val cast t)).2 = .ok () ↔ t.linked = true := by
  rw [(C32_table m name o ma false old hs l hl l cols val cast t).1]
  simp only [true_and, Bool.false_eq_true, false_or]
  exact ⟨fun h => h.2, fun h => ⟨ht, h⟩⟩

/-- an instance with a LinkedDataFrame and one with a DataFrame -/
example (env : PyEnv) (val : Nat → Nat → Val XR) (c : Val XR → Except Err (Val XR)) (linked : Bool) :
    ((({ emModel env with scope := [(exT, .table true [exA] false none)] } : CModel Nat XR).assign exT
      (.frame (emLabels.map .choice) [] val c { emTable with linked := linked })).2 = .ok ()) ↔ linked = true :=
  C56_refuted ⟨(emModel env).tree, (emModel env).exprs, [(exT, .table true [exA] false none)], some [7, 8], none, 8⟩ exT true [exA] none
    (by simp [dictGet]) (emLabels.map .choice) (by
      have h : choices (emModel env).tree = .ok emLabels := em_choices env
      simp [CModel.labels, h, Except.map]) [] val c { emTable with linked := linked } (by simp [emTable])

end Cheval
