import Verif.Core.Precision
import Verif.Props.RunDiscrete
import Verif.Props.AssignDefects

/-!
# C71: the precision of a model and the width of its stored utilities
-/
set_option linter.unusedSectionVars false
namespace Cheval
open FOps Spec
variable {U F : Type} [DecidableEq U] [FOps F]

/-- no call but the setter changes the precision -/
theorem precision_step (K : Kernel F) (env : PyEnv) (py : PyParser) (m : CModel U F) (op : ModelOp U F)
    (h : ∀ i, op ≠ .setPrecision i) : (modelStep K env py m op).precision = m.precision := by
  cases op with
  | setUnits u => rfl
  | declare n s => simp only [modelStep, CModel.declare]; split <;> rfl
  | assign n d =>
    simp only [modelStep, CModel.assign]
    split
    · rfl
    · split <;> rfl
  | clearScope => rfl
  | expr op => rfl
  | addChoice n s => rfl
  | addNested a n s => rfl
  | addChoices ns ss => rfl
  | setScale a v => rfl
  | setExpressions ts => rfl
  | setExpressionsText t => rfl
  | addPartial tb rr rc out => obtain ⟨c, hc⟩ := addPartialStep_keeps K env py m tb rr rc out; rw [hc]
  | setPrecision i => exact absurd rfl (h i)
  | run g c =>
    simp only [modelStep]
    obtain ⟨t, ht | ht⟩ := runUtilities_keeps K m g c <;> rw [ht]
  | preval k d c =>
    simp only [modelStep]
    obtain ⟨t, sc, ex, ht, _, hx⟩ := preval_keeps K m k d c
    rw [ht]
  | copy a b c d e =>
    simp only [modelStep]
    cases hc : m.copy a b c d e with
    | error er => rfl
    | ok m' => obtain ⟨sc, _, rfl⟩ := copy_ok hc; rfl
  | copySubset ix mask =>
    simp only [modelStep]
    cases hc : m.copySubset ix mask with
    | error er => rfl
    | ok m' => obtain ⟨_, _, sc, ca, _, _, rfl⟩ := copySubset_ok hc; rfl

/-- in a history, every assignment to `precision` finds the model without stored utilities -/
def PrecisionEarly (K : Kernel F) (env : PyEnv) (py : PyParser) : CModel U F → List (ModelOp U F) → Prop
  | _, [] => True
  | m, op :: ops => ((∃ i, op = .setPrecision i) → m.cached = none) ∧ PrecisionEarly K env py (modelStep K env py m op) ops

/-- **C71 (assigned in time)** If the precision of a model is only assigned while it has no stored utilities, then its stored utilities
always have the width given by its precision. Missing: assignments after the first run are ignored (`C71_refuted`). -/
theorem C71_width_partial (K : Kernel F) (env : PyEnv) (py : PyParser) (i : Nat) (m : CModel U F) (hm : CModel.new i = .ok m)
    (ops : List (ModelOp U F)) (h : PrecisionEarly K env py m ops) :
    (precisionRun K env py ⟨m, none⟩ ops).width =
      ((modelRun K env py m ops).cached.map fun _ => (modelRun K env py m ops).precision) := by
  have h0 : (⟨m, none⟩ : PModel U F).width = m.cached.map fun _ => m.precision := by
    unfold CModel.new at hm
    split at hm
    · cases hm; rfl
    · cases hm
  clear hm
  unfold precisionRun modelRun
  generalize hw : (none : Option Nat) = w at *
  clear hw
  induction ops generalizing m w with
  | nil => exact h0
  | cons op ops ih =>
    simp only [List.foldl_cons]
    refine ih (modelStep K env py m op) h.2 (widthAfter m (modelStep K env py m op) w) ?_
    simp only [widthAfter]
    simp only at h0
    by_cases hp : ∃ i, op = .setPrecision i
    · have hc := h.1 hp
      obtain ⟨i, rfl⟩ := hp
      have hc' : (modelStep K env py m (.setPrecision i)).cached = none := by
        simp only [modelStep, CModel.setPrecision]; split <;> exact hc
      rw [hc']; rfl
    · have hpr := precision_step K env py m op (fun i e => hp ⟨i, e⟩)
      rw [hpr]
      cases hc' : (modelStep K env py m op).cached with
      | none => rfl
      | some t =>
        cases hc : m.cached with
        | none => rfl
        | some t' => rw [hc] at h0; exact h0

/-- **C71 (assigned late)** Once utilities are stored, assigning the precision and running, pre-evaluating or copying keep their width,
until the utilities are dropped. -/
theorem C71_kept (K : Kernel F) (env : PyEnv) (py : PyParser) (p : PModel U F) (w : Nat) (hw : p.width = some w)
    (ops : List (ModelOp U F)) (hops : ∀ pre, pre <+: ops → (precisionRun K env py p pre).model.cached ≠ none) :
    (precisionRun K env py p ops).width = some w := by
  induction ops using List.reverseRecOn with
  | nil => exact hw
  | append_singleton ops op ih =>
    have h1 := hops ops (List.prefix_append _ _)
    have h2 := hops (ops ++ [op]) (List.prefix_refl _)
    have ih := ih fun pre hpre => hops pre (hpre.trans (List.prefix_append _ _))
    unfold precisionRun at h1 h2 ih ⊢
    rw [List.foldl_append] at h2 ⊢
    simp only [List.foldl_cons, List.foldl_nil, precisionStep] at h2 ⊢
    generalize List.foldl (precisionStep K env py) p ops = q at *
    unfold widthAfter
    cases e2 : (modelStep K env py q.model op).cached with
    | none => exact absurd e2 h2
    | some t =>
      cases e1 : q.model.cached with
      | none => exact absurd e1 h1
      | some t' => exact ih

theorem evaluate_cached (K : Kernel F) (m : CModel U F) (c : Container) (h : m.cached ≠ none) : (m.evaluate K c).1.cached ≠ none := by
  unfold CModel.evaluate
  split
  · exact h
  · exact h
  · have hp : m.partialUtilities.1.cached ≠ none := by
      unfold CModel.partialUtilities
      split
      · exact h
      · exact h
      · exact h
      · split
        · exact h
        · simp
    rcases hq : m.partialUtilities with ⟨m', r⟩
    rw [hq] at hp
    cases r with
    | error e => exact hp
    | ok p =>
      obtain ⟨ix, u⟩ := p
      simp only
      split
      · exact hp
      · split
        · simp
        · split
          · simp
          · split <;> simp

/-- a run keeps a stored table stored -/
theorem run_cached (K : Kernel F) (m : CModel U F) (g : Option Nat) (clear : Bool) (h : m.cached ≠ none) :
    (m.runUtilities K g clear).1.cached ≠ none := by
  unfold CModel.runUtilities
  split
  · exact h
  · exact h
  · rename_i c _ _
    have he := evaluate_cached K m c h
    rcases hq : m.evaluate K c with ⟨m', r⟩
    rw [hq] at he
    cases r with
    | error e => exact he
    | ok u => cases clear <;> exact he

/-- **C71 (violated)** A model whose precision was set to 4 after a run in double precision reports precision 4 but goes on storing its
utilities in 8 bytes, also in later runs, and so do its copies. -/
theorem C71_refuted (env : PyEnv) (M : Arith XR) : ∃ (p : PModel Nat XR), p.model.precision = 8 ∧ p.model.cached = none ∧ p.width = none ∧
    (precisionRun (emKernel M) env emPy p [.run none false, .setPrecision 4]).model.precision = 4 ∧
    (precisionRun (emKernel M) env emPy p [.run none false, .setPrecision 4]).width = some 8 ∧
    (precisionRun (emKernel M) env emPy p [.run none false, .setPrecision 4, .run none false]).width = some 8 ∧
    (precisionRun (emKernel M) env emPy p [.run none false, .setPrecision 4, .copy true true true true true]).model.precision = 4 ∧
    (precisionRun (emKernel M) env emPy p [.run none false, .setPrecision 4, .copy true true true true true]).width = some 8 := by
  obtain ⟨u, h1, _, _, hu⟩ := em_run_state env M false
  have e1 : precisionRun (emKernel M) env emPy (⟨emModel env, none⟩ : PModel Nat XR) [.run none false, .setPrecision 4] =
      ⟨{ emModel env with cached := some ([7, 8], u), scope := emScope, precision := 4 }, some 8⟩ := by
    simp only [precisionRun, List.foldl_cons, List.foldl_nil, precisionStep, modelStep, h1, CModel.setPrecision]
    simp [widthAfter, emModel]
  have e2 : ∀ op, precisionRun (emKernel M) env emPy (⟨emModel env, none⟩ : PModel Nat XR) [.run none false, .setPrecision 4, op] =
      precisionStep (emKernel M) env emPy
        ⟨{ emModel env with cached := some ([7, 8], u), scope := emScope, precision := 4 }, some 8⟩ op := by
    intro op
    rw [← e1]; rfl
  refine ⟨⟨emModel env, none⟩, rfl, rfl, rfl, by rw [e1], by rw [e1], ?_, ?_, ?_⟩
  · rw [e2]
    have := run_cached (emKernel M) { emModel env with cached := some ([7, 8], u), scope := emScope, precision := 4 } none false (by simp)
    simp only [precisionStep, modelStep, widthAfter]
    split
    · contradiction
    · rename_i h; cases h
    · rfl
  · rw [e2]
    exact precision_step _ _ _ _ _ (by intro i h; cases h)
  · rw [e2]
    simp only [precisionStep, modelStep, widthAfter]
    cases hc : ({ emModel env with cached := some ([7, 8], u), scope := emScope, precision := 4 } : CModel Nat XR).copy true true true true true with
    | error e => rfl
    | ok m' => obtain ⟨sc, _, rfl⟩ := copy_ok hc; rfl

/-- C71_kept: the example of `C71_refuted`, continued -/
example (env : PyEnv) (M : Arith XR) (u : Tab XR) : (precisionRun (emKernel M) env emPy
    (⟨{ emModel env with cached := some ([7, 8], u) }, some 8⟩ : PModel Nat XR) [.setPrecision 4, .setUnits [1, 2]]).width = some 8 := by
  refine C71_kept _ _ _ _ 8 rfl _ fun pre hpre => ?_
  have : pre = [] ∨ pre = [.setPrecision 4] ∨ pre = [.setPrecision 4, .setUnits [1, 2]] := by
    rcases pre with _ | ⟨a, _ | ⟨b, _ | ⟨c, l⟩⟩⟩ <;> simp_all [List.cons_prefix_cons]
  rcases this with rfl | rfl | rfl <;> simp [precisionRun, precisionStep, modelStep, CModel.setPrecision, CModel.setUnits]

/-- C71_width_partial: a history that sets the precision before the first run -/
example (env : PyEnv) (K : Kernel XR) : ∃ m : CModel Nat XR, CModel.new 8 = .ok m ∧
    PrecisionEarly K env emPy m [.setPrecision 4, .setUnits [7, 8], .addChoice ['A'] one, .run none false] :=
  ⟨_, rfl, by
    simp [PrecisionEarly]⟩

/-- the last precision that the setter accepts, from `i` on -/
def lastPrecision (i : Nat) (ops : List (ModelOp U F)) : Nat :=
  ops.foldl (fun p op => match op with
    | .setPrecision k => if k = 4 ∨ k = 8 then k else p
    | _ => p) i

/-- **C71 (the precision reported)** A model can be created with precision 4 or 8 and with no other one; after any history the precision it
reports is the last one the setter accepted, and the one given to the constructor if there was none; it is always 4 or 8. Utilities stored
by a history that leaves the setter alone have the width given to the constructor. -/
theorem C71_reads (K : Kernel F) (env : PyEnv) (py : PyParser) (i : Nat) (ops : List (ModelOp U F)) :
    match (CModel.new i : Except Err (CModel U F)) with
    | .error e => e = .value ∧ i ≠ 4 ∧ i ≠ 8
    | .ok m => (i = 4 ∨ i = 8) ∧ (modelRun K env py m ops).precision = lastPrecision i ops ∧
        ((modelRun K env py m ops).precision = 4 ∨ (modelRun K env py m ops).precision = 8) ∧
        ((∀ k, ModelOp.setPrecision k ∉ ops) → ∀ w, (precisionRun K env py ⟨m, none⟩ ops).width = some w → w = i) := by
  by_cases hi : i = 4 ∨ i = 8
  · have key : ∀ (ops : List (ModelOp U F)) (m : CModel U F), (m.precision = 4 ∨ m.precision = 8) →
        (modelRun K env py m ops).precision = lastPrecision m.precision ops ∧
        ((modelRun K env py m ops).precision = 4 ∨ (modelRun K env py m ops).precision = 8) := by
      intro ops
      induction ops with
      | nil => intro m hm; exact ⟨rfl, hm⟩
      | cons op ops ih =>
        intro m hm
        have hs : (modelStep K env py m op).precision = lastPrecision m.precision [op] ∧
            ((modelStep K env py m op).precision = 4 ∨ (modelStep K env py m op).precision = 8) := by
          by_cases hp : ∃ k, op = .setPrecision k
          · obtain ⟨k, rfl⟩ := hp
            simp only [modelStep, CModel.setPrecision, lastPrecision, List.foldl_cons, List.foldl_nil]
            by_cases hk : k = 4 ∨ k = 8
            · rw [if_pos hk, if_pos hk]; exact ⟨rfl, hk⟩
            · rw [if_neg hk, if_neg hk]; exact ⟨rfl, hm⟩
          · have hpr := precision_step K env py m op (fun k e => hp ⟨k, e⟩)
            rw [hpr]
            refine ⟨?_, hm⟩
            simp only [lastPrecision, List.foldl_cons, List.foldl_nil]
            split
            · exact absurd ⟨_, rfl⟩ hp
            · rfl
        obtain ⟨h1, h2⟩ := ih (modelStep K env py m op) hs.2
        refine ⟨?_, h2⟩
        show (modelRun K env py (modelStep K env py m op) ops).precision = _
        rw [h1, hs.1]
        rfl
    have hnew : (CModel.new i : Except Err (CModel U F)) = .ok ⟨TreeSt.empty, ExprGroup.empty, [], none, none, i⟩ := by
      unfold CModel.new; rw [if_pos hi]
    rw [hnew]
    obtain ⟨h1, h2⟩ := key ops ⟨TreeSt.empty, ExprGroup.empty, [], none, none, i⟩ hi
    refine ⟨hi, h1, h2, ?_⟩
    intro hno w hw
    have hearly : ∀ (ops : List (ModelOp U F)), (∀ k, ModelOp.setPrecision k ∉ ops) → ∀ m, PrecisionEarly K env py m ops := by
      intro ops
      induction ops with
      | nil => intro _ m; trivial
      | cons op ops ih =>
        intro hno m
        refine ⟨?_, ih (fun k hk => hno k (List.mem_cons_of_mem _ hk)) _⟩
        rintro ⟨k, rfl⟩
        exact absurd List.mem_cons_self (hno k)
    rw [C71_width_partial K env py i _ hnew ops (hearly ops hno _)] at hw
    have hl : lastPrecision i ops = i := by
      clear h1 h2 hw
      induction ops with
      | nil => rfl
      | cons op ops ih =>
        have : lastPrecision i (op :: ops) = lastPrecision i ops := by
          simp only [lastPrecision, List.foldl_cons]
          cases op <;> try rfl
          rename_i k
          exact absurd List.mem_cons_self (hno k)
        rw [this]
        exact ih fun k hk => hno k (List.mem_cons_of_mem _ hk)
    rw [h1, hl] at hw
    cases hc : (modelRun K env py ⟨TreeSt.empty, ExprGroup.empty, [], none, none, i⟩ ops).cached with
    | none => rw [hc] at hw; cases hw
    | some t => rw [hc] at hw; cases hw; rfl
  · have hnew : (CModel.new i : Except Err (CModel U F)) = .error .value := by
      unfold CModel.new; rw [if_neg hi]
    rw [hnew]
    exact ⟨rfl, fun h => hi (.inl h), fun h => hi (.inr h)⟩

/-- C71_reads: a refused precision and an accepted one -/
example (env : PyEnv) (K : Kernel XR) : lastPrecision (U := Nat) (F := XR) 8 [.setPrecision 5, .setUnits [7, 8], .setPrecision 4, .run none false] = 4 ∧
    (CModel.new 5 : Except Err (CModel Nat XR)) = .error .value := ⟨by decide, rfl⟩

end Cheval
