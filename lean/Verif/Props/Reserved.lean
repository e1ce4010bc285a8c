import Verif.Props.Scope

/-!
# C30 (reserved words), C31: reserved words
-/
namespace Cheval
open Spec FOps
variable {U F : Type} [FOps F]

/-! ## C30: an instance, and where it fails -/

theorem em_tablesReady : TablesReady emScope := by
  intro n o ma al t h
  have hm := dictGet_mem h
  simp only [emScope, List.mem_cons, Prod.mk.injEq, reduceCtorEq, and_false, Sym.table.injEq, Option.some.injEq, List.not_mem_nil,
    or_false, false_or] at hm
  obtain ⟨_, _, _, _, rfl⟩ := hm
  refine ⟨fun a => ?_, fun p f => ?_⟩
  · simp only [emTable]; split <;> simp
  · simp [emTable]

/-- the hypotheses of `C30_sound` hold for the example -/
example (env : PyEnv) (M : Arith XR) : ((emModel env).evaluate (emKernel M) ⟨[exX], [exT, exT], [emExpr1, emExpr2]⟩).2 ≠ .error .modelNotReady :=
  (C30_sound (emKernel M) (emModel env) (em_held env) none _ (em_container env) (em_valid env) em_tablesReady).2.2

/-- `OUT.a`, as the parser delivers it -/
def outExpr : Expression := ⟨outStr ++ '.' :: exA, .name (subName outStr 0), [(outStr, [(subName outStr 0, ⟨[exA], none⟩)])], [], none, []⟩

def outPy : PyParser := fun _ => .ok (.attr (.name outStr) exA)

theorem out_run (env : PyEnv) : groupRun env outPy ExprGroup.empty [.append (outStr ++ '.' :: exA) none] =
    ⟨[outExpr], [], [outStr], []⟩ := by
  have h3 : splitFilter (outStr ++ '.' :: exA) = .ok (outStr ++ '.' :: exA, none) := by decide
  have e2 : parse env outPy (outStr ++ '.' :: exA) [] [] = (([], [outStr]), .ok outExpr) := by
    simp [parse, h3, outPy, visit, visitAttr, nameOfAttr, addChain, setAdd, outExpr, dictGet, dictSet, subName]
  simp only [groupRun, List.foldl_cons, List.foldl_nil, groupStep, ExprGroup.append, ExprGroup.empty, e2]
  simp [setUnion, setAdd, outExpr]

/-- a model with the valid tree of the example whose only expression is `OUT.a` -/
noncomputable def outModel (env : PyEnv) : CModel Nat XR :=
  { emModel env with exprs := groupRun env outPy ExprGroup.empty [.append (outStr ++ '.' :: exA) none] }

/-- **C30** A dotted reserved word is not caught: `OUT.a` is accepted, the model validates, and evaluation raises KeyError for the
recorded symbol `OUT`. -/
theorem C30_reserved_refuted (env : PyEnv) (M : Arith XR) :
    (outModel env).validate true true true true none = .ok () ∧ ∃ c, (outModel env).container none = .ok c ∧ outStr ∈ c.chained ∧
      ((outModel env).evaluate (emKernel M) c).2 = .error .key := by
  have ht : (outModel env).tree = after exampleOps := rfl
  have hs : (outModel env).scope = emScope := rfl
  have hu : (outModel env).units = some [7, 8] := rfl
  have hcch : (outModel env).cached = none := rfl
  have hr : outStr ∈ reserved := by decide
  have hc : (outModel env).container none = .ok ⟨[], [outStr], [outExpr]⟩ := by
    simp [CModel.container, outModel, out_run, ExprGroup.itersimple, ExprGroup.iterchained, ExprGroup.all]
  refine ⟨?_, _, hc, by simp, ?_⟩
  · simp [CModel.validate, ht, exampleOps_valid, hc, CModel.decisionUnits, hu, checkSymbols, hr, bind, Except.bind]
  · obtain ⟨labels, hl, _⟩ := (em_consistent env).choices
    have hl : choices (outModel env).tree = .ok labels := hl
    have hn : dictGet emScope outStr = none := by
      rw [dictGet_eq_none]; simp [emScope]; decide
    have hv : (outModel env).validate true true false false none = .ok () := by
      simp [CModel.validate, ht, exampleOps_valid, CModel.decisionUnits, hu, bind, Except.bind]
    have hp : (outModel env).partialUtilities = ({ outModel env with cached := some ([7, 8], ⟨2, labels.length, fun _ _ => zero⟩) },
        .ok ([7, 8], ⟨2, labels.length, fun _ _ => zero⟩)) := by
      unfold CModel.partialUtilities
      simp only [hv, CModel.decisionUnits, hu, hl, hcch]
      rfl
    unfold CModel.evaluate
    simp only [hu, hl, hp]
    have hsl : symLocals (outModel env).scope [] = .ok [] := rfl
    simp only [hsl]
    have he : ∀ u, evalExpr (emKernel M) (outModel env).scope labels [] u outExpr = .error .key := by
      intro u
      have h1 : outExpr.chains = [(outStr, [(subName outStr 0, ⟨[exA], none⟩)])] := rfl
      have h2 : outExpr.dicts = [] := rfl
      have h3 : outExpr.filter = none := rfl
      simp only [evalExpr, h3, columnMask, bind, Except.bind, h2, addDicts, List.foldlM_nil, h1, addChains, List.foldlM_cons, hs, hn,
        pure, Except.pure]
    unfold evalLoop
    simp only [he]

/-! ## C31 -/

/-- **C31** A declaration of a reserved word raises SyntaxError and changes nothing. -/
theorem C31_declare (m : CModel U F) (name : Str) (s : Sym F) (h : name ∈ reserved) : m.declare name s = (m, .error .syntaxErr) := by
  simp [CModel.declare, h]

/-- **C31** Exactly `NAN`, `OUT` and `NEG_INF` cannot be declared; any other name is declared and is unassigned then. -/
theorem C31_words (m : CModel U F) (name : Str) (s : Sym F) :
    ((name = "NAN".toList ∨ name = "OUT".toList ∨ name = "NEG_INF".toList) → m.declare name s = (m, .error .syntaxErr)) ∧
    (¬ (name = "NAN".toList ∨ name = "OUT".toList ∨ name = "NEG_INF".toList) →
      (m.declare name s).2 = .ok () ∧ dictGet (m.declare name s).1.scope name = some s.empty) := by
  have hr : name ∈ reserved ↔ (name = "NAN".toList ∨ name = "OUT".toList ∨ name = "NEG_INF".toList) := by
    simp [reserved, nanStr, outStr, negInfStr]
  rw [← hr]
  constructor
  · exact C31_declare m name s
  · intro h
    simp [CModel.declare, h, dictGet_dictSet]

omit [FOps F] in
theorem mem_keys_of_sub {a b : List (Str × Sym F)} (h : ∀ e ∈ a, e ∈ b) {x : Str} (hx : x ∈ a.map (·.1)) : x ∈ b.map (·.1) := by
  obtain ⟨e, he, rfl⟩ := List.mem_map.mp hx
  exact List.mem_map_of_mem (h e he)

theorem assign_scope_keys [DecidableEq U] (m : CModel U F) (n : Str) (d : Data U F) (x : Str) :
    x ∈ (m.assign n d).1.scope.map (·.1) ↔ x ∈ m.scope.map (·.1) := by
  unfold CModel.assign
  cases hg : dictGet m.scope n with
  | none => exact Iff.rfl
  | some s =>
    simp only
    cases s.assign m d with
    | error e => exact Iff.rfl
    | ok s' =>
      have hmem : n ∈ m.scope.map (·.1) := (dictGet_isSome_iff _ _).mp (by rw [hg]; rfl)
      simp only [dictSet_keys]
      constructor
      · rintro (rfl | h)
        · exact hmem
        · exact h
      · exact .inr

theorem reserved_step [DecidableEq U] (K : Kernel F) (env : PyEnv) (py : PyParser) (m : CModel U F)
    (h : ∀ x ∈ reserved, x ∉ m.scope.map (·.1)) (op : ModelOp U F) : ∀ x ∈ reserved, x ∉ (modelStep K env py m op).scope.map (·.1) := by
  intro x hx hm
  cases op with
  | setUnits u =>
    apply h x hx
    simpa [modelStep, CModel.setUnits, List.map_map, Function.comp] using hm
  | declare n s =>
    simp only [modelStep, CModel.declare] at hm
    split at hm
    · exact h x hx hm
    · rename_i hn
      rcases (dictSet_keys _ _ _ _).mp hm with rfl | hm
      · exact hn hx
      · exact h x hx hm
  | assign n d => exact h x hx ((assign_scope_keys m n d x).mp hm)
  | clearScope => simp [modelStep, CModel.clearScope] at hm
  | expr op => exact h x hx hm
  | addChoice n sc => exact h x hx hm
  | addNested i n sc => exact h x hx hm
  | addChoices ns ss => exact h x hx hm
  | setScale a v => exact h x hx hm
  | setExpressions ts => exact h x hx hm
  | setExpressionsText t => exact h x hx hm
  | addPartial tb rr rc out =>
    obtain ⟨c, hc⟩ := addPartialStep_keeps K env py m tb rr rc out
    rw [hc] at hm; exact h x hx hm
  | setPrecision i =>
    simp only [modelStep, CModel.setPrecision] at hm
    split at hm <;> exact h x hx hm
  | run g c =>
    obtain ⟨t, ht | ht⟩ := runUtilities_keeps K m g c
    · simp only [modelStep, ht] at hm; exact h x hx hm
    · simp only [modelStep, ht] at hm; simp at hm
  | preval k d c =>
    obtain ⟨t, sc, ex, ht, hs, _⟩ := preval_keeps K m k d c
    simp only [modelStep, ht] at hm
    exact h x hx (mem_keys_of_sub hs hm)
  | copy a b c d e =>
    simp only [modelStep] at hm
    split at hm
    · rename_i m' hc
      obtain ⟨sc, hsc, rfl⟩ := copy_ok hc
      simp only at hm
      split at hsc
      · rw [copyScope_keys hsc] at hm; exact h x hx hm
      · cases hsc; simp at hm
    · exact h x hx hm
  | copySubset ix mask =>
    simp only [modelStep] at hm
    split at hm
    · rename_i m' hc
      obtain ⟨_, _, sc, _, hsc, _, rfl⟩ := copySubset_ok hc
      simp only at hm
      rw [copyScope_keys hsc] at hm; exact h x hx hm
    · exact h x hx hm

/-- **C31** No history of calls on a new model (and its copies) binds a reserved word. -/
theorem C31_history [DecidableEq U] (K : Kernel F) (env : PyEnv) (py : PyParser) (i : Nat) (m : CModel U F) (hm : CModel.new i = .ok m)
    (ops : List (ModelOp U F)) : ∀ x ∈ reserved, dictGet (modelRun K env py m ops).scope x = none := by
  have h0 : ∀ x ∈ reserved, x ∉ m.scope.map (·.1) := by
    unfold CModel.new at hm
    split at hm
    · cases hm; simp
    · cases hm
  suffices h : ∀ (ops : List (ModelOp U F)) (m : CModel U F), (∀ x ∈ reserved, x ∉ m.scope.map (·.1)) →
      ∀ x ∈ reserved, x ∉ (modelRun K env py m ops).scope.map (·.1) from fun x hx => dictGet_eq_none.mpr (h ops m h0 x hx)
  intro ops
  induction ops with
  | nil => exact fun m h => h
  | cons op ops ih => exact fun m h => ih _ (reserved_step K env py m h op)

theorem foldlM_keeps {α V : Type} (l : List α) (f : List (Str × V) → α → Except Err (List (Str × V))) (id : Str)
    (hf : ∀ a ∈ l, ∀ d d', f d a = .ok d' → dictGet d' id = dictGet d id) :
    ∀ d d', l.foldlM f d = .ok d' → dictGet d' id = dictGet d id := by
  induction l with
  | nil => intro d d' h; cases h; rfl
  | cons a l ih =>
    intro d d' h
    rw [List.foldlM_cons] at h
    cases hfa : f d a with
    | error e => rw [hfa] at h; cases h
    | ok d1 =>
      rw [hfa] at h
      rw [ih (fun b hb => hf b (by simp [hb])) d1 d' h, hf a (by simp) d d1 hfa]

/-- **C31** Whatever the scope holds and whatever lookups and dict literals an accepted expression contains, NumExpr gets nan, the utilities
so far and -inf under the reserved names. -/
theorem C31_seen (K : Kernel F) {env : PyEnv} {src : Source} {x : Expression} (hp : Parsed env src x) (scope : List (Str × Sym F))
    (labels : List (List Name)) (syms d1 d : List (Str × Local F)) (u : Tab F)
    (h1 : addDicts K labels (reservedLocals K u ++ syms) x.dicts = .ok d1) (h2 : addChains scope d1 x.chains = .ok d) :
    dictGet d nanStr = some (.scalar (.num K.nan)) ∧ dictGet d outStr = some (.array ⟨u.rows, u.cols, fun i j => .num (u.val i j)⟩) ∧
    dictGet d negInfStr = some (.scalar (.num negInf)) := by
  obtain ⟨_, simple, chained, s, hv, hch, hdi, hsy⟩ := hp
  have hinv := (visit_inv env _ _ (PInv.fresh simple chained) _ _ hv).1
  have hsubne : ∀ t k r, r ∈ reserved → subName t k ≠ r := by
    intro t k r hr h
    simp only [reserved, List.mem_cons, List.not_mem_nil, or_false] at hr
    rcases hr with rfl | rfl | rfl <;> simp [subName, subPrefix, nanStr, outStr, negInfStr] at h
  have hdictne : ∀ k r, r ∈ reserved → dictName k ≠ r := by
    intro k r hr h
    simp only [reserved, List.mem_cons, List.not_mem_nil, or_false] at hr
    rcases hr with rfl | rfl | rfl <;> simp [dictName, dictPrefix, nanStr, outStr, negInfStr] at h
  have key : ∀ r ∈ reserved, dictGet d r = dictGet (reservedLocals K u ++ syms) r := by
    intro r hr
    have e1 : dictGet d1 r = dictGet (reservedLocals K u ++ syms) r := by
      refine foldlM_keeps x.dicts _ r ?_ _ _ h1
      intro a ha d d' hd
      cases hrow : dictRow labels a.2 with
      | error e => rw [hrow] at hd; cases hd
      | ok row =>
        rw [hrow] at hd
        cases hd
        rw [dictGet_dictSet, if_neg]
        rintro rfl
        have : a.1 ∈ x.dicts.map (·.1) := List.mem_map_of_mem ha
        rw [hdi, hinv.dicts] at this
        obtain ⟨k, _, hk⟩ := List.mem_map.mp this
        exact hdictne k _ hr hk
    rw [← e1]
    refine foldlM_keeps x.chains _ r ?_ _ _ h2
    intro a ha d d' hd
    rw [hch] at ha
    cases hsc : dictGet scope a.1 with
    | none => rw [hsc] at hd; cases hd
    | some sy =>
      rw [hsc] at hd
      refine foldlM_keeps a.2 _ r ?_ _ _ hd
      intro l hl d d' hd
      cases hg : sy.getChain l.2 with
      | error e => rw [hg] at hd; cases hd
      | ok v =>
        rw [hg] at hd
        cases hd
        rw [dictGet_dictSet, if_neg]
        rintro rfl
        have : l.1 ∈ a.2.map (·.1) := List.mem_map_of_mem hl
        rw [hinv.names a ha] at this
        obtain ⟨k, _, hk⟩ := List.mem_map.mp this
        exact hsubne _ k _ hr hk
  have hne1 : ¬ nanStr = outStr := by decide
  have hne2 : ¬ nanStr = negInfStr := by decide
  have hne3 : ¬ outStr = negInfStr := by decide
  refine ⟨?_, ?_, ?_⟩ <;> rw [key _ (by decide), dictGet_append]
  · simp [reservedLocals, dictGet_cons]
  · simp [reservedLocals, dictGet_cons, hne1]
  · simp [reservedLocals, dictGet_cons, hne2, hne3]

/-- both expressions of the example meet `Parsed`; a history with a rejected and an accepted declaration -/
example (env : PyEnv) : Parsed env (.attr (.name exT) exA, some emFilter) emExpr2 := (em_ready2 env).parsed
example (K : Kernel XR) (env : PyEnv) (py : PyParser) (m : CModel Nat XR) :
    dictGet (modelRun K env py { m with scope := [] } [.declare outStr (.number none), .declare exX (.number none)]).scope exX = some (.number none) ∧
    dictGet (modelRun K env py { m with scope := [] } [.declare outStr (.number none), .declare exX (.number none)]).scope outStr = none := by
  have h1 : outStr ∈ reserved := by decide
  have h2 : exX ∉ reserved := by decide
  have h3 : ¬ exX = outStr := by decide
  simp [modelRun, modelStep, CModel.declare, h1, h2, dictSet, dictGet, Sym.empty, h3]

end Cheval
