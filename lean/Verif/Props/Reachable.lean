import Verif.Props.Scope
import Verif.Props.DictLiteral
import Verif.Props.ExampleModel
import Verif.Core.ModelHistory

/-!
# C22, C28, C30, C36, C38: statements about every reachable model

A reachable model is what any history of calls makes of a new `ChoiceModel`.
-/
namespace Cheval
open FOps Spec
variable {U F : Type} [FOps F]

/-- a new model -/
def newModel (U F : Type) (precision : Nat) : CModel U F := ⟨TreeSt.empty, ExprGroup.empty, [], none, none, precision⟩

theorem held_modelStep [DecidableEq U] (K : Kernel F) {env : PyEnv} {py : PyParser} {m : CModel U F} (h : Held env py m.exprs)
    (op : ModelOp U F) : Held env py (modelStep K env py m op).exprs := by
  cases op with
  | setUnits u => exact h
  | declare n s => simp only [modelStep, CModel.declare]; split <;> exact h
  | assign n d =>
    simp only [modelStep, CModel.assign]
    split
    · exact h
    · split <;> exact h
  | clearScope => exact h
  | expr op => exact h.step op
  | addChoice n s => exact h
  | addNested a n s => exact h
  | addChoices ns ss => exact h
  | setScale a v => exact h
  | setExpressions ts =>
    simp only [modelStep, CModel.setExpressions]
    obtain ⟨ops, _, he⟩ := appendAll_groupRun env py ts m.exprs
    rw [he]; exact h.run ops
  | setExpressionsText t =>
    simp only [modelStep, CModel.setExpressionsText, CModel.setExpressions]
    obtain ⟨ops, _, he⟩ := appendAll_groupRun env py (t.map fun c => [c]) m.exprs
    rw [he]; exact h.run ops
  | addPartial tb rr rc out => obtain ⟨c, hc⟩ := addPartialStep_keeps K env py m tb rr rc out; rw [hc]; exact h
  | setPrecision i => simp only [modelStep, CModel.setPrecision]; split <;> exact h
  | run g c =>
    simp only [modelStep]
    obtain ⟨t, ht | ht⟩ := runUtilities_keeps K m g c <;> rw [ht] <;> exact h
  | preval k d c =>
    simp only [modelStep]
    obtain ⟨t, sc, ex, ht, _, hx⟩ := preval_keeps K m k d c
    rw [ht]
    rcases hx with rfl | rfl
    · exact h
    · exact h.step (.drop k)
  | copy a b c d e =>
    simp only [modelStep]
    cases hc : m.copy a b c d e with
    | error er => exact h
    | ok m' =>
      obtain ⟨sc, _, rfl⟩ := copy_ok hc
      simp only
      split
      · exact h.copy
      · exact Held.empty env py
  | copySubset ix mask =>
    simp only [modelStep]
    cases hc : m.copySubset ix mask with
    | error er => exact h
    | ok m' =>
      obtain ⟨_, _, sc, ca, _, _, rfl⟩ := copySubset_ok hc
      exact h.copy

theorem held_modelRun [DecidableEq U] (K : Kernel F) {env : PyEnv} {py : PyParser} {m : CModel U F} (h : Held env py m.exprs)
    (ops : List (ModelOp U F)) : Held env py (modelRun K env py m ops).exprs := by
  induction ops generalizing m with
  | nil => exact h
  | cons op ops ih => exact ih (held_modelStep K h op)

/-- **C22 (partial, every history)** Whatever was done to a model: take any of its expressions to be evaluated, by a run of all
expressions or of one group. Every variable of the rewritten expression is the reserved word NAN, a symbol in the set of simple symbols
that `validate` checks for this run, a substitution for a lookup whose table is in the set of dotted symbols it checks, or a
substitution for a dict literal. Missing: symbols that stand only below a unary minus or in keyword arguments (`Checked`). -/
theorem C22_reachable_partial [DecidableEq U] (K : Kernel F) (env : PyEnv) (py : PyParser) (p : Nat) (ops : List (ModelOp U F))
    (g : Option Nat) (c : Container) (hc : (modelRun K env py (newModel U F p) ops).container g = .ok c) (x : Expression) (hx : x ∈ c.exprs)
    (hp : ∀ text filt tree, splitFilter x.raw = .ok (text, filt) → py text = .ok tree → Checked tree) :
    ∀ id ∈ freeNames x.transformed, id = nanStr ∨ id ∈ c.simple ∨
      (∃ e ∈ x.chains, id ∈ e.2.map (·.1) ∧ e.1 ∈ c.chained) ∨ id ∈ x.dicts.map (·.1) := by
  have hh := held_modelRun K (m := newModel U F p) (Held.empty env py) ops
  obtain ⟨h1, h2, h3⟩ := container_recorded hh hc
  obtain ⟨src, text, hs, hpy, hf, simple, chained, s, hv, e1, e2, e3⟩ := h3 x hx
  intro id hid
  obtain ⟨hr, _, _⟩ := C22_recorded_partial env simple chained src.1 x.transformed s (hp _ _ _ hs hpy) hv
  rcases hr id hid with h | h | h | h
  · exact .inl h
  · exact .inr (.inl (h1 x hx id (by rw [e3]; exact h)))
  · obtain ⟨y, hy, rfl⟩ := List.mem_map.mp h
    obtain ⟨ls, h4, h5⟩ := mem_subs.mp hy
    refine .inr (.inr (.inl ⟨(y.2.1, ls), by rw [e1]; exact h4, ?_, ?_⟩))
    · exact List.mem_map.mpr ⟨_, h5, rfl⟩
    · exact h2 x hx _ (by rw [e1]; exact List.mem_map_of_mem h4)
  · exact .inr (.inr (.inr (by rw [e2]; exact h)))

/-- **C30** (every history) Whatever was done to a model, if `validate` accepts it for a run then each symbol of each expression
to be evaluated, except reserved words, is declared and has data, and the evaluation raises no ModelNotReadyError. -/
theorem C30_reachable [DecidableEq U] (K : Kernel F) (env : PyEnv) (py : PyParser) (p : Nat) (ops : List (ModelOp U F))
    (g : Option Nat) (c : Container) (hc : (modelRun K env py (newModel U F p) ops).container g = .ok c)
    (hv : (modelRun K env py (newModel U F p) ops).validate true true true true g = .ok ())
    (ht : TablesReady (modelRun K env py (newModel U F p) ops).scope) :
    (∀ x ∈ c.exprs, ∀ y, y ∈ x.symbols ∨ y ∈ x.chains.map (·.1) → y ∉ reserved →
      ∃ s, dictGet (modelRun K env py (newModel U F p) ops).scope y = some s ∧ s.filled = true) ∧
    ((modelRun K env py (newModel U F p) ops).evaluate K c).2 ≠ .error .modelNotReady := by
  have := C30_sound K _ (held_modelRun K (m := newModel U F p) (Held.empty env py) ops) g c hc hv ht
  exact ⟨this.1, this.2.2⟩

/-- the hypotheses of `C22_reachable_partial`: a history whose model has the expressions `x` and `t.a` -/
example (env : PyEnv) (K : Kernel F) : ∃ c, (modelRun K env emPy (newModel Nat F 8) (emOps.map .expr)).container none = .ok c ∧
    emExpr1 ∈ c.exprs ∧ emExpr2 ∈ c.exprs ∧ exX ∈ c.simple ∧ exT ∈ c.chained := by
  have h : (modelRun K env emPy (newModel Nat F 8) (emOps.map .expr)).exprs = groupRun env emPy ExprGroup.empty emOps := by
    simp [modelRun, modelStep, emOps, newModel, groupRun]
  refine ⟨_, rfl, ?_⟩
  simp only [h, em_exprs env]
  simp [ExprGroup.all, ExprGroup.itersimple, ExprGroup.iterchained]

/-! ## C28 -/

omit [FOps F] in
theorem dictKey_none (k : PExpr) (h : readKey k = none) : ∃ e, dictKey k = .error e := by
  have key : ∀ e acc, dotted e = none → ∃ er, dictKey.attrKey e acc = .error er := by
    intro e
    induction e using PExpr.rec (motive_2 := fun _ => True) (motive_3 := fun _ => True) (motive_4 := fun _ => True) with
    | attr e f ih =>
      intro acc hd
      simp only [dotted, Option.map_eq_none_iff] at hd
      exact ih _ hd
    | name id => intro acc hd; simp [dotted] at hd
    | _ => first | exact True.intro | (intro acc hd; exact ⟨_, rfl⟩) | (intros; trivial)
  cases k with
  | name id => simp [readKey] at h
  | str id => simp [readKey] at h
  | attr e f =>
    simp only [readKey, Option.map_eq_none_iff] at h
    exact key e [f] h
  | _ => exact ⟨_, rfl⟩

omit [FOps F] in
theorem dictItems_none (env : PyEnv) : ∀ (items : PItems) (acc : Literal), readItems items = none → ∃ e, dictItems env items acc = .error e
  | .nil, acc, h => by simp [readItems] at h
  | .star _ _, acc, h => ⟨_, rfl⟩
  | .cons k v rest, acc, h => by
    simp only [readItems] at h
    rw [dictItems]
    cases hk : readKey k with
    | none => obtain ⟨e, he⟩ := dictKey_none k hk; rw [he]; exact ⟨e, rfl⟩
    | some key =>
      rw [dictKey_readKey k key hk]
      simp only
      split
      · rename_i x
        rw [hk] at h
        cases hr : readItems rest with
        | none => exact dictItems_none env rest _ hr
        | some l => rw [hr] at h; simp at h
      · rename_i x
        rw [hk] at h
        cases hr : readItems rest with
        | none => exact dictItems_none env rest _ hr
        | some l => rw [hr] at h; simp at h
      · exact ⟨_, rfl⟩

omit [FOps F] in
/-- **C28** (from the text to the literal) In an expression of a model a dict literal is accepted exactly if its keys are names,
strings or dotted names and its values numbers or negated numbers. Evaluation then uses, for the name that replaces it, the entries as
written: dotted keys in order, signs kept, the last of several entries with the same key, values rounded to single precision. -/
theorem C28_written (env : PyEnv) (hm : env.mode = .cheval) (items : PItems) (s : PSt) :
    (∀ lit, readItems items = some lit → ∃ s' name entries, visit env (.dict items) s = (s', .ok (.name name)) ∧
      dictGet s'.dicts name = some entries ∧
      ∀ key, dictGet entries key = (lit.reverse.find? fun e => decide (e.1 = key)).map fun e => env.f32 e.2) ∧
    (readItems items = none → ∃ e, visit env (.dict items) s = (s, .error e)) := by
  refine ⟨fun lit hr => C29_accepted env hm items lit hr s, fun hr => ?_⟩
  obtain ⟨e, he⟩ := dictItems_none env items [] hr
  exact ⟨e, by simp only [visit, visitDict, hm, he]; rfl⟩

/-- `{R.A: -1}` is read with its sign and its dotted key, `{f().A: 1}` and `{A: x}` are rejected -/
example (env : PyEnv) (hm : env.mode = .cheval) (s : PSt) :
    (∃ s' name entries, visit env (.dict (.cons (.attr (.name nR) nA) (.unary .neg (.num 1)) .nil)) s = (s', .ok (.name name)) ∧
      dictGet s'.dicts name = some entries ∧ dictGet entries [nR, nA] = some (env.f32 (-1))) ∧
    (∃ e, visit env (.dict (.cons (.attr (.call (.name nR) .nil .nil) nA) (.num 1) .nil)) s = (s, .error e)) ∧
    (∃ e, visit env (.dict (.cons (.name nA) (.name nR) .nil)) s = (s, .error e)) := by
  refine ⟨?_, (C28_written env hm _ s).2 rfl, (C28_written env hm _ s).2 rfl⟩
  obtain ⟨s', name, entries, h1, h2, h3⟩ := (C28_written env hm (.cons (.attr (.name nR) nA) (.unary .neg (.num 1)) .nil) s).1 _ rfl
  exact ⟨s', name, entries, h1, h2, by rw [h3]; simp⟩

/-! ## C36, C38 -/

/-- **C36** (adding a choice) After a top-level `add_choice`, successful or not, a run starts from zero: its outcome does not
depend on the utilities computed before. -/
theorem C36_add_choice (K : Kernel F) (m : CModel U F) (t : Option (List U × Tab F)) (name : Name) (scale : F) (g : Option Nat) (c : Bool) :
    (m.addChoice name scale).1.runUtilities K g c = (({ m with cached := t } : CModel U F).addChoice name scale).1.runUtilities K g c := rfl

/-- **C38** (unknown groups) `preval` of a group that does not exist, or dropping such a group, raises an error and changes nothing. -/
theorem C38_unknown_group (K : Kernel F) (m : CModel U F) (k : Nat) (hk : k ∉ m.exprs.subgroups.map (·.1)) (drop clean : Bool) :
    (∃ e, m.preval K k drop clean = (m, .error e)) ∧ m.exprs.dropGroup k = (m.exprs, .error .key) ∧
    (m.validate true true false false none = .ok () → m.preval K k drop clean = (m, .error .key)) := by
  have hg : dictGet m.exprs.subgroups k = none := dictGet_eq_none.mpr hk
  have hgg : m.exprs.getGroup k = .error .key := by simp [ExprGroup.getGroup, hg]
  refine ⟨?_, by simp [ExprGroup.dropGroup, hg], ?_⟩
  · unfold CModel.preval
    rw [hgg]
    cases m.validate true true true true (some k) <;> exact ⟨_, rfl⟩
  · intro hv
    have : m.validate true true true true (some k) = .error .key := by
      have h2 : m.container (some k) = .error .key := by simp [CModel.container, hgg, Except.map]
      simp only [CModel.validate, h2] at hv ⊢
      simp only [bind, Except.bind, if_true, Bool.not_false, Bool.not_true, Bool.and_self, Bool.false_eq_true, if_false] at hv ⊢
      split at hv
      · cases hv
      · split at hv
        · cases hv
        · rfl
    unfold CModel.preval
    rw [this]
end Cheval
