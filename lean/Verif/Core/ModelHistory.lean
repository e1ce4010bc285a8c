import Verif.Core.Model
import Verif.Core.PartialCall
import Verif.Core.ExprAssign
import Verif.Core.DictLemmas
import Verif.Props.ExprGroup

/-!
# Histories of a `ChoiceModel`

`ModelOp` lists the calls on a model; `modelRun` is the state after a history, whatever the individual calls returned.
-/
namespace Cheval
open FOps Spec

/-- the calls of a history. `run` stands for run_discrete and run_stochastic, of which only the evaluation of utilities and the
clearing of the scope act on the model; `copy` and `copySubset` continue with the copy. `addPartial` names the outcome, because
the cells are added in parallel: the histories range over all the outcomes the call can have. -/
inductive ModelOp (U F : Type) where
  | setUnits (u : List U)
  | declare (name : Str) (s : Sym F)
  | assign (name : Str) (d : Data U F)
  | clearScope
  | expr (op : GroupOp)
  | addChoice (name : Name) (scale : F)
  | addNested (h : Nat) (name : Name) (scale : F)
  | addChoices (names : PyIter Name) (scales : Option (List F))
  | setScale (h : Nat) (scale : F)
  | setExpressions (texts : List Str)
  | setExpressionsText (text : Str)
  | addPartial (tb : Table U (List Name) F) (reindexRows reindexCols : Bool) (out : CModel U F × Except Err Unit)
  | setPrecision (i : Nat)
  | run (group : Option Nat) (clear : Bool)
  | preval (k : Nat) (dropGroup cleanup : Bool)
  | copy (units scopeDeclared scopeAssigned expressions utilities : Bool)
  | copySubset (index : List U) (mask : List Bool)

section
variable {U F : Type} [DecidableEq U] [FOps F]

open Classical in
noncomputable def modelStep (K : Kernel F) (env : PyEnv) (py : PyParser) (m : CModel U F) : ModelOp U F → CModel U F
  | .setUnits u => m.setUnits u
  | .declare n s => (m.declare n s).1
  | .assign n d => (m.assign n d).1
  | .clearScope => m.clearScope
  | .expr op => { m with exprs := (groupStep env py m.exprs op).1 }
  | .addChoice n sc => (m.addChoice n sc).1
  | .addNested h n sc => (m.addNested h n sc).1
  | .addChoices names scales => (m.addChoices names scales).1
  | .setScale h v => (m.setScale h v).1
  | .setExpressions texts => (m.setExpressions env py texts).1
  | .setExpressionsText text => (m.setExpressionsText env py text).1
  | .addPartial tb rr rc out => if m.AddPartial tb rr rc out then out.1 else m
  | .setPrecision i => (m.setPrecision i).1
  | .run g c => (m.runUtilities K g c).1
  | .preval k d c => (m.preval K k d c).1
  | .copy a b c d e => match m.copy a b c d e with
    | .ok m' => m'
    | .error _ => m
  | .copySubset ix mask => match m.copySubset ix mask with
    | .ok m' => m'
    | .error _ => m

noncomputable def modelRun (K : Kernel F) (env : PyEnv) (py : PyParser) (m : CModel U F) (ops : List (ModelOp U F)) : CModel U F :=
  ops.foldl (modelStep K env py) m
end

variable {U F : Type} [FOps F]

/-! ## what evaluation leaves alone -/

theorem partialUtilities_keeps (m : CModel U F) : ∃ c, m.partialUtilities.1 = { m with cached := c } := by
  unfold CModel.partialUtilities
  split
  · exact ⟨m.cached, by cases m; rfl⟩
  · exact ⟨m.cached, by cases m; rfl⟩
  · exact ⟨m.cached, by cases m; rfl⟩
  · split
    · exact ⟨m.cached, by cases m; rfl⟩
    · exact ⟨_, rfl⟩

/-- evaluation only changes the cached utilities -/
theorem evaluate_keeps (K : Kernel F) (m : CModel U F) (c : Container) : ∃ t, (m.evaluate K c).1 = { m with cached := t } := by
  unfold CModel.evaluate
  split
  · exact ⟨m.cached, by cases m; rfl⟩
  · exact ⟨m.cached, by cases m; rfl⟩
  · obtain ⟨t, ht⟩ := partialUtilities_keeps m
    rcases hp : m.partialUtilities with ⟨m', r⟩
    rw [hp] at ht
    simp only at ht
    subst ht
    cases r with
    | error e => exact ⟨t, rfl⟩
    | ok p =>
      obtain ⟨ix, u⟩ := p
      simp only
      cases symLocals m.scope c.simple with
      | error e => exact ⟨t, rfl⟩
      | ok syms =>
        simp only
        split
        · exact ⟨_, rfl⟩
        · split
          · exact ⟨_, rfl⟩
          · split
            · exact ⟨_, rfl⟩
            · exact ⟨_, rfl⟩

/-- a run only changes the cached utilities, and may clear the scope -/
theorem runUtilities_keeps (K : Kernel F) (m : CModel U F) (g : Option Nat) (clear : Bool) :
    ∃ t, (m.runUtilities K g clear).1 = { m with cached := t } ∨ (m.runUtilities K g clear).1 = { m with cached := t, scope := [] } := by
  unfold CModel.runUtilities
  split
  · exact ⟨m.cached, .inl (by cases m; rfl)⟩
  · exact ⟨m.cached, .inl (by cases m; rfl)⟩
  · rename_i c _ _
    obtain ⟨t, ht⟩ := evaluate_keeps K m c
    rcases he : m.evaluate K c with ⟨m', r⟩
    rw [he] at ht
    simp only at ht
    subst ht
    cases r with
    | error e => exact ⟨t, .inl rfl⟩
    | ok u => cases clear <;> exact ⟨t, by simp [CModel.clearScope]⟩

omit [FOps F] in
theorem delNames_sub (scope : List (Str × Sym F)) (l : List Str) : ∀ e ∈ (delNames scope l).1, e ∈ scope := by
  induction l generalizing scope with
  | nil => exact fun e he => he
  | cons x l ih =>
    unfold delNames
    split
    · intro e he
      have := ih (dictDel scope x) e he
      unfold dictDel at this
      exact (List.mem_filter.mp this).1
    · exact fun e he => he

/-- preval changes the cached utilities, may remove symbols from the scope and drop the group -/
theorem preval_keeps (K : Kernel F) (m : CModel U F) (k : Nat) (drop clean : Bool) :
    ∃ t sc ex, (m.preval K k drop clean).1 = { m with cached := t, scope := sc, exprs := ex } ∧ (∀ e ∈ sc, e ∈ m.scope) ∧
      (ex = m.exprs ∨ ex = (m.exprs.dropGroup k).1) := by
  unfold CModel.preval
  split
  · exact ⟨m.cached, m.scope, m.exprs, by cases m; rfl, fun _ h => h, .inl rfl⟩
  · exact ⟨m.cached, m.scope, m.exprs, by cases m; rfl, fun _ h => h, .inl rfl⟩
  · rename_i sg _ _
    obtain ⟨t, ht⟩ := evaluate_keeps K m ⟨sg.simple, sg.chained, sg.exprs⟩
    rcases he : m.evaluate K ⟨sg.simple, sg.chained, sg.exprs⟩ with ⟨m', r⟩
    rw [he] at ht
    simp only at ht
    subst ht
    cases r with
    | error e => exact ⟨t, m.scope, m.exprs, rfl, fun _ h => h, .inl rfl⟩
    | ok u =>
      simp only
      rcases hd : (if clean = true then delNames m.scope (toClear m.exprs sg) else (m.scope, .ok ())) with ⟨sc, rd⟩
      have hsub : ∀ e ∈ sc, e ∈ m.scope := by
        cases clean with
        | false => simp at hd; rw [← hd.1]; exact fun _ h => h
        | true =>
          simp only [if_true] at hd
          have := delNames_sub m.scope (toClear m.exprs sg)
          rw [hd] at this
          exact this
      cases rd with
      | error e => exact ⟨_, sc, m.exprs, rfl, hsub, .inl rfl⟩
      | ok v =>
        cases drop with
        | false => exact ⟨_, sc, m.exprs, rfl, hsub, .inl rfl⟩
        | true => exact ⟨_, sc, _, rfl, hsub, .inr rfl⟩

omit [FOps F] in
theorem copyScope_keys {scope scope' : List (Str × Sym F)} {a : Bool} {mask : Option (List Bool)}
    (h : copyScope scope a mask = .ok scope') : scope'.map (·.1) = scope.map (·.1) := by
  unfold copyScope at h
  induction scope generalizing scope' with
  | nil => cases h; rfl
  | cons e scope ih =>
    rw [List.mapM_cons] at h
    cases hs : e.2.copy a mask with
    | error er => simp [hs, Except.map, bind, Except.bind] at h
    | ok s =>
      simp only [hs, Except.map, bind, Except.bind] at h
      split at h
      · cases h
      · rename_i l hl
        cases h
        have := ih hl
        simp only [List.map_cons]
        rw [this]

/-- what `copy` returns -/
theorem copy_ok {m m' : CModel U F} {a b c d e : Bool} (h : m.copy a b c d e = .ok m') :
    ∃ scope, (if b || c then copyScope m.scope c none else .ok []) = .ok scope ∧
      m' = ⟨m.tree, if d then m.exprs.copy else ExprGroup.empty, scope, if a || c then m.units else none,
            if e then m.cached else none, m.precision⟩ := by
  unfold CModel.copy at h
  cases hs : (if b || c then copyScope m.scope c none else .ok [] : Except Err (List (Str × Sym F))) with
  | error er => rw [hs] at h; cases h
  | ok scope => rw [hs] at h; cases h; exact ⟨scope, rfl, rfl⟩

/-- what `copy_subset` returns -/
theorem copySubset_ok [DecidableEq U] {m m' : CModel U F} {ix : List U} {mask : List Bool} (h : m.copySubset ix mask = .ok m') :
    m.units = some ix ∧ mask.length = ix.length ∧ ∃ scope cached, copyScope m.scope true (some mask) = .ok scope ∧
      ((m.cached = none ∧ cached = none) ∨ ∃ t t', m.cached = some t ∧ takeMasked t ix mask = .ok t' ∧ cached = some t') ∧
      m' = ⟨m.tree, m.exprs.copy, scope, some ((maskPositions mask).filterMap fun i => ix[i]?), cached, m.precision⟩ := by
  unfold CModel.copySubset at h
  cases hu : m.units with
  | none => rw [hu] at h; cases h
  | some units =>
    rw [hu] at h
    simp only at h
    split at h
    · cases h
    · rename_i hc
      push Not at hc
      obtain ⟨rfl, hl⟩ := hc
      refine ⟨rfl, hl, ?_⟩
      cases hs : copyScope m.scope true (some mask) with
      | error er => rw [hs] at h; cases h
      | ok scope =>
        rw [hs] at h
        simp only at h
        cases hcc : m.cached with
        | none => rw [hcc] at h; cases h; exact ⟨scope, none, rfl, .inl ⟨rfl, rfl⟩, rfl⟩
        | some t =>
          rw [hcc] at h
          simp only at h
          cases ht : takeMasked t ix mask with
          | error er => rw [ht] at h; cases h
          | ok t' => rw [ht] at h; cases h; exact ⟨scope, some t', rfl, .inr ⟨t, t', rfl, ht, rfl⟩, rfl⟩

/-- what `add_partial_utilities` changes: at most the kept table -/
theorem addPartial_keeps [DecidableEq U] {m : CModel U F} {tb : Table U (List Name) F} {rr rc : Bool} {out : CModel U F × Except Err Unit}
    (h : m.AddPartial tb rr rc out) : ∃ c, out.1 = { m with cached := c } := by
  have h0 : ∃ c, m = { m with cached := c } := ⟨m.cached, by cases m; rfl⟩
  unfold CModel.AddPartial at h
  split at h
  · subst h; exact h0
  · subst h; exact h0
  · split at h
    · subst h; exact h0
    · split at h
      · subst h; exact h0
      · split at h
        · subst h; exact h0
        · obtain ⟨c, hc⟩ := partialUtilities_keeps m
          rcases hp : m.partialUtilities with ⟨m1, r⟩
          rw [hp] at h hc
          simp only at hc
          subst hc
          cases r with
          | error e => simp only at h; subst h; exact ⟨_, rfl⟩
          | ok t =>
            obtain ⟨ix, u⟩ := t
            simp only at h
            obtain ⟨r, -, h⟩ := h
            cases r with
            | error e => simp only at h; subst h; exact ⟨_, rfl⟩
            | ok mem => simp only at h; subst h; exact ⟨_, rfl⟩

/-- a step `addPartial` changes at most the kept table -/
theorem addPartialStep_keeps [DecidableEq U] (K : Kernel F) (env : PyEnv) (py : PyParser) (m : CModel U F) (tb : Table U (List Name) F)
    (rr rc : Bool) (out : CModel U F × Except Err Unit) :
    ∃ c, modelStep K env py m (.addPartial tb rr rc out) = { m with cached := c } := by
  simp only [modelStep]
  split
  · rename_i h; exact addPartial_keeps h
  · exact ⟨m.cached, by cases m; rfl⟩

/-- adding several expressions is a history of `append`s -/
theorem appendAll_groupRun (env : PyEnv) (py : PyParser) : ∀ (es : List Str) (g : ExprGroup),
    ∃ ops, (∀ op ∈ ops, ∃ e, op = GroupOp.append e none) ∧ (appendAll env py g es).1 = groupRun env py g ops
  | [], g => ⟨[], by simp, rfl⟩
  | e :: es, g => by
    rcases ha : g.append env py e none with ⟨g', r⟩
    cases r with
    | error er => exact ⟨[.append e none], by simp, by simp [appendAll, ha, groupRun, groupStep]⟩
    | ok _ =>
      obtain ⟨ops, h1, h2⟩ := appendAll_groupRun env py es g'
      refine ⟨.append e none :: ops, ?_, ?_⟩
      · intro op hop
        rcases List.mem_cons.mp hop with rfl | hop
        · exact ⟨e, rfl⟩
        · exact h1 op hop
      · simp only [appendAll, ha, h2, groupRun, List.foldl_cons, groupStep]

end Cheval
