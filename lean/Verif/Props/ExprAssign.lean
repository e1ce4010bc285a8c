import Verif.Core.ExprAssign
import Verif.Core.GroupHistory
import Verif.Props.Reachable

/-!
# C62: assigning `model.expressions`
-/
namespace Cheval
open Spec
variable {U F : Type} [FOps F]

theorem appendAll_run (env : PyEnv) (py : PyParser) (g : ExprGroup) (es : List Str) :
    ∃ k ≤ es.length,
      ((appendAll env py g es).2 = .ok () ∧ k = es.length ∧
        (appendAll env py g es).1 = groupRun env py g (es.map fun e => .append e none) ∨
       ∃ (hk : k < es.length) (er : Err), (appendAll env py g es).2 = .error er ∧
        (groupStep env py (groupRun env py g ((es.take k).map fun e => .append e none)) (.append es[k] none)).2 = .error er ∧
        (appendAll env py g es).1 = groupRun env py g ((es.take (k + 1)).map fun e => .append e none)) ∧
      (textsOf (appendAll env py g es).1) = ⟨(textsOf g).ungrouped ++ es.take k, (textsOf g).groups⟩ := by
  induction es generalizing g with
  | nil => exact ⟨0, le_refl _, .inl ⟨rfl, rfl, rfl⟩, by simp [appendAll]⟩
  | cons e es ih =>
    have hs := textsOf_step env py g (.append e none)
    have hst : groupStep env py g (.append e none) = g.append env py e none := rfl
    rw [hst] at hs
    rcases ha : g.append env py e none with ⟨g', r⟩
    rw [ha] at hs
    cases r with
    | error er =>
      refine ⟨0, Nat.zero_le _, .inr ⟨by simp, er, ?_, ?_, ?_⟩, ?_⟩
      · simp [appendAll, ha]
      · simp [groupRun, groupStep, ha]
      · simp [appendAll, ha, groupRun, groupStep]
      · simp only [appendAll, ha]
        simpa using hs
    | ok v =>
      have hall : appendAll env py g (e :: es) = appendAll env py g' es := by simp [appendAll, ha]
      obtain ⟨k, hk, h, ht⟩ := ih g'
      have hrun : ∀ l : List Str, groupRun env py g ((e :: l).map fun e => .append e none) = groupRun env py g' (l.map fun e => .append e none) := by
        intro l; simp [groupRun, groupStep, ha]
      refine ⟨k + 1, by simpa using hk, ?_, ?_⟩
      · rw [hall]
        rcases h with ⟨h1, h2, h3⟩ | ⟨hk', er, h1, h2, h3⟩
        · exact .inl ⟨h1, by simp [h2], by rw [hrun, h3]⟩
        · refine .inr ⟨by simpa using hk', er, h1, ?_, ?_⟩
          · rw [List.take_succ_cons, hrun]
            simpa using h2
          · rw [List.take_succ_cons, hrun, h3]
      · rw [hall, ht]
        simp only at hs
        rw [hs]
        simp [Texts.step]

/-- **C35 (append)** `model.expressions.append(text, group)`: if it returns, the text is the last one of its group, or of the ungrouped ones if no
group is given, and the other texts are as before; if it raises, all texts are as before. Nothing else of the model changes, and `model.validate(group)`,
`run_*(group)` and `preval(group)` work on exactly the texts of the group. -/
theorem C35_append (env : PyEnv) (py : PyParser) (m : CModel U F) (e : Str) (k : Option Nat) :
    let m' := (m.append env py e k).1
    ((m.append env py e k).2 = .ok () →
      match k with
      | none => m'.exprs.ungrouped.map (·.raw) = m.exprs.ungrouped.map (·.raw) ++ [e] ∧ ∀ j, m'.container (some j) = m.container (some j)
      | some k => m'.exprs.ungrouped = m.exprs.ungrouped ∧ (∀ j ≠ k, m'.container (some j) = m.container (some j)) ∧
          ∃ c, m'.container (some k) = .ok c ∧ c.exprs.map (·.raw) =
            (match m.container (some k) with | .ok c => c.exprs.map (·.raw) | .error _ => []) ++ [e]) ∧
    (∀ er, (m.append env py e k).2 = .error er → m'.exprs.ungrouped = m.exprs.ungrouped ∧ ∀ j, m'.container (some j) = m.container (some j)) ∧
    m'.tree = m.tree ∧ m'.scope = m.scope ∧ m'.units = m.units ∧ m'.cached = m.cached ∧ m'.precision = m.precision := by
  refine ⟨?_, ?_, rfl, rfl, rfl, rfl, rfl⟩
  · simp only [CModel.append, CModel.container, ExprGroup.getGroup, ExprGroup.append]
    rcases hp : parse env py e m.exprs.simple m.exprs.chained with ⟨⟨si, ch⟩, r⟩
    cases r with
    | error er => intro h; cases h
    | ok x =>
      have hraw := (parse_origin env py e _ _ _ _ hp).1
      intro _
      cases k with
      | none => simp [hraw]
      | some k =>
        refine ⟨rfl, fun j hj => ?_, ?_⟩
        · simp only [dictGet_dictSet, if_neg hj, if_neg (Ne.symm hj)]
        · simp only [dictGet_dictSet, if_true]
          refine ⟨_, rfl, ?_⟩
          cases dictGet m.exprs.subgroups k <;> simp [SubGroup.append, hraw, Except.map]
  · simp only [CModel.append, CModel.container, ExprGroup.getGroup, ExprGroup.append]
    rcases hp : parse env py e m.exprs.simple m.exprs.chained with ⟨⟨si, ch⟩, r⟩
    cases r with
    | error er => intro _ _; exact ⟨rfl, fun _ => rfl⟩
    | ok x => intro er h; cases k <;> cases h

/-- **C62 (exact effect)** `model.expressions = texts` appends the texts in order, up to the first one that is rejected, to the ungrouped
expressions the model already has. If none is rejected the assignment returns; otherwise it raises what appending that text raises,
and the texts before it stay. Groups, symbols, decision units, choices and utilities are as before. -/
theorem C62_appends (env : PyEnv) (py : PyParser) (m : CModel U F) (texts : List Str) :
    let m' := (m.setExpressions env py texts).1
    (∃ k ≤ texts.length, textsOf m'.exprs = ⟨(textsOf m.exprs).ungrouped ++ texts.take k, (textsOf m.exprs).groups⟩ ∧
      ((m.setExpressions env py texts).2 = .ok () ∧ k = texts.length ∨
       ∃ (hk : k < texts.length) (er : Err), (m.setExpressions env py texts).2 = .error er ∧
        ((groupRun env py m.exprs ((texts.take k).map fun e => .append e none)).append env py texts[k] none).2 = .error er)) ∧
    m'.tree = m.tree ∧ m'.scope = m.scope ∧ m'.units = m.units ∧ m'.cached = m.cached ∧ m'.precision = m.precision := by
  refine ⟨?_, rfl, rfl, rfl, rfl, rfl⟩
  obtain ⟨k, hk, h, ht⟩ := appendAll_run env py m.exprs texts
  refine ⟨k, hk, ht, ?_⟩
  rcases h with ⟨h1, h2, -⟩ | ⟨hk', er, h1, h2, -⟩
  · exact .inl ⟨h1, h2⟩
  · exact .inr ⟨hk', er, h1, h2⟩

/-- **C62 (histories)** The assignment is a sequence of calls of `append`, so that everything proved for all histories of a model
also holds with assignments in them. -/
theorem C62_history [DecidableEq U] (K : Kernel F) (env : PyEnv) (py : PyParser) (m : CModel U F) (texts : List Str) :
    ∃ k, (m.setExpressions env py texts).1 = modelRun K env py m ((texts.take k).map fun e => .expr (.append e none)) := by
  have hmr : ∀ (l : List Str) (m : CModel U F), modelRun K env py m (l.map fun e => .expr (.append e none)) =
      { m with exprs := groupRun env py m.exprs (l.map fun e => .append e none) } := by
    intro l
    induction l with
    | nil => intro m; cases m; rfl
    | cons e l ih =>
      intro m
      show modelRun K env py (modelStep K env py m (.expr (.append e none))) _ = _
      rw [ih]
      rfl
  obtain ⟨k, hk, h, -⟩ := appendAll_run env py m.exprs texts
  rcases h with ⟨-, -, h3⟩ | ⟨hk', er, -, -, h3⟩
  · refine ⟨texts.length, ?_⟩
    rw [hmr, List.take_length, ← h3]; rfl
  · refine ⟨k + 1, ?_⟩
    rw [hmr, ← h3]; rfl

/-- **C62 (partial)** On a model without ungrouped expressions, when no text is rejected, the texts are the ungrouped expressions
afterwards. Missing: texts assigned before are replaced, and a rejected assignment changes nothing; both are violated (below). -/
theorem C62_assigned_partial (env : PyEnv) (py : PyParser) (m : CModel U F) (texts : List Str) (h0 : m.exprs.ungrouped = [])
    (h : (m.setExpressions env py texts).2 = .ok ()) :
    (m.setExpressions env py texts).1.exprs.ungrouped.map (·.raw) = texts := by
  obtain ⟨k, hk, h1, h2⟩ := (C62_appends env py m texts).1
  rcases h2 with ⟨-, rfl⟩ | ⟨hk', er, h3, -⟩
  · have := congrArg Texts.ungrouped h1
    simpa [textsOf, h0] using this
  · rw [h3] at h; cases h

/-- **C62 (violated)** Assigning `["x"]` twice leaves the model with the expression `x` twice; assigning `["x", "?"]`, of which
the second is no expression, raises and leaves `x`. For every model without expressions and every version of Python. -/
theorem C62_refuted (env : PyEnv) (m : CModel U F) (h0 : m.exprs = ExprGroup.empty) :
    (∃ m1 m2, m.setExpressions env exPy [exX] = (m1, .ok ()) ∧ m1.setExpressions env exPy [exX] = (m2, .ok ()) ∧
      m2.exprs.ungrouped.map (·.raw) = [exX, exX]) ∧
    ∃ m1 er, m.setExpressions env exPy [exX, ['?']] = (m1, .error er) ∧ m1.exprs.ungrouped.map (·.raw) = [exX] := by
  have a1 := exX_append env none ExprGroup.empty (by simp [ExprGroup.empty])
  have b1 : ExprGroup.empty.append env exPy exX none =
      (⟨[⟨exX, .name exX, [], [], none, [exX]⟩], [exX], [], []⟩, .ok ()) := by
    simp only [ExprGroup.append, a1]
    simp [ExprGroup.empty, setUnion, setAdd]
  have a2 := exX_append env none ⟨[⟨exX, .name exX, [], [], none, [exX]⟩], [exX], [], []⟩ (by simp)
  have b2 : ExprGroup.append env exPy ⟨[⟨exX, .name exX, [], [], none, [exX]⟩], [exX], [], []⟩ exX none =
      (⟨[⟨exX, .name exX, [], [], none, [exX]⟩, ⟨exX, .name exX, [], [], none, [exX]⟩], [exX], [], []⟩, .ok ()) := by
    simp only [ExprGroup.append, a2]
    simp [setUnion, setAdd]
  have hq : exPy ['?'] = .error .syntaxErr := rfl
  have b3 := C24_syntax_error env exPy ⟨[⟨exX, .name exX, [], [], none, [exX]⟩], [exX], [], []⟩ ['?'] none
    (.inr ⟨['?'], none, .syntaxErr, by decide, hq⟩)
  refine ⟨⟨{ m with exprs := ⟨[⟨exX, .name exX, [], [], none, [exX]⟩], [exX], [], []⟩ },
    { m with exprs := ⟨[⟨exX, .name exX, [], [], none, [exX]⟩, ⟨exX, .name exX, [], [], none, [exX]⟩], [exX], [], []⟩ }, ?_, ?_, ?_⟩, ?_⟩
  · simp [CModel.setExpressions, appendAll, h0, b1]
  · simp only [CModel.setExpressions, appendAll, b2]
  · rfl
  · obtain ⟨h1, er, h2⟩ := b3
    rcases hb : ExprGroup.append env exPy ⟨[⟨exX, .name exX, [], [], none, [exX]⟩], [exX], [], []⟩ ['?'] none with ⟨g, r⟩
    rw [hb] at h1 h2
    simp only at h1 h2
    subst h1; subst h2
    refine ⟨{ m with exprs := ⟨[⟨exX, .name exX, [], [], none, [exX]⟩], [exX], [], []⟩ }, er, ?_, rfl⟩
    simp [CModel.setExpressions, appendAll, h0, b1, hb]

/-- **C62 (one text)** Assigning a text instead of a list of texts assigns its characters: the texts added are single characters, never
the expression itself if it is longer. -/
theorem C62_text (env : PyEnv) (py : PyParser) (m : CModel U F) (text : Str) (h0 : m.exprs.ungrouped = []) :
    (∀ e ∈ (m.setExpressionsText env py text).1.exprs.ungrouped, e.raw.length = 1) ∧
    (text.length ≠ 1 → text ∉ (m.setExpressionsText env py text).1.exprs.ungrouped.map (·.raw)) := by
  have key : ∀ e ∈ (m.setExpressionsText env py text).1.exprs.ungrouped, e.raw.length = 1 := by
    obtain ⟨k, hk, h1, -⟩ := (C62_appends env py m (text.map fun c => [c])).1
    have h1 : textsOf (m.setExpressionsText env py text).1.exprs = _ := h1
    have := congrArg Texts.ungrouped h1
    simp only [textsOf, h0, List.map_nil, List.nil_append] at this
    intro e he
    have hm : e.raw ∈ (m.setExpressionsText env py text).1.exprs.ungrouped.map (·.raw) := List.mem_map_of_mem he
    rw [this] at hm
    obtain ⟨c, -, hc⟩ := List.mem_map.mp (List.mem_of_mem_take hm)
    rw [← hc]; rfl
  refine ⟨key, fun hl hm => ?_⟩
  obtain ⟨e, he, rfl⟩ := List.mem_map.mp hm
  exact hl (key e he)

/-- a case of C62: one expression assigned to a new model -/
example (env : PyEnv) : ((newModel Nat XR 8).setExpressions env exPy [exX]).2 = .ok () ∧
    ((newModel Nat XR 8).setExpressions env exPy [exX]).1.exprs.ungrouped.map (·.raw) = [exX] := by
  obtain ⟨⟨m1, m2, h1, -⟩, -⟩ := C62_refuted env (newModel Nat XR 8) rfl
  have h : ((newModel Nat XR 8).setExpressions env exPy [exX]).2 = .ok () := by rw [h1]
  exact ⟨h, C62_assigned_partial env exPy _ _ rfl h⟩

/-- a case of C35_append: one expression appended to a group of a new model -/
example (env : PyEnv) : ((newModel Nat XR 8).append env exPy exX (some 4)).2 = .ok () ∧
    ∃ c, ((newModel Nat XR 8).append env exPy exX (some 4)).1.container (some 4) = .ok c ∧ c.exprs.map (·.raw) = [exX] := by
  have h : ((newModel Nat XR 8).append env exPy exX (some 4)).2 = .ok () := by
    have := exX_append env (some 4) ExprGroup.empty (by simp [ExprGroup.empty])
    show (ExprGroup.empty.append env exPy exX (some 4)).2 = _
    unfold ExprGroup.append
    rw [this]
  obtain ⟨-, -, c, h1, h2⟩ := (C35_append env exPy (newModel Nat XR 8) exX (some 4)).1 h
  exact ⟨h, c, h1, h2⟩

end Cheval
