import Verif.Props.AssignDefects
import Verif.Core.Rows

/-!
# C55: data over the choices when the choices change
-/
set_option linter.unusedSectionVars false
namespace Cheval
open Spec FOps

section
variable {F : Type}

mutual
/-- NumExpr needs the value of every name of its expression -/
theorem ne_needs (M : Arith F) (loc : Str → Option (Val F)) {id : Str} (hid : loc id = none) :
    ∀ (e : PExpr), id ∈ freeNames e → ne M loc e = none
  | .num x, h => by simp [freeNames] at h
  | .bytes x, h => by simp [freeNames] at h
  | .str x, _ => by simp [ne]
  | .const c, h => by simp [freeNames] at h
  | .name n, h => by
    simp only [freeNames, List.mem_singleton] at h
    subst h; simpa only [ne] using hid
  | .attr _ _, _ => by simp [ne]
  | .unary op e, h => by
    have he := ne_needs M loc hid e (by simpa [freeNames] using h)
    cases op <;> simp [ne, he]
  | .bin op l r, h => by
    simp only [freeNames, List.mem_append] at h
    rcases h with h | h
    · simp [ne, ne_needs M loc hid l h]
    · simp only [ne, ne_needs M loc hid r h]
      cases ne M loc l <;> rfl
  | .boolop _ _ _, _ => by simp [ne]
  | .compare l op r .nil, h => by
    simp only [freeNames, freeNamesC, List.append_nil, List.mem_append] at h
    rcases h with h | h
    · simp [ne, ne_needs M loc hid l h]
    · simp only [ne, ne_needs M loc hid r h]
      cases ne M loc l <;> rfl
  | .compare _ _ _ (.cons _ _ _), _ => by simp [ne]
  | .call (.name f) args .nil, h => by
    have h1 := neList_needs M loc hid args (by simpa [freeNames, freeNamesL] using h)
    simp [ne, h1]
  | .call (.name f) args (.cons _ _), _ => by simp [ne]
  | .call (.num _) _ _, _ => by simp [ne]
  | .call (.str _) _ _, _ => by simp [ne]
  | .call (.bytes _) _ _, _ => by simp [ne]
  | .call (.const _) _ _, _ => by simp [ne]
  | .call (.attr _ _) _ _, _ => by simp [ne]
  | .call (.unary _ _) _ _, _ => by simp [ne]
  | .call (.bin _ _ _) _ _, _ => by simp [ne]
  | .call (.boolop _ _ _) _ _, _ => by simp [ne]
  | .call (.compare _ _ _ _) _ _, _ => by simp [ne]
  | .call (.call _ _ _) _ _, _ => by simp [ne]
  | .call (.dict _) _ _, _ => by simp [ne]
  | .call (.banned _) _ _, _ => by simp [ne]
  | .call (.display _) _ _, _ => by simp [ne]
  | .call (.other _) _ _, _ => by simp [ne]
  | .dict _, _ => by simp [ne]
  | .banned _, _ => by simp [ne]
  | .display _, _ => by simp [ne]
  | .other _, _ => by simp [ne]
theorem neList_needs (M : Arith F) (loc : Str → Option (Val F)) {id : Str} (hid : loc id = none) :
    ∀ (es : PList), id ∈ freeNamesL es → neList M loc es = none
  | .nil, h => by simp [freeNamesL] at h
  | .cons e es, h => by
    simp only [freeNamesL, List.mem_append] at h
    rcases h with h | h
    · simp [neList, ne_needs M loc hid e h]
    · simp only [neList, neList_needs M loc hid es h]
      cases ne M loc e <;> rfl
end

/-- a step that leaves an entry alone -/
private theorem foldlM_keeps {α V : Type} {y : Str} (step : List (Str × V) → α → Except Err (List (Str × V))) (l : List α)
    (hs : ∀ a ∈ l, ∀ d d', step d a = .ok d' → dictGet d' y = dictGet d y) (d d' : List (Str × V)) (h : l.foldlM step d = .ok d') :
    dictGet d' y = dictGet d y := by
  induction l generalizing d with
  | nil => simp only [List.foldlM_nil, pure, Except.pure, Except.ok.injEq] at h; rw [h]
  | cons a l ih =>
    rw [List.foldlM_cons] at h
    cases h1 : step d a with
    | error e => rw [h1] at h; cases h
    | ok d1 =>
      rw [h1] at h
      rw [ih (fun b hb => hs b (by simp [hb])) d1 h, hs a (by simp) d d1 h1]

variable [FOps F]

theorem addDicts_keeps (K : Kernel F) (labels : List (List Name)) {y : Str} (lits : List (Str × Literal)) (hy : y ∉ lits.map (·.1))
    (d d' : List (Str × Local F)) (h : addDicts K labels d lits = .ok d') : dictGet d' y = dictGet d y := by
  refine foldlM_keeps _ lits (fun a ha d d' hd => ?_) d d' h
  have hne : y ≠ a.1 := fun hc => hy (List.mem_map.mpr ⟨a, ha, hc.symm⟩)
  cases hr : dictRow labels a.2 with
  | error e => rw [hr] at hd; cases hd
  | ok row =>
    rw [hr] at hd
    simp only [Except.map, Except.ok.injEq] at hd
    rw [← hd, dictGet_dictSet, if_neg hne]

theorem addChains_keeps (scope : List (Str × Sym F)) {y : Str} (chains : List (Str × List (Str × Chain)))
    (hy : ∀ t ∈ chains, y ∉ t.2.map (·.1))
    (d d' : List (Str × Local F)) (h : addChains scope d chains = .ok d') : dictGet d' y = dictGet d y := by
  refine foldlM_keeps _ chains (fun t ht d d' hd => ?_) d d' h
  cases hs : dictGet scope t.1 with
  | none => rw [hs] at hd; cases hd
  | some s =>
    rw [hs] at hd
    refine foldlM_keeps _ t.2 (fun a ha d d' hd => ?_) d d' hd
    have hne : y ≠ a.1 := fun hc => hy t ht (List.mem_map.mpr ⟨a, ha, hc.symm⟩)
    cases hr : s.getChain a.2 with
    | error e => rw [hr] at hd; cases hd
    | ok v =>
      rw [hr] at hd
      simp only [Except.map, Except.ok.injEq] at hd
      rw [← hd, dictGet_dictSet, if_neg hne]

theorem kernelEval_shape {K : Kernel F} {e : PExpr} {d : List (Str × Local F)} {u u' : Tab F} {mask : Option Nat}
    (h : kernelEval K e d u mask = .ok u') : u'.rows = u.rows ∧ u'.cols = u.cols := by
  unfold kernelEval at h
  split at h
  · cases h
  · split at h
    · cases h; exact ⟨rfl, rfl⟩
    · cases h

theorem evalExpr_shape {K : Kernel F} {scope : List (Str × Sym F)} {labels : List (List Name)} {syms : List (Str × Local F)} {u u' : Tab F}
    {x : Expression} (h : evalExpr K scope labels syms u x = .ok u') : u'.rows = u.rows ∧ u'.cols = u.cols := by
  unfold evalExpr at h
  simp only [bind, Except.bind] at h
  split at h
  · cases h
  · split at h
    · cases h
    · split at h
      · cases h
      · exact kernelEval_shape h

theorem evalLoop_shape {K : Kernel F} {scope : List (Str × Sym F)} {labels : List (List Name)} {syms : List (Str × Local F)}
    (xs : List Expression) : ∀ (u u' : Tab F) (r : Except Err Unit), evalLoop K scope labels syms xs u = (u', r) →
    u'.rows = u.rows ∧ u'.cols = u.cols := by
  induction xs with
  | nil => intro u u' r h; simp only [evalLoop, Prod.mk.injEq] at h; rw [h.1]; exact ⟨rfl, rfl⟩
  | cons x xs ih =>
    intro u u' r h
    unfold evalLoop at h
    cases hx : evalExpr K scope labels syms u x with
    | error e => rw [hx] at h; simp only [Prod.mk.injEq] at h; rw [h.1]; exact ⟨rfl, rfl⟩
    | ok u1 =>
      rw [hx] at h
      have h1 := evalExpr_shape hx
      have h2 := ih u1 u' r h
      exact ⟨h2.1.trans h1.1, h2.2.trans h1.2⟩

/-- the array of a simple symbol is what NumExpr is given -/
theorem symLocals_get (scope : List (Str × Sym F)) {names : List Str} {syms : List (Str × Local F)} (h : symLocals scope names = .ok syms)
    {y : Str} (hy : y ∈ names) (hr : y ∉ reserved) {s : Sym F} (hs : dictGet scope y = some s) {l : Local F} (hl : s.get = .ok l) :
    dictGet syms y = some l := by
  unfold symLocals at h
  have key : ∀ (names : List Str) (d syms : List (Str × Local F)), (y ∈ names ∨ dictGet d y = some l) →
      (y ∈ d.map (·.1) → dictGet d y = some l) →
      names.foldlM (fun d name =>
        if name ∈ reserved ∨ name ∈ d.map (·.1) then Except.ok d
        else match dictGet scope name with
          | none => .error Err.key
          | some s => s.get.map fun l => d ++ [(name, l)]) d = .ok syms → dictGet syms y = some l := by
    intro names
    induction names with
    | nil =>
      intro d syms h1 _ h
      simp only [List.foldlM_nil, pure, Except.pure, Except.ok.injEq] at h
      rw [← h]
      exact h1.resolve_left (by simp)
    | cons z zs ih =>
      intro d syms h1 h2 h
      rw [List.foldlM_cons] at h
      by_cases hc : z ∈ reserved ∨ z ∈ d.map (·.1)
      · rw [if_pos hc] at h
        refine ih d syms ?_ h2 h
        rcases h1 with h1 | h1
        · rcases List.mem_cons.mp h1 with rfl | h1
          · exact .inr (h2 (hc.resolve_left hr))
          · exact .inl h1
        · exact .inr h1
      · rw [if_neg hc] at h
        cases hz : dictGet scope z with
        | none => rw [hz] at h; cases h
        | some sz =>
          rw [hz] at h
          cases hg : sz.get with
          | error e => simp only [hg] at h; cases h
          | ok lz =>
            simp only [hg, Except.map, bind, Except.bind] at h
            have hzd : dictGet d z = none := by
              cases hd : dictGet d z with
              | none => rfl
              | some w => exact absurd (.inr ((dictGet_isSome_iff d z).mp (by simp [hd]))) hc
            by_cases hyz : y = z
            · subst hyz
              have : lz = l := by
                rw [hs] at hz; cases hz; rw [hl] at hg; cases hg; rfl
              have hd1 : dictGet (d ++ [(y, lz)]) y = some l := by
                rw [dictGet_append, hzd]; simp [dictGet, this]
              exact ih _ syms (.inr hd1) (fun _ => hd1) h
            · have hd1 : dictGet (d ++ [(z, lz)]) y = dictGet d y := by
                rw [dictGet_append]
                cases dictGet d y with
                | some w => rfl
                | none => simp [dictGet, Ne.symm hyz]
              refine ih _ syms ?_ ?_ h
              · rcases h1 with h1 | h1
                · rcases List.mem_cons.mp h1 with h1 | h1
                  · exact absurd h1 hyz
                  · exact .inl h1
                · exact .inr (hd1.trans h1)
              · intro hm
                rw [hd1]
                apply h2
                simp only [List.map_append, List.map_cons, List.map_nil, List.mem_append, List.mem_singleton] at hm
                exact hm.resolve_right hyz
  exact key names [] syms (.inl hy) (by simp) h


/-- `y` is read by the expression as a symbol: it is a name of the expression NumExpr is given, and stands for neither a dict literal nor a lookup -/
def ReadsSymbol (y : Str) (x : Expression) : Prop :=
  y ∈ freeNames x.transformed ∧ y ∉ x.dicts.map (·.1) ∧ ∀ t ∈ x.chains, y ∉ t.2.map (·.1)

variable {U : Type}

/-- **C55** Data whose number of columns is neither 1 nor the number of choices are never used by an expression without filter: the run raises.
(For every model, in every state.) -/
theorem C55_misfit_raises (K : Kernel F) (m : CModel U F) (c : Container) (units : List U) (hu : m.units = some units) (hne : units ≠ [])
    (labels : List (List Name)) (hl : choices m.tree = .ok labels)
    (y : Str) (hy : y ∈ c.simple) (hr : y ∉ reserved) (s : Sym F) (hs : dictGet m.scope y = some s) (a : Arr F) (ha : s.get = .ok (.array a))
    (h1 : a.cols ≠ 1) (h2 : a.cols ≠ labels.length)
    (x : Expression) (hx : x ∈ c.exprs) (hf : x.filter = none) (hxy : ReadsSymbol y x) (u : Tab F) :
    (m.evaluate K c).2 ≠ .ok u := by
  intro h
  unfold CModel.evaluate at h
  simp only [hu, hl] at h
  have hlab : 0 < labels.length := by
    cases labels with
    | cons _ _ => simp
    | nil =>
      exfalso
      unfold choices at hl
      simp only [bind, Except.bind] at hl
      split at hl
      · cases hl
      · rename_i hv
        split at hl
        · cases hl
        · rename_i hd
          have hall : m.tree.all = [] := by
            split at hl <;> simpa [pure, Except.pure] using hl
          unfold depth at hd
          simp [hall] at hd
  have hscope : ∀ m' r, m.partialUtilities = (m', r) → m'.scope = m.scope := by
    intro m' r hp
    unfold CModel.partialUtilities at hp
    split at hp
    · cases hp; rfl
    · cases hp; rfl
    · cases hp; rfl
    · split at hp <;> cases hp <;> rfl
  rcases hp : m.partialUtilities with ⟨m', r⟩
  rw [hp] at h
  cases r with
  | error e => simp at h
  | ok t =>
    obtain ⟨ix, u0⟩ := t
    simp only at h
    rw [hscope _ _ hp] at h
    cases hsy : symLocals m.scope c.simple with
    | error e => rw [hsy] at h; simp at h
    | ok syms =>
      rw [hsy] at h
      simp only at h
      have hget := symLocals_get m.scope hsy hy hr hs ha
      have key : ∀ (xs : List Expression) (u0 u1 : Tab F), x ∈ xs → u0.rows = units.length → u0.cols = labels.length →
          evalLoop K m.scope labels syms xs u0 ≠ (u1, .ok ()) := by
        intro xs
        induction xs with
        | nil => intro u0 u1 hx; simp at hx
        | cons z zs ih =>
          intro u0 u1 hx hrows hcols hloop
          unfold evalLoop at hloop
          cases hz : evalExpr K m.scope labels syms u0 z with
          | error e => rw [hz] at hloop; cases hloop
          | ok u2 =>
            rw [hz] at hloop
            simp only at hloop
            have hsh := evalExpr_shape hz
            rcases List.mem_cons.mp hx with rfl | hx
            · unfold evalExpr at hz
              simp only [hf, columnMask, bind, Except.bind] at hz
              split at hz
              · cases hz
              · rename_i d1 hd1
                split at hz
                · cases hz
                · rename_i d2 hd2
                  have hd : dictGet d2 y = some (.array a) := by
                    rw [addChains_keeps m.scope x.chains hxy.2.2 _ _ hd2, addDicts_keeps K labels x.dicts hxy.2.1 _ _ hd1, dictGet_append]
                    have : dictGet (reservedLocals K u0) y = none := by
                      simp only [reserved, List.mem_cons, List.not_mem_nil, or_false, not_or] at hr
                      simp [reservedLocals, dictGet, Ne.symm hr.1, Ne.symm hr.2.1, Ne.symm hr.2.2]
                    rw [this, hget]; rfl
                  unfold kernelEval at hz
                  split at hz
                  · cases hz
                  · split at hz
                    · rename_i hall
                      rw [List.all_eq_true] at hall
                      have h0 := hall 0 (by
                        rw [List.mem_range, hrows]
                        exact List.length_pos_iff.mpr hne)
                      rw [List.all_eq_true] at h0
                      have h00 := h0 0 (by rw [List.mem_range, hcols]; exact hlab)
                      have hnone : newCell K x.transformed d2 u0 none 0 0 = none := by
                        unfold newCell
                        rw [ne_needs K.toArith _ (id := y) ?_ x.transformed hxy.1]
                        · rfl
                        · simp only [hd, Option.bind_some, Local.at, Arr.cell]
                          rw [if_neg]
                          rintro ⟨_, hc | hc⟩
                          · exact h2 (hc.trans hcols)
                          · exact h1 hc
                      simp [applies, hnone] at h00
                    · cases hz
            · exact ih u2 u1 hx (hsh.1.trans hrows) (hsh.2.trans hcols) hloop
      rcases hloop : evalLoop K m.scope labels syms c.exprs u0 with ⟨u1, r⟩
      rw [hloop] at h
      cases r with
      | error e => simp at h
      | ok w =>
        simp only at h
        have hsh := evalLoop_shape c.exprs u0 u1 _ hloop
        split at h
        · simp at h
        · split at h
          · simp at h
          · rename_i hnn
            simp only [not_or, not_not] at hnn
            exact key c.exprs u0 u1 hx (hsh.1.symm.trans hnn.1) (hsh.2.symm.trans hnn.2) hloop

/-- an evaluation that succeeds evaluates each of its expressions, on tables of the model's shape -/
theorem evaluate_uses {K : Kernel F} {m : CModel U F} {c : Container} {units : List U} (hu : m.units = some units)
    {labels : List (List Name)} (hl : choices m.tree = .ok labels) {u : Tab F} (h : (m.evaluate K c).2 = .ok u) :
    ∃ syms, symLocals m.scope c.simple = .ok syms ∧ ∀ x ∈ c.exprs, ∃ u0 u1 : Tab F, u0.rows = units.length ∧ u0.cols = labels.length ∧
      evalExpr K m.scope labels syms u0 x = .ok u1 := by
  unfold CModel.evaluate at h
  simp only [hu, hl] at h
  have hscope : ∀ m' r, m.partialUtilities = (m', r) → m'.scope = m.scope := by
    intro m' r hp
    unfold CModel.partialUtilities at hp
    split at hp
    · cases hp; rfl
    · cases hp; rfl
    · cases hp; rfl
    · split at hp <;> cases hp <;> rfl
  rcases hp : m.partialUtilities with ⟨m', r⟩
  rw [hp] at h
  cases r with
  | error e => simp at h
  | ok t =>
    obtain ⟨ix, u0⟩ := t
    simp only at h
    rw [hscope _ _ hp] at h
    cases hsy : symLocals m.scope c.simple with
    | error e => rw [hsy] at h; simp at h
    | ok syms =>
      rw [hsy] at h
      simp only at h
      refine ⟨syms, rfl, ?_⟩
      have key : ∀ (xs : List Expression) (u0 u1 : Tab F), u0.rows = units.length → u0.cols = labels.length →
          evalLoop K m.scope labels syms xs u0 = (u1, .ok ()) → ∀ x ∈ xs, ∃ u0 u1 : Tab F, u0.rows = units.length ∧ u0.cols = labels.length ∧
            evalExpr K m.scope labels syms u0 x = .ok u1 := by
        intro xs
        induction xs with
        | nil => intro u0 u1 _ _ _ x hx; simp at hx
        | cons z zs ih =>
          intro u0 u1 hrows hcols hloop x hx
          unfold evalLoop at hloop
          cases hz : evalExpr K m.scope labels syms u0 z with
          | error e => rw [hz] at hloop; cases hloop
          | ok u2 =>
            rw [hz] at hloop
            simp only at hloop
            have hsh := evalExpr_shape hz
            rcases List.mem_cons.mp hx with rfl | hx
            · exact ⟨u0, u2, hrows, hcols, hz⟩
            · exact ih u2 u1 (hsh.1.trans hrows) (hsh.2.trans hcols) hloop x hx
      rcases hloop : evalLoop K m.scope labels syms c.exprs u0 with ⟨u1, r⟩
      rw [hloop] at h
      cases r with
      | error e => simp at h
      | ok w =>
        simp only at h
        have hsh := evalLoop_shape c.exprs u0 u1 _ hloop
        split at h
        · simp at h
        · split at h
          · simp at h
          · rename_i hnn
            simp only [not_or, not_not] at hnn
            exact key c.exprs u0 u1 (hsh.1.symm.trans hnn.1) (hsh.2.symm.trans hnn.2) hloop

/-- **C55** The same for an expression with a filter: data with more than one column, but none for the choice the filter names, make the
run raise, even if this expression does not read them, as long as some expression of the run does. -/
theorem C55_misfit_filtered (K : Kernel F) (m : CModel U F) (c : Container) (units : List U) (hu : m.units = some units)
    (labels : List (List Name)) (hl : choices m.tree = .ok labels)
    (y : Str) (hy : y ∈ c.simple) (hr : y ∉ reserved) (s : Sym F) (hs : dictGet m.scope y = some s) (a : Arr F) (ha : s.get = .ok (.array a))
    (x : Expression) (hx : x ∈ c.exprs) (col : Nat) (hf : columnMask labels x.filter = .ok (some col))
    (h1 : 1 < a.cols) (h2 : a.cols ≤ col)
    (hxy : y ∉ x.dicts.map (·.1) ∧ ∀ t ∈ x.chains, y ∉ t.2.map (·.1)) (u : Tab F) :
    (m.evaluate K c).2 ≠ .ok u := by
  intro h
  obtain ⟨syms, hsy, huse⟩ := evaluate_uses hu hl h
  obtain ⟨u0, u1, -, -, hz⟩ := huse x hx
  have hget := symLocals_get m.scope hsy hy hr hs ha
  unfold evalExpr at hz
  simp only [hf, bind, Except.bind] at hz
  split at hz
  · cases hz
  · rename_i d1 hd1
    split at hz
    · cases hz
    · rename_i d2 hd2
      have hd : dictGet d2 y = some (.array a) := by
        rw [addChains_keeps m.scope x.chains hxy.2 _ _ hd2, addDicts_keeps K labels x.dicts hxy.1 _ _ hd1, dictGet_append]
        have : dictGet (reservedLocals K u0) y = none := by
          simp only [reserved, List.mem_cons, List.not_mem_nil, or_false, not_or] at hr
          simp [reservedLocals, dictGet, Ne.symm hr.1, Ne.symm hr.2.1, Ne.symm hr.2.2]
        rw [this, hget]; rfl
      unfold kernelEval at hz
      rw [if_pos] at hz
      · cases hz
      · rw [Bool.or_eq_true]
        refine Or.inl (List.any_eq_true.mpr ⟨(y, .array a), dictGet_mem hd, ?_⟩)
        simp [badColumn, h1, h2]

/-- the calls that change the choices of a model: `model.add_choice`, `choice.add_choice`, `choice.logsum_scale = ` -/
def CModel.treeCall (m : CModel U F) : TreeOp F → CModel U F
  | .addTop n sc => (m.addChoice n sc).1
  | .addChild h n sc => (m.addNested h n sc).1
  | .setScale h v => { m with tree := (Cheval.setScale m.tree h v).1 }

theorem treeCall_tree (m : CModel U F) (op : TreeOp F) : (m.treeCall op).tree = (treeStep m.tree op).1 := by
  cases op <;> rfl

/-- **C55** No such call touches the data, the expressions or the decision units. -/
theorem C55_untouched (m : CModel U F) (ops : List (TreeOp F)) :
    let m' := ops.foldl CModel.treeCall m
    m'.scope = m.scope ∧ m'.exprs = m.exprs ∧ m'.units = m.units ∧ m'.tree = treeRun m.tree ops := by
  induction ops generalizing m with
  | nil => exact ⟨rfl, rfl, rfl, rfl⟩
  | cons op ops ih =>
    have h := ih (m.treeCall op)
    simp only [List.foldl_cons, treeRun] at h ⊢
    rw [treeCall_tree] at h
    have h3 : (m.treeCall op).scope = m.scope ∧ (m.treeCall op).exprs = m.exprs ∧ (m.treeCall op).units = m.units := by
      cases op <;> exact ⟨rfl, rfl, rfl⟩
    exact ⟨h.1.trans h3.1, h.2.1.trans h3.2.1, h.2.2.1.trans h3.2.2, h.2.2.2⟩

private theorem cleanRun_append (s : Choices F) (a b : List (TreeOp F)) :
    CleanRun s (a ++ b) ↔ CleanRun s a ∧ CleanRun (s.run a) b := by
  induction a generalizing s with
  | nil => simp [CleanRun, Choices.run]
  | cons op a ih => simp only [List.cons_append, CleanRun, ih, Choices.run, List.foldl_cons, and_assoc]

private theorem expected_append (a b : List (TreeOp F)) : expected (a ++ b) = (expected a).run b := by
  simp [expected, Choices.run]

private theorem after_append (a b : List (TreeOp F)) : after (a ++ b) = treeRun (after a) b := by
  simp [after, treeRun]

/-- the path of the choice a call adds, and the legality of the call -/
noncomputable def addedPath (s : Choices F) : TreeOp F → Option (List Name × Name × F)
  | .addTop n sc => some ([n], n, sc)
  | .addChild h n sc => some (s.made.getD h [] ++ [n], n, sc)
  | .setScale _ _ => none

/-- every call of the history adds a choice with a path that is not in use, or sets a scale -/
def FreshRun (s : Choices F) : List (TreeOp F) → Prop
  | [] => True
  | op :: ops => (∀ p n sc, addedPath s op = some (p, n, sc) → ∀ r ∈ s.live, r.path ≠ p) ∧ FreshRun (s.step op).1 ops

private theorem step_paths (s : Choices F) (op : TreeOp F) :
    (∀ p n sc, addedPath s op = some (p, n, sc) → (s.step op).1 = (s.add p n sc).1) ∧
    (addedPath s op = none → (s.step op).1.live.map (·.path) = s.live.map (·.path)) := by
  cases op with
  | addTop n sc => exact ⟨(fun p n' sc' h => by cases h; rfl), (fun h => by cases h)⟩
  | addChild h n sc => exact ⟨(fun p n' sc' h => by cases h; rfl), (fun h => by cases h)⟩
  | setScale h v =>
    refine ⟨(fun p n sc h => by cases h), fun _ => ?_⟩
    simp only [Choices.step]
    split
    · simp only [List.map_map]
      congr 1
      funext r
      simp only [Function.comp]
      split <;> rfl
    · rfl

private theorem fresh_paths (s : Choices F) (ops : List (TreeOp F)) (h : FreshRun s ops) :
    ∃ extra, (s.run ops).live.map (·.path) = s.live.map (·.path) ++ extra := by
  classical
  induction ops generalizing s with
  | nil => exact ⟨[], by simp [Choices.run]⟩
  | cons op ops ih =>
    obtain ⟨e1, h1⟩ := ih (s.step op).1 h.2
    have h2 : ∃ e2, (s.step op).1.live.map (·.path) = s.live.map (·.path) ++ e2 := by
      cases ht : addedPath s op with
      | none => exact ⟨[], by rw [(step_paths s op).2 ht, List.append_nil]⟩
      | some t =>
        obtain ⟨p, n, sc⟩ := t
        rw [(step_paths s op).1 p n sc ht]
        simp only [Choices.add]
        split
        · refine ⟨[p], ?_⟩
          have : s.live.filter (fun r => decide (r.path ≠ p)) = s.live := by
            rw [List.filter_eq_self]
            intro r hr
            simpa using h.1 p n sc ht r hr
          simp only [this, List.map_append, List.map_cons, List.map_nil]
        · exact ⟨[], by simp⟩
    obtain ⟨e2, h2⟩ := h2
    exact ⟨e2 ++ e1, by
      simp only [Choices.run, List.foldl_cons] at h1 ⊢
      rw [h1, h2, List.append_assoc]⟩

/-- **C55** If only new choices are added, every choice keeps its column and the data assigned before still stand there, so that they are read for the choices
they were assigned for; the data have no columns for the new choices (see `C55_misfit_raises`). (Replaced choices: `C55_moved_refuted`.) -/
theorem C55_appended_partial (m : CModel U F) (ops more : List (TreeOp F)) (hm : m.tree = after ops) (hc : CleanRun Choices.empty (ops ++ more))
    (hf : FreshRun (expected ops) more) (L L' : List (List Name)) (hL : choices m.tree = .ok L)
    (hL' : choices (more.foldl CModel.treeCall m).tree = .ok L') :
    (more.foldl CModel.treeCall m).scope = m.scope ∧ L.length ≤ L'.length ∧
    ∀ j (hj : j < L.length) (hj' : j < L'.length), ∃ p d d', L[j] = pad d p ∧ L'[j] = pad d' p := by
  have hun := C55_untouched m more
  have hc1 := (cleanRun_append _ _ _).mp hc
  have htree : (more.foldl CModel.treeCall m).tree = after (ops ++ more) := by
    rw [hun.2.2.2, hm, after_append]
  rw [htree] at hL'
  rw [hm] at hL
  have hv : ∀ {st : TreeSt F} {l}, choices st = .ok l → validateTree st = .ok () := by
    intro st l h
    unfold choices at h
    cases hv : validateTree st with
    | error e => rw [hv] at h; cases h
    | ok _ => rfl
  have e1 := choices_eq (rel_after ops hc1.1) (hv hL)
  have e2 := choices_eq (rel_after (ops ++ more) hc) (hv hL')
  rw [hL] at e1
  rw [hL'] at e2
  simp only [Except.ok.injEq] at e1 e2
  obtain ⟨extra, hx⟩ := fresh_paths (expected ops) more hf
  rw [← expected_append] at hx
  have k1 : L = ((expected ops).live.map (·.path)).map (pad (expected ops).depth) := by rw [e1, List.map_map]; rfl
  have k2 : L' = ((expected ops).live.map (·.path) ++ extra).map (pad (expected (ops ++ more)).depth) := by
    rw [e2, ← hx, List.map_map]; rfl
  refine ⟨hun.1, by rw [k1, k2]; simp, ?_⟩
  intro j hj hj'
  have hjp : j < ((expected ops).live.map (·.path)).length := by rw [k1] at hj; simpa using hj
  refine ⟨((expected ops).live.map (·.path))[j], (expected ops).depth, (expected (ops ++ more)).depth, ?_, ?_⟩
  · simp only [k1, List.getElem_map]
  · simp only [k2, List.getElem_map]
    rw [List.getElem_append_left hjp]
    simp only [List.getElem_map]

/-- a new choice: there is one choice more -/
theorem fresh_count (ops : List (TreeOp F)) (op : TreeOp F) (hc : CleanRun Choices.empty (ops ++ [op])) (p : List Name) (n : Name) (sc : F)
    (ht : addedPath (expected ops) op = some (p, n, sc)) (hl : Legal n sc) (hf : ∀ r ∈ (expected ops).live, r.path ≠ p)
    (L' : List (List Name)) (hL' : choices (treeStep (after ops) op).1 = .ok L') : L'.length = (expected ops).live.length + 1 := by
  classical
  have hv : validateTree (after (ops ++ [op])) = .ok () := by
    rw [after_append]
    unfold choices at hL'
    cases hv : validateTree (treeStep (after ops) op).1 with
    | error e => rw [hv] at hL'; cases hL'
    | ok _ => exact hv
  have e := choices_eq (rel_after (ops ++ [op]) hc) hv
  rw [after_append] at e
  have e : choices (treeStep (after ops) op).1 = _ := e
  rw [hL', Except.ok.injEq] at e
  rw [e, List.length_map, expected_append]
  show ((expected ops).step op).1.live.length = _
  rw [(step_paths _ op).1 p n sc ht]
  simp only [Choices.add, if_pos hl, List.length_append, List.length_singleton]
  congr 1
  rw [List.filter_eq_self.mpr]
  intro r hr
  simpa using hf r hr

/-- the list of paths after a choice at position `k` was added again -/
private theorem readd_paths (s : Choices F) (hn : (s.live.map (·.path)).Nodup) (op : TreeOp F) (p : List Name) (n : Name) (sc : F)
    (ht : addedPath s op = some (p, n, sc)) (hl : Legal n sc) (k : Nat) (hk : k < s.live.length) (hp : s.live[k].path = p) :
    (s.step op).1.live.map (·.path) = (s.live.map (·.path)).eraseIdx k ++ [p] := by
  classical
  rw [(step_paths s op).1 p n sc ht]
  simp only [Choices.add, if_pos hl, List.map_append, List.map_cons, List.map_nil]
  congr 1
  have h1 : (s.live.filter (fun r => decide (r.path ≠ p))).map (·.path) = (s.live.map (·.path)).filter (fun q => decide (q ≠ p)) := by
    rw [List.filter_map]; rfl
  rw [h1]
  have hk' : k < (s.live.map (·.path)).length := by simpa using hk
  have hp' : (s.live.map (·.path))[k] = p := by simpa using hp
  generalize s.live.map (·.path) = l at hn hk' hp' ⊢
  rw [← hp', ← hn.erase_getElem k hk', hn.erase_eq_filter]
  apply List.filter_congr
  intro q _
  by_cases h : q = l[k]
  · simp [h]
  · simp [h]

private theorem depth_perm (s s' : Choices F) (h : (s.live.map (·.path)).Perm (s'.live.map (·.path))) : s.depth = s'.depth := by
  have key : ∀ s : Choices F, s.depth = (s.live.map (·.path)).foldl (fun m p => max m p.length) 0 := by
    intro s; simp only [Choices.depth, List.foldl_map]
  rw [key, key]
  exact h.foldl_eq' (fun x _ y _ z => by omega) 0

private theorem kids_perm (s s' : Choices F) (h : (s.live.map (·.path)).Perm (s'.live.map (·.path))) (r r' : Rec F) (hr : r.path = r'.path) :
    (s.kids r).length = (s'.kids r').length := by
  classical
  have key : ∀ (s : Choices F) (r : Rec F), (s.kids r).length = ((s.live.map (·.path)).filter (fun q => decide (∃ n, q = r.path ++ [n]))).length := by
    intro s r
    rw [List.filter_map, List.length_map]
    rfl
  rw [key, key, hr]
  exact (h.filter _).length_eq

private theorem valid_perm {st st' : TreeSt F} {s s' : Choices F} (hs : TreeRel st s) (hs' : TreeRel st' s')
    (h : (s.live.map (·.path)).Perm (s'.live.map (·.path))) (hv : validateTree st = .ok ()) : validateTree st' = .ok () := by
  have h1 := (validateTree_iff hs).1.mp hv
  refine (validateTree_iff hs').1.mpr ⟨?_, ?_⟩
  · have key : ∀ s : Choices F, (s.live.filter (fun r => decide (r.path.length = 1))).length =
        ((s.live.map (·.path)).filter (fun p => decide (p.length = 1))).length := by
      intro s; rw [List.filter_map, List.length_map]; rfl
    have h2 := h1.1
    rw [key, (h.filter _).length_eq, ← key] at h2
    exact h2
  · intro r' hr'
    have : r'.path ∈ s.live.map (·.path) := h.mem_iff.mpr (List.mem_map_of_mem hr')
    obtain ⟨r, hr, e⟩ := List.mem_map.mp this
    rw [← kids_perm s s' h r r' e]
    exact h1.2 r hr

/-- a choice at position `k`, with nothing nested in it, added again: the tree stays valid and the choice is the last one -/
theorem readd_choices (ops : List (TreeOp F)) (hc : CleanRun Choices.empty ops) (L : List (List Name)) (hL : choices (after ops) = .ok L)
    (op : TreeOp F) (hop : Clean (expected ops) op) (p : List Name) (n : Name) (sc : F) (ht : addedPath (expected ops) op = some (p, n, sc)) (hl : Legal n sc)
    (k : Nat) (hk : k < (expected ops).live.length) (hp : (expected ops).live[k].path = p) :
    validateTree (treeStep (after ops) op).1 = .ok () ∧ choices (treeStep (after ops) op).1 = .ok (L.eraseIdx k ++ L[k]?.toList) := by
  classical
  have hv : validateTree (after ops) = .ok () := by
    unfold choices at hL
    cases hv : validateTree (after ops) with
    | error e => rw [hv] at hL; cases hL
    | ok _ => rfl
  have hrel := rel_after ops hc
  have hc' : CleanRun Choices.empty (ops ++ [op]) := (cleanRun_append _ _ _).mpr ⟨hc, hop, trivial⟩
  have hrel' := rel_after (ops ++ [op]) hc'
  have hpaths := readd_paths (expected ops) hrel.live_nodup op p n sc ht hl k hk hp
  have hexp : expected (ops ++ [op]) = ((expected ops).step op).1 := by rw [expected_append]; rfl
  rw [hexp] at hrel'
  have hperm : ((expected ops).live.map (·.path)).Perm (((expected ops).step op).1.live.map (·.path)) := by
    rw [hpaths]
    have hk' : k < ((expected ops).live.map (·.path)).length := by simpa using hk
    have hp' : ((expected ops).live.map (·.path))[k] = p := by simpa using hp
    exact ((List.getElem_cons_eraseIdx_perm hk').symm.trans (by rw [hp'])).trans (List.perm_append_singleton _ _).symm
  have hv' := valid_perm hrel hrel' hperm hv
  have hd := depth_perm _ _ hperm
  have e1 := choices_eq hrel hv
  have e2 := choices_eq hrel' hv'
  rw [e1, Except.ok.injEq] at hL
  rw [after_append] at hv' e2
  refine ⟨hv', Eq.trans e2 ?_⟩
  congr 1
  have k1 : ∀ (s : Choices F) (d : Nat), s.live.map (fun r => pad d r.path) = (s.live.map (·.path)).map (pad d) := by
    intro s d; rw [List.map_map]; rfl
  have hkL : k < L.length := by rw [← hL]; simpa using hk
  rw [k1, hpaths, ← hd, List.map_append, ← List.eraseIdx_map, ← k1, hL]
  congr 1
  rw [List.getElem?_eq_getElem hkL]
  subst hL
  simp [hp]

/-- **C55** Whenever a choice (at position `k`, not the last one, with nothing nested in it) is added again, at the top or nested, data assigned before are
read for other choices from then on, without any error: the tree is still valid; the columns `k`, `k + 1`, ... now belong to the choices that were one column to the right,
the last one to the choice added again; but a vector over the choices has the value `f j` it was given for the old choice `j` in column `j`. -/
theorem C55_moved_refuted [DecidableEq U] (m : CModel U F) (ops : List (TreeOp F)) (hm : m.tree = after ops) (hc : CleanRun Choices.empty ops)
    (L : List (List Name)) (hL : choices m.tree = .ok L)
    (y : Str) (old : Option (Arr F)) (hy : dictGet m.scope y = some (.vector true old)) (f : Nat → Val F)
    (op : TreeOp F) (hop : Clean (expected ops) op) (p : List Name) (n : Name) (sc : F) (ht : addedPath (expected ops) op = some (p, n, sc)) (hl : Legal n sc)
    (k : Nat) (hk : k < (expected ops).live.length) (hp : (expected ops).live[k].path = p) :
    ∃ m1, m.assign y (.series (L.map .choice) (.ok f)) = (m1, .ok ()) ∧
      validateTree (m1.treeCall op).tree = .ok () ∧
      choices (m1.treeCall op).tree = .ok (L.eraseIdx k ++ L[k]?.toList) ∧
      ∃ s, dictGet (m1.treeCall op).scope y = some s ∧ s.filled = true ∧ ∀ i j, symAt i j s = some (f j) := by
  have hL' : choices (after ops) = .ok L := by rw [← hm]; exact hL
  obtain ⟨g1, g2⟩ := readd_choices ops hc L hL' op hop p n sc ht hl k hk hp
  have hlab : m.labels true = .ok (L.map .choice) := labels_choices hL
  have ha : m.assign y (.series (L.map .choice) (.ok f)) =
      ({ m with scope := dictSet m.scope y (.vector true (some (shapeVector true (L.map (Lab.choice (U := U))).length f))) }, .ok ()) := by
    unfold CModel.assign
    simp only [hy, Sym.assign, hlab, bind, Except.bind, ne_eq, not_true_eq_false, if_false, Except.map]
  refine ⟨_, ha, ?_, ?_, .vector true (some (shapeVector true (L.map (Lab.choice (U := U))).length f)), ?_, rfl, fun i j => rfl⟩
  · rw [treeCall_tree]
    show validateTree (treeStep m.tree op).1 = _
    rw [hm]; exact g1
  · rw [treeCall_tree]
    show choices (treeStep m.tree op).1 = _
    rw [hm]; exact g2
  · have h3 : ∀ m1 : CModel U F, (m1.treeCall op).scope = m1.scope := fun m1 => (C55_untouched m1 [op]).1
    rw [h3]
    exact (dictGet_dictSet _ _ _ _).trans (if_pos rfl)

end

/-! ## examples -/

private theorem ab_clean : CleanRun Choices.empty abOps := by
  simp [abOps, CleanRun, Clean, CleanAdd, Choices.step, Choices.add, Choices.empty, Legal, lt, le, zero, one, XR.lt, XR.le]

private theorem ab_live : (expected abOps).live.map (·.path) = [[['A']], [['B']]] := by
  simp [abOps, expected, Choices.run, Choices.step, Choices.add, Choices.empty, Legal, lt, le, zero, one, XR.lt, XR.le]

private theorem ab_legal (c : Char) (hc : c ≠ '.') (hc2 : c ≠ '_') : Legal [c] (one : XR) := by
  refine ⟨by simpa using hc.symm, by simpa using hc2, ?_, ?_⟩ <;> simp [lt, le, zero, one, XR.lt, XR.le]

/-- A and B, then A again: B and A, with the values of A and B -/
example (env : PyEnv) (f : Nat → Val XR) :
    ∃ m1, (abModel env).assign exX (.series [.choice [['A']], .choice [['B']]] (.ok f)) = (m1, .ok ()) ∧
      validateTree (m1.treeCall (.addTop ['A'] one)).tree = .ok () ∧
      choices (m1.treeCall (.addTop ['A'] one)).tree = .ok [[['B']], [['A']]] ∧
      ∃ s, dictGet (m1.treeCall (.addTop ['A'] one)).scope exX = some s ∧ s.filled = true ∧ ∀ i j, symAt i j s = some (f j) := by
  have hlen : (expected abOps).live.length = 2 := by have := congrArg List.length ab_live; simpa using this
  have h0 : ∀ (h : 0 < (expected abOps).live.length), (expected abOps).live[0].path = [['A']] := by
    intro h
    have : (expected abOps).live[0].path = ((expected abOps).live.map (·.path))[0]'(by simpa using h) := by simp
    rw [this]
    simp only [ab_live, List.getElem_cons_zero]
  refine C55_moved_refuted (abModel env) abOps rfl ab_clean [[['A']], [['B']]] ab_choices exX none (by simp [abModel, dictGet]) f (.addTop ['A'] one) ?_
    [['A']] ['A'] one rfl (ab_legal 'A' (by decide) (by decide)) 0 (by rw [hlen]; decide) (h0 _)
  refine ⟨fun _ r hr hp => ?_, fun hn => absurd (ab_legal 'A' (by decide) (by decide)) hn⟩
  have : r.path ∈ (expected abOps).live.map (·.path) := List.mem_map_of_mem hr
  rw [ab_live] at this
  simp only [List.mem_cons, List.not_mem_nil, or_false] at this
  rcases this with h | h
  · exact h
  · rw [h] at hp; exact absurd hp (by decide)

private theorem abc_clean : CleanRun Choices.empty (abOps ++ [.addTop ['C'] one]) := by
  simp [abOps, CleanRun, Clean, CleanAdd, Choices.step, Choices.add, Choices.empty, Legal, lt, le, zero, one, XR.lt, XR.le]

private theorem abc_choices (env : PyEnv) : ∃ L', choices ((abModel env).treeCall (.addTop ['C'] one)).tree = .ok L' ∧ L'.length = 3 := by
  have he : (expected (abOps ++ [.addTop ['C'] one])).live.length = 3 := by
    simp [abOps, expected, Choices.run, Choices.step, Choices.add, Choices.empty, Legal, lt, le, zero, one, XR.lt, XR.le]
  have hv : validateTree (after (abOps ++ [.addTop ['C'] one])) = .ok () := by
    rw [(C19_validate _ abc_clean).1]
    simp [abOps, expected, Choices.run, Choices.step, Choices.add, Choices.empty, Legal, lt, le, zero, one, XR.lt, XR.le,
      Choices.kids, IsChild, List.filter_cons]
  have hL' := choices_eq (rel_after _ abc_clean) hv
  rw [after_append] at hL'
  exact ⟨_, hL', by rw [List.length_map, he]⟩

/-- A and B, then C -/
example (env : PyEnv) : ∃ L', choices ((abModel env).treeCall (.addTop ['C'] one)).tree = .ok L' ∧ L'.length = 3 ∧
    ∀ j (hj : j < 2) (hj' : j < L'.length), ∃ p d d', ([[['A']], [['B']]] : List (List Name))[j] = pad d p ∧ L'[j] = pad d' p := by
  obtain ⟨L', hL', h3⟩ := abc_choices env
  have := C55_appended_partial (abModel env) abOps [.addTop ['C'] one] rfl abc_clean (by
    refine ⟨fun p n sc h r hr => ?_, trivial⟩
    simp only [addedPath, Option.some.injEq, Prod.mk.injEq] at h
    have hr2 : r.path ∈ (expected abOps).live.map (·.path) := List.mem_map_of_mem hr
    rw [ab_live] at hr2
    rw [← h.1]
    rintro hc
    rw [hc] at hr2
    revert hr2
    decide) _ _ ab_choices hL'
  exact ⟨_, hL', h3, this.2.2⟩

/-- three choices, a vector of length two: the expression `x` raises -/
example (env : PyEnv) (K : Kernel XR) (f : Nat → Val XR) (u : Tab XR) :
    (CModel.evaluate K (CModel.treeCall { abModel env with scope := [(exX, .vector true (some (shapeVector true 2 f)))] } (.addTop ['C'] one))
      ⟨[exX], [], [⟨exX, .name exX, [], [], none, [exX]⟩]⟩).2 ≠ .ok u := by
  obtain ⟨L', hL', h3⟩ := abc_choices env
  exact C55_misfit_raises K (CModel.treeCall { abModel env with scope := [(exX, .vector true (some (shapeVector true 2 f)))] } (.addTop ['C'] one))
    ⟨[exX], [], [⟨exX, .name exX, [], [], none, [exX]⟩]⟩ [7, 8] rfl (by simp) L' hL' exX (by simp) (by decide)
    (.vector true (some (shapeVector true 2 f))) (by simp [CModel.treeCall, CModel.addChoice, dictGet]) (shapeVector true 2 f) rfl
    (by simp [shapeVector]) (by simp [shapeVector, h3]) _ (List.mem_singleton.mpr rfl) rfl ⟨by simp [freeNames], by simp, by simp⟩ u

/-- the same model, the expression `@C 1`, which does not read x, together with `@A x` -/
example (env : PyEnv) (K : Kernel XR) (f : Nat → Val XR) (u : Tab XR) :
    (CModel.evaluate K (CModel.treeCall { abModel env with scope := [(exX, .vector true (some (shapeVector true 2 f)))] } (.addTop ['C'] one))
      ⟨[exX], [], [⟨exX, .name exX, [], [], some ['A'], [exX]⟩, ⟨exX, .num 1, [], [], some ['C'], []⟩]⟩).2 ≠ .ok u := by
  obtain ⟨L', hL', h3⟩ := abc_choices env
  have hL3 : L' = [[['A']], [['B']], [['C']]] := by
    have hv : validateTree (after (abOps ++ [.addTop ['C'] one])) = .ok () := by
      unfold choices at hL'
      cases hv : validateTree ((abModel env).treeCall (.addTop ['C'] one)).tree with
      | error e => rw [hv] at hL'; cases hL'
      | ok _ => exact hv
    have e := choices_eq (rel_after _ abc_clean) hv
    have e' : choices ((abModel env).treeCall (.addTop ['C'] one)).tree = _ := e
    rw [hL', Except.ok.injEq] at e'
    rw [e']
    simp [abOps, expected, Choices.run, Choices.step, Choices.add, Choices.empty, Legal, lt, le, zero, one, XR.lt, XR.le, Choices.depth, pad]
  exact C55_misfit_filtered K (CModel.treeCall { abModel env with scope := [(exX, .vector true (some (shapeVector true 2 f)))] } (.addTop ['C'] one))
    ⟨[exX], [], [⟨exX, .name exX, [], [], some ['A'], [exX]⟩, ⟨exX, .num 1, [], [], some ['C'], []⟩]⟩ [7, 8] rfl L' hL' exX (by simp) (by decide)
    (.vector true (some (shapeVector true 2 f))) (by simp [CModel.treeCall, CModel.addChoice, dictGet]) (shapeVector true 2 f) rfl
    ⟨exX, .num 1, [], [], some ['C'], []⟩ (by simp) 2 (by subst hL3; decide) (by simp [shapeVector]) (by simp [shapeVector]) ⟨by simp, by simp⟩ u

end Cheval
