import Verif.Props.StaleUtilities
import Verif.Props.ChoiceData
import Verif.Props.PartialRun

/-!
# C77: utilities stay with their choices when the choices change
-/
set_option linter.unusedSectionVars false
namespace Cheval
open FOps Spec
variable {U F : Type} [DecidableEq U] [FOps F]

/-- `model.add_choice` or `model.add_choices`, accepted or not -/
def AddsTop : ModelOp U F → Prop
  | .addChoice _ _ | .addChoices _ _ => True
  | _ => False

theorem addsTop_none (K : Kernel F) (env : PyEnv) (py : PyParser) {op : ModelOp U F} (h : AddsTop op) (m : CModel U F) :
    (modelStep K env py m op).cached = none := by
  cases op <;> simp only [AddsTop] at h <;> rfl

/-- **C77 (top-level choices)** Whatever utilities a model has kept from runs, preval or add_partial_utilities: after `add_choice` or
`add_choices` on the model (also if the call is refused), however the model is prepared from there, the next run starts every utility
from zero: what it returns is the sum of the values of the expressions. -/
theorem C77_top (K : Kernel F) {env : PyEnv} {py : PyParser} (m0 : CModel U F) {op : ModelOp U F} (hop : AddsTop op)
    {ops : List (ModelOp U F)} (hops : ∀ op ∈ ops, Preparation op) {m : CModel U F} (hmr : m = modelRun K env py m0 (op :: ops))
    {paths : List (List Name)} {depth : Nat} {units : List U}
    (hm : Consistent m paths depth units) (hheld : Held env py m.exprs) {g : Option Nat} {c : Container} (hc : m.container g = .ok c)
    (hv : m.validate true true true true g = .ok ()) {srcs : List Source}
    (hready : List.Forall₂ (Ready env m.scope paths depth) srcs c.exprs)
    (htab : ∀ y ∈ c.simple, ∀ o ma al t, dictGet m.scope y ≠ some (.table o ma al t))
    (hval : ∀ i j (_ : i < units.length) (hj : j < paths.length), (cellTotal K m.scope paths[j] i j srcs zero).isSome) (clear : Bool)
    {m' : CModel U F} {u : Tab F} (hr : m.runUtilities K g clear = (m', .ok u)) :
    (∀ i j (_ : i < units.length) (hj : j < paths.length), some (u.val i j) = cellTotal K m.scope paths[j] i j srcs zero) ∧
    m'.cached = some (units, u) := by
  have hcm : m.cached = none := by
    rw [hmr]
    show (modelRun K env py (modelStep K env py m0 op) ops).cached = none
    rw [preparations_keep K env py ops hops, addsTop_none K env py hop]
  have hst : ∀ i j, startAt m i j = zero := fun i j => by simp only [startAt, hcm]
  obtain ⟨ix, u', -, -, h3, h4, -, h6⟩ := run_sound K hm hheld hc hv hready htab (fun i j hi hj => by rw [hst]; exact hval i j hi hj) clear
  rw [h6] at hr
  split at hr
  · cases hr
  · simp only [Prod.mk.injEq, Except.ok.injEq] at hr
    obtain ⟨rfl, rfl⟩ := hr
    exact ⟨fun i j hi hj => by rw [h3 i j hi hj, hst], by rw [h4 hcm]⟩

/-! ## nested choices: the utilities are kept -/

theorem choices_length {st : TreeSt F} {L : List (List Name)} (h : choices st = .ok L) : L.length = st.all.length := by
  unfold choices at h
  simp only [bind, Except.bind, pure, Except.pure] at h
  split at h
  · cases h
  · split at h
    · cases h
    · split at h <;> (cases h; simp)

/-- the kept table has fewer columns than the model has choices -/
def Narrow (m : CModel U F) : Prop :=
  (∃ ix t, m.cached = some (ix, t) ∧ t.cols < m.tree.all.length) ∧ (m.tree.all.map (·.1)).Nodup

theorem evaluate_narrow {K : Kernel F} {m : CModel U F} (hp : Narrow m) (c : Container) :
    Narrow (m.evaluate K c).1 ∧ ∀ u, (m.evaluate K c).2 ≠ .ok u := by
  obtain ⟨⟨ix, u, hc, hr⟩, hd⟩ := hp
  have hp : Narrow m := ⟨⟨ix, u, hc, hr⟩, hd⟩
  unfold CModel.evaluate
  split
  · exact ⟨hp, by simp⟩
  · exact ⟨hp, by simp⟩
  · rename_i units labels hus hlab
    have hpu : m.partialUtilities = (m, .ok (ix, u)) ∨ ∃ e, m.partialUtilities = (m, .error e) := by
      unfold CModel.partialUtilities
      split
      · exact .inr ⟨_, rfl⟩
      · exact .inr ⟨_, rfl⟩
      · exact .inr ⟨_, rfl⟩
      · rw [hc]; exact .inl rfl
    rcases hpu with hpu | ⟨e, hpu⟩
    · rw [hpu]
      simp only
      cases symLocals m.scope c.simple with
      | error e => exact ⟨hp, by simp⟩
      | ok syms =>
        simp only
        have hl := (evalLoop_size (K := K) (scope := m.scope) (labels := labels) (syms := syms) c.exprs u).2
        rcases he : evalLoop K m.scope labels syms c.exprs u with ⟨u1, r⟩
        rw [he] at hl
        simp only at hl
        have hm1 : Narrow { m with cached := some (ix, u1) } := ⟨⟨ix, u1, rfl, by rw [hl]; exact hr⟩, hd⟩
        cases r with
        | error e => exact ⟨hm1, by simp⟩
        | ok _ =>
          simp only
          split
          · exact ⟨hm1, by simp⟩
          · rw [if_pos (.inr (by rw [hl, choices_length hlab]; omega))]
            exact ⟨hm1, by simp⟩
    · rw [hpu]; exact ⟨hp, by simp⟩

theorem run_narrow {K : Kernel F} {m : CModel U F} (hp : Narrow m) (g : Option Nat) (clear : Bool) :
    Narrow (m.runUtilities K g clear).1 ∧ ∀ u, (m.runUtilities K g clear).2 ≠ .ok u := by
  unfold CModel.runUtilities
  split
  · exact ⟨hp, by simp⟩
  · exact ⟨hp, by simp⟩
  · rename_i c _ _
    obtain ⟨h1, h2⟩ := evaluate_narrow (K := K) hp c
    rcases he : m.evaluate K c with ⟨m1, r⟩
    rw [he] at h1 h2
    cases r with
    | error e => exact ⟨h1, by simp⟩
    | ok u => exact (h2 u rfl).elim

theorem addPartial_narrow {m : CModel U F} (hp : Narrow m) {tb : Table U (List Name) F} {rr rc : Bool}
    {out : CModel U F × Except Err Unit} (h : m.AddPartial tb rr rc out) : Narrow out.1 := by
  obtain ⟨⟨ix, u, hc, hr⟩, hd⟩ := hp
  have hp : Narrow m := ⟨⟨ix, u, hc, hr⟩, hd⟩
  unfold CModel.AddPartial at h
  split at h
  · subst h; exact hp
  · subst h; exact hp
  · split at h
    · subst h; exact hp
    · split at h
      · subst h; exact hp
      · split at h
        · subst h; exact hp
        · have hpu : m.partialUtilities = (m, .ok (ix, u)) ∨ ∃ e, m.partialUtilities = (m, .error e) := by
            unfold CModel.partialUtilities
            split
            · exact .inr ⟨_, rfl⟩
            · exact .inr ⟨_, rfl⟩
            · exact .inr ⟨_, rfl⟩
            · rw [hc]; exact .inl rfl
          rcases hpu with hpu | ⟨e, hpu⟩
          · rw [hpu] at h
            simp only at h
            obtain ⟨r, -, h⟩ := h
            cases r with
            | error e => simp only at h; subst h; exact hp
            | ok mem => simp only at h; subst h; exact ⟨⟨ix, _, rfl, hr⟩, hd⟩
          · rw [hpu] at h
            simp only at h
            subst h; exact hp

theorem setScale_all (st : TreeSt F) (h : Nat) (v : F) : (setScale st h v).1.all = st.all := by
  unfold setScale; split <;> rfl

private theorem dictSet_dictDel {α : Type} (d : List (Name × α)) (k : Name) (v : α) :
    dictSet (dictDel d k) k v = d.filter (fun e => decide (e.1 ≠ k)) ++ [(k, v)] := by
  refine dictSet_of_not_mem ?_
  simp [dictDel]

private theorem readd_entry {α : Type} {d : List (Name × α)} (k : Name) (v : α) (hd : (d.map (·.1)).Nodup) :
    ((dictSet (dictDel d k) k v).map (·.1)).Nodup ∧ d.length ≤ (dictSet (dictDel d k) k v).length := by
  rw [dictSet_dictDel]
  constructor
  · rw [List.map_append, List.nodup_append]
    refine ⟨hd.sublist (List.Sublist.map _ List.filter_sublist), by simp, ?_⟩
    intro a ha b hb
    simp only [List.map_cons, List.map_nil, List.mem_singleton] at hb
    obtain ⟨e, he, rfl⟩ := List.mem_map.mp ha
    rw [List.mem_filter] at he
    rw [hb]
    simpa using he.2
  · induction d with
    | nil => simp
    | cons e d ih =>
      rw [List.map_cons, List.nodup_cons] at hd
      by_cases h : e.1 = k
      · have hall : d.filter (fun e => decide (e.1 ≠ k)) = d := by
          rw [List.filter_eq_self]
          intro x hx
          simp only [decide_eq_true_eq]
          intro hxk
          exact hd.1 (List.mem_map.mpr ⟨x, hx, by rw [hxk, h]⟩)
        rw [List.filter_cons_of_neg (by simp [h]), hall]
        simp
      · rw [List.filter_cons_of_pos (by simp [h])]
        have := ih hd.2
        simp only [List.length_append, List.length_cons, List.length_nil] at this ⊢
        omega

private theorem addChild_all {st : TreeSt F} (h : Nat) {n : Name} {sc : F} (hl : nodeLegal n sc = true) (hd : (st.all.map (·.1)).Nodup) :
    ((addChild st h n sc).1.all.map (·.1)).Nodup ∧ st.all.length ≤ (addChild st h n sc).1.all.length := by
  have := readd_entry (expectedName st.nodes n (some h)) st.nodes.length hd
  simpa [addChild, createNode, finishCreate, hl] using this

/-- calls that keep the table, and that do not take a choice away: a nested choice may be added (with a legal name and scale) -/
def KeepsChoices : ModelOp U F → Prop
  | .addNested _ n sc => nodeLegal n sc = true
  | op => KeepsTable op

theorem step_narrow {K : Kernel F} (env : PyEnv) (py : PyParser) {m : CModel U F} (hp : Narrow m) (op : ModelOp U F) (hop : KeepsChoices op) :
    Narrow (modelStep K env py m op) := by
  cases op with
  | setUnits u => exact hp
  | declare n s => simp only [modelStep, CModel.declare]; split <;> exact hp
  | assign n d =>
    simp only [modelStep, CModel.assign]
    split
    · exact hp
    · split <;> exact hp
  | clearScope => exact hp
  | expr op => exact hp
  | addChoice n s => exact hop.elim
  | addNested h n s =>
    obtain ⟨⟨ix, t, h1, h2⟩, hd⟩ := hp
    obtain ⟨a1, a2⟩ := addChild_all (st := m.tree) h hop hd
    exact ⟨⟨ix, t, h1, lt_of_lt_of_le h2 a2⟩, a1⟩
  | addChoices ns ss => exact hop.elim
  | setScale h v =>
    obtain ⟨⟨ix, t, h1, h2⟩, hd⟩ := hp
    have e : (modelStep K env py m (.setScale h v)).tree.all = m.tree.all := setScale_all _ _ _
    exact ⟨⟨ix, t, h1, by rw [e]; exact h2⟩, by rw [e]; exact hd⟩
  | setExpressions ts => exact hp
  | setExpressionsText t => exact hp
  | addPartial tb rr rc out =>
    simp only [modelStep]
    split
    · rename_i h; exact addPartial_narrow hp h
    · exact hp
  | setPrecision i => simp only [modelStep, CModel.setPrecision]; split <;> exact hp
  | run g c => exact (run_narrow hp g c).1
  | preval k d c =>
    simp only [modelStep, CModel.preval]
    split
    · exact hp
    · exact hp
    · rename_i sg _ _
      obtain ⟨h1, h2⟩ := evaluate_narrow (K := K) hp ⟨sg.simple, sg.chained, sg.exprs⟩
      rcases he : m.evaluate K ⟨sg.simple, sg.chained, sg.exprs⟩ with ⟨m1, r⟩
      rw [he] at h1 h2
      cases r with
      | error e => exact h1
      | ok u => exact (h2 u rfl).elim
  | copy a b c d e =>
    have he : e = true := hop
    subst he
    simp only [modelStep]
    cases hc : m.copy a b c d true with
    | error er => exact hp
    | ok m' =>
      obtain ⟨sc, _, rfl⟩ := copy_ok hc
      exact hp
  | copySubset ix mask => exact hop.elim

/-- **C77 (violated: what happens to a new nested choice)** Let a model have utilities for its choices (from a run, preval or
add_partial_utilities), and let a new choice be added to one of them through its handle. From then on no run of any group succeeds,
whatever is declared, assigned, evaluated, added or removed, and however many more nested choices are added: until a top-level choice is
added, or a copy without utilities or a subset is made, or a nested choice is refused. -/
theorem C77_stuck (K : Kernel F) (env : PyEnv) (py : PyParser) (m : CModel U F) (hist : List (TreeOp F)) (hm : m.tree = after hist)
    (hcl : CleanRun Choices.empty hist) {ix : List U} {t : Tab F} (hc : m.cached = some (ix, t)) {L : List (List Name)}
    (hL : choices m.tree = .ok L) (ht : t.cols = L.length)
    (h : Nat) (n : Name) (sc : F) (hop : Clean (expected hist) (.addChild h n sc)) (hleg : Legal n sc)
    (hnew : ∀ r ∈ (expected hist).live, r.path ≠ (expected hist).made.getD h [] ++ [n])
    (ops : List (ModelOp U F)) (hops : ∀ op ∈ ops, KeepsChoices op) (g : Option Nat) (clear : Bool) (u : Tab F) :
    ((modelRun K env py (m.addNested h n sc).1 ops).runUtilities K g clear).2 ≠ .ok u := by
  have hrel := rel_after hist hcl
  have hleg' : nodeLegal n sc = true := by
    obtain ⟨a, b, c, d⟩ := hleg
    simp [nodeLegal, a, b, c, d]
  have h0 : Narrow (m.addNested h n sc).1 := by
    have hd : (m.tree.all.map (·.1)).Nodup := by rw [hm]; exact hrel.keys_nodup
    obtain ⟨a1, -⟩ := addChild_all (st := m.tree) h hleg' hd
    refine ⟨⟨ix, t, hc, ?_⟩, a1⟩
    have hx : (m.addNested h n sc).1.tree.all = (addChild m.tree h n sc).1.all := rfl
    rw [hx, ht, choices_length hL]
    have hkey : expectedName m.tree.nodes n (some h) ∉ m.tree.all.map (·.1) := by
      rw [hm]
      obtain ⟨⟨r0, hr0, rfl⟩, -⟩ := hop
      have hmade := hrel.live_made r0 hr0
      have hg : (expected hist).made.getD r0.handle [] = r0.path := by simp [hmade]
      have hname : expectedName (after hist).nodes n (some r0.handle) = joinDots (r0.path ++ [n]) := by
        rw [expectedName, hrel.fullName_eq hmade, joinDots_snoc _ (hrel.live_ok hr0).1]
      rw [hname, hrel.all, List.map_map]
      intro hin
      obtain ⟨r, hr, e⟩ := List.mem_map.mp hin
      have hok := hrel.live_ok hr0
      have := (hrel.live_join hr (p := r0.path ++ [n]) (by simp) (by
        intro x hx
        rcases List.mem_append.mp hx with hx | hx
        · exact hok.2 x hx
        · rw [List.mem_singleton.mp hx]; exact hleg.1)).mp e
      rw [hg] at hnew
      exact hnew r hr this
    simp only [addChild, createNode, finishCreate, hleg', if_true, dictDel_of_not_mem hkey, dictSet_of_not_mem hkey]
    simp
  have : Narrow (modelRun K env py (m.addNested h n sc).1 ops) := by
    generalize (m.addNested h n sc).1 = m1 at h0
    induction ops generalizing m1 with
    | nil => exact h0
    | cons op ops ih => exact ih (fun o ho => hops o (by simp [ho])) _ (step_narrow env py h0 op (hops op (by simp)))
  exact (run_narrow this g clear).2 u

/-- calls that give the model other data or expressions, and leave its choices alone -/
def DataCall : ModelOp U F → Prop
  | .setUnits _ | .declare _ _ | .assign _ _ | .clearScope | .expr _ | .setExpressions _ | .setExpressionsText _ | .setPrecision _ => True
  | _ => False

theorem dataCall_preparation {op : ModelOp U F} (h : DataCall op) : Preparation op := by
  cases op <;> simp_all [DataCall, Preparation]

theorem dataCall_tree (K : Kernel F) (env : PyEnv) (py : PyParser) {op : ModelOp U F} (h : DataCall op) (m : CModel U F) :
    (modelStep K env py m op).tree = m.tree := by
  cases op <;> simp only [DataCall] at h <;> simp only [modelStep]
  case setUnits u => rfl
  case declare n s => simp only [CModel.declare]; split <;> rfl
  case assign n d =>
    simp only [CModel.assign]
    split
    · rfl
    · split <;> rfl
  case clearScope => rfl
  case setExpressions t => rfl
  case setExpressionsText t => rfl
  case setPrecision i => simp only [CModel.setPrecision]; split <;> rfl

theorem dataCalls_tree (K : Kernel F) (env : PyEnv) (py : PyParser) (ops : List (ModelOp U F)) (h : ∀ op ∈ ops, DataCall op) (m : CModel U F) :
    (modelRun K env py m ops).tree = m.tree := by
  induction ops generalizing m with
  | nil => rfl
  | cons op ops ih =>
    show (modelRun K env py (modelStep K env py m op) ops).tree = _
    rw [ih (fun o ho => h o (by simp [ho])), dataCall_tree K env py (h op (by simp))]

/-- **C77 (violated: what happens to the others)** Let a model have utilities `t` for its choices `L`, and let the nested choice at position
`k` be added again through the handle of its parent (it is replaced). The choices are then `L` without position `k`, with that choice at
the end; but the next run starts column `j` from the old column `j`: every choice after position `k` starts from the utilities of
another one. -/
theorem C77_moved (K : Kernel F) {env : PyEnv} {py : PyParser} {m0 : CModel U F} {hist : List (TreeOp F)} (hm0 : m0.tree = after hist)
    (hcl : CleanRun Choices.empty hist) {ix0 : List U} {t : Tab F} (h0 : m0.cached = some (ix0, t)) {L : List (List Name)}
    (hL : choices m0.tree = .ok L)
    (h : Nat) (n : Name) (sc : F) (hop : Clean (expected hist) (.addChild h n sc)) (hleg : Legal n sc)
    (k : Nat) (hk : k < (expected hist).live.length) (hp : (expected hist).live[k].path = (expected hist).made.getD h [] ++ [n])
    {ops : List (ModelOp U F)} (hops : ∀ op ∈ ops, DataCall op) {m : CModel U F} (hmr : m = modelRun K env py m0 (.addNested h n sc :: ops))
    {paths : List (List Name)} {depth : Nat} {units : List U}
    (hm : Consistent m paths depth units) (hheld : Held env py m.exprs) {g : Option Nat} {c : Container} (hc : m.container g = .ok c)
    (hv : m.validate true true true true g = .ok ()) {srcs : List Source}
    (hready : List.Forall₂ (Ready env m.scope paths depth) srcs c.exprs)
    (htab : ∀ y ∈ c.simple, ∀ o ma al t, dictGet m.scope y ≠ some (.table o ma al t))
    (hval : ∀ i j (_ : i < units.length) (hj : j < paths.length), (cellTotal K m.scope paths[j] i j srcs (t.val i j)).isSome) (clear : Bool)
    {m' : CModel U F} {u : Tab F} (hr : m.runUtilities K g clear = (m', .ok u)) :
    choices m.tree = .ok (L.eraseIdx k ++ L[k]?.toList) ∧ paths.map (pad depth) = L.eraseIdx k ++ L[k]?.toList ∧
    (∀ i j (_ : i < units.length) (hj : j < paths.length), some (u.val i j) = cellTotal K m.scope paths[j] i j srcs (t.val i j)) := by
  have htree : m.tree = (addChild (after hist) h n sc).1 := by
    rw [hmr]
    show (modelRun K env py (modelStep K env py m0 (.addNested h n sc)) ops).tree = _
    rw [dataCalls_tree K env py ops hops, ← hm0]; rfl
  have hL' : choices (after hist) = .ok L := by rw [← hm0]; exact hL
  have hch := (readd_choices hist hcl L hL' (.addChild h n sc) hop _ n sc rfl hleg k hk hp).2
  have hch : choices m.tree = .ok (L.eraseIdx k ++ L[k]?.toList) := by rw [htree]; exact hch
  refine ⟨hch, ?_, (C34_stale K h0 (ops := .addNested h n sc :: ops) ?_ hmr hm hheld hc hv hready htab hval clear hr).1⟩
  · obtain ⟨labels, hl, hlab⟩ := hm.choices
    rw [hch, Except.ok.injEq] at hl
    rw [hl, hlab.labels]
  · intro op ho
    rcases List.mem_cons.mp ho with rfl | ho
    · trivial
    · exact dataCall_preparation (hops op ho)

/-! ## the example model: a run, then the choice A.x is added again -/

noncomputable def cuHist : List (TreeOp XR) := exampleOps ++ [.addChild 1 ['x'] one]

theorem cu_expected : expected cuHist =
    ⟨[[['B']], [['A']], [['A'], ['x']], [['A'], ['y']], [['A'], ['x']]],
     [⟨0, [['B']], one⟩, ⟨1, [['A']], .fin (1 / 2)⟩, ⟨3, [['A'], ['y']], one⟩, ⟨4, [['A'], ['x']], one⟩]⟩ := by
  have h2 : (2:ℝ)⁻¹ ≤ 1 := by norm_num
  simp [cuHist, exampleOps, expected, Choices.run, Choices.step, Choices.add, Choices.empty, Legal, lt, le, zero, one, XR.lt, XR.le, h2]

theorem cu_clean : CleanRun Choices.empty cuHist := by
  have h2 : (2:ℝ)⁻¹ ≤ 1 := by norm_num
  simp [cuHist, exampleOps, CleanRun, Clean, CleanAdd, Choices.step, Choices.add, Choices.empty, Legal, lt, le, zero, one, XR.lt, XR.le, h2]

theorem cu_valid : validateTree (after cuHist) = .ok () := by
  rw [(C19_validate cuHist cu_clean).1, cu_expected]
  simp [Choices.kids, IsChild, List.filter_cons]

def cuPaths : List (List Name) := [[['B']], [['A']], [['A'], ['y']], [['A'], ['x']]]

noncomputable def cuModel (env : PyEnv) (u : Tab XR) : CModel Nat XR :=
  { emModel env with tree := after cuHist, exprs := ExprGroup.empty, cached := some ([7, 8], u), scope := emScope }

theorem cu_consistent (env : PyEnv) (u : Tab XR) (h1 : u.rows = 2) (h2 : u.cols = 4) : Consistent (cuModel env u) cuPaths 2 [7, 8] := by
  have h := em_consistent env
  refine ⟨rfl, ?_, h.fits, ?_⟩
  · obtain ⟨labels, h1, h2⟩ := labelled_after cuHist cu_clean cu_valid
    refine ⟨labels, h1, ?_⟩
    rw [cu_expected] at h2
    simpa [Choices.depth, cuPaths] using h2
  · intro ix' u' h
    simp only [cuModel, Option.some.injEq, Prod.mk.injEq] at h
    obtain ⟨-, rfl⟩ := h
    exact ⟨h1, h2⟩

/-- **C77 refuted** The example model has the choices B, A, A.x, A.y; its run gives unit 7 the utility 102 for A.x and 100 for the others.
A.x is added again and the expressions are removed: with nothing to evaluate, the next run returns the utilities the model has kept, and
gives 102 to A.y and 100 to A.x. -/
theorem C77_refuted (env : PyEnv) (M : Arith XR) : ∃ (m1 : CModel Nat XR) (u : Tab XR) (m3 : CModel Nat XR) (w : Tab XR),
    (emModel env).runUtilities (emKernel M) none false = (m1, .ok u) ∧
    choices m1.tree = .ok [[['B'], ['.']], [['A'], ['.']], [['A'], ['x']], [['A'], ['y']]] ∧
    u.val 0 2 = .fin 102 ∧ u.val 0 3 = .fin 100 ∧
    (modelRun (emKernel M) env emPy m1 [.addNested 1 ['x'] one, .expr .clear]).runUtilities (emKernel M) none false = (m3, .ok w) ∧
    choices m3.tree = .ok [[['B'], ['.']], [['A'], ['.']], [['A'], ['y']], [['A'], ['x']]] ∧
    w.val 0 2 = .fin 102 ∧ w.val 0 3 = .fin 100 := by
  obtain ⟨u, h1, h2, h3, h4⟩ := em_run_state env M false
  have hch : ∀ {m : CModel Nat XR} {paths : List (List Name)}, Consistent m paths 2 [7, 8] → choices m.tree = .ok (paths.map (pad 2)) := by
    intro m paths h
    obtain ⟨labels, hl, hlab⟩ := h.choices
    rw [hl, hlab.labels]
  set m1 : CModel Nat XR := { emModel env with cached := some ([7, 8], u), scope := emScope } with hm1
  have hL : choices m1.tree = .ok (emPaths.map (pad 2)) := hch (m := emModel env) (em_consistent env)
  have hmr : cuModel env u = modelRun (emKernel M) env emPy m1 [.addNested 1 ['x'] one, .expr .clear] := by
    have : (addChild (after exampleOps) 1 ['x'] (one : XR)).1 = after cuHist := by
      unfold cuHist after; simp [treeRun, treeStep]
    simp only [modelRun, List.foldl_cons, List.foldl_nil, modelStep, CModel.addNested, cuModel, hm1, groupStep, ExprGroup.clear]
    rw [← this]; rfl
  have hcons := cu_consistent env u h2 h3
  have hcont : (cuModel env u).container none = .ok ⟨[], [], []⟩ := by
    simp [CModel.container, cuModel, ExprGroup.empty, ExprGroup.itersimple, ExprGroup.iterchained, ExprGroup.all]
  have hval : (cuModel env u).validate true true true true none = .ok () := by
    have ht : (cuModel env u).tree = after cuHist := rfl
    have hs : (cuModel env u).scope = emScope := rfl
    have hu : (cuModel env u).units = some [7, 8] := rfl
    simp [CModel.validate, ht, cu_valid, hs, hcont, CModel.decisionUnits, hu, checkSymbols, bind, Except.bind]
  have hst : ∀ i j, startAt (cuModel env u) i j = u.val i j := fun i j => rfl
  obtain ⟨ix, w, g1, g2, g3, -, -, g6⟩ := run_sound (emKernel M) hcons (Held.empty env emPy) hcont hval (srcs := []) .nil
    (by intro y hy; cases hy) (by intro i j _ _; rfl) false
  have hn : hasNan w = false := by
    rw [Bool.eq_false_iff]
    intro hn
    obtain ⟨i, j, hi, hj, hx⟩ := (hasNan_iff w).mp hn
    have := g3 i j (by rw [← g1]; exact hi) (by rw [← g2]; exact hj)
    have hi2 : i < 2 := by rw [g1] at hi; exact hi
    have hj2 : j < 4 := by rw [g2] at hj; exact hj
    have : w.val i j = u.val i j := Option.some.inj this
    rw [this, h4 i j hi2 hj2] at hx
    simp [isNan, XR.isNan] at hx
  rw [hn] at g6
  have key := C77_moved (emKernel M) (m0 := m1) (hist := exampleOps) rfl exampleOps_clean rfl hL 1 ['x'] one
    (by rw [exampleOps_expected]; simp [Clean, CleanAdd, Legal, lt, le, zero, one, XR.lt, XR.le])
    (by simp [Legal, lt, le, zero, one, XR.lt, XR.le]) 2 (by rw [exampleOps_expected]; decide) (by simp [exampleOps_expected])
    (ops := [.expr .clear]) (by intro op ho; rw [List.mem_singleton.mp ho]; trivial) hmr hcons (Held.empty env emPy) hcont hval (srcs := []) .nil
    (by intro y hy; cases hy) (by intro i j _ _; rfl) false g6
  have hw : ∀ j, j < 4 → w.val 0 j = u.val 0 j := fun j hj => Option.some.inj (key.2.2 0 j (by decide) hj)
  simp only [Bool.false_eq_true, if_false] at g6
  refine ⟨m1, u, { cuModel env u with cached := some (ix, w) }, w, h1, hL, ?_, ?_, by rw [← hmr]; exact g6, key.1, ?_, ?_⟩
  · rw [h4 0 2 (by decide) (by decide)]; norm_num
  · rw [h4 0 3 (by decide) (by decide)]; norm_num
  · rw [hw 2 (by decide), h4 0 2 (by decide) (by decide)]; norm_num
  · rw [hw 3 (by decide), h4 0 3 (by decide) (by decide)]; norm_num

/-- C77_stuck: the example model after a run; A.z is added, then A.w, then a run is tried, then everything is assigned anew -/
example (env : PyEnv) (M : Arith XR) (g : Option Nat) (w : Tab XR) :
    ((modelRun (emKernel M) env emPy (emModel env)
      [.run none false, .addNested 1 ['z'] one, .addNested 1 ['w'] one, .run none false, .clearScope, .declare exX (.number none),
        .assign exX (.number (.fin 1))]).runUtilities (emKernel M) g false).2 ≠ .ok w := by
  obtain ⟨u, h1, h2, h3, _⟩ := em_run_state env M false
  obtain ⟨labels, hl, hlab⟩ := (em_consistent env).choices
  have hleg : ∀ c : Char, c ≠ '.' → c ≠ '_' → Legal [c] (one : XR) := by
    intro c hc hc2
    refine ⟨by simpa using hc.symm, by simpa using hc2, ?_, ?_⟩ <;> simp [lt, le, zero, one, XR.lt, XR.le]
  have hz := C77_stuck (emKernel M) env emPy ((emModel env).runUtilities (emKernel M) none false).1 exampleOps (by rw [h1]; rfl) exampleOps_clean
    (ix := [7, 8]) (t := u) (by rw [h1]) (L := labels) (by rw [h1]; exact hl) (by rw [h3, hlab.labels]; rfl) 1 ['z'] one
    (by rw [exampleOps_expected]; simp [Clean, CleanAdd, Legal, lt, le, zero, one, XR.lt, XR.le])
    (hleg 'z' (by decide) (by decide)) (by rw [exampleOps_expected]; simp)
    [.addNested 1 ['w'] one, .run none false, .clearScope, .declare exX (.number none), .assign exX (.number (.fin 1))]
    (by
      intro op hop
      simp only [List.mem_cons, List.not_mem_nil, or_false] at hop
      rcases hop with rfl | rfl | rfl | rfl | rfl
      · simp [KeepsChoices, nodeLegal, lt, le, zero, one, XR.lt, XR.le]
      all_goals trivial) g false w
  exact hz

/-- C77_top: the example model after a run; C is added at the top, data and expressions are removed: the next run returns zero for every
choice -/
example (env : PyEnv) (M : Arith XR) : ∃ (m3 : CModel Nat XR) (w : Tab XR),
    (modelRun (emKernel M) env emPy (emModel env) [.run none false, .addChoice ['C'] one, .clearScope, .expr .clear]).runUtilities (emKernel M) none false = (m3, .ok w) ∧
    w.cols = 5 ∧ ∀ i j, i < 2 → j < 5 → w.val i j = .fin 0 := by
  obtain ⟨u, h1, h2, h3, h4⟩ := em_run_state env M false
  let hist : List (TreeOp XR) := exampleOps ++ [.addTop ['C'] one]
  have hhalf : (2:ℝ)⁻¹ ≤ 1 := by norm_num
  have hexp : expected hist = ⟨[[['B']], [['A']], [['A'], ['x']], [['A'], ['y']], [['C']]],
     [⟨0, [['B']], one⟩, ⟨1, [['A']], .fin (1 / 2)⟩, ⟨2, [['A'], ['x']], one⟩, ⟨3, [['A'], ['y']], one⟩, ⟨4, [['C']], one⟩]⟩ := by
    simp [hist, exampleOps, expected, Choices.run, Choices.step, Choices.add, Choices.empty, Legal, lt, le, zero, one, XR.lt, XR.le, hhalf]
  have hclean : CleanRun Choices.empty hist := by
    simp [hist, exampleOps, CleanRun, Clean, CleanAdd, Choices.step, Choices.add, Choices.empty, Legal, lt, le, zero, one, XR.lt, XR.le, hhalf]
  have hvalid : validateTree (after hist) = .ok () := by
    rw [(C19_validate hist hclean).1, hexp]
    simp [Choices.kids, IsChild, List.filter_cons]
  set m : CModel Nat XR := { emModel env with tree := after hist, exprs := ExprGroup.empty, cached := none, scope := [] } with hm
  have hmr : m = modelRun (emKernel M) env emPy ((emModel env).runUtilities (emKernel M) none false).1 [.addChoice ['C'] one, .clearScope, .expr .clear] := by
    have : (addTop (after exampleOps) ['C'] (one : XR)).1 = after hist := by
      simp [hist, after, treeRun, treeStep]
    rw [h1]
    simp only [modelRun, List.foldl_cons, List.foldl_nil, modelStep, CModel.addChoice, CModel.clearScope, hm, groupStep, ExprGroup.clear]
    rw [← this]; rfl
  have hcons : Consistent m [[['B']], [['A']], [['A'], ['x']], [['A'], ['y']], [['C']]] 2 [7, 8] := by
    refine ⟨rfl, ?_, ?_, fun ix' u' h => by cases h⟩
    · obtain ⟨labels, h1, h2⟩ := labelled_after hist hclean hvalid
      refine ⟨labels, h1, ?_⟩
      rw [hexp] at h2
      simpa [Choices.depth] using h2
    · intro e he
      simp [hm] at he
  have hcont : m.container none = .ok ⟨[], [], []⟩ := by
    simp [CModel.container, hm, ExprGroup.empty, ExprGroup.itersimple, ExprGroup.iterchained, ExprGroup.all]
  have hval : m.validate true true true true none = .ok () := by
    have ht : m.tree = after hist := rfl
    have hs : m.scope = [] := rfl
    have hu : m.units = some [7, 8] := rfl
    simp [CModel.validate, ht, hvalid, hs, hcont, CModel.decisionUnits, hu, checkSymbols, bind, Except.bind]
  obtain ⟨ix, w, g1, g2, g3, -, -, g6⟩ := run_sound (emKernel M) hcons (Held.empty env emPy) hcont hval (srcs := []) .nil
    (by intro y hy; cases hy) (by intro i j _ _; rfl) false
  have hcell : ∀ i j, i < 2 → j < 5 → w.val i j = .fin 0 := fun i j hi hj => Option.some.inj (g3 i j hi hj)
  have hn : hasNan w = false := by
    rw [Bool.eq_false_iff]
    intro hn
    obtain ⟨i, j, hi, hj, hx⟩ := (hasNan_iff w).mp hn
    rw [hcell i j (by rw [g1] at hi; exact hi) (by rw [g2] at hj; exact hj)] at hx
    simp [isNan, XR.isNan] at hx
  rw [hn] at g6
  have key := C77_top (emKernel M) ((emModel env).runUtilities (emKernel M) none false).1 (op := .addChoice ['C'] one) trivial (ops := [.clearScope, .expr .clear])
    (by intro op ho; simp only [List.mem_cons, List.not_mem_nil, or_false] at ho; rcases ho with rfl | rfl <;> trivial) hmr hcons (Held.empty env emPy) hcont hval (srcs := []) .nil
    (by intro y hy; cases hy) (by intro i j _ _; rfl) false g6
  simp only [Bool.false_eq_true, if_false] at g6
  refine ⟨{ m with cached := some (ix, w) }, w, ?_, g2, fun i j hi hj => Option.some.inj (key.1 i j hi hj)⟩
  show (modelRun (emKernel M) env emPy ((emModel env).runUtilities (emKernel M) none false).1 [.addChoice ['C'] one, .clearScope, .expr .clear]).runUtilities _ _ _ = _
  rw [← hmr]; exact g6

end Cheval
