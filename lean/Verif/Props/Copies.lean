import Verif.Core.HeapRun
import Verif.Core.TreeObs
import Verif.Num.Basic

/-!
# C40: copies of models

Models live on a heap of Python objects (`Core/Heap`). A copy shares only the choice nodes with its original.
-/
namespace Cheval
open FOps Spec
variable {U F : Type}

/-! ## every reachable heap keeps the models apart -/

section
variable [FOps F]

theorem copy_facts {m m' : CModel U F} {a b c d e : Bool} (h : m.copy a b c d e = .ok m') :
    m'.tree = m.tree ∧ ((m.scope.map (·.1)).Nodup → (m'.scope.map (·.1)).Nodup) ∧
    ((m.exprs.subgroups.map (·.1)).Nodup → (m'.exprs.subgroups.map (·.1)).Nodup) := by
  obtain ⟨scope, hs, rfl⟩ := copy_ok h
  refine ⟨rfl, ?_, ?_⟩
  · intro hn
    split at hs
    · rw [copyScope_keys hs]; exact hn
    · cases hs; simp
  · intro hn
    simp only
    split
    · simpa [ExprGroup.copy, Function.comp_def] using hn
    · simp [ExprGroup.empty]

theorem copySubset_facts [DecidableEq U] {m m' : CModel U F} {ix : List U} {mask : List Bool} (h : m.copySubset ix mask = .ok m') :
    m'.tree = m.tree ∧ ((m.scope.map (·.1)).Nodup → (m'.scope.map (·.1)).Nodup) ∧
    ((m.exprs.subgroups.map (·.1)).Nodup → (m'.exprs.subgroups.map (·.1)).Nodup) := by
  obtain ⟨_, _, scope, _, hs, _, rfl⟩ := copySubset_ok h
  refine ⟨rfl, ?_, ?_⟩
  · intro hn; rw [copyScope_keys hs]; exact hn
  · intro hn; simpa [ExprGroup.copy, Function.comp_def] using hn

theorem HeapOK.start : HeapOK (Heap.start : Heap U F) := by
  constructor <;> simp [Heap.start, ParentsBelow]

/-- which model a call acts on, and the corresponding call of the one-model semantics -/
def HeapOp.target (h : Heap U F) : HeapOp U F → Option (Nat × ModelOp U F)
  | .setUnits i u => some (i, .setUnits u)
  | .declare i n s => some (i, .declare n s)
  | .assign i n d => some (i, .assign n d)
  | .clearScope i => some (i, .clearScope)
  | .expr i op => some (i, .expr op)
  | .addChoice i n sc => some (i, .addChoice n sc)
  | .addNested hd n sc => some (h.owner hd, .addNested hd n sc)
  | .addChoices i ns ss => some (i, .addChoices ns ss)
  | .setExpressions i ts => some (i, .setExpressions ts)
  | .setExpressionsText i t => some (i, .setExpressionsText t)
  | .addPartial i tb rr rc out => some (i, .addPartial tb rr rc out)
  | .setPrecision i p => some (i, .setPrecision p)
  | .run i g c => some (i, .run g c)
  | .preval i k d c => some (i, .preval k d c)
  | .new _ | .setScale _ _ | .copy _ _ _ _ _ _ | .copySubset _ _ _ => none

/-- the node whose children or scale a call changes -/
def HeapOp.node : HeapOp U F → Option Nat
  | .addNested hd _ _ | .setScale hd _ => some hd
  | _ => none

theorem step_within [DecidableEq U] (K : Kernel F) (env : PyEnv) (py : PyParser) {h : Heap U F} (ok : HeapOK h) {op : HeapOp U F}
    (he : h.exists? op) {i : Nat} {mop : ModelOp U F} (ht : op.target h = some (i, mop)) :
    i < h.nmodels ∧ Within i (fun n => op.node = some n) h (heapStep K env py h op) ∧
    (heapStep K env py h op).view i = modelStep K env py (h.view i) mop := by
  unfold heapStep
  rw [if_pos he]
  cases op <;> simp only [HeapOp.target, Option.some.injEq, Prod.mk.injEq, reduceCtorEq] at ht <;> obtain ⟨rfl, rfl⟩ := ht <;>
    simp only [Heap.exists?, decide_eq_true_eq] at he
  case setUnits i u => exact ⟨he, within_setUnits ok he u _, view_setUnits h _ u⟩
  case declare i n s => exact ⟨he, within_declare ok he n s _, view_declare ok he n s⟩
  case assign i n d => exact ⟨he, within_assign ok he n d _, view_assign ok he n d⟩
  case clearScope i => exact ⟨he, within_clearScope ok he _, view_clearScope h _⟩
  case expr i op => exact ⟨he, within_exprOp ok he env py op _, view_exprOp ok he env py op⟩
  case addChoice i n sc => exact ⟨he, within_addChoice ok he n sc _, view_addChoice h _ n sc⟩
  case addNested hd n sc =>
    refine ⟨ok.own _ he, ?_, view_addNested h hd n sc⟩
    have := within_addNested ok he n sc
    simpa [HeapOp.node, eq_comm] using this
  case addChoices i ns ss => exact ⟨he, addChoices_heap ok he ns ss _⟩
  case setExpressions i ts => exact ⟨he, setExpressions_heap env py _ _ ts ok he⟩
  case setExpressionsText i t => exact ⟨he, setExpressions_heap env py _ _ _ ok he⟩
  case addPartial i tb rr rc out => exact ⟨he, addPartial_heap ok he K env py tb rr rc out _⟩
  case setPrecision i p =>
    refine ⟨he, ?_, ?_⟩
    · simp only
      split
      · exact within_setModel ok he _ _ rfl (List.Sublist.refl _) (fun _ ha => ha) rfl
      · exact .refl _ _ ok he
    · simp only [modelStep, CModel.setPrecision]
      split
      · rw [view_setModel]; rfl
      · rfl
  case run i g c => exact ⟨he, within_run K ok he g c _, view_run K h _ g c⟩
  case preval i k d c => exact ⟨he, preval_spec K ok he k d c _⟩

/-- the model a call creates -/
def newModelOf [DecidableEq U] (h : Heap U F) : HeapOp U F → Option (CModel U F)
  | .new p => (CModel.new (U := U) (F := F) p).toOption
  | .copy i a b c d e => ((h.view i).copy a b c d e).toOption
  | .copySubset i ix mask => ((h.view i).copySubset ix mask).toOption
  | _ => none

theorem step_new [DecidableEq U] (K : Kernel F) (env : PyEnv) (py : PyParser) {h : Heap U F} (ok : HeapOK h) {op : HeapOp U F}
    (he : h.exists? op) (ht : op.target h = none) (hs : op.node = none) :
    (newModelOf h op = none ∧ heapStep K env py h op = h) ∨
    ∃ m, newModelOf h op = some m ∧ heapStep K env py h op = h.newModel m ∧ (m.scope.map (·.1)).Nodup ∧
      (m.exprs.subgroups.map (·.1)).Nodup ∧ (∀ e ∈ m.tree.all, e.2 < h.nodes.length) := by
  unfold heapStep
  rw [if_pos he]
  cases op <;> simp only [HeapOp.target, HeapOp.node, reduceCtorEq] at ht hs <;> simp only [newModelOf]
  case new p =>
    cases hm : CModel.new (U := U) (F := F) p with
    | error e => exact .inl ⟨rfl, rfl⟩
    | ok m =>
      refine .inr ⟨m, rfl, rfl, ?_⟩
      unfold CModel.new at hm
      split at hm
      · cases hm; simp [ExprGroup.empty, TreeSt.empty]
      · cases hm
  case copy i a b c d e =>
    simp only [Heap.exists?, decide_eq_true_eq] at he
    cases hm : (h.view i).copy a b c d e with
    | error e => exact .inl ⟨rfl, rfl⟩
    | ok m =>
      obtain ⟨h1, h2, h3⟩ := copy_facts hm
      refine .inr ⟨m, rfl, rfl, h2 ?_, h3 ?_, ?_⟩
      · simpa [Heap.view, Function.comp_def] using (ok.keys i he).1
      · simpa [Heap.view, Heap.group, Function.comp_def] using (ok.keys i he).2
      · rw [h1]; exact ok.reg i he
  case copySubset i ix mask =>
    simp only [Heap.exists?, decide_eq_true_eq] at he
    cases hm : (h.view i).copySubset ix mask with
    | error e => exact .inl ⟨rfl, rfl⟩
    | ok m =>
      obtain ⟨h1, h2, h3⟩ := copySubset_facts hm
      refine .inr ⟨m, rfl, rfl, h2 ?_, h3 ?_, ?_⟩
      · simpa [Heap.view, Function.comp_def] using (ok.keys i he).1
      · simpa [Heap.view, Heap.group, Function.comp_def] using (ok.keys i he).2
      · rw [h1]; exact ok.reg i he

theorem HeapOK.step [DecidableEq U] (K : Kernel F) (env : PyEnv) (py : PyParser) {h : Heap U F} (ok : HeapOK h) (op : HeapOp U F) :
    HeapOK (heapStep K env py h op) := by
  by_cases he : h.exists? op
  · cases ht : op.target h with
    | some x =>
      obtain ⟨i, mop⟩ := x
      obtain ⟨h1, h2, _⟩ := step_within K env py ok he ht
      exact h2.ok ok h1
    | none =>
      cases hs : op.node with
      | none =>
        rcases step_new K env py ok he ht hs with ⟨_, h1⟩ | ⟨m, _, h1, h2, h3, h4⟩
        · rw [h1]; exact ok
        · rw [h1]; exact (newModel_fresh h m).ok ok h2 h3 h4
      | some n =>
        cases op <;> simp only [HeapOp.target, HeapOp.node, reduceCtorEq] at ht hs
        unfold heapStep
        rw [if_pos he]
        exact setScale_ok ok _ _
  · unfold heapStep
    rw [if_neg he]
    exact ok

theorem HeapOK.run [DecidableEq U] (K : Kernel F) (env : PyEnv) (py : PyParser) {h : Heap U F} (ok : HeapOK h) (ops : List (HeapOp U F)) :
    HeapOK (heapRun K env py h ops) := by
  induction ops generalizing h with
  | nil => exact ok
  | cons op ops ih => exact ih (ok.step K env py op)

theorem nmodels_mono [DecidableEq U] (K : Kernel F) (env : PyEnv) (py : PyParser) {h : Heap U F} (ok : HeapOK h) (op : HeapOp U F) :
    h.nmodels ≤ (heapStep K env py h op).nmodels := by
  by_cases he : h.exists? op
  · cases ht : op.target h with
    | some x =>
      obtain ⟨i, mop⟩ := x
      obtain ⟨h1, h2, _⟩ := step_within K env py ok he ht
      rw [h2.nm]
    | none =>
      cases hs : op.node with
      | none =>
        rcases step_new K env py ok he ht hs with ⟨_, h1⟩ | ⟨m, _, h1, _⟩
        · rw [h1]
        · rw [h1, (newModel_fresh h m).nm]; omega
      | some n =>
        cases op <;> simp only [HeapOp.target, HeapOp.node, reduceCtorEq] at ht hs
        unfold heapStep
        rw [if_pos he]
        exact le_refl _
  · unfold heapStep
    rw [if_neg he]

/-! ## isolation -/

/-- a call that concerns model `j`: a call on `j`, or through the handle of a node that belongs to `j` or that `j` uses -/
def Concerns (h : Heap U F) (j : Nat) (op : HeapOp U F) : Prop :=
  (∃ mop, op.target h = some (j, mop)) ∨ ∃ n, op.node = some n ∧ n ∈ (h.mdl j).all.map (·.2)

theorem step_frame [DecidableEq U] (K : Kernel F) (env : PyEnv) (py : PyParser) {h : Heap U F} (ok : HeapOK h) (op : HeapOp U F) {j : Nat}
    (hj : j < h.nmodels) (hc : ¬ Concerns h j op) : ViewFrame (h.view j) ((heapStep K env py h op).view j) := by
  have hn : ∀ n, op.node = some n → n ∉ (h.mdl j).all.map (·.2) := fun n hn hm => hc (.inr ⟨n, hn, hm⟩)
  by_cases he : h.exists? op
  · cases ht : op.target h with
    | some x =>
      obtain ⟨i, mop⟩ := x
      obtain ⟨h1, h2, _⟩ := step_within K env py ok he ht
      have hne : j ≠ i := by rintro rfl; exact hc (.inl ⟨mop, ht⟩)
      exact h2.frame ok h1 hj hne fun e he' hw => hn _ hw (List.mem_map_of_mem he')
    | none =>
      cases hs : op.node with
      | none =>
        rcases step_new K env py ok he ht hs with ⟨_, h1⟩ | ⟨m, _, h1, _⟩
        · rw [h1]; exact .refl _
        · rw [h1, ((newModel_fresh h m).old ok hj).2.2.2]; exact .refl _
      | some n =>
        cases op <;> simp only [HeapOp.target, HeapOp.node, reduceCtorEq] at ht hs
        simp only [Option.some.injEq] at hs
        subst hs
        unfold heapStep
        rw [if_pos he]
        exact setScale_frame h _ _ j (hn _ rfl)
  · unfold heapStep
    rw [if_neg he]
    exact .refl _

/-- no call of the history concerns model `j` -/
def Spares [DecidableEq U] (K : Kernel F) (env : PyEnv) (py : PyParser) (j : Nat) : Heap U F → List (HeapOp U F) → Prop
  | _, [] => True
  | h, op :: ops => ¬ Concerns h j op ∧ Spares K env py j (heapStep K env py h op) ops

theorem run_frame [DecidableEq U] (K : Kernel F) (env : PyEnv) (py : PyParser) (ops : List (HeapOp U F)) : ∀ {h : Heap U F}
    (_ : HeapOK h) {j : Nat} (_ : j < h.nmodels) (_ : Spares K env py j h ops), ViewFrame (h.view j) ((heapRun K env py h ops).view j) := by
  induction ops with
  | nil => intro h _ j _ _; exact .refl _
  | cons op ops ih =>
    intro h ok j hj hs
    have h1 := step_frame K env py ok op hj hs.1
    have h2 := ih (ok.step K env py op) (lt_of_lt_of_le hj (nmodels_mono K env py ok op)) hs.2
    exact h1.trans h2

/-! ## what a model shows does not depend on nodes it does not see -/

theorem TreeFrame.path {t t' : TreeSt F} (f : TreeFrame t t') (i : Nat) (hi : i < t.nodes.length) :
    nodePath t'.nodes i = nodePath t.nodes i := by
  refine (nodePath_congr t.nodes t'.nodes i fun j hj => ?_).symm
  obtain ⟨nd', h1, h2, h3, _⟩ := f.old j _ (List.getElem?_eq_getElem (Nat.lt_of_le_of_lt hj hi))
  rw [h1, List.getElem?_eq_getElem (Nat.lt_of_le_of_lt hj hi)]
  simp [h2, h3]

theorem TreeFrame.nested {t t' : TreeSt F} (f : TreeFrame t t') (d : Nat) (i : Nat) (hi : i < t.nodes.length) :
    nestedId t'.nodes d i = nestedId t.nodes d i := by
  induction i using Nat.strong_induction_on with
  | _ i ih =>
    obtain ⟨nd', h1, h2, h3, h4, _⟩ := f.old i _ (List.getElem?_eq_getElem hi)
    rw [nestedId, nestedId, h1, List.getElem?_eq_getElem hi]
    simp only [h2, h3, h4]
    cases hp : t.nodes[i].parent with
    | none => rfl
    | some p =>
      simp only
      split
      · rename_i hlt
        rw [ih p hlt (by omega)]
      · rfl

structure Registered (t : TreeSt F) : Prop where
  reg : ∀ e ∈ t.all, e.2 < t.nodes.length
  below : ParentsBelow t.nodes

theorem TreeFrame.node {t t' : TreeSt F} (f : TreeFrame t t') (r : Registered t) {e : Name × Nat} (he : e ∈ t.all) :
    t'.nodes[e.2]? = t.nodes[e.2]? := by
  obtain ⟨nd', h1, _, _, _, h5⟩ := f.old e.2 _ (List.getElem?_eq_getElem (r.reg e he))
  rw [h1, List.getElem?_eq_getElem (r.reg e he), h5 (List.mem_map_of_mem he)]

theorem TreeFrame.nChildren_eq {t t' : TreeSt F} (f : TreeFrame t t') (r : Registered t) {e : Name × Nat} (he : e ∈ t.all) :
    nChildren t' e.2 = nChildren t e.2 := by
  simp only [nChildren, f.node r he]

theorem TreeFrame.isParent_eq {t t' : TreeSt F} (f : TreeFrame t t') (r : Registered t) {e : Name × Nat} (he : e ∈ t.all) :
    isParent t' e.2 = isParent t e.2 := by
  unfold isParent
  rw [f.nChildren_eq r he]

theorem TreeFrame.validate_eq {t t' : TreeSt F} (f : TreeFrame t t') (r : Registered t) : validateTree t' = validateTree t := by
  unfold validateTree
  rw [f.top, f.all]
  have : (t.all.any fun e => decide (nChildren t' e.2 = 1)) = t.all.any fun e => decide (nChildren t e.2 = 1) := by
    rw [Bool.eq_iff_iff, List.any_eq_true, List.any_eq_true]
    constructor
    · rintro ⟨e, he, h⟩
      exact ⟨e, he, by rw [nChildren, f.node r he] at h; exact h⟩
    · rintro ⟨e, he, h⟩
      exact ⟨e, he, by rw [nChildren, f.node r he]; exact h⟩
  rw [this]

theorem TreeFrame.depth_eq {t t' : TreeSt F} (f : TreeFrame t t') (r : Registered t) : depth t' = depth t := by
  unfold depth
  rw [f.all, foldl_max_congr t.all (fun e => levelOf t' e.2) (fun e => levelOf t e.2)
    (fun e he => by simp only [levelOf, f.node r he]) 0]

theorem TreeFrame.choices_eq {t t' : TreeSt F} (f : TreeFrame t t') (r : Registered t) : choices t' = choices t := by
  unfold choices
  rw [f.validate_eq r, f.depth_eq r, f.all]
  have : ∀ d, (t.all.map fun e => nestedId t'.nodes d e.2) = t.all.map fun e => nestedId t.nodes d e.2 := fun d =>
    List.map_congr_left fun e he => f.nested d e.2 (r.reg e he)
  simp only [this]

theorem TreeFrame.elemental_eq {t t' : TreeSt F} (f : TreeFrame t t') (r : Registered t) :
    elementalChoices t' = elementalChoices t := by
  unfold elementalChoices
  rw [f.choices_eq r, f.depth_eq r, f.all]
  have h1 : (t.all.filter fun e => !isParent t' e.2) = t.all.filter fun e => !isParent t e.2 :=
    List.filter_congr fun e he => by rw [f.isParent_eq r he]
  have : ∀ d, ((t.all.filter fun e => !isParent t e.2).map fun e => nestedId t'.nodes d e.2) =
      (t.all.filter fun e => !isParent t e.2).map fun e => nestedId t.nodes d e.2 := fun d =>
    List.map_congr_left fun e he => f.nested d e.2 (r.reg e (List.mem_of_mem_filter he))
  simp only [h1, this]

theorem foldl_congr_mem {α β : Type} {f g : β → α → β} {l : List α} (h : ∀ b, ∀ a ∈ l, f b a = g b a) (b : β) :
    l.foldl f b = l.foldl g b := by
  induction l generalizing b with
  | nil => rfl
  | cons a l ih => rw [List.foldl_cons, List.foldl_cons, h b a (by simp)]; exact ih (fun b a ha => h b a (by simp [ha])) _

theorem foldlM_congr_mem {α β : Type} {f g : β → α → Except Err β} {l : List α} (h : ∀ b, ∀ a ∈ l, f b a = g b a) (b : β) :
    l.foldlM f b = l.foldlM g b := by
  induction l generalizing b with
  | nil => rfl
  | cons a l ih =>
    rw [List.foldlM_cons, List.foldlM_cons, h b a (by simp)]
    congr 1
    funext c
    exact ih (fun b a ha => h b a (by simp [ha])) c

theorem TreeFrame.flatten_eq {t t' : TreeSt F} (f : TreeFrame t t') (r : Registered t) : flatten t' = flatten t := by
  have hpos : nodePositions t' = nodePositions t := by
    unfold nodePositions
    rw [f.all]
    refine foldl_congr_mem (fun d e he => ?_) _
    have : e.1 ∈ t.all := by
      have := List.mem_zipIdx he
      rw [this.2.2]
      exact List.getElem_mem _
    rw [fullName, fullName, f.path _ (r.reg _ this)]
  have hn : ∀ fl, ∀ e ∈ t.all, flattenNode t' (nodePositions t) fl e.2 = flattenNode t (nodePositions t) fl e.2 := by
    intro fl e he
    unfold flattenNode
    have hi := r.reg e he
    rw [f.node r he, List.getElem?_eq_getElem hi]
    simp only [fullName, f.path _ hi, f.isParent_eq r he]
    have : ∀ p, t.nodes[e.2].parent = some p → nodePath t'.nodes p = nodePath t.nodes p := fun p hp =>
      f.path p (Nat.lt_trans (r.below e.2 _ p (List.getElem?_eq_getElem hi) hp) hi)
    cases hp : t.nodes[e.2].parent with
    | none => rfl
    | some p => simp only [this p hp]
  unfold flatten
  rw [f.depth_eq r, f.all, hpos]
  simp only [foldlM_congr_mem hn]

theorem run_of_tree (K : Kernel F) (m : CModel U F) (t : TreeSt F) (hv : validateTree t = validateTree m.tree)
    (hc : choices t = choices m.tree) (g : Option Nat) (c : Bool) :
    (({ m with tree := t } : CModel U F).runUtilities K g c).2 = (m.runUtilities K g c).2 := by
  have hval : ∀ a b c d g, ({ m with tree := t } : CModel U F).validate a b c d g = m.validate a b c d g := fun a b c d g => by
    simp only [CModel.validate, hv]
    rfl
  have hcon : ({ m with tree := t } : CModel U F).container g = m.container g := by cases g <;> rfl
  have hpu : ({ m with tree := t } : CModel U F).partialUtilities =
      ({ m.partialUtilities.1 with tree := t }, m.partialUtilities.2) := by
    simp only [CModel.partialUtilities, hval, hc, CModel.decisionUnits]
    split <;> (try rfl)
    split <;> rfl
  have hev : ∀ k, (({ m with tree := t } : CModel U F).evaluate K k).2 = (m.evaluate K k).2 := by
    intro k
    simp only [CModel.evaluate, hpu, hc]
    cases m.units with
    | none => rfl
    | some units =>
      cases choices m.tree with
      | error e => rfl
      | ok labels =>
        simp only
        rcases m.partialUtilities with ⟨m1, r⟩
        cases r with
        | error e => rfl
        | ok x =>
          obtain ⟨ix, u⟩ := x
          simp only
          cases symLocals m1.scope k.simple with
          | error e => rfl
          | ok syms =>
            simp only
            rcases evalLoop K m1.scope labels syms k.exprs u with ⟨u', r'⟩
            cases r' with
            | error e => rfl
            | ok _ =>
              simp only
              split
              · rfl
              · split <;> rfl
  simp only [CModel.runUtilities, hval, hcon]
  cases m.validate true true true true g with
  | error e => rfl
  | ok _ =>
    cases m.container g with
    | error e => rfl
    | ok k =>
      simp only
      have := hev k
      rcases h1 : m.evaluate K k with ⟨m1, r1⟩
      rcases h2 : ({ m with tree := t } : CModel U F).evaluate K k with ⟨m2, r2⟩
      rw [h1, h2] at this
      simp only at this
      subst this
      cases r2 <;> rfl

/-- everything a user can read from a model: its data, its choices, what `validate` says, the flattened tree that the nested model
uses, and the utilities (or the error) any run would produce -/
structure SameReadings (K : Kernel F) (m m' : CModel U F) : Prop where
  exprs : m'.exprs = m.exprs
  scope : m'.scope = m.scope
  units : m'.units = m.units
  cached : m'.cached = m.cached
  precision : m'.precision = m.precision
  choices : choices m'.tree = choices m.tree
  elemental : elementalChoices m'.tree = elementalChoices m.tree
  depth : depth m'.tree = depth m.tree
  flatten : flatten m'.tree = flatten m.tree
  names : ∀ e ∈ m.tree.all, m'.tree.nodes[e.2]? = m.tree.nodes[e.2]? ∧ fullName m'.tree.nodes e.2 = fullName m.tree.nodes e.2
  validate : ∀ a b c d g, m'.validate a b c d g = m.validate a b c d g
  run : ∀ g c, (m'.runUtilities K g c).2 = (m.runUtilities K g c).2

theorem ViewFrame.readings (K : Kernel F) {m m' : CModel U F} (f : ViewFrame m m') (r : Registered m.tree) : SameReadings K m m' := by
  obtain ⟨t', e', s', u', c', p'⟩ := m'
  obtain ⟨ft, fe, fs, fu, fc, fp⟩ := f
  simp only at ft fe fs fu fc fp
  subst fe fs fu fc fp
  refine ⟨rfl, rfl, rfl, rfl, rfl, ft.choices_eq r, ft.elemental_eq r, ft.depth_eq r, ft.flatten_eq r,
    fun e he => ⟨ft.node r he, ?_⟩, fun a b c d g => ?_, fun g c => ?_⟩
  · rw [fullName, fullName, ft.path _ (r.reg e he)]
  · simp only [CModel.validate, ft.validate_eq r]
    rfl
  · exact run_of_tree K m t' (ft.validate_eq r) (ft.choices_eq r) g c

theorem HeapOK.registered {h : Heap U F} (ok : HeapOK h) {j : Nat} (hj : j < h.nmodels) : Registered (h.view j).tree :=
  ⟨ok.reg j hj, ok.below⟩

/-- **C40** (isolation) Take any models made in any way (`ChoiceModel(...)`, `copy`, `copy_subset`, in any order). Whatever is done
afterwards with the other models: assigning, declaring, clearing, changing decision units or expressions, adding top-level choices
(one or several), adding partial utilities, running, prevaluating, copying: the data of model `j`, its choices, the verdict of `validate` and the outcome of every possible run
stay the same. The only calls excluded are those made on `j` itself or through the handle of a node belonging to or used by `j`. -/
theorem C40_isolated [DecidableEq U] (K : Kernel F) (env : PyEnv) (py : PyParser) (before after : List (HeapOp U F)) (j : Nat)
    (hj : j < (heapRun K env py (Heap.start : Heap U F) before).nmodels)
    (hs : Spares K env py j (heapRun K env py Heap.start before) after) :
    SameReadings K ((heapRun K env py Heap.start before).view j) ((heapRun K env py Heap.start (before ++ after)).view j) := by
  have ok : HeapOK (heapRun K env py (Heap.start : Heap U F) before) := HeapOK.start.run K env py before
  have : heapRun K env py (Heap.start : Heap U F) (before ++ after) = heapRun K env py (heapRun K env py Heap.start before) after := by
    simp [heapRun, List.foldl_append]
  rw [this]
  exact (run_frame K env py after ok hj hs).readings K (ok.registered hj)

/-- **C40** (one model) A call on model `i`, in a process with any number of models and copies, does to `i` exactly what the same call
does to a model that is alone. -/
theorem C40_refines [DecidableEq U] (K : Kernel F) (env : PyEnv) (py : PyParser) (before : List (HeapOp U F)) (op : HeapOp U F)
    (i : Nat) (mop : ModelOp U F) (he : (heapRun K env py (Heap.start : Heap U F) before).exists? op)
    (ht : op.target (heapRun K env py Heap.start before) = some (i, mop)) :
    (heapRun K env py Heap.start (before ++ [op])).view i = modelStep K env py ((heapRun K env py Heap.start before).view i) mop := by
  have ok : HeapOK (heapRun K env py (Heap.start : Heap U F) before) := HeapOK.start.run K env py before
  have : heapRun K env py (Heap.start : Heap U F) (before ++ [op]) = heapStep K env py (heapRun K env py Heap.start before) op := by
    simp [heapRun, List.foldl_append]
  rw [this]
  exact (step_within K env py ok he ht).2.2

theorem copyScope_all (scope : List (Str × Sym F)) : copyScope scope true none = .ok scope := by
  unfold copyScope
  induction scope with
  | nil => rfl
  | cons e l ih =>
    rw [List.mapM_cons, ih]
    obtain ⟨n, s⟩ := e
    have : s.copy true none = .ok s := by
      unfold Sym.copy
      rw [if_neg (by simp)]
      split <;> simp_all
    simp only [this]
    rfl

theorem copyScope_declared (scope : List (Str × Sym F)) (mask : Option (List Bool)) :
    copyScope scope false mask = .ok (scope.map fun e => (e.1, e.2.empty)) := by
  unfold copyScope
  induction scope with
  | nil => rfl
  | cons e l ih =>
    rw [List.mapM_cons, ih]
    rfl

/-- **C40** (contents) `copy` always succeeds. The new model has, as selected by the flags: the decision units; the declared symbols,
without data, or all symbols with their data; the expressions, group by group, in the same order; the utilities. Its tree reads the
same as the tree of the original, which itself is unchanged. -/
theorem C40_copy [DecidableEq U] (K : Kernel F) (env : PyEnv) (py : PyParser) (before : List (HeapOp U F)) (i : Nat)
    (units declared assigned expressions utilities : Bool)
    (hi : i < (heapRun K env py (Heap.start : Heap U F) before).nmodels) :
    let h := heapRun K env py (Heap.start : Heap U F) before
    let h' := heapRun K env py Heap.start (before ++ [.copy i units declared assigned expressions utilities])
    let m := h.view i
    let c := h'.view h.nmodels
    h'.nmodels = h.nmodels + 1 ∧ h'.view i = m ∧
    c.tree = m.tree ∧ c.precision = m.precision ∧
    c.units = (if units || assigned then m.units else none) ∧
    c.cached = (if utilities then m.cached else none) ∧
    c.scope = (if assigned then m.scope else if declared then m.scope.map fun e => (e.1, e.2.empty) else []) ∧
    (if expressions then c.exprs.ungrouped = m.exprs.ungrouped ∧
        c.exprs.subgroups.map (fun e => (e.1, e.2.exprs)) = m.exprs.subgroups.map (fun e => (e.1, e.2.exprs))
      else c.exprs.ungrouped = [] ∧ c.exprs.subgroups = []) := by
  intro h h' m c
  have ok : HeapOK h := HeapOK.start.run K env py before
  obtain ⟨m', hm⟩ : ∃ m', m.copy units declared assigned expressions utilities = .ok m' := by
    unfold CModel.copy
    cases declared <;> cases assigned <;> simp [copyScope_all, copyScope_declared]
  have e1 : h' = h.newModel m' := by
    have : h' = heapStep K env py h (.copy i units declared assigned expressions utilities) := by
      simp [h', h, heapRun, List.foldl_append]
    rw [this]
    unfold heapStep
    rw [if_pos (by simpa [Heap.exists?] using hi)]
    simp only
    rw [show (h.view i).copy units declared assigned expressions utilities = .ok m' from hm]
  have f := newModel_fresh h m'
  have hc : c = { m' with tree := ⟨h.nodes, m'.tree.all, m'.tree.top⟩ } := by
    show h'.view h.nmodels = _
    rw [e1]; exact f.view
  obtain ⟨scope, hs, rfl⟩ := copy_ok hm
  refine ⟨by rw [e1]; exact f.nm, by rw [e1]; exact (f.old ok hi).2.2.2, by rw [hc]; rfl, by rw [hc], by rw [hc], by rw [hc], ?_, ?_⟩
  · rw [hc]
    simp only
    cases declared <;> cases assigned <;> simp [copyScope_all, copyScope_declared] at hs ⊢ <;> first | exact hs.symm | exact hs
  · rw [hc]
    cases expressions
    · exact ⟨rfl, rfl⟩
    · refine ⟨rfl, ?_⟩
      simp [ExprGroup.copy, SubGroup.rebuild, rebuild_eq, Function.comp_def]

/-- the handle of node `n` belongs to model `i`, and is a leaf there; `j` has that node too -/
def SharesLeaf (h : Heap U F) (i j n : Nat) : Prop :=
  i ≠ j ∧ h.owner n = i ∧ (∃ nd, h.nodes[n]? = some nd ∧ nd.children = []) ∧ n ∈ (h.mdl j).all.map (·.2)

/-- **C40** (the exception the property names) Choice nodes are shared: one legal `add_choice` on a leaf, through its handle, in
the original makes every copy that has this node unfit to run, without a call on the copy. -/
theorem C40_shared_nodes [DecidableEq U] (K : Kernel F) (env : PyEnv) (py : PyParser) (h : Heap U F) (i j n : Nat) (name : Name) (scale : F)
    (hn : n < h.nodes.length) (hsh : SharesLeaf h i j n) (hleg : nodeLegal name scale = true) (a b c : Bool) (g : Option Nat) :
    ((heapStep K env py h (.addNested n name scale)).view j).validate true a b c g = .error .modelNotReady := by
  obtain ⟨hne, hown, ⟨nd, hnd, hch⟩, hj⟩ := hsh
  have he : heapStep K env py h (.addNested n name scale) = h.addNested n name scale := by
    unfold heapStep
    rw [if_pos (by simpa [Heap.exists?] using hn)]
  rw [he]
  have hv : validateTree ((h.addNested n name scale).view j).tree = .error .modelNotReady := by
    have hnodes : ∃ nd', (h.addNested n name scale).nodes[n]? = some nd' ∧ nd'.children.length = 1 := by
      simp only [Heap.addNested, Heap.setTree, addChild, createNode, finishCreate, hleg, if_true, Heap.tree]
      refine ⟨{ nd with children := dictSet nd.children name h.nodes.length }, ?_, ?_⟩
      · rw [List.getElem?_modify, List.getElem?_append_left hn, hnd]
        simp
      · simp [hch, dictSet]
    have hall : ((h.addNested n name scale).mdl j).all = (h.mdl j).all := by
      simp [Heap.addNested, Heap.setTree, hown, put_ne _ _ (Ne.symm hne)]
    obtain ⟨nd', h1, h2⟩ := hnodes
    obtain ⟨e, hem, rfl⟩ := List.mem_map.mp hj
    unfold validateTree
    split
    · rfl
    · rw [if_pos]
      rw [List.any_eq_true]
      refine ⟨e, ?_, ?_⟩
      · simp only [Heap.view, Heap.tree, hall]; exact hem
      · simp only [nChildren, Heap.view, Heap.tree, h1, h2, decide_true]
  simp only [CModel.validate, hv]
  rfl

/-! ## a concrete case -/

/-- a model with two choices and its copy -/
def copyOps : List (HeapOp Nat F) :=
  [.new 8, .addChoice 0 ['A'] one, .addChoice 0 ['B'] one, .setUnits 0 [7, 8], .copy 0 true true true true true]

/-- calls on the copy: a symbol is declared and filled, a choice is added, units and precision change, another copy is made -/
def copyOps2 : List (HeapOp Nat F) :=
  [.declare 1 ['x'] (.number none), .assign 1 ['x'] (.number one), .addChoice 1 ['D'] one, .setUnits 1 [5], .setPrecision 1 4,
   .copy 1 true true true true true, .clearScope 2]

noncomputable def copyHeap (K : Kernel F) (env : PyEnv) (py : PyParser) : Heap Nat F := heapRun K env py Heap.start copyOps

theorem copyHeap_facts (hl : ∀ n : Name, '.' ∉ n → n ≠ ['_'] → nodeLegal n (one : F) = true) (K : Kernel F) (env : PyEnv) (py : PyParser) :
    (copyHeap K env py).nmodels = 2 ∧ (copyHeap K env py).nodes = [⟨['A'], none, one, 1, []⟩, ⟨['B'], none, one, 1, []⟩] ∧
    (copyHeap K env py).owner 0 = 0 ∧ (copyHeap K env py).owner 1 = 0 ∧
    ((copyHeap K env py).mdl 0).all = [(['A'], 0), (['B'], 1)] ∧ ((copyHeap K env py).mdl 1).all = [(['A'], 0), (['B'], 1)] ∧
    ((copyHeap K env py).mdl 1).top = [0, 1] := by
  have hA := hl ['A'] (by decide) (by decide)
  have hB := hl ['B'] (by decide) (by decide)
  simp [copyHeap, copyOps, heapRun, heapStep, Heap.exists?, CModel.new, Heap.newModel, Heap.newSyms, Heap.newGroup, Heap.newSubs,
    Heap.start, Heap.addChoice, Heap.setTree, Heap.setModel, Heap.tree, addTop, createNode, finishCreate, hA, hB, TreeSt.empty, put,
    dictGet, dictSet, expectedName, newLevel, Heap.setUnits, Heap.view, Heap.group, CModel.copy, copyScope, ExprGroup.empty,
    ExprGroup.copy, pure, Except.pure]

/-- the hypotheses of `C40_shared_nodes` hold after a plain `copy()`: the copy is valid, and no longer so after the call -/
example (hl : ∀ n : Name, '.' ∉ n → n ≠ ['_'] → nodeLegal n (one : F) = true) (K : Kernel F) (env : PyEnv) (py : PyParser) :
    SharesLeaf (copyHeap K env py) 0 1 0 ∧ ((copyHeap K env py).view 1).validate true false false false none = .ok () := by
  obtain ⟨h1, h2, h3, h4, h5, h6, h7⟩ := copyHeap_facts hl K env py
  refine ⟨⟨by decide, h3, ⟨_, by rw [h2]; rfl, rfl⟩, by rw [h6]; simp⟩, ?_⟩
  simp [CModel.validate, Heap.view, Heap.tree, h6, h7, validateTree, nChildren, h2, bind, Except.bind]

/-- the hypotheses of `C40_isolated` hold: the calls on the copy spare the original -/
example (hl : ∀ n : Name, '.' ∉ n → n ≠ ['_'] → nodeLegal n (one : F) = true) (K : Kernel F) (env : PyEnv) (py : PyParser) :
    0 < (copyHeap K env py).nmodels ∧ Spares K env py 0 (copyHeap K env py) copyOps2 := by
  obtain ⟨h1, h2, h3, h4, h5, h6, h7⟩ := copyHeap_facts hl K env py
  refine ⟨by omega, ?_⟩
  simp [Spares, copyOps2, Concerns, HeapOp.target, HeapOp.node]

/-- one is a legal scale -/
example (n : Name) (h : '.' ∉ n) (h' : n ≠ ['_']) : nodeLegal n (one : XR) = true := by
  simp [nodeLegal, h, h', lt, le, zero, one, XR.lt, XR.le]
end

end Cheval
