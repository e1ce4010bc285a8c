import Verif.Core.HeapNew

/-! # Tree operations, evaluation and preval on the heap -/
namespace Cheval
open FOps Spec
variable {U F : Type}

/-! ## trees -/

theorem dictSet_mem_or {K V : Type} [DecidableEq K] {d : List (K × V)} {k : K} {v : V} {e : K × V} (h : e ∈ dictSet d k v) :
    e ∈ d ∨ e = (k, v) := by
  rcases mem_dictSet.mp h with rfl | ⟨h, _⟩
  · exact .inr rfl
  · exact .inl h

section
variable [FOps F]

theorem finishCreate_nodes (st : TreeSt F) (name : Name) (scale : F) (p : Option Nat) :
    (∃ l, (finishCreate st name scale p).1.nodes = st.nodes ++ l ∧ ∀ nd ∈ l, nd.parent = p) ∧
    ∀ e ∈ (finishCreate st name scale p).1.all, e ∈ st.all ∨ e.2 < (finishCreate st name scale p).1.nodes.length := by
  unfold finishCreate
  split
  · refine ⟨⟨_, rfl, by simp⟩, fun e he => ?_⟩
    rcases dictSet_mem_or he with h1 | rfl
    · exact .inl h1
    · exact .inr (by simp)
  · exact ⟨⟨[], by simp, by simp⟩, fun e he => .inl he⟩

theorem createNode_nodes (st : TreeSt F) (name : Name) (scale : F) (p : Option Nat) :
    (∃ l, (createNode st name scale p).1.nodes = st.nodes ++ l ∧ ∀ nd ∈ l, nd.parent = p) ∧
    ∀ e ∈ (createNode st name scale p).1.all, e ∈ st.all ∨ e.2 < (createNode st name scale p).1.nodes.length := by
  unfold createNode
  split
  · split
    · exact finishCreate_nodes _ _ _ _
    · rename_i old _
      simp only
      split
      · obtain ⟨h1, h2⟩ := finishCreate_nodes (F := F) ⟨st.nodes, dictDel st.all name, st.top.filter fun i => decide (i ≠ old)⟩ name scale none
        refine ⟨h1, fun e he => ?_⟩
        rcases h2 e he with h3 | h3
        · exact .inl (mem_dictDel h3)
        · exact .inr h3
      · exact ⟨⟨[], by simp, by simp⟩, fun e he => .inl (mem_dictDel he)⟩
  · rename_i p'
    obtain ⟨h1, h2⟩ := finishCreate_nodes (F := F) ⟨st.nodes, dictDel st.all (expectedName st.nodes name (some p')), st.top⟩ name scale (some p')
    refine ⟨h1, fun e he => ?_⟩
    rcases h2 e he with h3 | h3
    · exact .inl (mem_dictDel h3)
    · exact .inr h3

theorem addTop_nodes (st : TreeSt F) (name : Name) (scale : F) :
    (∃ l, (addTop st name scale).1.nodes = st.nodes ++ l ∧ ∀ nd ∈ l, nd.parent = none) ∧
    ∀ e ∈ (addTop st name scale).1.all, e ∈ st.all ∨ e.2 < (addTop st name scale).1.nodes.length := by
  have h := createNode_nodes st name scale none
  unfold addTop
  rcases hc : createNode st name scale none with ⟨st', r⟩
  rw [hc] at h
  cases r <;> exact h

theorem addChild_nodes (st : TreeSt F) (hd : Nat) (name : Name) (scale : F) :
    (∃ l, ∃ f : Node F → Node F, (∀ nd, (f nd).name = nd.name ∧ (f nd).parent = nd.parent ∧ (f nd).level = nd.level) ∧
      (addChild st hd name scale).1.nodes = (st.nodes ++ l).modify hd f ∧ ∀ nd ∈ l, nd.parent = some hd) ∧
    ∀ e ∈ (addChild st hd name scale).1.all, e ∈ st.all ∨ e.2 < (addChild st hd name scale).1.nodes.length := by
  have h := createNode_nodes st name scale (some hd)
  unfold addChild
  rcases hc : createNode st name scale (some hd) with ⟨st', r⟩
  rw [hc] at h
  obtain ⟨⟨l, h1, hp⟩, h2⟩ := h
  cases r with
  | error e => exact ⟨⟨l, id, fun _ => ⟨rfl, rfl, rfl⟩, by simp only at h1 ⊢; rw [h1]; simp [List.modify_id], hp⟩, h2⟩
  | ok id =>
    refine ⟨⟨l, fun nd => { nd with children := dictSet nd.children name id }, fun _ => ⟨rfl, rfl, rfl⟩, ?_, hp⟩, fun e he => ?_⟩
    · simp only at h1 ⊢; rw [h1]
    · simp only [List.length_modify]
      exact h2 e he
end

theorem ParentsBelow.append {nodes l : List (Node F)} (h : ParentsBelow nodes) {q : Option Nat} (hl : ∀ nd ∈ l, nd.parent = q)
    (hq : ∀ p, q = some p → p < nodes.length) : ParentsBelow (nodes ++ l) := by
  intro n nd p hn hp
  by_cases hlt : n < nodes.length
  · rw [List.getElem?_append_left hlt] at hn; exact h n nd p hn hp
  · rw [List.getElem?_append_right (by omega)] at hn
    rw [hl nd (List.mem_of_getElem? hn)] at hp
    have := hq p hp
    omega

theorem ParentsBelow.modify {nodes : List (Node F)} (h : ParentsBelow nodes) (k : Nat) {f : Node F → Node F}
    (hf : ∀ nd, (f nd).parent = nd.parent) : ParentsBelow (nodes.modify k f) := by
  intro n nd p hn hp
  rw [List.getElem?_modify] at hn
  cases hx : nodes[n]? with
  | none => rw [hx] at hn; simp at hn
  | some x =>
    rw [hx] at hn
    simp only [Option.map_some, Option.some.injEq, Option.map_eq_map] at hn
    refine h n x p hx ?_
    subst hn
    split at hp
    · rw [← hp, hf]
    · exact hp

/-- a new tree for model `i` -/
theorem within_setTree {h : Heap U F} (ok : HeapOK h) {i : Nat} (hi : i < h.nmodels) (t : TreeSt F) (W : Nat → Prop)
    (hA : ∀ e ∈ t.all, e.2 < t.nodes.length)
    (hN : ∀ n nd, h.nodes[n]? = some nd → ∃ nd', t.nodes[n]? = some nd' ∧ nd'.name = nd.name ∧ nd'.parent = nd.parent ∧
      nd'.level = nd.level ∧ (¬ W n → nd' = nd)) (hB : ParentsBelow t.nodes) : Within i W h (h.setTree i t) := by
  have w := Within.refl i W ok hi
  exact
  { w with
    mdl := fun j hj => put_ne _ _ hj
    group := by simp [Heap.setTree, put_self]
    subs := fun a ha => .inl (by simpa [Heap.subs, Heap.setTree, put_self] using ha)
    subNd := by simpa [Heap.subs, Heap.setTree, put_self] using ok.subNd i hi
    syms := fun a ha => .inl (by simpa [Heap.syms, Heap.setTree, put_self] using ha)
    symNd := by simpa [Heap.syms, Heap.setTree, put_self] using ok.symNd i hi
    par := fun a ha => ok.par i hi a (by simpa [Heap.syms, Heap.setTree, put_self] using ha)
    tabs := fun a ha => .inl (by simpa [Heap.setTree, put_self] using ha)
    keys := by simpa [Heap.setTree, put_self] using ok.keys i hi
    reg := by simpa [Heap.setTree, put_self] using hA
    own := fun n _ => by
      simp only [Heap.setTree]
      split
      · rename_i h1; exact ok.own n h1
      · exact hi
    below := hB
    nodes := hN }

theorem view_setTree (h : Heap U F) (i : Nat) (t : TreeSt F) : (h.setTree i t).view i = { h.view i with tree := t } := by
  simp [Heap.view, Heap.setTree, put_self, Heap.tree, Heap.group]

section
variable [FOps F]

theorem nodes_append {W : Nat → Prop} {l l' : List (Node F)} {x : List (Node F)} (hl : l' = l ++ x) : ∀ n nd, l[n]? = some nd →
    ∃ nd', l'[n]? = some nd' ∧ nd'.name = nd.name ∧ nd'.parent = nd.parent ∧ nd'.level = nd.level ∧ (¬ W n → nd' = nd) := by
  intro n nd hn
  refine ⟨nd, ?_, rfl, rfl, rfl, fun _ => rfl⟩
  have hlt : n < l.length := (List.getElem?_eq_some_iff.mp hn).1
  rw [hl, List.getElem?_append_left hlt, hn]

theorem within_addChoice {h : Heap U F} (ok : HeapOK h) {i : Nat} (hi : i < h.nmodels) (name : Name) (scale : F) (W : Nat → Prop) :
    Within i W h (h.addChoice i name scale) := by
  have w1 := within_setModel (h := h) ok hi (fun m => { m with cached := none }) W rfl (List.Sublist.refl _) (by simp) rfl
  have ok1 := w1.ok ok hi
  obtain ⟨⟨l, h1, hp⟩, h2⟩ := addTop_nodes (h.tree i) name scale
  refine w1.trans (within_setTree ok1 hi _ W ?_ ?_ ?_)
  · intro e he
    rcases h2 e he with h3 | h3
    · refine lt_of_lt_of_le (ok.reg i hi e h3) ?_
      rw [h1]
      simp [Heap.tree]
    · exact h3
  · exact nodes_append h1
  · rw [h1]; exact ok.below.append hp (by simp)

theorem view_addChoice (h : Heap U F) (i : Nat) (name : Name) (scale : F) :
    (h.addChoice i name scale).view i = ((h.view i).addChoice name scale).1 := by
  unfold Heap.addChoice
  rw [view_setTree, view_setModel]
  rfl

theorem within_addNested {h : Heap U F} (ok : HeapOK h) {hd : Nat} (hh : hd < h.nodes.length) (name : Name) (scale : F) :
    Within (h.owner hd) (· = hd) h (h.addNested hd name scale) := by
  have hi := ok.own hd hh
  obtain ⟨⟨l, f, hf, h1, hp⟩, h2⟩ := addChild_nodes (h.tree (h.owner hd)) hd name scale
  refine within_setTree ok hi _ _ ?_ ?_ ?_
  · intro e he
    rcases h2 e he with h3 | h3
    · refine lt_of_lt_of_le (ok.reg _ hi e h3) ?_
      rw [h1]
      simp [Heap.tree]
    · exact h3
  · intro n nd hn
    have hlt : n < h.nodes.length := (List.getElem?_eq_some_iff.mp hn).1
    rw [h1, List.getElem?_modify, show (h.tree (h.owner hd)).nodes = h.nodes from rfl, List.getElem?_append_left hlt, hn]
    by_cases hc : hd = n
    · subst hc
      exact ⟨f nd, by simp, (hf nd).1, (hf nd).2.1, (hf nd).2.2, fun hw => absurd rfl hw⟩
    · exact ⟨nd, by simp [hc], rfl, rfl, rfl, fun _ => rfl⟩
  · rw [h1]
    refine ParentsBelow.modify ?_ hd fun nd => (hf nd).2.1
    exact ok.below.append hp fun p hq => by cases hq; exact hh

theorem view_addNested (h : Heap U F) (hd : Nat) (name : Name) (scale : F) :
    (h.addNested hd name scale).view (h.owner hd) = ((h.view (h.owner hd)).addNested hd name scale).1 := by
  unfold Heap.addNested
  rw [view_setTree]
  rfl

theorem setScale_ok {h : Heap U F} (ok : HeapOK h) (hd : Nat) (v : F) : HeapOK (h.setScale hd v) := by
  have hl : (h.setScale hd v).nodes.length = h.nodes.length := by
    simp only [Heap.setScale, Cheval.setScale]
    split <;> simp
  exact { ok with
    reg := fun i hi e he => by rw [hl]; exact ok.reg i hi e he
    own := fun n hn => ok.own n (by rw [hl] at hn; exact hn)
    below := by
      simp only [Heap.setScale, Cheval.setScale]
      split
      · exact ok.below.modify hd fun _ => rfl
      · exact ok.below }

theorem view_setScale (h : Heap U F) (hd : Nat) (v : F) (i : Nat) :
    (h.setScale hd v).view i = { h.view i with tree := (Cheval.setScale (h.view i).tree hd v).1 } := by
  simp only [Heap.setScale, Cheval.setScale, Heap.view, Heap.tree]
  split <;> rfl

theorem setScale_frame (h : Heap U F) (hd : Nat) (v : F) (j : Nat) (hj : hd ∉ (h.mdl j).all.map (·.2)) :
    ViewFrame (h.view j) ((h.setScale hd v).view j) := by
  rw [view_setScale]
  refine ⟨?_, rfl, rfl, rfl, rfl, rfl⟩
  simp only [Cheval.setScale]
  split
  · refine ⟨rfl, rfl, fun n nd hn => ?_⟩
    simp only [List.getElem?_modify, hn]
    by_cases hc : hd = n
    · subst hc
      exact ⟨{ nd with scale := v }, by simp, rfl, rfl, rfl, fun hm => absurd hm hj⟩
    · exact ⟨nd, by simp [hc], rfl, rfl, rfl, fun _ => rfl⟩
  · exact .refl _
end

/-! ## utilities -/

theorem within_store {h : Heap U F} (ok : HeapOK h) {i : Nat} (hi : i < h.nmodels) (t : Option (List U × Tab F)) (W : Nat → Prop) :
    Within i W h (h.store i t) := by
  unfold Heap.store
  have w := Within.refl i W ok hi
  split
  · exact within_setModel ok hi _ W rfl (List.Sublist.refl _) (by simp) rfl
  · rename_i t a hc
    exact { w with tab := fun b _ hb => put_ne _ _ (by rintro rfl; exact hb hc) }
  · rename_i t hc
    exact { w with
      next := Nat.le_succ _
      mdl := fun j hj => put_ne _ _ hj
      group := by simp [put_self]
      tab := fun b hb _ => put_ne _ _ (by omega)
      subs := fun a ha => .inl (by simpa [Heap.subs, put_self] using ha)
      subNd := by simpa [Heap.subs, put_self] using ok.subNd i hi
      syms := fun a ha => .inl (by simpa [Heap.syms, put_self] using ha)
      symNd := by simpa [Heap.syms, put_self] using ok.symNd i hi
      par := fun a ha => ok.par i hi a (by simpa [Heap.syms, put_self] using ha)
      tabs := fun a ha => .inr (by
        simp only [put_self, Option.some.injEq] at ha
        simp only
        omega)
      keys := by simpa [put_self] using ok.keys i hi
      reg := by simpa [put_self] using ok.reg i hi }

theorem view_store (h : Heap U F) (i : Nat) (t : Option (List U × Tab F)) : (h.store i t).view i = { h.view i with cached := t } := by
  unfold Heap.store
  split
  · rw [view_setModel]; rfl
  · rename_i t a hc
    simp [Heap.view, Heap.tree, Heap.group, hc, put_self]
  · rename_i t hc
    simp [Heap.view, Heap.tree, Heap.group, put_self]

section
variable [FOps F]

theorem view_evaluate (K : Kernel F) (h : Heap U F) (i : Nat) (c : Container) :
    (h.evaluate K i c).1.view i = ((h.view i).evaluate K c).1 := by
  obtain ⟨t, ht⟩ := evaluate_keeps K (h.view i) c
  unfold Heap.evaluate
  simp only
  rw [view_store, ht]

theorem within_evaluate (K : Kernel F) {h : Heap U F} (ok : HeapOK h) {i : Nat} (hi : i < h.nmodels) (c : Container) (W : Nat → Prop) :
    Within i W h (h.evaluate K i c).1 := within_store ok hi _ W

theorem within_run (K : Kernel F) {h : Heap U F} (ok : HeapOK h) {i : Nat} (hi : i < h.nmodels) (g : Option Nat) (clear : Bool)
    (W : Nat → Prop) : Within i W h (h.run K i g clear) := by
  unfold Heap.run
  split
  · exact .refl i W ok hi
  · exact .refl i W ok hi
  · rename_i c _ _
    have w := within_evaluate K ok hi c W
    split
    · rename_i h' e he
      rw [he] at w; exact w
    · rename_i h' u he
      rw [he] at w
      split
      · exact w.trans (within_clearScope (w.ok ok hi) (by rw [w.nm]; exact hi) W)
      · exact w

theorem view_run (K : Kernel F) (h : Heap U F) (i : Nat) (g : Option Nat) (clear : Bool) :
    (h.run K i g clear).view i = ((h.view i).runUtilities K g clear).1 := by
  unfold Heap.run CModel.runUtilities
  cases (h.view i).validate true true true true g with
  | error e => rfl
  | ok _ =>
    cases (h.view i).container g with
    | error e => rfl
    | ok c =>
      have h1 := view_evaluate K h i c
      have h2 : (h.evaluate K i c).2 = ((h.view i).evaluate K c).2 := rfl
      simp only
      rcases hE : h.evaluate K i c with ⟨h', r⟩
      rcases hM : (h.view i).evaluate K c with ⟨m', r'⟩
      rw [hE, hM] at h1 h2
      simp only at h1 h2
      subst h2
      cases r with
      | error e => exact h1
      | ok u =>
        simp only
        split
        · rw [view_clearScope, h1]
        · exact h1

theorem delRefs_names (f : Nat → Sym F) (l : List Str) : ∀ (scope : List (Str × Nat)),
    (delRefs scope l).2 = (delNames (scope.map fun e => (e.1, f e.2)) l).2 ∧
    (delRefs scope l).1.map (fun e => (e.1, f e.2)) = (delNames (scope.map fun e => (e.1, f e.2)) l).1 ∧
    List.Sublist (delRefs scope l).1 scope := by
  induction l with
  | nil => intro scope; exact ⟨rfl, rfl, List.Sublist.refl _⟩
  | cons x l ih =>
    intro scope
    unfold delRefs delNames
    have hm : x ∈ (scope.map fun e => (e.1, f e.2)).map (·.1) ↔ x ∈ scope.map (·.1) := by simp
    by_cases hx : x ∈ scope.map (·.1)
    · rw [if_pos hx, if_pos (hm.mpr hx), ← dictDel_mapv]
      obtain ⟨h1, h2, h3⟩ := ih (dictDel scope x)
      exact ⟨h1, h2, h3.trans List.filter_sublist⟩
    · rw [if_neg hx, if_neg (fun hc => hx (hm.mp hc))]
      exact ⟨rfl, rfl, List.Sublist.refl _⟩

theorem preval_spec (K : Kernel F) {h : Heap U F} (ok : HeapOK h) {i : Nat} (hi : i < h.nmodels) (k : Nat) (d c : Bool) (W : Nat → Prop) :
    Within i W h (h.preval K i k d c) ∧ (h.preval K i k d c).view i = ((h.view i).preval K k d c).1 := by
  unfold Heap.preval CModel.preval
  cases (h.view i).validate true true true true (some k) with
  | error e => exact ⟨.refl i W ok hi, rfl⟩
  | ok _ =>
    cases (h.view i).exprs.getGroup k with
    | error e => exact ⟨.refl i W ok hi, rfl⟩
    | ok sg =>
      have w := within_evaluate K ok hi ⟨sg.simple, sg.chained, sg.exprs⟩ W
      have h1 := view_evaluate K h i ⟨sg.simple, sg.chained, sg.exprs⟩
      have h2 : (h.evaluate K i ⟨sg.simple, sg.chained, sg.exprs⟩).2 = ((h.view i).evaluate K ⟨sg.simple, sg.chained, sg.exprs⟩).2 := rfl
      simp only
      rcases hE : h.evaluate K i ⟨sg.simple, sg.chained, sg.exprs⟩ with ⟨h', r⟩
      rcases hM : (h.view i).evaluate K ⟨sg.simple, sg.chained, sg.exprs⟩ with ⟨m', r'⟩
      rw [hE, hM] at h1 h2
      rw [hE] at w
      simp only at h1 h2 w
      subst h2
      cases r with
      | error e => exact ⟨w, h1⟩
      | ok u =>
        have ok1 := w.ok ok hi
        have hi1 : i < h'.nmodels := by rw [w.nm]; exact hi
        simp only
        set t := (h'.mdl i).units.map fun us => (us, u) with ht
        have ht' : t = m'.units.map fun us => (us, u) := by rw [← h1]; rfl
        have w2 := w.trans (within_store ok1 hi1 t W)
        have v2 : (h'.store i t).view i = { m' with cached := m'.units.map fun us => (us, u) } := by
          rw [view_store, h1, ht']
        generalize h'.store i t = h2 at w2 v2
        have ok2 := w2.ok ok hi
        have hi2 : i < h2.nmodels := by rw [w2.nm]; exact hi
        clear_value t
        clear ht ht'
        generalize hm2 : ({ m' with cached := m'.units.map fun us => (us, u) } : CModel U F) = m2 at v2
        have e1 : m'.exprs = m2.exprs := by rw [← hm2]
        have e2 : m'.scope = m2.scope := by rw [← hm2]
        rw [e1, e2]
        have key := delRefs_names h2.sym (toClear m2.exprs sg) (h2.mdl i).scope
        have hsc : (h2.mdl i).scope.map (fun e => (e.1, h2.sym e.2)) = m2.scope := by rw [← v2]; rfl
        rw [hsc] at key
        rw [v2]
        have key2 : ∃ sc r, (if c = true then delRefs (h2.mdl i).scope (toClear m2.exprs sg) else ((h2.mdl i).scope, .ok ())) = (sc, r) ∧
            List.Sublist sc (h2.mdl i).scope ∧
            (if c = true then delNames m2.scope (toClear m2.exprs sg) else (m2.scope, .ok ())) = (sc.map (fun e => (e.1, h2.sym e.2)), r) := by
          cases c with
          | true =>
            refine ⟨_, _, rfl, key.2.2, ?_⟩
            simp only [if_true]
            exact Prod.ext key.2.1.symm key.1.symm
          | false => exact ⟨_, _, rfl, List.Sublist.refl _, by simp [hsc]⟩
        obtain ⟨sc, r, k1, k2, k3⟩ := key2
        rw [k1, k3]
        simp only
        have w3 := w2.trans (within_setModel ok2 hi2 (fun m => { m with scope := sc }) W rfl k2 (fun _ ha => ha) rfl)
        have v3 : (h2.setModel i fun m => { m with scope := sc }).view i = { m2 with scope := sc.map (fun e => (e.1, h2.sym e.2)) } := by
          rw [view_setModel, ← v2]; rfl
        have hg : ((h2.setModel i fun m => { m with scope := sc }).mdl i).group = (h2.mdl i).group := by simp [Heap.setModel, put_self]
        generalize (h2.setModel i fun m => { m with scope := sc }) = h3 at w3 v3 hg
        have ok3 := w3.ok ok hi
        have hi3 : i < h3.nmodels := by rw [w3.nm]; exact hi
        cases r with
        | error e => exact ⟨w3, by rw [v3]; subst hm2; rfl⟩
        | ok _ =>
          simp only
          cases d with
          | false => exact ⟨w3, by simp only [Bool.false_eq_true, if_false]; rw [v3]; subst hm2; rfl⟩
          | true =>
            simp only [if_true]
            have e3 : m2.exprs = h3.group (h3.mdl i).group := by
              have := congrArg CModel.exprs v3
              exact this.symm
            refine ⟨w3.trans (within_dropGroup ok3 hi3 k W), ?_⟩
            rw [e3, ← group_dropGroup]
            have : h3.view i = { m2 with scope := sc.map (fun e => (e.1, h2.sym e.2)) } := v3
            simp only [Heap.view, Heap.tree, Heap.dropGroup] at this ⊢
            injection this with t1 t2 t3 t4 t5 t6
            have f1 : m2.tree = m'.tree := by rw [← hm2]
            have f2 : m2.units = m'.units := by rw [← hm2]
            have f3 : m2.cached = m'.units.map fun us => (us, u) := by rw [← hm2]
            have f4 : m2.precision = m'.precision := by rw [← hm2]
            rw [← f1, ← f4, ← f3, ← f2, ← t1, ← t4, ← t5, ← t6, ← t3]
end

section
variable {U F : Type} [FOps F]

theorem addChoicesLoop_heap (i : Nat) (W : Nat → Prop) : ∀ (l : List (Name × F)) {h : Heap U F} (_ : HeapOK h) (_ : i < h.nmodels)
    (_ : (h.mdl i).cached = none) (acc : List Nat),
    Within i W h (h.addChoicesLoop i l) ∧ (h.addChoicesLoop i l).view i = { h.view i with tree := (addChoicesLoop (h.tree i) l acc).1 }
  | [], h, ok, hi, _, acc => ⟨.refl _ _ ok hi, rfl⟩
  | (n, s) :: rest, h, ok, hi, hc, acc => by
    have w := within_addChoice ok hi n s W
    have v := view_addChoice h i n s
    have ht : (h.addChoice i n s).tree i = (addTop (h.tree i) n s).1 := by
      have := congrArg CModel.tree v
      exact this
    have hvc : (h.view i).cached = none := by simp [Heap.view, hc]
    have hv : ({ h.view i with cached := none } : CModel U F) = h.view i := by
      rw [← hvc]
    unfold Heap.addChoicesLoop Cheval.addChoicesLoop
    rcases hr : addTop (h.tree i) n s with ⟨t', r⟩
    have hv' : (h.addChoice i n s).view i = { h.view i with tree := t' } := by
      rw [v]
      simp only [CModel.addChoice]
      have : (h.view i).tree = h.tree i := rfl
      rw [this, hr]
      simp [hvc]
    cases r with
    | error e => exact ⟨w, hv'⟩
    | ok id =>
      simp only
      have hc' : ((h.addChoice i n s).mdl i).cached = none := by
        have := congrArg CModel.cached hv'
        simpa [Heap.view, hc] using this
      obtain ⟨w2, v2⟩ := addChoicesLoop_heap i W rest (w.ok ok hi) (by rw [w.nm]; exact hi) hc' (acc ++ [id])
      refine ⟨w.trans w2, ?_⟩
      rw [v2, hv', ht, hr]

theorem addChoices_heap {h : Heap U F} (ok : HeapOK h) {i : Nat} (hi : i < h.nmodels) (names : PyIter Name) (scales : Option (List F))
    (W : Nat → Prop) : Within i W h (h.addChoices i names scales) ∧
    (h.addChoices i names scales).view i = ((h.view i).addChoices names scales).1 := by
  have w1 := within_setModel (h := h) ok hi (fun m => { m with cached := none }) W rfl (List.Sublist.refl _) (by simp) rfl
  have hc : ((h.setModel i fun m => { m with cached := none }).mdl i).cached = none := by simp [Heap.setModel, put_self]
  have hv : (h.setModel i fun m => { m with cached := none }).view i = { h.view i with cached := none } := by
    rw [view_setModel]; rfl
  have key := fun l => addChoicesLoop_heap i W l (w1.ok ok hi) (by rw [w1.nm]; exact hi) hc []
  have ht : (h.setModel i fun m => { m with cached := none }).tree i = h.tree i := congrArg CModel.tree hv
  have hfin : ∀ l, ((h.setModel i fun m => { m with cached := none }).addChoicesLoop i l).view i =
      { h.view i with cached := none, tree := (addChoicesLoop (h.tree i) l []).1 } := fun l => by rw [(key l).2, hv, ht]
  unfold Heap.addChoices CModel.addChoices Cheval.addChoices
  cases names with
  | seq l =>
    cases scales with
    | none => exact ⟨w1.trans (key _).1, hfin _⟩
    | some s => exact ⟨w1.trans (key _).1, hfin _⟩
  | oneShot l =>
    cases scales with
    | none => exact ⟨w1, hv⟩
    | some s => exact ⟨w1.trans (key _).1, hfin _⟩

theorem setExpressions_heap (env : PyEnv) (py : PyParser) (i : Nat) (W : Nat → Prop) : ∀ (es : List Str) {h : Heap U F} (_ : HeapOK h)
    (_ : i < h.nmodels), Within i W h (h.setExpressions env py i es) ∧
    (h.setExpressions env py i es).view i = { h.view i with exprs := (appendAll env py (h.view i).exprs es).1 }
  | [], h, ok, hi => ⟨.refl _ _ ok hi, rfl⟩
  | e :: es, h, ok, hi => by
    have w := within_exprOp ok hi env py (.append e none) W
    have v := view_exprOp ok hi env py (.append e none)
    have hg : (h.view i).exprs = h.group (h.mdl i).group := rfl
    unfold Heap.setExpressions appendAll
    rw [hg] at v ⊢
    simp only [groupStep] at v ⊢
    rcases hr : (h.group (h.mdl i).group).append env py e none with ⟨g', r⟩
    rw [hr] at v
    cases r with
    | error er => exact ⟨w, v⟩
    | ok _ =>
      simp only
      obtain ⟨w2, v2⟩ := setExpressions_heap env py i W es (w.ok ok hi) (by rw [w.nm]; exact hi)
      refine ⟨w.trans w2, ?_⟩
      rw [v2, v]

theorem addPartial_heap [DecidableEq U] {h : Heap U F} (ok : HeapOK h) {i : Nat} (hi : i < h.nmodels) (K : Kernel F) (env : PyEnv)
    (py : PyParser) (tb : Table U (List Name) F) (rr rc : Bool) (out : CModel U F × Except Err Unit) (W : Nat → Prop) :
    Within i W h (h.addPartial i tb rr rc out) ∧
    (h.addPartial i tb rr rc out).view i = modelStep K env py (h.view i) (.addPartial tb rr rc out) := by
  simp only [Heap.addPartial, modelStep]
  split
  · rename_i hp
    refine ⟨within_store ok hi _ W, ?_⟩
    rw [view_store]
    obtain ⟨c, hc⟩ := addPartial_keeps hp
    rw [hc]
  · exact ⟨.refl _ _ ok hi, rfl⟩
end

end Cheval
