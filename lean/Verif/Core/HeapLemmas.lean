import Verif.Core.Heap

/-! # Separation of models on the heap -/
namespace Cheval
open FOps Spec
variable {U F : Type}

def Heap.subs (h : Heap U F) (i : Nat) : List Nat := (h.grp (h.mdl i).group).subgroups.map (·.2)
def Heap.syms (h : Heap U F) (i : Nat) : List Nat := (h.mdl i).scope.map (·.2)

theorem put_self {α : Type} (f : Nat → α) (a : Nat) (x : α) : put f a x a = x := by simp [put]
theorem put_ne {α : Type} (f : Nat → α) {a b : Nat} (x : α) (h : b ≠ a) : put f a x b = f b := by simp [put, h]

/-- parents are created before their children -/
def ParentsBelow (nodes : List (Node F)) : Prop :=
  ∀ (n : Nat) (nd : Node F) (p : Nat), nodes[n]? = some nd → nd.parent = some p → p < n

/-- no two models share a group, sub-group, symbol or utility table; symbols know their model; the registered nodes exist -/
structure HeapOK (h : Heap U F) : Prop where
  grpLt : ∀ i < h.nmodels, (h.mdl i).group < h.next
  grpNe : ∀ i < h.nmodels, ∀ j < h.nmodels, i ≠ j → (h.mdl i).group ≠ (h.mdl j).group
  subLt : ∀ i < h.nmodels, ∀ a ∈ h.subs i, a < h.next
  subNd : ∀ i < h.nmodels, (h.subs i).Nodup
  subNe : ∀ i < h.nmodels, ∀ j < h.nmodels, i ≠ j → ∀ a ∈ h.subs i, a ∉ h.subs j
  symLt : ∀ i < h.nmodels, ∀ a ∈ h.syms i, a < h.next
  symNd : ∀ i < h.nmodels, (h.syms i).Nodup
  symNe : ∀ i < h.nmodels, ∀ j < h.nmodels, i ≠ j → ∀ a ∈ h.syms i, a ∉ h.syms j
  tabLt : ∀ i < h.nmodels, ∀ a, (h.mdl i).cached = some a → a < h.next
  tabNe : ∀ i < h.nmodels, ∀ j < h.nmodels, i ≠ j → ∀ a, (h.mdl i).cached = some a → (h.mdl j).cached ≠ some a
  par : ∀ i < h.nmodels, ∀ a ∈ h.syms i, h.parent a = i
  keys : ∀ i < h.nmodels, ((h.mdl i).scope.map (·.1)).Nodup ∧ ((h.grp (h.mdl i).group).subgroups.map (·.1)).Nodup
  reg : ∀ i < h.nmodels, ∀ e ∈ (h.mdl i).all, e.2 < h.nodes.length
  own : ∀ n < h.nodes.length, h.owner n < h.nmodels
  below : ParentsBelow h.nodes

/-- a step that only writes to model `i`, to the cells it refers to, and to new cells; of the existing nodes it changes at most
the children and the scale of the nodes in `W` -/
structure Within (i : Nat) (W : Nat → Prop) (h h' : Heap U F) : Prop where
  nm : h'.nmodels = h.nmodels
  next : h.next ≤ h'.next
  mdl : ∀ j, j ≠ i → h'.mdl j = h.mdl j
  group : (h'.mdl i).group = (h.mdl i).group
  grp : ∀ a, a ≠ (h.mdl i).group → h'.grp a = h.grp a
  sub : ∀ a < h.next, a ∉ h.subs i → h'.sub a = h.sub a
  sym : ∀ a < h.next, a ∉ h.syms i → h'.sym a = h.sym a ∧ h'.parent a = h.parent a
  tab : ∀ a < h.next, (h.mdl i).cached ≠ some a → h'.tab a = h.tab a
  subs : ∀ a ∈ h'.subs i, a ∈ h.subs i ∨ (h.next ≤ a ∧ a < h'.next)
  subNd : (h'.subs i).Nodup
  syms : ∀ a ∈ h'.syms i, a ∈ h.syms i ∨ (h.next ≤ a ∧ a < h'.next)
  symNd : (h'.syms i).Nodup
  par : ∀ a ∈ h'.syms i, h'.parent a = i
  tabs : ∀ a, (h'.mdl i).cached = some a → (h.mdl i).cached = some a ∨ (h.next ≤ a ∧ a < h'.next)
  keys : ((h'.mdl i).scope.map (·.1)).Nodup ∧ ((h'.grp (h'.mdl i).group).subgroups.map (·.1)).Nodup
  reg : ∀ e ∈ (h'.mdl i).all, e.2 < h'.nodes.length
  own : ∀ n < h'.nodes.length, h'.owner n < h'.nmodels
  below : ParentsBelow h'.nodes
  nodes : ∀ n nd, h.nodes[n]? = some nd → ∃ nd', h'.nodes[n]? = some nd' ∧ nd'.name = nd.name ∧ nd'.parent = nd.parent ∧
    nd'.level = nd.level ∧ (¬ W n → nd' = nd)

theorem Within.len {i : Nat} {W : Nat → Prop} {h h' : Heap U F} (w : Within i W h h') : h.nodes.length ≤ h'.nodes.length := by
  by_contra hc
  push Not at hc
  obtain ⟨_, h1, _⟩ := w.nodes h'.nodes.length _ (List.getElem?_eq_getElem hc)
  rw [List.getElem?_eq_none (le_refl _)] at h1
  cases h1

theorem Within.subsOther {i j : Nat} {W : Nat → Prop} {h h' : Heap U F} (ok : HeapOK h) (w : Within i W h h')
    (hi : i < h.nmodels) (hj : j < h.nmodels) (hne : j ≠ i) : h'.subs j = h.subs j := by
  unfold Heap.subs
  rw [w.mdl j hne, w.grp _ (ok.grpNe j hj i hi hne)]

theorem Within.symsOther {i j : Nat} {W : Nat → Prop} {h h' : Heap U F} (w : Within i W h h') (hne : j ≠ i) : h'.syms j = h.syms j := by
  unfold Heap.syms
  rw [w.mdl j hne]

theorem Within.ok {i : Nat} {W : Nat → Prop} {h h' : Heap U F} (ok : HeapOK h) (hi : i < h.nmodels) (w : Within i W h h') :
    HeapOK h' := by
  have hn := w.next
  have old : ∀ {P : Nat → Prop} {a : Nat}, P a → (∀ a, P a → a < h.next) → ¬ (h.next ≤ a ∧ a < h'.next) := fun hp hl hc => by
    have := hl _ hp
    omega
  constructor
  · intro j hj
    rw [w.nm] at hj
    by_cases hji : j = i
    · subst hji; rw [w.group]; exact lt_of_lt_of_le (ok.grpLt j hj) hn
    · rw [w.mdl j hji]; exact lt_of_lt_of_le (ok.grpLt j hj) hn
  · intro j hj k hk hjk
    rw [w.nm] at hj hk
    have hg : ∀ l, (h'.mdl l).group = (h.mdl l).group := fun l => by
      by_cases hl : l = i
      · subst hl; exact w.group
      · rw [w.mdl l hl]
    rw [hg, hg]
    exact ok.grpNe j hj k hk hjk
  · intro j hj a ha
    rw [w.nm] at hj
    by_cases hji : j = i
    · subst hji
      rcases w.subs a ha with h1 | h1
      · exact lt_of_lt_of_le (ok.subLt j hj a h1) hn
      · exact h1.2
    · rw [w.subsOther ok hi hj hji] at ha
      exact lt_of_lt_of_le (ok.subLt j hj a ha) hn
  · intro j hj
    rw [w.nm] at hj
    by_cases hji : j = i
    · subst hji; exact w.subNd
    · rw [w.subsOther ok hi hj hji]; exact ok.subNd j hj
  · intro j hj k hk hjk a ha ha'
    rw [w.nm] at hj hk
    by_cases hji : j = i
    · subst hji
      rw [w.subsOther ok hi hk (Ne.symm hjk)] at ha'
      rcases w.subs a ha with h1 | h1
      · exact ok.subNe j hj k hk hjk a h1 ha'
      · have := ok.subLt k hk a ha'; omega
    · rw [w.subsOther ok hi hj hji] at ha
      by_cases hki : k = i
      · subst hki
        rcases w.subs a ha' with h1 | h1
        · exact ok.subNe j hj k hk hjk a ha h1
        · have := ok.subLt j hj a ha; omega
      · rw [w.subsOther ok hi hk hki] at ha'
        exact ok.subNe j hj k hk hjk a ha ha'
  · intro j hj a ha
    rw [w.nm] at hj
    by_cases hji : j = i
    · subst hji
      rcases w.syms a ha with h1 | h1
      · exact lt_of_lt_of_le (ok.symLt j hj a h1) hn
      · exact h1.2
    · rw [w.symsOther hji] at ha
      exact lt_of_lt_of_le (ok.symLt j hj a ha) hn
  · intro j hj
    rw [w.nm] at hj
    by_cases hji : j = i
    · subst hji; exact w.symNd
    · rw [w.symsOther hji]; exact ok.symNd j hj
  · intro j hj k hk hjk a ha ha'
    rw [w.nm] at hj hk
    by_cases hji : j = i
    · subst hji
      rw [w.symsOther (Ne.symm hjk)] at ha'
      rcases w.syms a ha with h1 | h1
      · exact ok.symNe j hj k hk hjk a h1 ha'
      · have := ok.symLt k hk a ha'; omega
    · rw [w.symsOther hji] at ha
      by_cases hki : k = i
      · subst hki
        rcases w.syms a ha' with h1 | h1
        · exact ok.symNe j hj k hk hjk a ha h1
        · have := ok.symLt j hj a ha; omega
      · rw [w.symsOther hki] at ha'
        exact ok.symNe j hj k hk hjk a ha ha'
  · intro j hj a ha
    rw [w.nm] at hj
    by_cases hji : j = i
    · subst hji
      rcases w.tabs a ha with h1 | h1
      · exact lt_of_lt_of_le (ok.tabLt j hj a h1) hn
      · exact h1.2
    · rw [w.mdl j hji] at ha
      exact lt_of_lt_of_le (ok.tabLt j hj a ha) hn
  · intro j hj k hk hjk a ha ha'
    rw [w.nm] at hj hk
    by_cases hji : j = i
    · subst hji
      rw [w.mdl k (Ne.symm hjk)] at ha'
      rcases w.tabs a ha with h1 | h1
      · exact ok.tabNe j hj k hk hjk a h1 ha'
      · have := ok.tabLt k hk a ha'; omega
    · rw [w.mdl j hji] at ha
      by_cases hki : k = i
      · subst hki
        rcases w.tabs a ha' with h1 | h1
        · exact ok.tabNe j hj k hk hjk a ha h1
        · have := ok.tabLt j hj a ha; omega
      · rw [w.mdl k hki] at ha'
        exact ok.tabNe j hj k hk hjk a ha ha'
  · intro j hj a ha
    rw [w.nm] at hj
    by_cases hji : j = i
    · subst hji; exact w.par a ha
    · rw [w.symsOther hji] at ha
      rw [(w.sym a (ok.symLt j hj a ha) (fun hc => ok.symNe j hj i hi hji a ha hc)).2]
      exact ok.par j hj a ha
  · intro j hj
    rw [w.nm] at hj
    by_cases hji : j = i
    · subst hji; exact w.keys
    · rw [w.mdl j hji, w.grp _ (ok.grpNe j hj i hi hji)]; exact ok.keys j hj
  · intro j hj e he
    rw [w.nm] at hj
    by_cases hji : j = i
    · subst hji; exact w.reg e he
    · rw [w.mdl j hji] at he
      exact lt_of_lt_of_le (ok.reg j hj e he) w.len
  · exact w.own
  · exact w.below

/-- two views of a tree that differ only in nodes, children and scales the model does not see -/
structure TreeFrame (t t' : TreeSt F) : Prop where
  all : t'.all = t.all
  top : t'.top = t.top
  old : ∀ i nd, t.nodes[i]? = some nd → ∃ nd', t'.nodes[i]? = some nd' ∧ nd'.name = nd.name ∧ nd'.parent = nd.parent ∧
    nd'.level = nd.level ∧ (i ∈ t.all.map (·.2) → nd' = nd)

theorem TreeFrame.refl (t : TreeSt F) : TreeFrame t t := ⟨rfl, rfl, fun _ nd h => ⟨nd, h, rfl, rfl, rfl, fun _ => rfl⟩⟩

theorem TreeFrame.trans {t t' t'' : TreeSt F} (h : TreeFrame t t') (h' : TreeFrame t' t'') : TreeFrame t t'' := by
  refine ⟨h'.all.trans h.all, h'.top.trans h.top, fun i nd hi => ?_⟩
  obtain ⟨nd1, h1, h2, h3, h4, h5⟩ := h.old i nd hi
  obtain ⟨nd2, k1, k2, k3, k4, k5⟩ := h'.old i nd1 h1
  refine ⟨nd2, k1, k2.trans h2, k3.trans h3, k4.trans h4, fun hm => ?_⟩
  rw [k5 (by rw [h.all]; exact hm), h5 hm]

/-- same model, apart from nodes it does not see -/
structure ViewFrame (m m' : CModel U F) : Prop where
  tree : TreeFrame m.tree m'.tree
  exprs : m'.exprs = m.exprs
  scope : m'.scope = m.scope
  units : m'.units = m.units
  cached : m'.cached = m.cached
  precision : m'.precision = m.precision

theorem ViewFrame.refl (m : CModel U F) : ViewFrame m m := ⟨.refl _, rfl, rfl, rfl, rfl, rfl⟩
theorem ViewFrame.trans {m m' m'' : CModel U F} (h : ViewFrame m m') (h' : ViewFrame m' m'') : ViewFrame m m'' :=
  ⟨h.tree.trans h'.tree, h'.exprs.trans h.exprs, h'.scope.trans h.scope, h'.units.trans h.units, h'.cached.trans h.cached,
   h'.precision.trans h.precision⟩

/-- a step on model `i` does not change what another model sees -/
theorem Within.frame {i j : Nat} {W : Nat → Prop} {h h' : Heap U F} (ok : HeapOK h) (hi : i < h.nmodels) (hj : j < h.nmodels)
    (hne : j ≠ i) (w : Within i W h h') (hW : ∀ e ∈ (h.mdl j).all, ¬ W e.2) : ViewFrame (h.view j) (h'.view j) := by
  have hm := w.mdl j hne
  refine ⟨⟨?_, ?_, ?_⟩, ?_, ?_, ?_, ?_, ?_⟩
  · simp [Heap.view, Heap.tree, hm]
  · simp [Heap.view, Heap.tree, hm]
  · intro n nd hn
    obtain ⟨nd', h1, h2, h3, h4, h5⟩ := w.nodes n nd hn
    refine ⟨nd', h1, h2, h3, h4, fun hin => h5 ?_⟩
    obtain ⟨e, he, rfl⟩ := List.mem_map.mp hin
    exact hW e he
  · simp only [Heap.view, Heap.group, hm, w.grp _ (ok.grpNe j hj i hi hne)]
    congr 1
    apply List.map_congr_left
    intro e he
    have : e.2 ∈ h.subs j := List.mem_map_of_mem (f := (·.2)) he
    rw [w.sub e.2 (ok.subLt j hj _ this) (fun hc => ok.subNe j hj i hi hne _ this hc)]
  · simp only [Heap.view, hm]
    apply List.map_congr_left
    intro e he
    have : e.2 ∈ h.syms j := List.mem_map_of_mem (f := (·.2)) he
    rw [(w.sym e.2 (ok.symLt j hj _ this) (fun hc => ok.symNe j hj i hi hne _ this hc)).1]
  · simp [Heap.view, hm]
  · simp only [Heap.view, hm]
    cases hc : (h.mdl j).cached with
    | none => rfl
    | some a => simp only [Option.map_some]; rw [w.tab a (ok.tabLt j hj a hc) (ok.tabNe j hj i hi hne a hc)]
  · simp [Heap.view, hm]

/-! ## each call stays within its model, and does there what the one-model semantics says -/

/-- a step that keeps nodes and references of model `i` -/
theorem Within.refl (i : Nat) (W : Nat → Prop) {h : Heap U F} (ok : HeapOK h) (hi : i < h.nmodels) : Within i W h h where
  nm := rfl
  next := le_refl _
  mdl := fun _ _ => rfl
  group := rfl
  grp := fun _ _ => rfl
  sub := fun _ _ _ => rfl
  sym := fun _ _ _ => ⟨rfl, rfl⟩
  tab := fun _ _ _ => rfl
  subs := fun _ ha => .inl ha
  subNd := ok.subNd i hi
  syms := fun _ ha => .inl ha
  symNd := ok.symNd i hi
  par := ok.par i hi
  tabs := fun _ ha => .inl ha
  keys := ok.keys i hi
  reg := ok.reg i hi
  own := ok.own
  below := ok.below
  nodes := fun _ nd hn => ⟨nd, hn, rfl, rfl, rfl, fun _ => rfl⟩

theorem Within.trans {i : Nat} {W : Nat → Prop} {h h' h'' : Heap U F} (w : Within i W h h') (w' : Within i W h' h'') : Within i W h h'' where
  nm := w'.nm.trans w.nm
  next := le_trans w.next w'.next
  mdl := fun j hj => (w'.mdl j hj).trans (w.mdl j hj)
  group := w'.group.trans w.group
  grp := fun a ha => (w'.grp a (by rw [w.group]; exact ha)).trans (w.grp a ha)
  sub := fun a ha hn => (w'.sub a (lt_of_lt_of_le ha w.next) (fun hc => by
    rcases w.subs a hc with h1 | h1
    · exact hn h1
    · omega)).trans (w.sub a ha hn)
  sym := fun a ha hn => by
    have h1 := w'.sym a (lt_of_lt_of_le ha w.next) (fun hc => by
      rcases w.syms a hc with h1 | h1
      · exact hn h1
      · omega)
    have h2 := w.sym a ha hn
    exact ⟨h1.1.trans h2.1, h1.2.trans h2.2⟩
  tab := fun a ha hn => (w'.tab a (lt_of_lt_of_le ha w.next) (fun hc => by
    rcases w.tabs a hc with h1 | h1
    · exact hn h1
    · omega)).trans (w.tab a ha hn)
  subs := fun a ha => by
    have := w.next
    have := w'.next
    rcases w'.subs a ha with h1 | h1
    · rcases w.subs a h1 with h2 | h2
      · exact .inl h2
      · exact .inr (by omega)
    · exact .inr (by omega)
  subNd := w'.subNd
  syms := fun a ha => by
    have := w.next
    have := w'.next
    rcases w'.syms a ha with h1 | h1
    · rcases w.syms a h1 with h2 | h2
      · exact .inl h2
      · exact .inr (by omega)
    · exact .inr (by omega)
  symNd := w'.symNd
  par := w'.par
  tabs := fun a ha => by
    have := w.next
    have := w'.next
    rcases w'.tabs a ha with h1 | h1
    · rcases w.tabs a h1 with h2 | h2
      · exact .inl h2
      · exact .inr (by omega)
    · exact .inr (by omega)
  keys := w'.keys
  reg := w'.reg
  own := w'.own
  below := w'.below
  nodes := fun n nd hn => by
    obtain ⟨nd1, h1, h2, h3, h4, h5⟩ := w.nodes n nd hn
    obtain ⟨nd2, k1, k2, k3, k4, k5⟩ := w'.nodes n nd1 h1
    exact ⟨nd2, k1, k2.trans h2, k3.trans h3, k4.trans h4, fun hw => (k5 hw).trans (h5 hw)⟩

end Cheval
