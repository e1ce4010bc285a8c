import Verif.Core.HeapSteps

/-! # New models on the heap -/
namespace Cheval
open FOps Spec
variable {U F : Type}

theorem newSyms_spec (p : Nat) : ∀ (l : List (Str × Sym F)) (h : Heap U F),
    ∃ sym' par', (h.newSyms p l).1 = { h with next := h.next + l.length, sym := sym', parent := par' } ∧
      (∀ a < h.next, sym' a = h.sym a ∧ par' a = h.parent a) ∧
      (h.newSyms p l).2.map (·.1) = l.map (·.1) ∧
      (h.newSyms p l).2.map (·.2) = List.range' h.next l.length ∧
      (h.newSyms p l).2.map (fun e => (e.1, sym' e.2)) = l ∧
      (∀ a ∈ List.range' h.next l.length, par' a = p)
  | [], h => ⟨h.sym, h.parent, by simp [Heap.newSyms], fun _ _ => ⟨rfl, rfl⟩, rfl, rfl, rfl, by simp⟩
  | (n, s) :: l, h => by
    obtain ⟨sym', par', h1, h2, h3, h4, h5, h6⟩ := newSyms_spec p l
      { h with next := h.next + 1, sym := put h.sym h.next s, parent := put h.parent h.next p }
    have hself := h2 h.next (Nat.lt_succ_self _)
    simp only [put_self] at hself
    refine ⟨sym', par', ?_, ?_, ?_, ?_, ?_, ?_⟩
    · simp only [Heap.newSyms, h1, List.length_cons]
      congr 1
      try simp only
      omega
    · intro a ha
      have h7 := h2 a (by simp only; omega)
      simp only at h7
      rw [h7.1, h7.2, put_ne _ _ (by omega), put_ne _ _ (by omega)]
      exact ⟨rfl, rfl⟩
    · simp only [Heap.newSyms, List.map_cons, h3]
    · simp only [Heap.newSyms, List.map_cons, h4, List.length_cons, List.range'_succ]
    · simp only [Heap.newSyms, List.map_cons, h5, hself.1]
    · intro a ha
      rw [List.length_cons, List.range'_succ, List.mem_cons] at ha
      rcases ha with rfl | ha
      · exact hself.2
      · exact h6 a ha

theorem newSubs_spec : ∀ (l : List (Nat × SubGroup)) (h : Heap U F),
    ∃ sub', (h.newSubs l).1 = { h with next := h.next + l.length, sub := sub' } ∧
      (∀ a < h.next, sub' a = h.sub a) ∧
      (h.newSubs l).2.map (·.1) = l.map (·.1) ∧
      (h.newSubs l).2.map (·.2) = List.range' h.next l.length ∧
      (h.newSubs l).2.map (fun e => (e.1, sub' e.2)) = l
  | [], h => ⟨h.sub, by simp [Heap.newSubs], fun _ _ => rfl, rfl, rfl, rfl⟩
  | (k, s) :: l, h => by
    obtain ⟨sub', h1, h2, h3, h4, h5⟩ := newSubs_spec l { h with next := h.next + 1, sub := put h.sub h.next s }
    have hself := h2 h.next (Nat.lt_succ_self _)
    simp only [put_self] at hself
    refine ⟨sub', ?_, ?_, ?_, ?_, ?_⟩
    · simp only [Heap.newSubs, h1, List.length_cons]
      congr 1
      try simp only
      omega
    · intro a ha
      have h7 := h2 a (by simp only; omega)
      simp only at h7
      rw [h7, put_ne _ _ (by omega)]
    · simp only [Heap.newSubs, List.map_cons, h3]
    · simp only [Heap.newSubs, List.map_cons, h4, List.length_cons, List.range'_succ]
    · simp only [Heap.newSubs, List.map_cons, h5, hself]

/-- what a new model object looks like, and what it leaves alone -/
structure Fresh (h h' : Heap U F) (m : CModel U F) : Prop where
  nm : h'.nmodels = h.nmodels + 1
  next : h.next ≤ h'.next
  nodes : h'.nodes = h.nodes
  owner : h'.owner = h.owner
  mdl : ∀ j, j ≠ h.nmodels → h'.mdl j = h.mdl j
  cells : ∀ a < h.next, h'.grp a = h.grp a ∧ h'.sub a = h.sub a ∧ h'.sym a = h.sym a ∧ h'.parent a = h.parent a ∧ h'.tab a = h.tab a
  group : h.next ≤ (h'.mdl h.nmodels).group ∧ (h'.mdl h.nmodels).group < h'.next
  subs : ∀ a ∈ h'.subs h.nmodels, h.next ≤ a ∧ a < h'.next
  subNd : (h'.subs h.nmodels).Nodup
  syms : ∀ a ∈ h'.syms h.nmodels, h.next ≤ a ∧ a < h'.next
  symNd : (h'.syms h.nmodels).Nodup
  par : ∀ a ∈ h'.syms h.nmodels, h'.parent a = h.nmodels
  tabs : ∀ a, (h'.mdl h.nmodels).cached = some a → h.next ≤ a ∧ a < h'.next
  keyS : (h'.mdl h.nmodels).scope.map (·.1) = m.scope.map (·.1)
  keyG : (h'.grp (h'.mdl h.nmodels).group).subgroups.map (·.1) = m.exprs.subgroups.map (·.1)
  all : (h'.mdl h.nmodels).all = m.tree.all
  view : h'.view h.nmodels = { m with tree := ⟨h.nodes, m.tree.all, m.tree.top⟩ }

theorem newModel_fresh (h : Heap U F) (m : CModel U F) : Fresh h (h.newModel m) m := by
  obtain ⟨sym', par', h1, h2, h3, h4, h5, h6⟩ := newSyms_spec h.nmodels m.scope h
  obtain ⟨sub', k1, k2, k3, k4, k5⟩ := newSubs_spec m.exprs.subgroups (h.newSyms h.nmodels m.scope).1
  have hn1 : (h.newSyms h.nmodels m.scope).1.next = h.next + m.scope.length := by rw [h1]
  rw [hn1] at k4
  have hsub : (h.newSyms h.nmodels m.scope).1.sub = h.sub := by rw [h1]
  rw [hn1, hsub] at k2
  unfold Heap.newModel Heap.newGroup
  generalize hS : h.newSyms h.nmodels m.scope = S at *
  obtain ⟨S1, S2⟩ := S
  simp only at h1 h3 h4 h5 k1 k3 k4 k5 ⊢
  generalize hG : S1.newSubs m.exprs.subgroups = G at *
  obtain ⟨G1, G2⟩ := G
  simp only at k1 k3 k4 k5 ⊢
  subst h1
  simp only at k1
  subst k1
  have memS : ∀ a, a ∈ S2.map (·.2) → h.next ≤ a ∧ a < h.next + m.scope.length := by
    intro a ha
    rw [h4, List.mem_range'_1] at ha
    exact ha
  have memG : ∀ a, a ∈ G2.map (·.2) → h.next + m.scope.length ≤ a ∧ a < h.next + m.scope.length + m.exprs.subgroups.length := by
    intro a ha
    rw [k4, List.mem_range'_1] at ha
    exact ha
  have ndS : (S2.map (·.2)).Nodup := by rw [h4]; exact List.nodup_range'
  have ndG : (G2.map (·.2)).Nodup := by rw [k4]; exact List.nodup_range'
  cases hc : m.cached with
  | none =>
    simp only
    constructor
    · rfl
    · simp only; omega
    · rfl
    · rfl
    · intro j hj; exact put_ne _ _ hj
    · intro a ha
      exact ⟨put_ne _ _ (by omega), k2 a (by omega), (h2 a ha).1, (h2 a ha).2, rfl⟩
    · simp only [put_self]; omega
    · intro a ha
      simp only [Heap.subs, put_self] at ha
      have := memG a ha
      simp only; omega
    · simpa only [Heap.subs, put_self] using ndG
    · intro a ha
      simp only [Heap.syms, put_self] at ha
      have := memS a ha
      simp only; omega
    · simpa only [Heap.syms, put_self] using ndS
    · intro a ha
      simp only [Heap.syms, put_self] at ha
      rw [h4] at ha
      exact h6 a ha
    · intro a ha
      simp only [put_self] at ha
      cases ha
    · simpa only [put_self] using h3
    · simpa only [put_self] using k3
    · simp only [put_self]
    · simp only [Heap.view, Heap.tree, Heap.group, put_self, h5, k5, hc, Option.map_none]
  | some t =>
    simp only
    constructor
    · rfl
    · simp only; omega
    · rfl
    · rfl
    · intro j hj; exact put_ne _ _ hj
    · intro a ha
      exact ⟨put_ne _ _ (by omega), k2 a (by omega), (h2 a ha).1, (h2 a ha).2, put_ne _ _ (by omega)⟩
    · simp only [put_self]; omega
    · intro a ha
      simp only [Heap.subs, put_self] at ha
      have := memG a ha
      simp only; omega
    · simpa only [Heap.subs, put_self] using ndG
    · intro a ha
      simp only [Heap.syms, put_self] at ha
      have := memS a ha
      simp only; omega
    · simpa only [Heap.syms, put_self] using ndS
    · intro a ha
      simp only [Heap.syms, put_self] at ha
      rw [h4] at ha
      exact h6 a ha
    · intro a ha
      simp only [put_self, Option.some.injEq] at ha
      simp only
      omega
    · simpa only [put_self] using h3
    · simpa only [put_self] using k3
    · simp only [put_self]
    · simp only [Heap.view, Heap.tree, Heap.group, put_self, h5, k5, hc, Option.map_some]

theorem Fresh.old {h h' : Heap U F} {m : CModel U F} (f : Fresh h h' m) (ok : HeapOK h) {j : Nat} (hj : j < h.nmodels) :
    h'.mdl j = h.mdl j ∧ h'.subs j = h.subs j ∧ h'.syms j = h.syms j ∧ h'.view j = h.view j := by
  have hm := f.mdl j (by omega)
  have hg := (f.cells _ (ok.grpLt j hj)).1
  refine ⟨hm, ?_, ?_, ?_⟩
  · simp [Heap.subs, hm, hg]
  · simp [Heap.syms, hm]
  · simp only [Heap.view, Heap.tree, Heap.group, hm, hg, f.nodes]
    congr 1
    · congr 1
      apply List.map_congr_left
      intro e he
      rw [(f.cells e.2 (ok.subLt j hj _ (List.mem_map_of_mem (f := (·.2)) he))).2.1]
    · apply List.map_congr_left
      intro e he
      rw [(f.cells e.2 (ok.symLt j hj _ (List.mem_map_of_mem (f := (·.2)) he))).2.2.1]
    · cases hc : (h.mdl j).cached with
      | none => rfl
      | some a => simp only [Option.map_some]; rw [(f.cells a (ok.tabLt j hj a hc)).2.2.2.2]

theorem Fresh.ok {h h' : Heap U F} {m : CModel U F} (f : Fresh h h' m) (ok : HeapOK h) (hS : (m.scope.map (·.1)).Nodup)
    (hG : (m.exprs.subgroups.map (·.1)).Nodup) (hA : ∀ e ∈ m.tree.all, e.2 < h.nodes.length) : HeapOK h' := by
  have hn := f.next
  have split : ∀ {j}, j < h'.nmodels → j < h.nmodels ∨ j = h.nmodels := fun {j} hj => by rw [f.nm] at hj; omega
  constructor
  · intro j hj
    rcases split hj with h1 | rfl
    · rw [(f.old ok h1).1]; exact lt_of_lt_of_le (ok.grpLt j h1) hn
    · exact f.group.2
  · intro j hj k hk hjk
    rcases split hj with h1 | rfl <;> rcases split hk with h2 | rfl
    · rw [(f.old ok h1).1, (f.old ok h2).1]; exact ok.grpNe j h1 k h2 hjk
    · rw [(f.old ok h1).1]
      have := ok.grpLt j h1
      have := f.group.1
      omega
    · rw [(f.old ok h2).1]
      have := ok.grpLt k h2
      have := f.group.1
      omega
    · exact absurd rfl hjk
  · intro j hj a ha
    rcases split hj with h1 | rfl
    · rw [(f.old ok h1).2.1] at ha; exact lt_of_lt_of_le (ok.subLt j h1 a ha) hn
    · exact (f.subs a ha).2
  · intro j hj
    rcases split hj with h1 | rfl
    · rw [(f.old ok h1).2.1]; exact ok.subNd j h1
    · exact f.subNd
  · intro j hj k hk hjk a ha hb
    rcases split hj with h1 | rfl <;> rcases split hk with h2 | rfl
    · rw [(f.old ok h1).2.1] at ha; rw [(f.old ok h2).2.1] at hb; exact ok.subNe j h1 k h2 hjk a ha hb
    · rw [(f.old ok h1).2.1] at ha
      have := ok.subLt j h1 a ha
      have := (f.subs a hb).1
      omega
    · rw [(f.old ok h2).2.1] at hb
      have := ok.subLt k h2 a hb
      have := (f.subs a ha).1
      omega
    · exact absurd rfl hjk
  · intro j hj a ha
    rcases split hj with h1 | rfl
    · rw [(f.old ok h1).2.2.1] at ha; exact lt_of_lt_of_le (ok.symLt j h1 a ha) hn
    · exact (f.syms a ha).2
  · intro j hj
    rcases split hj with h1 | rfl
    · rw [(f.old ok h1).2.2.1]; exact ok.symNd j h1
    · exact f.symNd
  · intro j hj k hk hjk a ha hb
    rcases split hj with h1 | rfl <;> rcases split hk with h2 | rfl
    · rw [(f.old ok h1).2.2.1] at ha; rw [(f.old ok h2).2.2.1] at hb; exact ok.symNe j h1 k h2 hjk a ha hb
    · rw [(f.old ok h1).2.2.1] at ha
      have := ok.symLt j h1 a ha
      have := (f.syms a hb).1
      omega
    · rw [(f.old ok h2).2.2.1] at hb
      have := ok.symLt k h2 a hb
      have := (f.syms a ha).1
      omega
    · exact absurd rfl hjk
  · intro j hj a ha
    rcases split hj with h1 | rfl
    · rw [(f.old ok h1).1] at ha; exact lt_of_lt_of_le (ok.tabLt j h1 a ha) hn
    · exact (f.tabs a ha).2
  · intro j hj k hk hjk a ha hb
    rcases split hj with h1 | rfl <;> rcases split hk with h2 | rfl
    · rw [(f.old ok h1).1] at ha; rw [(f.old ok h2).1] at hb; exact ok.tabNe j h1 k h2 hjk a ha hb
    · rw [(f.old ok h1).1] at ha
      have := ok.tabLt j h1 a ha
      have := (f.tabs a hb).1
      omega
    · rw [(f.old ok h2).1] at hb
      have := ok.tabLt k h2 a hb
      have := (f.tabs a ha).1
      omega
    · exact absurd rfl hjk
  · intro j hj a ha
    rcases split hj with h1 | rfl
    · rw [(f.old ok h1).2.2.1] at ha
      rw [(f.cells a (ok.symLt j h1 a ha)).2.2.2.1]
      exact ok.par j h1 a ha
    · exact f.par a ha
  · intro j hj
    rcases split hj with h1 | rfl
    · rw [(f.old ok h1).1, (f.cells _ (ok.grpLt j h1)).1]; exact ok.keys j h1
    · rw [f.keyS, f.keyG]; exact ⟨hS, hG⟩
  · intro j hj e he
    rw [f.nodes]
    rcases split hj with h1 | rfl
    · rw [(f.old ok h1).1] at he; exact ok.reg j h1 e he
    · rw [f.all] at he; exact hA e he
  · intro n hn
    rw [f.nodes] at hn
    rw [f.owner, f.nm]
    exact Nat.lt_succ_of_lt (ok.own n hn)
  · rw [f.nodes]; exact ok.below

end Cheval
