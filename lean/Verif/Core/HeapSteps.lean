import Verif.Core.HeapLemmas
import Verif.Core.GroupHistory

/-! # Each call on the heap: footprint and meaning -/
namespace Cheval
open FOps Spec
variable {U F : Type}

theorem nodesSame {W : Nat → Prop} (l : List (Node F)) : ∀ (n : Nat) (nd : Node F), l[n]? = some nd → ∃ nd', l[n]? = some nd' ∧
    nd'.name = nd.name ∧ nd'.parent = nd.parent ∧ nd'.level = nd.level ∧ (¬ W n → nd' = nd) :=
  fun _ nd hn => ⟨nd, hn, rfl, rfl, rfl, fun _ => rfl⟩

/-! ## attributes of the model -/

theorem within_setModel {h : Heap U F} (ok : HeapOK h) {i : Nat} (hi : i < h.nmodels) (f : MObj U → MObj U) (W : Nat → Prop)
    (hg : (f (h.mdl i)).group = (h.mdl i).group) (hs : List.Sublist (f (h.mdl i)).scope (h.mdl i).scope)
    (hc : ∀ a, (f (h.mdl i)).cached = some a → (h.mdl i).cached = some a) (ha : (f (h.mdl i)).all = (h.mdl i).all) :
    Within i W h (h.setModel i f) where
  nm := rfl
  next := le_refl _
  mdl := fun j hj => put_ne _ _ hj
  group := by simp [Heap.setModel, put_self, hg]
  grp := fun _ _ => rfl
  sub := fun _ _ _ => rfl
  sym := fun _ _ _ => ⟨rfl, rfl⟩
  tab := fun _ _ _ => rfl
  subs := fun a ha => .inl (by simpa [Heap.subs, Heap.setModel, put_self, hg] using ha)
  subNd := by simpa [Heap.subs, Heap.setModel, put_self, hg] using ok.subNd i hi
  syms := fun a ha => .inl (by
    simp only [Heap.syms, Heap.setModel, put_self] at ha
    exact (hs.map _).subset ha)
  symNd := by
    simp only [Heap.syms, Heap.setModel, put_self]
    exact (ok.symNd i hi).sublist (hs.map _)
  par := fun a ha => by
    simp only [Heap.syms, Heap.setModel, put_self] at ha
    exact ok.par i hi a ((hs.map _).subset ha)
  tabs := fun a ha => .inl (hc a (by simpa [Heap.setModel, put_self] using ha))
  keys := by
    simp only [Heap.setModel, put_self, hg]
    exact ⟨(ok.keys i hi).1.sublist (hs.map _), (ok.keys i hi).2⟩
  reg := by
    simp only [Heap.setModel, put_self, ha]
    exact ok.reg i hi
  own := ok.own
  below := ok.below
  nodes := nodesSame _

theorem view_setModel (h : Heap U F) (i : Nat) (f : MObj U → MObj U) : (h.setModel i f).view i =
    ⟨⟨h.nodes, (f (h.mdl i)).all, (f (h.mdl i)).top⟩, h.group (f (h.mdl i)).group, (f (h.mdl i)).scope.map fun e => (e.1, h.sym e.2),
     (f (h.mdl i)).units, (f (h.mdl i)).cached.map h.tab, (f (h.mdl i)).precision⟩ := by
  simp [Heap.view, Heap.tree, Heap.setModel, put_self, Heap.group]

/-! ## scope -/

theorem dictSet_vals {K : Type} [DecidableEq K] {d : List (K × Nat)} {k : K} {v a : Nat} (h : a ∈ (dictSet d k v).map (·.2)) :
    a ∈ d.map (·.2) ∨ a = v := by
  obtain ⟨e, he, rfl⟩ := List.mem_map.mp h
  rcases mem_dictSet.mp he with rfl | ⟨he, _⟩
  · exact .inr rfl
  · exact .inl (List.mem_map_of_mem he)

theorem dictSet_vals_nodup {K : Type} [DecidableEq K] {d : List (K × Nat)} {k : K} {v : Nat} (hk : (d.map (·.1)).Nodup)
    (hd : (d.map (·.2)).Nodup) (hv : v ∉ d.map (·.2)) : ((dictSet d k v).map (·.2)).Nodup := by
  unfold dictSet
  split
  · clear * - hk hd hv
    induction d with
    | nil => simp
    | cons e d ih =>
      simp only [List.map_cons, List.nodup_cons, List.mem_cons, not_or] at hk hd hv ⊢
      refine ⟨?_, ih hk.2 hd.2 hv.2⟩
      intro hc
      obtain ⟨x, hx, hx'⟩ := List.mem_map.mp hc
      obtain ⟨y, hy, rfl⟩ := List.mem_map.mp hx
      by_cases hy1 : y.1 = k
      · simp only [hy1, if_true] at hx'
        by_cases he1 : e.1 = k
        · exact hk.1 (he1 ▸ hy1 ▸ List.mem_map_of_mem hy)
        · simp only [he1, if_false] at hx'
          exact hv.1 hx'
      · simp only [hy1, if_false] at hx'
        by_cases he1 : e.1 = k
        · simp only [he1, if_true] at hx'
          exact hv.2 (hx' ▸ List.mem_map_of_mem hy)
        · simp only [he1, if_false] at hx'
          exact hd.1 (hx' ▸ List.mem_map_of_mem hy)
  · rw [List.map_append, List.nodup_append]
    refine ⟨hd, by simp, ?_⟩
    intro a ha b hb
    simp only [List.map_cons, List.map_nil, List.mem_singleton] at hb
    subst hb
    rintro rfl
    exact hv ha
/-- writing the cell a name refers to changes exactly that name -/
theorem map_put {K V : Type} [DecidableEq K] (f : Nat → V) {d : List (K × Nat)} {k : K} {a : Nat} (x : V)
    (hk : (d.map (·.1)).Nodup) (hv : (d.map (·.2)).Nodup) (hg : dictGet d k = some a) :
    d.map (fun e => (e.1, put f a x e.2)) = dictSet (d.map fun e => (e.1, f e.2)) k x := by
  have hm := dictGet_mem hg
  unfold dictSet
  rw [if_pos (by simp only [List.map_map]; exact List.mem_map.mpr ⟨_, hm, rfl⟩), List.map_map]
  apply List.map_congr_left
  intro e he
  simp only [Function.comp]
  by_cases h1 : e.1 = k
  · have h2 : dictGet d k = some e.2 := (dictGet_eq_some hk).mpr (h1 ▸ he)
    rw [hg] at h2
    cases h2
    rw [if_pos h1, put_self, h1]
  · rw [if_neg h1, put_ne]
    intro hc
    have : e = (k, a) := List.inj_on_of_nodup_map hv he hm hc
    exact h1 (by rw [this])

theorem map_put_fresh {K V : Type} (f : Nat → V) {d : List (K × Nat)} {a : Nat} (x : V) (h : a ∉ d.map (·.2)) :
    d.map (fun e => (e.1, put f a x e.2)) = d.map fun e => (e.1, f e.2) := by
  apply List.map_congr_left
  intro e he
  rw [put_ne]
  rintro rfl
  exact h (List.mem_map_of_mem he)

/-- entering a new cell under a name -/
theorem map_dictSet_fresh {K V : Type} [DecidableEq K] (f : Nat → V) {d : List (K × Nat)} (k : K) {a : Nat} (x : V)
    (h : a ∉ d.map (·.2)) :
    (dictSet d k a).map (fun e => (e.1, put f a x e.2)) = dictSet (d.map fun e => (e.1, f e.2)) k x := by
  rw [dictSet_mapv (put f a x), put_self, map_put_fresh f x h]

theorem within_setUnits {h : Heap U F} (ok : HeapOK h) {i : Nat} (hi : i < h.nmodels) (u : List U) (W : Nat → Prop) :
    Within i W h (h.setUnits i u) where
  nm := rfl
  next := le_refl _
  mdl := fun j hj => put_ne _ _ hj
  group := by simp [Heap.setUnits, put_self]
  grp := fun _ _ => rfl
  sub := fun _ _ _ => rfl
  sym := fun a _ hn => ⟨if_neg hn, rfl⟩
  tab := fun _ _ _ => rfl
  subs := fun a ha => .inl (by simpa [Heap.subs, Heap.setUnits, put_self] using ha)
  subNd := by simpa [Heap.subs, Heap.setUnits, put_self] using ok.subNd i hi
  syms := fun a ha => .inl (by simpa [Heap.syms, Heap.setUnits, put_self] using ha)
  symNd := by simpa [Heap.syms, Heap.setUnits, put_self] using ok.symNd i hi
  par := fun a ha => ok.par i hi a (by simpa [Heap.syms, Heap.setUnits, put_self] using ha)
  tabs := fun a ha => .inl (by simpa [Heap.setUnits, put_self] using ha)
  keys := by simpa [Heap.setUnits, put_self] using ok.keys i hi
  reg := by simpa [Heap.setUnits, put_self] using ok.reg i hi
  own := ok.own
  below := ok.below
  nodes := nodesSame _

theorem view_setUnits (h : Heap U F) (i : Nat) (u : List U) : (h.setUnits i u).view i = (h.view i).setUnits u := by
  simp only [Heap.view, Heap.setUnits, CModel.setUnits, Heap.tree, Heap.group, put_self, List.map_map]
  congr 1
  apply List.map_congr_left
  intro e he
  have : e.2 ∈ (h.mdl i).scope.map (·.2) := List.mem_map_of_mem (f := (·.2)) he
  simp only [Function.comp, this, if_true]
  cases h.sym e.2 <;> rfl

theorem within_declare {h : Heap U F} (ok : HeapOK h) {i : Nat} (hi : i < h.nmodels) (n : Str) (s : Sym F) (W : Nat → Prop) :
    Within i W h (h.declare i n s) := by
  have hf : h.next ∉ (h.mdl i).scope.map (·.2) := fun hc => absurd (ok.symLt i hi _ hc) (lt_irrefl _)
  unfold Heap.declare
  split
  · exact .refl i W ok hi
  · refine ⟨rfl, Nat.le_succ _, fun j hj => put_ne _ _ hj, ?_, fun _ _ => rfl, fun _ _ _ => rfl, ?_, fun _ _ _ => rfl, ?_, ?_, ?_, ?_,
      ?_, ?_, ?_, ?_, ok.own, ok.below, nodesSame _⟩
    · simp [put_self]
    · intro a ha _
      have : a ≠ h.next := by omega
      exact ⟨put_ne _ _ this, put_ne _ _ this⟩
    · intro a ha
      exact .inl (by simpa [Heap.subs, put_self] using ha)
    · simpa [Heap.subs, put_self] using ok.subNd i hi
    · intro a ha
      simp only [Heap.syms, put_self] at ha
      rcases dictSet_vals ha with h1 | rfl
      · exact .inl h1
      · exact .inr ⟨le_refl _, Nat.lt_succ_self _⟩
    · simp only [Heap.syms, put_self]
      exact dictSet_vals_nodup (ok.keys i hi).1 (ok.symNd i hi) hf
    · intro a ha
      simp only [Heap.syms, put_self] at ha
      rcases dictSet_vals ha with h1 | rfl
      · have : a ≠ h.next := by rintro rfl; exact hf h1
        exact (put_ne h.parent i this).trans (ok.par i hi a h1)
      · exact put_self _ _ _
    · intro a ha
      exact .inl (by simpa [put_self] using ha)
    · simp only [put_self]
      exact ⟨dictSet_keys_nodup (ok.keys i hi).1 _ _, (ok.keys i hi).2⟩
    · simpa [put_self] using ok.reg i hi

theorem view_declare {h : Heap U F} (ok : HeapOK h) {i : Nat} (hi : i < h.nmodels) (n : Str) (s : Sym F) :
    (h.declare i n s).view i = ((h.view i).declare n s).1 := by
  have hf : h.next ∉ (h.mdl i).scope.map (·.2) := fun hc => absurd (ok.symLt i hi _ hc) (lt_irrefl _)
  unfold Heap.declare CModel.declare
  split
  · rfl
  · simp only [Heap.view, Heap.tree, Heap.group, put_self]
    congr 1
    exact map_dictSet_fresh h.sym n s.empty hf

theorem view_clearScope (h : Heap U F) (i : Nat) : (h.clearScope i).view i = (h.view i).clearScope := by
  unfold Heap.clearScope
  rw [view_setModel]
  rfl

theorem within_clearScope {h : Heap U F} (ok : HeapOK h) {i : Nat} (hi : i < h.nmodels) (W : Nat → Prop) :
    Within i W h (h.clearScope i) :=
  within_setModel ok hi _ W rfl (List.nil_sublist _) (fun _ ha => ha) rfl

theorem within_assign [DecidableEq U] [FOps F] {h : Heap U F} (ok : HeapOK h) {i : Nat} (hi : i < h.nmodels) (n : Str) (d : Data U F)
    (W : Nat → Prop) : Within i W h (h.assign i n d) := by
  unfold Heap.assign
  split
  · exact .refl i W ok hi
  · rename_i a ha
    split
    · exact .refl i W ok hi
    · have hm : a ∈ h.syms i := List.mem_map_of_mem (f := (·.2)) (dictGet_mem ha)
      have w := Within.refl i W ok hi
      refine { w with sym := ?_ }
      intro b _ hb
      exact ⟨put_ne _ _ (by rintro rfl; exact hb hm), rfl⟩

theorem view_assign [DecidableEq U] [FOps F] {h : Heap U F} (ok : HeapOK h) {i : Nat} (hi : i < h.nmodels) (n : Str) (d : Data U F) :
    (h.assign i n d).view i = ((h.view i).assign n d).1 := by
  unfold Heap.assign CModel.assign
  have hget : dictGet (h.view i).scope n = (dictGet (h.mdl i).scope n).map h.sym := dictGet_mapv h.sym _ n
  rw [hget]
  cases ha : dictGet (h.mdl i).scope n with
  | none => rfl
  | some a =>
    have hm : a ∈ h.syms i := List.mem_map_of_mem (f := (·.2)) (dictGet_mem ha)
    simp only [Option.map_some, ok.par i hi a hm]
    cases hs : (h.sym a).assign (h.view i) d with
    | error e => rfl
    | ok s =>
      simp only [Heap.view, Heap.tree, Heap.group]
      congr 1
      exact map_put h.sym s (ok.keys i hi).1 (ok.symNd i hi) ha

/-! ## expressions -/

theorem view_exprs (h : Heap U F) (i : Nat) : (h.view i).exprs = h.group (h.mdl i).group := rfl

theorem within_append {h : Heap U F} (ok : HeapOK h) {i : Nat} (hi : i < h.nmodels) (env : PyEnv) (py : PyParser) (e : Str)
    (k : Option Nat) (W : Nat → Prop) : Within i W h (h.append env py (h.mdl i).group e k) := by
  have w := Within.refl i W ok hi
  have hf : h.next ∉ h.subs i := fun hc => absurd (ok.subLt i hi _ hc) (lt_irrefl _)
  unfold Heap.append
  simp only
  split
  · refine { w with grp := fun a ha => put_ne _ _ ha, subs := ?_, subNd := ?_, keys := ?_ }
    · intro a ha; exact .inl (by simpa [Heap.subs, put_self] using ha)
    · simpa [Heap.subs, put_self] using ok.subNd i hi
    · simpa [put_self] using ok.keys i hi
  · cases k with
    | none =>
      simp only
      refine { w with grp := fun a ha => put_ne _ _ ha, subs := ?_, subNd := ?_, keys := ?_ }
      · intro a ha; exact .inl (by simpa [Heap.subs, put_self] using ha)
      · simpa [Heap.subs, put_self] using ok.subNd i hi
      · simpa [put_self] using ok.keys i hi
    | some k =>
      simp only
      cases hb : dictGet (h.grp (h.mdl i).group).subgroups k with
      | some b =>
        have hm : b ∈ h.subs i := List.mem_map_of_mem (f := (·.2)) (dictGet_mem hb)
        refine { w with grp := fun a ha => put_ne _ _ ha, sub := ?_, subs := ?_, subNd := ?_, keys := ?_ }
        · intro a _ ha; exact put_ne _ _ (by rintro rfl; exact ha hm)
        · intro a ha; exact .inl (by simpa [Heap.subs, put_self] using ha)
        · simpa [Heap.subs, put_self] using ok.subNd i hi
        · simpa [put_self] using ok.keys i hi
      | none =>
        refine { w with next := Nat.le_succ _, grp := fun a ha => put_ne _ _ ha, sub := ?_, subs := ?_, subNd := ?_, keys := ?_, syms := ?_, tabs := ?_ }
        · intro a ha _; exact put_ne _ _ (by omega)
        · intro a ha
          simp only [Heap.subs, put_self] at ha
          rcases dictSet_vals ha with h1 | rfl
          · exact .inl h1
          · exact .inr ⟨le_refl _, Nat.lt_succ_self _⟩
        · simp only [Heap.subs, put_self]
          exact dictSet_vals_nodup (ok.keys i hi).2 (ok.subNd i hi) hf
        · intro a ha; exact .inl ha
        · intro a ha; exact .inl ha
        · simp only [put_self]
          exact ⟨(ok.keys i hi).1, dictSet_keys_nodup (ok.keys i hi).2 _ _⟩

theorem group_append {h : Heap U F} (ok : HeapOK h) {i : Nat} (hi : i < h.nmodels) (env : PyEnv) (py : PyParser) (e : Str)
    (k : Option Nat) : (h.append env py (h.mdl i).group e k).group (h.mdl i).group =
    ((h.group (h.mdl i).group).append env py e k).1 := by
  have hf : h.next ∉ (h.grp (h.mdl i).group).subgroups.map (·.2) := fun hc => absurd (ok.subLt i hi _ hc) (lt_irrefl _)
  unfold Heap.append ExprGroup.append
  have h1 : (h.group (h.mdl i).group).simple = (h.grp (h.mdl i).group).simple := rfl
  have h2 : (h.group (h.mdl i).group).chained = (h.grp (h.mdl i).group).chained := rfl
  rw [h1, h2]
  rcases hp : parse env py e (h.grp (h.mdl i).group).simple (h.grp (h.mdl i).group).chained with ⟨⟨si, ch⟩, r⟩
  simp only [hp]
  cases r with
  | error er => simp [Heap.group, put_self]
  | ok x =>
    cases k with
    | none => simp [Heap.group, put_self]
    | some k =>
      have hget : dictGet (h.group (h.mdl i).group).subgroups k = (dictGet (h.grp (h.mdl i).group).subgroups k).map h.sub :=
        dictGet_mapv h.sub _ k
      simp only [hget]
      cases hb : dictGet (h.grp (h.mdl i).group).subgroups k with
      | some b =>
        simp only [Heap.group, put_self, Option.map_some, Option.getD_some]
        congr 1
        exact map_put h.sub _ (ok.keys i hi).2 (ok.subNd i hi) hb
      | none =>
        simp only [Heap.group, put_self, Option.map_none, Option.getD_none]
        congr 1
        exact map_dictSet_fresh h.sub k _ hf

theorem append_mdl (env : PyEnv) (py : PyParser) (h : Heap U F) (a : Nat) (e : Str) (k : Option Nat) :
    (h.append env py a e k).mdl = h.mdl ∧ (h.append env py a e k).sym = h.sym ∧ (h.append env py a e k).tab = h.tab ∧
    (h.append env py a e k).nodes = h.nodes := by
  unfold Heap.append
  simp only
  split
  · exact ⟨rfl, rfl, rfl, rfl⟩
  · split
    · split <;> exact ⟨rfl, rfl, rfl, rfl⟩
    · exact ⟨rfl, rfl, rfl, rfl⟩

theorem within_dropGroup {h : Heap U F} (ok : HeapOK h) {i : Nat} (hi : i < h.nmodels) (k : Nat) (W : Nat → Prop) :
    Within i W h (h.dropGroup (h.mdl i).group k) := by
  have w := Within.refl i W ok hi
  have hs : List.Sublist (dictDel (h.grp (h.mdl i).group).subgroups k) (h.grp (h.mdl i).group).subgroups := List.filter_sublist
  refine { w with grp := fun a ha => put_ne _ _ ha, subs := ?_, subNd := ?_, keys := ?_ }
  · intro a ha
    simp only [Heap.subs, Heap.dropGroup, put_self] at ha
    exact .inl ((hs.map _).subset ha)
  · simp only [Heap.subs, Heap.dropGroup, put_self]
    exact (ok.subNd i hi).sublist (hs.map _)
  · simp only [Heap.dropGroup, put_self]
    exact ⟨(ok.keys i hi).1, (ok.keys i hi).2.sublist (hs.map _)⟩

theorem dictDel_mapv {K V W : Type} [DecidableEq K] (f : V → W) (d : List (K × V)) (k : K) :
    (dictDel d k).map (fun e => (e.1, f e.2)) = dictDel (d.map fun e => (e.1, f e.2)) k := by
  simp [dictDel, List.filter_map, Function.comp_def]

theorem group_dropGroup (h : Heap U F) (a k : Nat) : (h.dropGroup a k).group a = ((h.group a).dropGroup k).1 := by
  unfold ExprGroup.dropGroup
  have hget : dictGet (h.group a).subgroups k = (dictGet (h.grp a).subgroups k).map h.sub := dictGet_mapv h.sub _ k
  rw [hget]
  cases hb : dictGet (h.grp a).subgroups k with
  | some b => simp [Heap.group, Heap.dropGroup, put_self, dictDel_mapv]
  | none =>
    simp only [Option.map_none, Heap.group, Heap.dropGroup, put_self]
    rw [dictDel_of_not_mem (dictGet_eq_none.mp hb)]

theorem within_exprOp {h : Heap U F} (ok : HeapOK h) {i : Nat} (hi : i < h.nmodels) (env : PyEnv) (py : PyParser) (op : GroupOp)
    (W : Nat → Prop) : Within i W h (h.exprOp env py i op) := by
  cases op with
  | append e k => exact within_append ok hi env py e k W
  | drop k => exact within_dropGroup ok hi k W
  | clear =>
    have w := Within.refl i W ok hi
    refine { w with grp := fun a ha => put_ne _ _ ha, subs := ?_, subNd := ?_, keys := ?_ }
    · intro a ha
      simp [Heap.subs, Heap.exprOp, Heap.clearGroup, put_self] at ha
    · simp [Heap.subs, Heap.exprOp, Heap.clearGroup, put_self]
    · simp only [Heap.exprOp, Heap.clearGroup, put_self]
      exact ⟨(ok.keys i hi).1, by simp⟩

theorem view_exprOp {h : Heap U F} (ok : HeapOK h) {i : Nat} (hi : i < h.nmodels) (env : PyEnv) (py : PyParser) (op : GroupOp) :
    (h.exprOp env py i op).view i = { h.view i with exprs := (groupStep env py (h.view i).exprs op).1 } := by
  cases op with
  | append e k =>
    obtain ⟨h1, h2, h3, h4⟩ := append_mdl env py h (h.mdl i).group e k
    have h5 := group_append ok hi env py e k
    simp only [Heap.exprOp, Heap.view, Heap.tree, h1, h2, h3, h4, h5, groupStep]
  | drop k =>
    have h5 := group_dropGroup h (h.mdl i).group k
    simp only [Heap.exprOp, Heap.view, Heap.tree, groupStep, ← h5]
    rfl
  | clear => simp [Heap.exprOp, Heap.view, Heap.tree, groupStep, Heap.clearGroup, Heap.group, put_self, ExprGroup.clear, ExprGroup.empty]

end Cheval
