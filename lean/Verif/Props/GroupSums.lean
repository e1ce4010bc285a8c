import Verif.Core.GroupHeapInv

/-!
# C63: sums of expression groups
-/
namespace Cheval
open Spec

theorem see_agree {h h' : GHeap} {g : GObj} (hs : ∀ e ∈ g.subs, h'.store.getD e.2 ⟨[], [], []⟩ = h.store.getD e.2 ⟨[], [], []⟩) :
    h'.see g = h.see g := by
  unfold GHeap.see
  congr 1
  apply List.map_congr_left
  intro e he
  rw [hs e he]

theorem see_grow {h : GHeap} {g : GObj} (hb : ∀ e ∈ g.subs, e.2 < h.store.length) (gs : List GObj) (ex : List SubGroup) :
    GHeap.see ⟨gs, h.store ++ ex⟩ g = h.see g := by
  apply see_agree
  intro e he
  simp [List.getElem?_append_left (hb e he)]

/-- the key under which an object is kept is the same everywhere -/
theorem GInv.key {h : GHeap} (hi : GInv h) {g g' : GObj} (hg : g ∈ h.groups) (hg' : g' ∈ h.groups) {k k' r : Nat}
    (h1 : (k, r) ∈ g.subs) (h2 : (k', r) ∈ g'.subs) : k = k' := by
  obtain ⟨kf, hk⟩ := hi.keyed
  exact (hk g hg _ h1).symm.trans (hk g' hg' _ h2)

/-- changing the object with reference `r` in place, as seen by a group that keeps it under `k` -/
theorem see_modify {h : GHeap} (hi : GInv h) {g : GObj} (hg : g ∈ h.groups) {k r : Nat} (hd : dictGet g.subs k = some r) (x : Expression)
    (gs : List GObj) (g' : GObj) (hs : g'.subs = g.subs) :
    GHeap.see ⟨gs, h.store.modify r fun s => s.append x⟩ g' = ⟨g'.ungrouped, g'.simple, g'.chained,
      dictSet (h.see g).subgroups k (((dictGet (h.see g).subgroups k).getD ⟨[], [], []⟩).append x)⟩ := by
  have hm := dictGet_mem hd
  have hsub : dictGet (h.see g).subgroups k = some (h.store.getD r ⟨[], [], []⟩) := by
    show dictGet (g.subs.map fun e => (e.1, h.store.getD e.2 ⟨[], [], []⟩)) k = _
    rw [dictGet_mapv (fun r => h.store.getD r ⟨[], [], []⟩), hd]; rfl
  rw [hsub]
  unfold GHeap.see
  rw [hs]
  congr 1
  have hk : k ∈ (g.subs.map fun e => (e.1, h.store.getD e.2 ⟨[], [], []⟩)).map (·.1) := by
    rw [List.map_map]
    exact List.mem_map.mpr ⟨_, hm, rfl⟩
  unfold dictSet
  rw [if_pos hk, List.map_map]
  apply List.map_congr_left
  intro e he
  have hr : r < h.store.length := hi.bound g hg _ hm
  simp only [Function.comp_apply, List.getD_eq_getElem?_getD, List.getElem?_modify]
  by_cases hek : e.1 = k
  · have her : e.2 = r := by
      have h1 := (dictGet_eq_some (hi.nodup g hg)).mpr (show (k, e.2) ∈ g.subs by rw [← hek]; exact he)
      rw [hd] at h1
      exact (Option.some.inj h1).symm
    simp only [hek, her, if_true, Option.getD_some]
    simp [List.getElem?_eq_getElem hr]
  · have her : r ≠ e.2 := by
      intro her
      apply hek
      exact hi.key hg hg (show (e.1, r) ∈ g.subs by rw [her]; exact he) hm
    simp only [hek, her, if_false]
    simp

theorem see_modify_other {h : GHeap} (hi : GInv h) {g g' : GObj} (hg : g ∈ h.groups) (hg' : g' ∈ h.groups) {k r : Nat}
    (hd : dictGet g.subs k = some r) (hd' : dictGet g'.subs k ≠ some r) (x : Expression) (gs : List GObj) :
    GHeap.see ⟨gs, h.store.modify r fun s => s.append x⟩ g' = h.see g' := by
  apply see_agree
  intro e he
  have her : r ≠ e.2 := by
    intro her
    have hk := hi.key hg hg' (dictGet_mem hd) (show (e.1, r) ∈ g'.subs by rw [her]; exact he)
    apply hd'
    rw [dictGet_eq_some (hi.nodup g' hg'), hk, her]
    exact he
  simp only [List.getD_eq_getElem?_getD, List.getElem?_modify, her, if_false]
  simp

theorem view_set {h : GHeap} {i : Nat} {g g' : GObj} (hg : h.groups[i]? = some g) (st : List SubGroup) :
    GHeap.view ⟨h.groups.set i g', st⟩ i = some (GHeap.see ⟨h.groups.set i g', st⟩ g') := by
  have hl : i < h.groups.length := (List.getElem?_eq_some_iff.mp hg).1
  simp [GHeap.view, hl]

theorem view_set_other {h : GHeap} {i j : Nat} {g' : GObj} (hij : j ≠ i) (st : List SubGroup) :
    GHeap.view ⟨h.groups.set i g', st⟩ j = h.groups[j]?.map (GHeap.see ⟨h.groups.set i g', st⟩) := by
  simp [GHeap.view, List.getElem?_set, hij.symm]

theorem append_view {env : PyEnv} {py : PyParser} {h : GHeap} (hi : GInv h) {i : Nat} {v : ExprGroup} (hv : h.view i = some v)
    (e : Str) (k : Option Nat) :
    (h.append env py i e k).1.view i = some (v.append env py e k).1 ∧ (h.append env py i e k).2 = (v.append env py e k).2 := by
  obtain ⟨g, hg, rfl⟩ := GHeap.view_some hv
  have hm := GInv.mem hg
  unfold GHeap.append ExprGroup.append
  rw [hg]
  have hsi : (h.see g).simple = g.simple := rfl
  have hch : (h.see g).chained = g.chained := rfl
  rw [hsi, hch]
  simp only
  rcases hp : parse env py e g.simple g.chained with ⟨⟨si, ch⟩, r⟩
  cases r with
  | error er => exact ⟨by rw [view_set hg]; rfl, rfl⟩
  | ok x =>
    cases k with
    | none => exact ⟨by rw [view_set hg]; rfl, rfl⟩
    | some k =>
      simp only
      have hsub : dictGet (h.see g).subgroups k = (dictGet g.subs k).map fun r => h.store.getD r ⟨[], [], []⟩ :=
        dictGet_mapv (fun r => h.store.getD r ⟨[], [], []⟩) g.subs k
      cases hd : dictGet g.subs k with
      | some r =>
        refine ⟨?_, rfl⟩
        simp only
        rw [view_set hg, see_modify hi hm hd x _ { g with simple := si, chained := ch } rfl]
        rfl
      | none =>
        refine ⟨?_, rfl⟩
        rw [hd] at hsub
        simp only [hsub, Option.map_none, Option.getD_none]
        rw [view_set hg]
        simp only [GHeap.see]
        congr 2
        rw [dictSet_of_not_mem (dictGet_eq_none.mp hd)]
        refine Eq.trans ?_ (dictSet_of_not_mem (dictGet_eq_none.mp (hsub.trans rfl))).symm
        simp only [List.map_append, List.map_singleton, GHeap.see]
        congr 1
        · apply List.map_congr_left
          intro e he
          simp [List.getElem?_append_left (hi.bound g hm e he)]
        · simp

/-- an append to group `i` as seen by group `j` -/
theorem append_view_other {env : PyEnv} {py : PyParser} {h : GHeap} (hi : GInv h) {i j : Nat} (hij : j ≠ i) {gi gj : GObj}
    (hgi : h.groups[i]? = some gi) (hgj : h.groups[j]? = some gj) (e : Str) (k : Option Nat)
    (hns : ∀ k' r, k = some k' → dictGet gi.subs k' = some r → dictGet gj.subs k' ≠ some r) :
    (h.append env py i e k).1.view j = h.view j := by
  have hmi := GInv.mem hgi
  have hmj := GInv.mem hgj
  have hvj : h.view j = some (h.see gj) := by simp [GHeap.view, hgj]
  unfold GHeap.append
  rw [hgi]
  simp only
  rcases hp : parse env py e gi.simple gi.chained with ⟨⟨si, ch⟩, r⟩
  cases r with
  | error er => rw [hvj]; simp only; rw [view_set_other hij, hgj]; rfl
  | ok x =>
    cases k with
    | none => rw [hvj]; simp only; rw [view_set_other hij, hgj]; rfl
    | some k =>
      simp only
      cases hd : dictGet gi.subs k with
      | some r =>
        simp only
        rw [hvj, view_set_other hij, hgj]
        simp only [Option.map_some]
        rw [see_modify_other hi hmi hmj hd (hns k r rfl hd)]
      | none =>
        simp only
        rw [hvj, view_set_other hij, hgj]
        simp only [Option.map_some]
        rw [see_grow (hi.bound gj hmj)]

theorem clear_view {h : GHeap} {i : Nat} {v : ExprGroup} (hv : h.view i = some v) : (h.clear i).view i = some v.clear := by
  obtain ⟨g, hg, rfl⟩ := GHeap.view_some hv
  simp [GHeap.clear, GHeap.view, hg, GHeap.see, ExprGroup.clear, ExprGroup.empty]

theorem clear_view_other (h : GHeap) {i j : Nat} (hij : j ≠ i) : (h.clear i).view j = h.view j := by
  simp only [GHeap.clear, GHeap.view, List.getElem?_modify, hij.symm, if_false]
  cases h.groups[j]? <;> simp [GHeap.see]

theorem drop_view {h : GHeap} {i : Nat} {v : ExprGroup} (hv : h.view i = some v) (k : Nat) :
    (h.drop i k).1.view i = some (v.dropGroup k).1 ∧ (h.drop i k).2 = (v.dropGroup k).2 := by
  obtain ⟨g, hg, rfl⟩ := GHeap.view_some hv
  have hsub : dictGet (h.see g).subgroups k = (dictGet g.subs k).map fun r => h.store.getD r ⟨[], [], []⟩ :=
    dictGet_mapv (fun r => h.store.getD r ⟨[], [], []⟩) g.subs k
  unfold GHeap.drop ExprGroup.dropGroup
  rw [hg, hsub]
  cases hd : dictGet g.subs k with
  | none => simp only [hd, Option.map_none]; exact ⟨hv, trivial⟩
  | some r =>
    simp only [hd, Option.map_some]
    refine ⟨?_, trivial⟩
    rw [view_set hg]
    simp only [GHeap.see, dictDel, List.filter_map]
    rfl

theorem drop_view_other (h : GHeap) {i j : Nat} (hij : j ≠ i) (k : Nat) : (h.drop i k).1.view j = h.view j := by
  unfold GHeap.drop
  cases hg : h.groups[i]? with
  | none => rfl
  | some g =>
    simp only
    cases dictGet g.subs k with
    | none => rfl
    | some r => simp only; rw [view_set_other hij]; rfl

theorem view_push {h : GHeap} (hi : GInv h) {j : Nat} (hj : j < h.groups.length) (g : GObj) (ex : List SubGroup) :
    GHeap.view ⟨h.groups ++ [g], h.store ++ ex⟩ j = h.view j := by
  simp only [GHeap.view, List.getElem?_append_left hj]
  cases hg : h.groups[j]? with
  | none => rfl
  | some g' =>
    simp only [Option.map_some]
    rw [see_grow (hi.bound g' (GInv.mem hg))]

theorem new_view {h : GHeap} (hi : GInv h) {j : Nat} (hj : j < h.groups.length) : h.new.view j = h.view j := by
  have := view_push hi hj ⟨[], [], [], []⟩ []
  simpa [GHeap.new] using this

theorem copy_view {h : GHeap} (hi : GInv h) {i : Nat} {v : ExprGroup} (hv : h.view i = some v) :
    (h.copy i).2 = .ok h.groups.length ∧ (h.copy i).1.view h.groups.length = some v.copy ∧
    (h.copy i).1.groups.length = h.groups.length + 1 ∧
    ∀ j < h.groups.length, (h.copy i).1.view j = h.view j := by
  unfold GHeap.copy
  rw [hv]
  refine ⟨rfl, ?_, by simp, fun j hj => view_push hi hj _ _⟩
  simp only [GHeap.view, GHeap.see]
  rw [List.getElem?_append_right (le_refl _)]
  simp only [Nat.sub_self, List.getElem?_cons_zero, Option.map_some, GHeap.see]
  rw [refsFrom_see]

theorem plus_view {h : GHeap} (hi : GInv h) {i j : Nat} {v w : ExprGroup} (hv : h.view i = some v) (hw : h.view j = some w) :
    (h.plus i j).2 = .ok h.groups.length ∧ (h.plus i j).1.view h.groups.length = some (v.plus w) ∧
    (h.plus i j).1.groups.length = h.groups.length + 1 ∧
    ∀ m < h.groups.length, (h.plus i j).1.view m = h.view m := by
  obtain ⟨a, ha, rfl⟩ := GHeap.view_some hv
  obtain ⟨b, hb, rfl⟩ := GHeap.view_some hw
  have hma := GInv.mem ha
  have hmb := GInv.mem hb
  obtain ⟨ex, h1, -, -, -, h5⟩ := sumSubs_spec h b a.subs h.store ⟨[], by simp⟩ (hi.bound a hma) hi.fresh
  rw [plus_eq ha hb]
  refine ⟨rfl, ?_, by simp, fun m hm => by simp only [h1]; exact view_push hi hm _ _⟩
  simp only [GHeap.view, GHeap.see]
  rw [List.getElem?_append_right (le_refl _)]
  simp only [Nat.sub_self, List.getElem?_cons_zero, Option.map_some, List.map_append, GHeap.see]
  rw [h5]
  unfold ExprGroup.plus
  congr 2
  congr 1
  · rw [List.map_map]
    apply List.map_congr_left
    intro e he
    have := dictGet_mapv (fun r => h.store.getD r ⟨[], [], []⟩) b.subs e.1
    simp only [Function.comp_apply]
    rw [this]
    cases dictGet b.subs e.1 <;> rfl
  · rw [List.filter_map, h1]
    have : ((fun e : Nat × SubGroup => decide (e.1 ∉ List.map (·.1) (List.map (fun e : Nat × Nat => (e.1, h.store.getD e.2 ⟨[], [], []⟩)) a.subs))) ∘
        fun e : Nat × Nat => (e.1, h.store.getD e.2 ⟨[], [], []⟩)) = fun e : Nat × Nat => decide (e.1 ∉ a.subs.map (·.1)) := by
      funext e
      simp
    rw [this]
    apply List.map_congr_left
    intro e he
    have hlt := hi.bound b hmb e (List.mem_filter.mp he).1
    simp [List.getElem?_append_left hlt]

/-! ## content of a sum -/

theorem see_fresh {h : GHeap} (hi : GInv h) {i : Nat} {v : ExprGroup} (hv : h.view i = some v) :
    (v.subgroups.map (·.1)).Nodup ∧ ∀ e ∈ v.subgroups, e.2.rebuild = e.2 := by
  obtain ⟨g, hg, rfl⟩ := GHeap.view_some hv
  have hm := GInv.mem hg
  refine ⟨by rw [see_keys]; exact hi.nodup g hm, ?_⟩
  intro e he
  obtain ⟨y, hy, rfl⟩ := List.mem_map.mp he
  have hlt := hi.bound g hm y hy
  simp only [List.getD_eq_getElem?_getD, List.getElem?_eq_getElem hlt, Option.getD_some]
  exact hi.fresh _ (List.getElem_mem hlt)

theorem mem_simple_of_rebuild {s : SubGroup} (h : s.rebuild = s) (y : Str) :
    (y ∈ s.simple ↔ ∃ x ∈ s.exprs, y ∈ x.symbols) ∧ (y ∈ s.chained ↔ ∃ x ∈ s.exprs, y ∈ x.chains.map (·.1)) := by
  constructor
  · conv_lhs => rw [← h]
    rw [SubGroup.rebuild, rebuild_eq]
    simp only
    rw [foldl_setUnion_mem _ (fun e => e.symbols)]
    simp
  · conv_lhs => rw [← h]
    rw [SubGroup.rebuild, rebuild_eq]
    simp only
    rw [foldl_setUnion_mem _ (fun e => e.chains.map (·.1))]
    simp

theorem dictGet_filter_not {V : Type} (d : List (Nat × V)) (ks : List Nat) (k : Nat) :
    dictGet (d.filter fun e => decide (e.1 ∉ ks)) k = if k ∈ ks then none else dictGet d k := by
  induction d with
  | nil => simp [dictGet_nil]
  | cons e d ih =>
    rw [List.filter_cons]
    by_cases he : e.1 ∈ ks
    · simp only [he, not_true, decide_false, if_false, Bool.false_eq_true]
      rw [ih, dictGet_cons]
      by_cases hk : e.1 = k
      · subst hk; simp [he]
      · simp [hk]
    · simp only [he, not_false_iff, decide_true, if_true]
      rw [dictGet_cons, dictGet_cons, ih]
      by_cases hk : e.1 = k
      · subst hk; simp [he]
      · simp [hk]

/-- a group of the first operand in the sum -/
def joinSub : Option SubGroup → SubGroup → SubGroup
  | some t, s => s.plus t
  | none, s => s

theorem plus_subgroups (v w : ExprGroup) : (v.plus w).subgroups =
    (v.subgroups.map fun e => (e.1, joinSub (dictGet w.subgroups e.1) e.2)) ++
      w.subgroups.filter (fun e => decide (e.1 ∉ v.subgroups.map (·.1))) := by
  unfold ExprGroup.plus
  simp only
  congr 1
  apply List.map_congr_left
  intro e _
  cases h : dictGet w.subgroups e.1 <;> simp [joinSub]

theorem plus_get (v w : ExprGroup) (k : Nat) : dictGet (v.plus w).subgroups k =
    match dictGet v.subgroups k, dictGet w.subgroups k with
    | some s, some t => some (s.plus t)
    | some s, none => some s
    | none, t => t := by
  have h1 : ∀ d : List (Nat × SubGroup), dictGet (d.map fun e => (e.1, joinSub (dictGet w.subgroups e.1) e.2)) k =
      (dictGet d k).map (joinSub (dictGet w.subgroups k)) := by
    intro d
    induction d with
    | nil => rfl
    | cons e d ih =>
      rw [List.map_cons, dictGet_cons, dictGet_cons, ih]
      by_cases hk : e.1 = k
      · subst hk; simp
      · simp [hk]
  rw [plus_subgroups, dictGet_append, h1, dictGet_filter_not]
  cases hv : dictGet v.subgroups k with
  | none =>
    have := dictGet_eq_none.mp hv
    simp [this]
  | some s =>
    cases hw : dictGet w.subgroups k <;> simp [joinSub]

/-- sums keep all expressions, group by group -/
theorem textsOf_plus (v w : ExprGroup) :
    (textsOf (v.plus w)).ungrouped = (textsOf v).ungrouped ++ (textsOf w).ungrouped ∧
    ∀ k, dictGet (textsOf (v.plus w)).groups k = match dictGet (textsOf v).groups k, dictGet (textsOf w).groups k with
      | some s, some t => some (s ++ t)
      | some s, none => some s
      | none, t => t := by
  refine ⟨by simp [textsOf, ExprGroup.plus], fun k => ?_⟩
  simp only [textsOf]
  rw [dictGet_mapv (fun s : SubGroup => s.exprs.map (·.raw)), dictGet_mapv (fun s : SubGroup => s.exprs.map (·.raw)),
    dictGet_mapv (fun s : SubGroup => s.exprs.map (·.raw)), plus_get]
  cases dictGet v.subgroups k <;> cases dictGet w.subgroups k <;> simp [plus_exprs]

theorem mem_iter_get (f : SubGroup → List Str) (d : List (Nat × SubGroup)) (hn : (d.map (·.1)).Nodup) (y : Str) :
    y ∈ d.flatMap (fun e => f e.2) ↔ ∃ k s, dictGet d k = some s ∧ y ∈ f s := by
  rw [List.mem_flatMap]
  constructor
  · rintro ⟨e, he, hy⟩
    exact ⟨e.1, e.2, (dictGet_eq_some hn).mpr he, hy⟩
  · rintro ⟨k, s, hd, hy⟩
    exact ⟨(k, s), dictGet_mem hd, hy⟩

theorem plus_nodup (v w : ExprGroup) (hv : (v.subgroups.map (·.1)).Nodup) (hw : (w.subgroups.map (·.1)).Nodup) :
    ((v.plus w).subgroups.map (·.1)).Nodup := by
  have h1 : (v.subgroups.map fun e => (e.1, joinSub (dictGet w.subgroups e.1) e.2)).map (·.1) = v.subgroups.map (·.1) := by
    rw [List.map_map]
    rfl
  rw [plus_subgroups, List.map_append]
  rw [List.nodup_append]
  refine ⟨by rw [h1]; exact hv, hw.sublist (List.Sublist.map _ List.filter_sublist), ?_⟩
  intro p hp q hq
  rw [h1] at hp
  obtain ⟨e, he, rfl⟩ := List.mem_map.mp hq
  have := (List.mem_filter.mp he).2
  simp only [decide_eq_true_eq] at this
  rintro rfl
  exact this hp

theorem plus_iter (v w : ExprGroup) (f : SubGroup → List Str) (hv : (v.subgroups.map (·.1)).Nodup) (hw : (w.subgroups.map (·.1)).Nodup)
    (hf : ∀ k s t, dictGet v.subgroups k = some s → dictGet w.subgroups k = some t → ∀ y, y ∈ f (s.plus t) ↔ y ∈ f s ∨ y ∈ f t) (y : Str) :
    y ∈ (v.plus w).subgroups.flatMap (fun e => f e.2) ↔ y ∈ v.subgroups.flatMap (fun e => f e.2) ∨ y ∈ w.subgroups.flatMap (fun e => f e.2) := by
  rw [mem_iter_get f _ (plus_nodup v w hv hw), mem_iter_get f _ hv, mem_iter_get f _ hw]
  constructor
  · rintro ⟨k, s, hd, hy⟩
    rw [plus_get] at hd
    cases h1 : dictGet v.subgroups k with
    | none => rw [h1] at hd; exact .inr ⟨k, s, hd, hy⟩
    | some a =>
      cases h2 : dictGet w.subgroups k with
      | none => rw [h1, h2] at hd; cases hd; exact .inl ⟨k, _, h1, hy⟩
      | some b =>
        rw [h1, h2] at hd
        cases hd
        rcases (hf k a b h1 h2 y).mp hy with hy | hy
        · exact .inl ⟨k, a, h1, hy⟩
        · exact .inr ⟨k, b, h2, hy⟩
  · rintro (⟨k, s, hd, hy⟩ | ⟨k, s, hd, hy⟩)
    · cases h2 : dictGet w.subgroups k with
      | none => exact ⟨k, s, by rw [plus_get, hd, h2], hy⟩
      | some b => exact ⟨k, s.plus b, by rw [plus_get, hd, h2], (hf k s b hd h2 y).mpr (.inl hy)⟩
    · cases h1 : dictGet v.subgroups k with
      | none => exact ⟨k, s, by rw [plus_get, hd, h1], hy⟩
      | some a => exact ⟨k, a.plus s, by rw [plus_get, hd, h1], (hf k a s h1 hd y).mpr (.inr hy)⟩

/-- **C63 (one group)** After every history of calls (new groups, appends, clears, drops, copies, sums), a call on a group does to
that group what the calls do to a group that shares nothing: `append`, `clear` and `drop_group` change it, and return or raise,
as if it were alone. -/
theorem C63_calls (env : PyEnv) (py : PyParser) (ops : List GHeapOp) (i : Nat) (v : ExprGroup)
    (hv : (GHeap.empty.run env py ops).view i = some v) :
    let h := GHeap.empty.run env py ops
    (∀ e k, (h.append env py i e k).1.view i = some (v.append env py e k).1 ∧ (h.append env py i e k).2 = (v.append env py e k).2) ∧
    (h.clear i).view i = some v.clear ∧
    (∀ k, (h.drop i k).1.view i = some (v.dropGroup k).1 ∧ (h.drop i k).2 = (v.dropGroup k).2) := by
  have hi := GInv.empty.run (env := env) (py := py) ops
  exact ⟨fun e k => append_view hi hv e k, clear_view hv, fun k => drop_view hv k⟩

/-- **C63 (sums)** After every history of calls, `a + b` is a new group: its ungrouped expressions are those of `a` followed by
those of `b`, the expressions of each group are those of the group in `a` followed by those in `b`, the symbols required are those required
by `a` or by `b`. All other groups, in particular `a` and `b`, are as before. -/
theorem C63_sum (env : PyEnv) (py : PyParser) (ops : List GHeapOp) (i j : Nat) (a b : ExprGroup)
    (ha : (GHeap.empty.run env py ops).view i = some a) (hb : (GHeap.empty.run env py ops).view j = some b) :
    let h := GHeap.empty.run env py ops
    ∃ n s, (h.plus i j).2 = .ok n ∧ h.view n = none ∧ (h.plus i j).1.view n = some s ∧
      (textsOf s).ungrouped = (textsOf a).ungrouped ++ (textsOf b).ungrouped ∧
      (∀ k, dictGet (textsOf s).groups k = match dictGet (textsOf a).groups k, dictGet (textsOf b).groups k with
        | some s, some t => some (s ++ t)
        | some s, none => some s
        | none, t => t) ∧
      (∀ y, (y ∈ s.itersimple ↔ y ∈ a.itersimple ∨ y ∈ b.itersimple) ∧ (y ∈ s.iterchained ↔ y ∈ a.iterchained ∨ y ∈ b.iterchained)) ∧
      ∀ m v, h.view m = some v → (h.plus i j).1.view m = some v := by
  intro h
  have hi : GInv h := GInv.empty.run (env := env) (py := py) ops
  obtain ⟨h1, h2, -, h4⟩ := plus_view hi ha hb
  obtain ⟨na, fa⟩ := see_fresh hi ha
  obtain ⟨nb, fb⟩ := see_fresh hi hb
  have ht := textsOf_plus a b
  have hlen : ∀ m v, h.view m = some v → m < h.groups.length := by
    intro m v hm
    obtain ⟨g, hg, -⟩ := GHeap.view_some hm
    exact (List.getElem?_eq_some_iff.mp hg).1
  refine ⟨h.groups.length, a.plus b, h1, by simp [GHeap.view], h2, ht.1, ht.2, ?_, fun m v hm => by rw [h4 m (hlen m v hm), hm]⟩
  intro y
  have hf1 : ∀ k s t, dictGet a.subgroups k = some s → dictGet b.subgroups k = some t →
      ∀ y, y ∈ (s.plus t).simple ↔ y ∈ s.simple ∨ y ∈ t.simple := by
    intro k s t hs ht y
    rw [(mem_simple_of_rebuild (rebuild_plus s t) y).1, (mem_simple_of_rebuild (fa _ (dictGet_mem hs)) y).1,
      (mem_simple_of_rebuild (fb _ (dictGet_mem ht)) y).1, plus_exprs]
    simp only [List.mem_append, or_and_right, exists_or]
  have hf2 : ∀ k s t, dictGet a.subgroups k = some s → dictGet b.subgroups k = some t →
      ∀ y, y ∈ (s.plus t).chained ↔ y ∈ s.chained ∨ y ∈ t.chained := by
    intro k s t hs ht y
    rw [(mem_simple_of_rebuild (rebuild_plus s t) y).2, (mem_simple_of_rebuild (fa _ (dictGet_mem hs)) y).2,
      (mem_simple_of_rebuild (fb _ (dictGet_mem ht)) y).2, plus_exprs]
    simp only [List.mem_append, or_and_right, exists_or]
  constructor
  · simp only [ExprGroup.itersimple, List.mem_append]
    rw [plus_iter a b (·.simple) na nb hf1 y]
    have : y ∈ (a.plus b).simple ↔ y ∈ a.simple ∨ y ∈ b.simple := mem_setUnion
    rw [this]; tauto
  · simp only [ExprGroup.iterchained, List.mem_append]
    rw [plus_iter a b (·.chained) na nb hf2 y]
    have : y ∈ (a.plus b).chained ↔ y ∈ a.chained ∨ y ∈ b.chained := mem_setUnion
    rw [this]; tauto

/-- **C63 (copies)** After every history of calls, `copy` makes a new group with the same expressions and changes no other group. -/
theorem C63_copy (env : PyEnv) (py : PyParser) (ops : List GHeapOp) (i : Nat) (a : ExprGroup)
    (ha : (GHeap.empty.run env py ops).view i = some a) :
    let h := GHeap.empty.run env py ops
    ∃ n s, (h.copy i).2 = .ok n ∧ h.view n = none ∧ (h.copy i).1.view n = some s ∧ s.all = a.all ∧ textsOf s = textsOf a ∧
      ∀ m v, h.view m = some v → (h.copy i).1.view m = some v := by
  intro h
  have hi : GInv h := GInv.empty.run (env := env) (py := py) ops
  obtain ⟨h1, h2, -, h4⟩ := copy_view hi ha
  refine ⟨h.groups.length, a.copy, h1, by simp [GHeap.view], h2, copy_all a, ?_, fun m v hm => ?_⟩
  · simp only [textsOf, ExprGroup.copy, List.map_map]
    congr 1
    apply List.map_congr_left
    intro e _
    simp [rebuild_exprs]
  · obtain ⟨g, hg, -⟩ := GHeap.view_some hm
    rw [h4 m (List.getElem?_eq_some_iff.mp hg).1, hm]

/-! ## isolation -/

/-- no two groups share a sub-group object -/
def GSep (h : GHeap) : Prop :=
  ∀ (i j : Nat) (gi gj : GObj), i ≠ j → h.groups[i]? = some gi → h.groups[j]? = some gj → ∀ e ∈ gi.subs, ∀ e' ∈ gj.subs, e.2 ≠ e'.2

/-- changing one group to have old entries of its own, or new objects -/
theorem GSep.set {h : GHeap} (hs : GSep h) (hi : GInv h) {i : Nat} {g g' : GObj} (hg : h.groups[i]? = some g) (st : List SubGroup)
    (he : ∀ e ∈ g'.subs, e ∈ g.subs ∨ h.store.length ≤ e.2) : GSep ⟨h.groups.set i g', st⟩ := by
  have hl : i < h.groups.length := (List.getElem?_eq_some_iff.mp hg).1
  have key : ∀ (j : Nat) (gj : GObj), j ≠ i → h.groups[j]? = some gj → ∀ e ∈ g'.subs, ∀ e' ∈ gj.subs, e.2 ≠ e'.2 := by
    intro j gj hj hgj e hee e' he'
    rcases he e hee with h1 | h1
    · exact hs i j g gj (Ne.symm hj) hg hgj e h1 e' he'
    · have := hi.bound gj (GInv.mem hgj) e' he'
      omega
  intro p q gp gq hpq hp hq e hep e' heq
  simp only at hp hq
  by_cases hpi : p = i
  · subst hpi
    rw [List.getElem?_set_self hl] at hp
    cases hp
    rw [List.getElem?_set_ne hpq] at hq
    exact key q gq (Ne.symm hpq) hq e hep e' heq
  · rw [List.getElem?_set_ne (Ne.symm hpi)] at hp
    by_cases hqi : q = i
    · subst hqi
      rw [List.getElem?_set_self hl] at hq
      cases hq
      exact fun hh => key p gp hpq hp e' heq e hep hh.symm
    · rw [List.getElem?_set_ne (Ne.symm hqi)] at hq
      exact hs p q gp gq hpq hp hq e hep e' heq

theorem GSep.push {h : GHeap} (hs : GSep h) (hi : GInv h) (g' : GObj) (st : List SubGroup)
    (he : ∀ e ∈ g'.subs, h.store.length ≤ e.2) : GSep ⟨h.groups ++ [g'], st⟩ := by
  have key : ∀ (j : Nat) (gj : GObj), h.groups[j]? = some gj → ∀ e ∈ g'.subs, ∀ e' ∈ gj.subs, e.2 ≠ e'.2 := by
    intro j gj hgj e hee e' he'
    have h1 := he e hee
    have := hi.bound gj (GInv.mem hgj) e' he'
    omega
  have cases' : ∀ (p : Nat) (gp : GObj), (h.groups ++ [g'])[p]? = some gp → h.groups[p]? = some gp ∨ (p = h.groups.length ∧ gp = g') := by
    intro p gp hp
    rcases lt_trichotomy p h.groups.length with hlt | heq | hgt
    · rw [List.getElem?_append_left hlt] at hp; exact .inl hp
    · subst heq
      rw [List.getElem?_append_right (le_refl _)] at hp
      simp only [Nat.sub_self, List.getElem?_cons_zero, Option.some.injEq] at hp
      exact .inr ⟨rfl, hp.symm⟩
    · rw [List.getElem?_eq_none (by simp; omega)] at hp; cases hp
  intro p q gp gq hpq hp hq e hep e' heq
  rcases cases' p gp hp with hp1 | ⟨hp1, rfl⟩ <;> rcases cases' q gq hq with hq1 | ⟨hq1, hgq⟩
  · exact hs p q gp gq hpq hp1 hq1 e hep e' heq
  · subst hgq; exact fun hh => key p gp hp1 e' heq e hep hh.symm
  · exact key q gq hq1 e hep e' heq
  · exact absurd (hp1.trans hq1.symm) hpq

theorem GSep.step {env : PyEnv} {py : PyParser} {h : GHeap} (hs : GSep h) (hi : GInv h) (op : GHeapOp) (hop : op.isSum = false) :
    GSep (h.step env py op) := by
  cases op with
  | new => exact hs.push hi _ _ (by simp)
  | append i e k =>
    simp only [GHeap.step, GHeap.append]
    cases hg : h.groups[i]? with
    | none => exact hs
    | some g =>
      simp only
      rcases hp : parse env py e g.simple g.chained with ⟨⟨si, ch⟩, r⟩
      cases r with
      | error er => exact hs.set hi hg _ (fun e he => .inl he)
      | ok x =>
        cases k with
        | none => exact hs.set hi hg _ (fun e he => .inl he)
        | some k =>
          simp only
          cases hd : dictGet g.subs k with
          | some r => exact hs.set hi hg _ (fun e he => .inl he)
          | none =>
            refine hs.set hi hg _ (fun e he => ?_)
            rcases mem_dictSet.mp he with rfl | ⟨he, -⟩
            · exact .inr (le_refl _)
            · exact .inl he
  | clear i =>
    simp only [GHeap.step, GHeap.clear]
    cases hg : h.groups[i]? with
    | none =>
      have : h.groups.modify i (fun _ => ⟨[], [], [], []⟩) = h.groups := by
        apply List.ext_getElem?
        intro n
        rw [List.getElem?_modify]
        by_cases hn : i = n
        · subst hn; simp [hg]
        · simp [hn]
      rw [this]; exact hs
    | some g =>
      have hl : i < h.groups.length := (List.getElem?_eq_some_iff.mp hg).1
      have : h.groups.modify i (fun _ => ⟨[], [], [], []⟩) = h.groups.set i ⟨[], [], [], []⟩ := by
        apply List.ext_getElem?
        intro n
        rw [List.getElem?_modify]
        by_cases hn : i = n
        · subst hn; simp [hl]
        · simp [hn]
      rw [this]
      exact hs.set hi hg _ (by simp)
  | drop i k =>
    simp only [GHeap.step, GHeap.drop]
    cases hg : h.groups[i]? with
    | none => exact hs
    | some g =>
      simp only
      cases hd : dictGet g.subs k with
      | none => exact hs
      | some r => exact hs.set hi hg _ (fun e he => .inl (mem_dictDel he))
  | copy i =>
    simp only [GHeap.step, GHeap.copy]
    cases hv : h.view i with
    | none => exact hs
    | some v =>
      obtain ⟨kf, hk⟩ := refsFrom_mem v.copy.subgroups h.store.length
      exact hs.push hi _ _ (fun e he => (hk e he).1)
  | plus i j => cases hop

theorem GSep.run {env : PyEnv} {py : PyParser} {h : GHeap} (hs : GSep h) (hi : GInv h) (ops : List GHeapOp)
    (hop : ∀ op ∈ ops, op.isSum = false) : GSep (h.run env py ops) := by
  induction ops generalizing h with
  | nil => exact hs
  | cons op ops ih => exact ih (hs.step hi op (hop op (by simp))) (hi.step op) (fun o ho => hop o (by simp [ho]))

/-- **C63 (partial: histories without sums)** A call changes no group but the one it is made on. -/
theorem C63_isolated_partial (env : PyEnv) (py : PyParser) (ops : List GHeapOp) (hno : ∀ op ∈ ops, op.isSum = false)
    (op : GHeapOp) (j : Nat) (v : ExprGroup) (hv : (GHeap.empty.run env py ops).view j = some v) (hj : op.target ≠ some j) :
    ((GHeap.empty.run env py ops).step env py op).view j = some v := by
  have hi := GInv.empty.run (env := env) (py := py) ops
  have hs : GSep (GHeap.empty.run env py ops) := GSep.run (by intro i j gi gj _ h; simp [GHeap.empty] at h) GInv.empty ops hno
  generalize GHeap.empty.run env py ops = h at *
  obtain ⟨g, hg, -⟩ := GHeap.view_some hv
  have hl := (List.getElem?_eq_some_iff.mp hg).1
  cases op with
  | new => exact (new_view hi hl).trans hv
  | append i e k =>
    have hij : j ≠ i := fun hh => hj (by simp [GHeapOp.target, hh])
    simp only [GHeap.step]
    cases hgi : h.groups[i]? with
    | none => unfold GHeap.append; rw [hgi]; exact hv
    | some gi =>
      rw [append_view_other hi hij hgi hg e k, hv]
      intro k' r _ hd hd'
      exact hs i j gi g (Ne.symm hij) hgi hg _ (dictGet_mem hd) _ (dictGet_mem hd') rfl
  | clear i =>
    have hij : j ≠ i := fun hh => hj (by simp [GHeapOp.target, hh])
    exact (clear_view_other h hij).trans hv
  | drop i k =>
    have hij : j ≠ i := fun hh => hj (by simp [GHeapOp.target, hh])
    exact (drop_view_other h hij k).trans hv
  | copy i =>
    simp only [GHeap.step]
    cases hvi : h.view i with
    | none => unfold GHeap.copy; rw [hvi]; exact hv
    | some w => exact ((copy_view hi hvi).2.2.2 j hl).trans hv
  | plus i i' =>
    simp only [GHeap.step]
    cases hvi : h.view i with
    | none =>
      have : h.groups[i]? = none := by simpa [GHeap.view] using hvi
      unfold GHeap.plus; rw [this]; exact hv
    | some w =>
      cases hvi' : h.view i' with
      | none =>
        have h2 : h.groups[i']? = none := by simpa [GHeap.view] using hvi'
        obtain ⟨gi, hgi, -⟩ := GHeap.view_some hvi
        unfold GHeap.plus; rw [hgi, h2]; exact hv
      | some w' => exact ((plus_view hi hvi hvi').2.2.2 j hl).trans hv

/-- the object of a sum -/
theorem plus_object {h : GHeap} (hi : GInv h) {i j : Nat} {a b : GObj} (ha : h.groups[i]? = some a) (hb : h.groups[j]? = some b) :
    ∃ gs, (h.plus i j).1.groups = h.groups ++ [gs] ∧
      (∀ k, dictGet a.subs k = none → dictGet gs.subs k = dictGet b.subs k) ∧
      (∀ k, dictGet b.subs k = none → dictGet gs.subs k = dictGet a.subs k) ∧
      (∀ k r, dictGet a.subs k ≠ none → dictGet b.subs k ≠ none → dictGet gs.subs k = some r → h.store.length ≤ r) := by
  have hma := GInv.mem ha
  have hmb := GInv.mem hb
  obtain ⟨ex, h1, h2, h3, ⟨kf, h4⟩, -⟩ := sumSubs_spec h b a.subs h.store ⟨[], by simp⟩ (hi.bound a hma) hi.fresh
  rw [plus_eq ha hb]
  refine ⟨_, rfl, ?_, ?_, ?_⟩
  · intro k hk
    have hka := dictGet_eq_none.mp hk
    simp only
    rw [dictGet_append, dictGet_filter_not, if_neg hka]
    have : dictGet (h.sumSubs b a.subs h.store).1 k = none := dictGet_eq_none.mpr (by rw [h3]; exact hka)
    rw [this]; simp
  · intro k hk
    simp only
    rw [dictGet_append, dictGet_filter_not, hk]
    have hnd : ((h.sumSubs b a.subs h.store).1.map (·.1)).Nodup := by rw [h3]; exact hi.nodup a hma
    have hq : dictGet (h.sumSubs b a.subs h.store).1 k = dictGet a.subs k := by
      cases hd : dictGet (h.sumSubs b a.subs h.store).1 k with
      | none =>
        have := dictGet_eq_none.mp hd
        rw [h3] at this
        exact (dictGet_eq_none.mpr this).symm
      | some r =>
        rcases h4 _ (dictGet_mem hd) with ⟨hm, -⟩ | ⟨-, -, -, hsome⟩
        · exact ((dictGet_eq_some (hi.nodup a hma)).mpr hm).symm
        · simp only [hk] at hsome; cases hsome
    rw [hq]
    split <;> simp
  · intro k r hka hkb hd
    simp only at hd
    have hka' : k ∈ a.subs.map (·.1) := by
      by_contra hc
      exact hka (dictGet_eq_none.mpr hc)
    rw [dictGet_append, dictGet_filter_not, if_pos hka', Option.or_none] at hd
    rcases h4 _ (dictGet_mem hd) with ⟨-, hn⟩ | ⟨hle, -⟩
    · exact absurd hn hkb
    · exact hle

theorem see_get_none {h : GHeap} {g : GObj} (k : Nat) : dictGet (textsOf (h.see g)).groups k = none ↔ dictGet g.subs k = none := by
  show dictGet ((g.subs.map fun e => (e.1, h.store.getD e.2 ⟨[], [], []⟩)).map fun e => (e.1, e.2.exprs.map (·.raw))) k = none ↔ _
  rw [dictGet_mapv (fun s : SubGroup => s.exprs.map (·.raw)), dictGet_mapv (fun r => h.store.getD r ⟨[], [], []⟩)]
  simp

/-- **C63 (partial: appending to a sum)** After every history of calls, appending an expression to `a + b`, ungrouped or to a group that
both or neither of `a` and `b` have, leaves all other groups as they are, in particular `a` and `b`. Missing: a group that
exactly one operand has; the claim is violated there (next theorem). -/
theorem C63_append_to_sum_partial (env : PyEnv) (py : PyParser) (ops : List GHeapOp) (i j n : Nat) (a b : ExprGroup)
    (ha : (GHeap.empty.run env py ops).view i = some a) (hb : (GHeap.empty.run env py ops).view j = some b)
    (hn : ((GHeap.empty.run env py ops).plus i j).2 = .ok n) (e : Str) (k : Option Nat)
    (hk : ∀ k', k = some k' → (dictGet (textsOf a).groups k' = none ↔ dictGet (textsOf b).groups k' = none))
    (m : Nat) (v : ExprGroup) (hm : (GHeap.empty.run env py ops).view m = some v) :
    (((GHeap.empty.run env py ops).plus i j).1.append env py n e k).1.view m = some v := by
  have hi := GInv.empty.run (env := env) (py := py) ops
  generalize GHeap.empty.run env py ops = h at *
  obtain ⟨h1, -, -, h4⟩ := plus_view hi ha hb
  rw [h1] at hn
  cases hn
  obtain ⟨ga, hga, rfl⟩ := GHeap.view_some ha
  obtain ⟨gb, hgb, rfl⟩ := GHeap.view_some hb
  obtain ⟨gm, hgm, -⟩ := GHeap.view_some hm
  have hlm := (List.getElem?_eq_some_iff.mp hgm).1
  obtain ⟨gs, hgs, p1, p2, p3⟩ := plus_object hi hga hgb
  have hi' := hi.plus i j
  have hgn : (h.plus i j).1.groups[h.groups.length]? = some gs := by rw [hgs]; simp
  have hgm' : (h.plus i j).1.groups[m]? = some gm := by rw [hgs, List.getElem?_append_left hlm]; exact hgm
  rw [append_view_other hi' (by omega) hgn hgm' e k, h4 m hlm, hm]
  intro k' r hkk hd hd'
  have hlt : r < h.store.length := hi.bound gm (GInv.mem hgm) _ (dictGet_mem hd')
  have hiff := hk k' hkk
  rw [see_get_none, see_get_none] at hiff
  by_cases hna : dictGet ga.subs k' = none
  · rw [p1 k' hna, hiff.mp hna] at hd; cases hd
  · have := p3 k' r hna (fun hb => hna (hiff.mpr hb)) hd
    omega

theorem append_shared {env : PyEnv} {py : PyParser} {h : GHeap} (hi : GInv h) {i j : Nat} (hij : j ≠ i) {gi gj : GObj}
    (hgi : h.groups[i]? = some gi) (hgj : h.groups[j]? = some gj) (e : Str) {k r : Nat}
    (hdi : dictGet gi.subs k = some r) (hdj : dictGet gj.subs k = some r) (hok : (h.append env py i e (some k)).2 = .ok ()) :
    ∃ v' t, (h.append env py i e (some k)).1.view j = some v' ∧ dictGet (textsOf (h.see gj)).groups k = some t ∧
      dictGet (textsOf v').groups k = some (t ++ [e]) := by
  unfold GHeap.append at hok ⊢
  rw [hgi] at hok ⊢
  simp only at hok ⊢
  rcases hp : parse env py e gi.simple gi.chained with ⟨⟨si, ch⟩, rr⟩
  rw [hp] at hok
  cases rr with
  | error er => cases hok
  | ok x =>
    have hraw := (parse_origin env py e _ _ _ _ hp).1
    simp only [hdi]
    have hsub : dictGet (h.see gj).subgroups k = some (h.store.getD r ⟨[], [], []⟩) := by
      show dictGet (gj.subs.map fun e => (e.1, h.store.getD e.2 ⟨[], [], []⟩)) k = _
      rw [dictGet_mapv (fun r => h.store.getD r ⟨[], [], []⟩), hdj]; rfl
    refine ⟨GHeap.see ⟨h.groups.set i { gi with simple := si, chained := ch }, h.store.modify r fun s => s.append x⟩ gj,
      (h.store.getD r ⟨[], [], []⟩).exprs.map (·.raw), ?_, ?_, ?_⟩
    · rw [view_set_other hij, hgj]; rfl
    · simp only [textsOf]
      rw [dictGet_mapv (fun s : SubGroup => s.exprs.map (·.raw)), hsub]; rfl
    · rw [see_modify hi (GInv.mem hgj) hdj x _ gj rfl, hsub]
      simp only [textsOf]
      rw [dictGet_mapv (fun s : SubGroup => s.exprs.map (·.raw)), dictGet_dictSet]
      simp [SubGroup.append, hraw]

/-- **C63 (violated, exactly when)** After every history of calls: if exactly one of `a` and `b` has a group, an expression
appended to this group of `a + b` is also appended to the group in that operand. -/
theorem C63_shared_refuted (env : PyEnv) (py : PyParser) (ops : List GHeapOp) (i j n : Nat) (a b : ExprGroup)
    (ha : (GHeap.empty.run env py ops).view i = some a) (hb : (GHeap.empty.run env py ops).view j = some b)
    (hn : ((GHeap.empty.run env py ops).plus i j).2 = .ok n) (e : Str) (k : Nat)
    (hok : (((GHeap.empty.run env py ops).plus i j).1.append env py n e (some k)).2 = .ok ()) :
    (∀ t, dictGet (textsOf a).groups k = some t → dictGet (textsOf b).groups k = none →
      ∃ a', (((GHeap.empty.run env py ops).plus i j).1.append env py n e (some k)).1.view i = some a' ∧
        dictGet (textsOf a').groups k = some (t ++ [e])) ∧
    (∀ t, dictGet (textsOf a).groups k = none → dictGet (textsOf b).groups k = some t →
      ∃ b', (((GHeap.empty.run env py ops).plus i j).1.append env py n e (some k)).1.view j = some b' ∧
        dictGet (textsOf b').groups k = some (t ++ [e])) := by
  have hi := GInv.empty.run (env := env) (py := py) ops
  generalize GHeap.empty.run env py ops = h at *
  obtain ⟨h1, -, -, h4⟩ := plus_view hi ha hb
  rw [h1] at hn
  cases hn
  obtain ⟨ga, hga, rfl⟩ := GHeap.view_some ha
  obtain ⟨gb, hgb, rfl⟩ := GHeap.view_some hb
  have hla := (List.getElem?_eq_some_iff.mp hga).1
  have hlb := (List.getElem?_eq_some_iff.mp hgb).1
  obtain ⟨gs, hgs, p1, p2, p3⟩ := plus_object hi hga hgb
  have hi' := hi.plus i j
  have hgn : (h.plus i j).1.groups[h.groups.length]? = some gs := by rw [hgs]; simp
  have see' : ∀ m g, h.groups[m]? = some g → m < h.groups.length → (h.plus i j).1.groups[m]? = some g ∧ (h.plus i j).1.see g = h.see g := by
    intro m g hg hl
    have hg' : (h.plus i j).1.groups[m]? = some g := by rw [hgs, List.getElem?_append_left hl]; exact hg
    refine ⟨hg', ?_⟩
    have := h4 m hl
    simpa [GHeap.view, hg, hg'] using this
  constructor
  · intro t hta htb
    rw [see_get_none] at htb
    obtain ⟨q1, q2⟩ := see' i ga hga hla
    cases hd : dictGet ga.subs k with
    | none => rw [(see_get_none k).mpr hd] at hta; cases hta
    | some r =>
      obtain ⟨v', t', w1, w2, w3⟩ := append_shared hi' (j := i) (by omega) hgn q1 e ((p2 k htb).trans hd) hd hok
      rw [q2, hta] at w2
      cases w2
      exact ⟨v', w1, w3⟩
  · intro t hta htb
    rw [see_get_none] at hta
    obtain ⟨q1, q2⟩ := see' j gb hgb hlb
    cases hd : dictGet gb.subs k with
    | none => rw [(see_get_none k).mpr hd] at htb; cases htb
    | some r =>
      obtain ⟨v', t', w1, w2, w3⟩ := append_shared hi' (j := j) (by omega) hgn q1 e ((p1 k hta).trans hd) hd hok
      rw [q2, htb] at w2
      cases w2
      exact ⟨v', w1, w3⟩

/-- a case of C63: `g` with the expression `x` in group 0, `s = g + empty`; appending `x` to group 0 of `s` gives `g` a second `x` -/
example (env : PyEnv) :
    let ops : List GHeapOp := [.new, .new, .append 0 exX (some 0)]
    let h := GHeap.empty.run env exPy ops
    ∃ a b, h.view 0 = some a ∧ h.view 1 = some b ∧ (textsOf a).groups = [(0, [exX])] ∧ (textsOf b).groups = [] ∧
      (h.plus 0 1).2 = .ok 2 ∧ ((h.plus 0 1).1.append env exPy 2 exX (some 0)).2 = .ok () ∧
      ∃ a', ((h.plus 0 1).1.append env exPy 2 exX (some 0)).1.view 0 = some a' ∧ dictGet (textsOf a').groups 0 = some [exX, exX] := by
  intro ops h
  have a1 : parse env exPy exX [] [] = (([exX], []), .ok ⟨exX, .name exX, [], [], none, [exX]⟩) :=
    exX_append env none ExprGroup.empty (by simp [ExprGroup.empty])
  have a2 : parse env exPy exX [exX] [] = (([exX], []), .ok ⟨exX, .name exX, [], [], none, [exX]⟩) := by
    have := exX_append env none ⟨[], [exX], [], []⟩ (by simp)
    simpa [setAdd] using this
  have hh : h = ⟨[⟨[], [exX], [], [(0, 0)]⟩, ⟨[], [], [], []⟩], [⟨[exX], [], [⟨exX, .name exX, [], [], none, [exX]⟩]⟩]⟩ := by
    simp [h, ops, GHeap.run, GHeap.step, GHeap.new, GHeap.append, GHeap.empty, a1, dictGet, dictSet, SubGroup.append, setUnion, setAdd]
  have hp : h.plus 0 1 = (⟨[⟨[], [exX], [], [(0, 0)]⟩, ⟨[], [], [], []⟩, ⟨[], [exX], [], [(0, 0)]⟩],
      [⟨[exX], [], [⟨exX, .name exX, [], [], none, [exX]⟩]⟩]⟩, .ok 2) := by
    rw [hh]
    simp [GHeap.plus, GHeap.sumSubs, dictGet, setUnion]
  have h2 : (h.plus 0 1).2 = .ok 2 := by rw [hp]
  have hok : ((h.plus 0 1).1.append env exPy 2 exX (some 0)).2 = .ok () := by
    rw [hp]
    simp [GHeap.append, a2, dictGet]
  have hva : h.view 0 = some ⟨[], [exX], [], [(0, ⟨[exX], [], [⟨exX, .name exX, [], [], none, [exX]⟩]⟩)]⟩ := by
    rw [hh]; simp [GHeap.view, GHeap.see]
  have hvb : h.view 1 = some ⟨[], [], [], []⟩ := by
    rw [hh]; simp [GHeap.view, GHeap.see]
  refine ⟨_, _, hva, hvb, rfl, rfl, h2, hok, ?_⟩
  exact (C63_shared_refuted env exPy ops 0 1 2 _ _ hva hvb h2 exX 0 hok).1 [exX] rfl rfl

/-- a case of `C63_isolated_partial`: appending to a group leaves its copy as it is -/
example (env : PyEnv) (e : Str) (k : Option Nat) :
    let h := GHeap.empty.run env exPy [.new, .append 0 exX (some 0), .copy 0]
    ∃ v, h.view 1 = some v ∧ (textsOf v).groups = [(0, [exX])] ∧ (h.step env exPy (.append 0 e k)).view 1 = some v := by
  intro h
  have a1 : parse env exPy exX [] [] = (([exX], []), .ok ⟨exX, .name exX, [], [], none, [exX]⟩) :=
    exX_append env none ExprGroup.empty (by simp [ExprGroup.empty])
  have hv : h.view 1 = some ⟨[], [], [], [(0, ⟨[exX], [], [⟨exX, .name exX, [], [], none, [exX]⟩]⟩)]⟩ := by
    simp [h, GHeap.run, GHeap.step, GHeap.new, GHeap.append, GHeap.empty, a1, dictGet, dictSet, SubGroup.append, setUnion, setAdd,
      GHeap.copy, GHeap.view, GHeap.see, ExprGroup.copy, SubGroup.rebuild, refsFrom]
  exact ⟨_, hv, rfl, C63_isolated_partial env exPy _ (by simp [GHeapOp.isSum]) _ 1 _ hv (by simp [GHeapOp.target])⟩

end Cheval
