import Verif.Core.GroupHeap

/-!
# C63: sums of expression groups
-/
namespace Cheval
open Spec

/-- what holds after every history of calls -/
structure GInv (h : GHeap) : Prop where
  nodup : ∀ g ∈ h.groups, (g.subs.map (·.1)).Nodup
  bound : ∀ g ∈ h.groups, ∀ e ∈ g.subs, e.2 < h.store.length
  keyed : ∃ kf : Nat → Nat, ∀ g ∈ h.groups, ∀ e ∈ g.subs, kf e.2 = e.1
  fresh : ∀ s ∈ h.store, s.rebuild = s

theorem GInv.empty : GInv GHeap.empty := by
  constructor <;> simp [GHeap.empty]

theorem rebuild_append (s : SubGroup) (x : Expression) (h : s.rebuild = s) : (s.append x).rebuild = s.append x := by
  have : (s.append x).exprs = s.exprs ++ [x] := rfl
  unfold SubGroup.rebuild at h ⊢
  rw [this, List.foldl_append, h]; rfl

theorem rebuild_exprs (s : SubGroup) : s.rebuild.exprs = s.exprs := by
  simp [SubGroup.rebuild, rebuild_eq]

theorem rebuild_rebuild (s : SubGroup) : s.rebuild.rebuild = s.rebuild := by
  have h := rebuild_exprs s
  show s.rebuild.exprs.foldl SubGroup.append ⟨[], [], []⟩ = _
  rw [h]; rfl

theorem plus_exprs (s t : SubGroup) : (s.plus t).exprs = s.exprs ++ t.exprs := by
  simp [SubGroup.plus, rebuild_eq, rebuild_exprs]

theorem rebuild_plus (s t : SubGroup) : (s.plus t).rebuild = s.plus t := by
  conv_lhs => unfold SubGroup.rebuild
  rw [plus_exprs, List.foldl_append]; rfl

/-- a step that keeps entries or adds new objects -/
theorem GInv.of {h h' : GHeap} (hi : GInv h) (nd : ∀ g ∈ h'.groups, (g.subs.map (·.1)).Nodup)
    (len : h.store.length ≤ h'.store.length) (kf : Nat → Nat)
    (ent : ∀ g ∈ h'.groups, ∀ e ∈ g.subs, (∃ g0 ∈ h.groups, e ∈ g0.subs) ∨ (h.store.length ≤ e.2 ∧ e.2 < h'.store.length ∧ kf e.2 = e.1))
    (fr : ∀ s ∈ h'.store, s.rebuild = s) : GInv h' := by
  obtain ⟨kf0, h0⟩ := hi.keyed
  refine ⟨nd, ?_, ⟨fun r => if r < h.store.length then kf0 r else kf r, ?_⟩, fr⟩
  · intro g hg e he
    rcases ent g hg e he with ⟨g0, hg0, he0⟩ | ⟨-, h2, -⟩
    · exact lt_of_lt_of_le (hi.bound g0 hg0 e he0) len
    · exact h2
  · intro g hg e he
    rcases ent g hg e he with ⟨g0, hg0, he0⟩ | ⟨h1, -, h3⟩
    · have := hi.bound g0 hg0 e he0
      simp only [this, if_true]
      exact h0 g0 hg0 e he0
    · simp only [not_lt.mpr h1, if_false]
      exact h3

theorem GInv.mem {h : GHeap} {i : Nat} {g : GObj} (hg : h.groups[i]? = some g) : g ∈ h.groups := List.mem_of_getElem? hg

theorem mem_set_sub {l : List GObj} {i : Nat} {g x : GObj} (hx : x ∈ l.set i g) : x ∈ l ∨ x = g := List.mem_or_eq_of_mem_set hx

theorem modify_rebuild {st : List SubGroup} (h : ∀ s ∈ st, s.rebuild = s) (r : Nat) (x : Expression) :
    ∀ s ∈ st.modify r (fun s => s.append x), s.rebuild = s := by
  intro s hs
  rw [List.mem_iff_getElem?] at hs
  obtain ⟨n, hn⟩ := hs
  rw [List.getElem?_modify] at hn
  cases hm : st[n]? with
  | none => rw [hm] at hn; cases hn
  | some t =>
    have ht := h t (List.mem_of_getElem? hm)
    rw [hm] at hn
    have hn : (if r = n then t.append x else t) = s := by simpa using hn
    subst hn
    split
    · exact rebuild_append t x ht
    · exact ht

theorem GInv.append {env : PyEnv} {py : PyParser} {h : GHeap} (hi : GInv h) (i : Nat) (e : Str) (k : Option Nat) :
    GInv (h.append env py i e k).1 := by
  unfold GHeap.append
  cases hg : h.groups[i]? with
  | none => exact hi
  | some g =>
    have hm := GInv.mem hg
    simp only
    rcases hp : parse env py e g.simple g.chained with ⟨⟨si, ch⟩, r⟩
    cases r with
    | error er =>
      refine hi.of ?_ (le_refl _) (fun _ => 0) ?_ hi.fresh
      · intro x hx
        rcases mem_set_sub hx with hx | rfl
        · exact hi.nodup x hx
        · exact hi.nodup g hm
      · intro x hx y hy
        rcases mem_set_sub hx with hx | rfl
        · exact .inl ⟨x, hx, hy⟩
        · exact .inl ⟨g, hm, hy⟩
    | ok x =>
      cases k with
      | none =>
        refine hi.of ?_ (le_refl _) (fun _ => 0) ?_ hi.fresh
        · intro x hx
          rcases mem_set_sub hx with hx | rfl
          · exact hi.nodup x hx
          · exact hi.nodup g hm
        · intro x hx y hy
          rcases mem_set_sub hx with hx | rfl
          · exact .inl ⟨x, hx, hy⟩
          · exact .inl ⟨g, hm, hy⟩
      | some k =>
        simp only
        cases hd : dictGet g.subs k with
        | some r =>
          refine hi.of ?_ (by simp) (fun _ => 0) ?_ (modify_rebuild hi.fresh r x)
          · intro x hx
            rcases mem_set_sub hx with hx | rfl
            · exact hi.nodup x hx
            · exact hi.nodup g hm
          · intro x hx y hy
            rcases mem_set_sub hx with hx | rfl
            · exact .inl ⟨x, hx, hy⟩
            · exact .inl ⟨g, hm, hy⟩
        | none =>
          refine hi.of ?_ (by simp) (fun _ => k) ?_ ?_
          · intro x hx
            rcases mem_set_sub hx with hx | rfl
            · exact hi.nodup x hx
            · exact dictSet_keys_nodup (hi.nodup g hm) _ _
          · intro x hx y hy
            rcases mem_set_sub hx with hx | rfl
            · exact .inl ⟨x, hx, hy⟩
            · rcases mem_dictSet.mp hy with rfl | ⟨hy, -⟩
              · exact .inr ⟨le_refl _, by simp, rfl⟩
              · exact .inl ⟨g, hm, hy⟩
          · intro s hs
            rcases List.mem_append.mp hs with hs | hs
            · exact hi.fresh s hs
            · rw [List.mem_singleton] at hs; subst hs
              exact rebuild_append _ _ rfl

theorem GInv.clear {h : GHeap} (hi : GInv h) (i : Nat) : GInv (h.clear i) := by
  have hx : ∀ x ∈ (h.clear i).groups, x ∈ h.groups ∨ x = ⟨[], [], [], []⟩ := by
    intro x hx
    simp only [GHeap.clear] at hx
    rw [List.mem_iff_getElem?] at hx
    obtain ⟨n, hn⟩ := hx
    rw [List.getElem?_modify] at hn
    cases hm : h.groups[n]? with
    | none => rw [hm] at hn; cases hn
    | some t =>
      rw [hm] at hn
      have hn : (if i = n then (⟨[], [], [], []⟩ : GObj) else t) = x := by simpa using hn
      subst hn
      split
      · exact .inr rfl
      · exact .inl (List.mem_of_getElem? hm)
  refine hi.of ?_ (le_refl _) (fun _ => 0) ?_ hi.fresh
  · intro x hx'
    rcases hx x hx' with hx | rfl
    · exact hi.nodup x hx
    · simp
  · intro x hx' y hy
    rcases hx x hx' with hx | rfl
    · exact .inl ⟨x, hx, hy⟩
    · simp at hy

theorem dictDel_keys_nodup {K V : Type} [DecidableEq K] {d : List (K × V)} (h : (d.map (·.1)).Nodup) (k : K) :
    ((dictDel d k).map (·.1)).Nodup := h.sublist (List.Sublist.map _ List.filter_sublist)

theorem GInv.drop {h : GHeap} (hi : GInv h) (i k : Nat) : GInv (h.drop i k).1 := by
  unfold GHeap.drop
  cases hg : h.groups[i]? with
  | none => exact hi
  | some g =>
    have hm := GInv.mem hg
    simp only
    cases hd : dictGet g.subs k with
    | none => exact hi
    | some r =>
      refine hi.of ?_ (le_refl _) (fun _ => 0) ?_ hi.fresh
      · intro x hx
        rcases mem_set_sub hx with hx | rfl
        · exact hi.nodup x hx
        · exact dictDel_keys_nodup (hi.nodup g hm) k
      · intro x hx y hy
        rcases mem_set_sub hx with hx | rfl
        · exact .inl ⟨x, hx, hy⟩
        · exact .inl ⟨g, hm, mem_dictDel hy⟩

theorem refsFrom_keys (l : List (Nat × SubGroup)) (n : Nat) : (refsFrom n l).map (·.1) = l.map (·.1) := by
  induction l generalizing n with
  | nil => rfl
  | cons e l ih => simp [refsFrom, ih]

theorem refsFrom_mem (l : List (Nat × SubGroup)) (n : Nat) : ∃ kf : Nat → Nat, ∀ e ∈ refsFrom n l, n ≤ e.2 ∧ e.2 < n + l.length ∧ kf e.2 = e.1 := by
  induction l generalizing n with
  | nil => exact ⟨fun _ => 0, by simp [refsFrom]⟩
  | cons e l ih =>
    obtain ⟨kf, hk⟩ := ih (n + 1)
    refine ⟨fun r => if r = n then e.1 else kf r, ?_⟩
    intro y hy
    rcases List.mem_cons.mp hy with rfl | hy
    · simp
    · obtain ⟨h1, h2, h3⟩ := hk y hy
      refine ⟨by omega, by simp; omega, ?_⟩
      simp only [show y.2 ≠ n by omega, if_false]; exact h3

theorem refsFrom_see (l : List (Nat × SubGroup)) (st : List SubGroup) (d : SubGroup) :
    (refsFrom st.length l).map (fun e => (e.1, (st ++ l.map (·.2)).getD e.2 d)) = l := by
  induction l generalizing st with
  | nil => rfl
  | cons e l ih =>
    have := ih (st ++ [e.2])
    simp only [List.length_append, List.length_singleton, List.append_assoc, List.singleton_append] at this
    simp only [refsFrom, List.map_cons, this]
    congr 1
    simp

theorem GHeap.view_some {h : GHeap} {i : Nat} {v : ExprGroup} (hv : h.view i = some v) : ∃ g, h.groups[i]? = some g ∧ h.see g = v := by
  unfold GHeap.view at hv
  cases hg : h.groups[i]? with
  | none => rw [hg] at hv; cases hv
  | some g => rw [hg] at hv; exact ⟨g, rfl, by simpa using hv⟩

theorem see_keys (h : GHeap) (g : GObj) : (h.see g).subgroups.map (·.1) = g.subs.map (·.1) := by
  simp [GHeap.see]

theorem GInv.copy {h : GHeap} (hi : GInv h) (i : Nat) : GInv (h.copy i).1 := by
  unfold GHeap.copy
  cases hv : h.view i with
  | none => exact hi
  | some v =>
    obtain ⟨g, hg, rfl⟩ := GHeap.view_some hv
    have hm := GInv.mem hg
    obtain ⟨kf, hk⟩ := refsFrom_mem (h.see g).copy.subgroups h.store.length
    refine hi.of ?_ (by simp) kf ?_ ?_
    · intro x hx
      rcases List.mem_append.mp hx with hx | hx
      · exact hi.nodup x hx
      · rw [List.mem_singleton] at hx; subst hx
        simp only
        rw [refsFrom_keys]
        have : (h.see g).copy.subgroups.map (·.1) = g.subs.map (·.1) := by
          simp [ExprGroup.copy, GHeap.see, Function.comp_def]
        rw [this]; exact hi.nodup g hm
    · intro x hx y hy
      rcases List.mem_append.mp hx with hx | hx
      · exact .inl ⟨x, hx, hy⟩
      · rw [List.mem_singleton] at hx; subst hx
        obtain ⟨h1, h2, h3⟩ := hk y hy
        exact .inr ⟨h1, by simpa using h2, h3⟩
    · intro s hs
      rcases List.mem_append.mp hs with hs | hs
      · exact hi.fresh s hs
      · simp only [ExprGroup.copy, List.map_map, List.mem_map, Function.comp_apply] at hs
        obtain ⟨e, -, rfl⟩ := hs
        exact rebuild_rebuild _

/-- what the loop over the keys of a sum does -/
theorem sumSubs_spec (h : GHeap) (b : GObj) (es : List (Nat × Nat)) (st : List SubGroup)
    (hst : ∃ ex, st = h.store ++ ex) (hb : ∀ e ∈ es, e.2 < h.store.length) (hf : ∀ s ∈ st, s.rebuild = s) :
    ∃ ex, (h.sumSubs b es st).2 = st ++ ex ∧ (∀ s ∈ (h.sumSubs b es st).2, s.rebuild = s) ∧
      ((h.sumSubs b es st).1.map (·.1) = es.map (·.1)) ∧
      (∃ kf : Nat → Nat, ∀ e ∈ (h.sumSubs b es st).1, (e ∈ es ∧ dictGet b.subs e.1 = none) ∨
        (st.length ≤ e.2 ∧ e.2 < (h.sumSubs b es st).2.length ∧ kf e.2 = e.1 ∧ (dictGet b.subs e.1).isSome)) ∧
      (h.sumSubs b es st).1.map (fun e => (e.1, (h.sumSubs b es st).2.getD e.2 ⟨[], [], []⟩)) =
        es.map fun e => match dictGet b.subs e.1 with
          | some r' => (e.1, (h.store.getD e.2 ⟨[], [], []⟩).plus (h.store.getD r' ⟨[], [], []⟩))
          | none => (e.1, h.store.getD e.2 ⟨[], [], []⟩) := by
  induction es generalizing st with
  | nil => exact ⟨[], by simp [GHeap.sumSubs], by simpa [GHeap.sumSubs] using hf, rfl, ⟨fun _ => 0, by simp [GHeap.sumSubs]⟩, rfl⟩
  | cons e es ih =>
    obtain ⟨k, r⟩ := e
    have hr : r < h.store.length := hb (k, r) (by simp)
    have hb' : ∀ e ∈ es, e.2 < h.store.length := fun e he => hb e (by simp [he])
    obtain ⟨ex0, hex0⟩ := hst
    cases hd : dictGet b.subs k with
    | none =>
      obtain ⟨ex, h1, h2, h3, ⟨kf, h4⟩, h5⟩ := ih st ⟨ex0, hex0⟩ hb' hf
      have hs : h.sumSubs b ((k, r) :: es) st = ((k, r) :: (h.sumSubs b es st).1, (h.sumSubs b es st).2) := by
        simp [GHeap.sumSubs, hd]
      rw [hs]
      refine ⟨ex, h1, h2, by simp [h3], ⟨kf, ?_⟩, ?_⟩
      · intro y hy
        rcases List.mem_cons.mp hy with rfl | hy
        · exact .inl ⟨by simp, hd⟩
        · rcases h4 y hy with ⟨h, h'⟩ | h
          · exact .inl ⟨by simp [h], h'⟩
          · exact .inr h
      · simp only [List.map_cons, h5, hd]
        congr 2
        rw [h1, hex0]
        simp [List.getElem?_append_left, hr]
    | some r' =>
      set x := (h.store.getD r ⟨[], [], []⟩).plus (h.store.getD r' ⟨[], [], []⟩) with hxd
      obtain ⟨ex, h1, h2, h3, ⟨kf, h4⟩, h5⟩ := ih (st ++ [x]) ⟨ex0 ++ [x], by rw [hex0]; simp⟩ hb' (by
        intro s hs
        rcases List.mem_append.mp hs with hs | hs
        · exact hf s hs
        · rw [List.mem_singleton] at hs; subst hs; exact rebuild_plus _ _)
      have hs : h.sumSubs b ((k, r) :: es) st = ((k, st.length) :: (h.sumSubs b es (st ++ [x])).1, (h.sumSubs b es (st ++ [x])).2) := by
        simp [GHeap.sumSubs, hd, hxd]
      rw [hs]
      refine ⟨x :: ex, by simp [h1], h2, by simp [h3], ⟨fun n => if n = st.length then k else kf n, ?_⟩, ?_⟩
      · intro y hy
        rcases List.mem_cons.mp hy with rfl | hy
        · refine .inr ⟨le_refl _, ?_, by simp, by simp [hd]⟩
          simp only; rw [h1]; simp
        · rcases h4 y hy with ⟨h, h'⟩ | ⟨q1, q2, q3, q4⟩
          · exact .inl ⟨by simp [h], h'⟩
          · simp only [List.length_append, List.length_singleton] at q1
            refine .inr ⟨by omega, q2, ?_, q4⟩
            simp only [show y.2 ≠ st.length by omega, if_false]; exact q3
      · simp only [List.map_cons, h5, hd]
        congr 2
        rw [h1, hxd]
        simp

theorem plus_eq {h : GHeap} {i j : Nat} {a b : GObj} (ha : h.groups[i]? = some a) (hb : h.groups[j]? = some b) :
    h.plus i j = (⟨h.groups ++ [⟨a.ungrouped ++ b.ungrouped, setUnion a.simple b.simple, setUnion a.chained b.chained,
        (h.sumSubs b a.subs h.store).1 ++ b.subs.filter fun e => decide (e.1 ∉ a.subs.map (·.1))⟩], (h.sumSubs b a.subs h.store).2⟩,
        .ok h.groups.length) := by
  unfold GHeap.plus
  rw [ha, hb]

theorem GInv.plus {h : GHeap} (hi : GInv h) (i j : Nat) : GInv (h.plus i j).1 := by
  cases ha : h.groups[i]? with
  | none =>
    have : h.plus i j = (h, .error .attribute) := by
      unfold GHeap.plus
      rw [ha]
    rw [this]; exact hi
  | some a =>
    cases hb : h.groups[j]? with
    | none =>
      have : h.plus i j = (h, .error .attribute) := by
        unfold GHeap.plus
        rw [ha, hb]
      rw [this]; exact hi
    | some b =>
      rw [plus_eq ha hb]
      have hma := GInv.mem ha
      have hmb := GInv.mem hb
      obtain ⟨ex, h1, h2, h3, ⟨kf, h4⟩, -⟩ := sumSubs_spec h b a.subs h.store ⟨[], by simp⟩ (hi.bound a hma) hi.fresh
      refine hi.of ?_ (by simp only; rw [h1]; simp) kf ?_ h2
      · intro x hx
        rcases List.mem_append.mp hx with hx | hx
        · exact hi.nodup x hx
        · rw [List.mem_singleton] at hx; subst hx
          simp only [List.map_append]
          rw [List.nodup_append]
          refine ⟨by rw [h3]; exact hi.nodup a hma, (hi.nodup b hmb).sublist (List.Sublist.map _ List.filter_sublist), ?_⟩
          intro p hp q hq
          rw [h3] at hp
          obtain ⟨e, he, rfl⟩ := List.mem_map.mp hq
          have := (List.mem_filter.mp he).2
          simp only [decide_eq_true_eq] at this
          rintro rfl
          exact this hp
      · intro x hx y hy
        rcases List.mem_append.mp hx with hx | hx
        · exact .inl ⟨x, hx, hy⟩
        · rw [List.mem_singleton] at hx; subst hx
          rcases List.mem_append.mp hy with hy | hy
          · rcases h4 y hy with ⟨h, -⟩ | ⟨q1, q2, q3, -⟩
            · exact .inl ⟨a, hma, h⟩
            · exact .inr ⟨q1, q2, q3⟩
          · exact .inl ⟨b, hmb, (List.mem_filter.mp hy).1⟩

theorem GInv.new {h : GHeap} (hi : GInv h) : GInv h.new := by
  refine hi.of ?_ (le_refl _) (fun _ => 0) ?_ hi.fresh
  · intro x hx
    rcases List.mem_append.mp hx with hx | hx
    · exact hi.nodup x hx
    · rw [List.mem_singleton] at hx; subst hx; simp
  · intro x hx y hy
    rcases List.mem_append.mp hx with hx | hx
    · exact .inl ⟨x, hx, hy⟩
    · rw [List.mem_singleton] at hx; subst hx; simp at hy

theorem GInv.step {env : PyEnv} {py : PyParser} {h : GHeap} (hi : GInv h) (op : GHeapOp) : GInv (h.step env py op) := by
  cases op with
  | new => exact hi.new
  | append i e k => exact hi.append i e k
  | clear i => exact hi.clear i
  | drop i k => exact hi.drop i k
  | copy i => exact hi.copy i
  | plus i j => exact hi.plus i j

theorem GInv.run {env : PyEnv} {py : PyParser} {h : GHeap} (hi : GInv h) (ops : List GHeapOp) : GInv (h.run env py ops) := by
  induction ops generalizing h with
  | nil => exact hi
  | cons op ops ih => exact ih (hi.step op)

end Cheval
