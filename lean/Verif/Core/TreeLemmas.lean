import Verif.Spec.ChoiceTree
import Mathlib.Tactic.Common

/-!
Helper lemmas: the heap of choice nodes refines the flat list of records (no property statements here).
-/
set_option linter.unusedSectionVars false
namespace Cheval
open FOps Spec
variable {F : Type} [FOps F]

theorem joinDots_inj {p q : List Name} (hp : p ≠ []) (hq : q ≠ []) (hpd : ∀ n ∈ p, '.' ∉ n) (hqd : ∀ n ∈ q, '.' ∉ n)
    (h : joinDots p = joinDots q) : p = q := by
  rw [← List.splitOn_intercalate '.' hpd hp, ← List.splitOn_intercalate '.' hqd hq]
  unfold joinDots at h
  rw [h]

theorem joinDots_snoc (p : List Name) (hp : p ≠ []) (n : Name) : joinDots (p ++ [n]) = joinDots p ++ ['.'] ++ n := by
  unfold joinDots
  induction p with
  | nil => exact absurd rfl hp
  | cons a p ih =>
    cases p with
    | nil => simp
    | cons b p =>
      have := ih (by simp)
      simp only [List.cons_append] at this
      simp only [List.cons_append, List.intercalate_cons_cons, this, List.append_assoc]

@[simp] theorem joinDots_singleton (n : Name) : joinDots [n] = n := by simp [joinDots]

theorem nodeLegal_iff (n : Name) (s : F) : nodeLegal n s = true ↔ Legal n s := by
  simp [nodeLegal, Legal, and_assoc]

/-- paths only depend on names and parents -/
theorem nodePath_congr (nodes nodes' : List (Node F)) (i : Nat)
    (h : ∀ j ≤ i, (nodes[j]?).map (fun nd => (nd.name, nd.parent)) = (nodes'[j]?).map (fun nd => (nd.name, nd.parent))) :
    nodePath nodes i = nodePath nodes' i := by
  induction i using Nat.strong_induction_on with
  | _ i ih =>
    have hi := h i (Nat.le_refl i)
    rw [nodePath, nodePath]
    cases h1 : nodes[i]? with
    | none =>
      rw [h1] at hi
      cases h2 : nodes'[i]? with
      | none => rfl
      | some b => rw [h2] at hi; cases hi
    | some a =>
      rw [h1] at hi
      cases h2 : nodes'[i]? with
      | none => rw [h2] at hi; cases hi
      | some b =>
        rw [h2] at hi
        simp only [Option.map_some, Option.some.injEq, Prod.mk.injEq] at hi
        obtain ⟨e1, e2⟩ := hi
        simp only [e1, e2]
        cases hb : b.parent with
        | none => rfl
        | some p =>
          simp only
          split
          · rename_i hlt
            rw [ih p hlt (fun j hj => h j (by omega))]
          · rfl

/-- the heap of nodes and the flat list agree -/
structure TreeRel (st : TreeSt F) (s : Choices F) : Prop where
  len : st.nodes.length = s.made.length
  node : ∀ i nd, st.nodes[i]? = some nd → ∃ p, s.made[i]? = some p ∧ nodePath st.nodes i = p ∧ nd.level = p.length ∧
    (match nd.parent with
      | none => p = [nd.name]
      | some q => q < i ∧ ∃ pq, s.made[q]? = some pq ∧ p = pq ++ [nd.name])
  made_ok : ∀ p ∈ s.made, p ≠ [] ∧ ∀ n ∈ p, '.' ∉ n
  all : st.all = s.live.map (fun r => (joinDots r.path, r.handle))
  live_made : ∀ r ∈ s.live, s.made[r.handle]? = some r.path
  live_nodup : (s.live.map (·.path)).Nodup
  scale : ∀ r ∈ s.live, ∀ nd, st.nodes[r.handle]? = some nd → nd.scale = r.scale
  scale_ok : ∀ r ∈ s.live, lt zero r.scale = true ∧ le r.scale one = true
  top_nodup : st.top.Nodup
  top_mem : ∀ h, h ∈ st.top ↔ ∃ r ∈ s.live, r.handle = h ∧ r.path.length = 1
  parent_live : ∀ r ∈ s.live, ∀ nd q, st.nodes[r.handle]? = some nd → nd.parent = some q → ∃ r' ∈ s.live, r'.handle = q
  child_nodup : ∀ r ∈ s.live, ∀ nd, st.nodes[r.handle]? = some nd → (nd.children.map (·.1)).Nodup
  child : ∀ r ∈ s.live, ∀ nd, st.nodes[r.handle]? = some nd →
    ∀ n c, (n, c) ∈ nd.children ↔ ∃ r' ∈ s.live, r'.handle = c ∧ r'.path = r.path ++ [n]

theorem TreeRel.empty : TreeRel (TreeSt.empty (F := F)) Choices.empty := by
  constructor <;> simp [TreeSt.empty, Choices.empty]

section
variable {st : TreeSt F} {s : Choices F}

theorem TreeRel.live_ok (h : TreeRel st s) {r : Rec F} (hr : r ∈ s.live) : r.path ≠ [] ∧ ∀ n ∈ r.path, '.' ∉ n :=
  h.made_ok _ (List.mem_of_getElem? (h.live_made r hr))

theorem TreeRel.live_inj (h : TreeRel st s) {r r' : Rec F} (hr : r ∈ s.live) (hr' : r' ∈ s.live) (e : r.path = r'.path) :
    r = r' := List.inj_on_of_nodup_map h.live_nodup hr hr' e

theorem TreeRel.live_inj_handle (h : TreeRel st s) {r r' : Rec F} (hr : r ∈ s.live) (hr' : r' ∈ s.live)
    (e : r.handle = r'.handle) : r = r' := by
  apply h.live_inj hr hr'
  have := h.live_made r hr
  rw [e, h.live_made r' hr'] at this
  exact (Option.some.inj this).symm

theorem TreeRel.live_join (h : TreeRel st s) {r : Rec F} (hr : r ∈ s.live) {p : List Name} (hp : p ≠ [])
    (hpd : ∀ n ∈ p, '.' ∉ n) : joinDots r.path = joinDots p ↔ r.path = p := by
  constructor
  · intro e
    obtain ⟨h1, h2⟩ := h.live_ok hr
    exact joinDots_inj h1 hp h2 hpd e
  · rintro rfl; rfl

theorem TreeRel.keys_nodup (h : TreeRel st s) : (st.all.map (·.1)).Nodup := by
  rw [h.all, List.map_map]
  have := h.live_nodup
  rw [List.nodup_map_iff_inj_on (List.Nodup.of_map _ this)]
  intro r hr r' hr' e
  simp only [Function.comp] at e
  obtain ⟨h1, h2⟩ := h.live_ok hr'
  exact h.live_inj hr hr' ((h.live_join hr h1 h2).mp e)

/-- removing a key from the dictionary is removing the path from the list -/
theorem TreeRel.del (h : TreeRel st s) {p : List Name} (hp : p ≠ []) (hpd : ∀ n ∈ p, '.' ∉ n) :
    dictDel st.all (joinDots p) =
      (s.live.filter (fun r => decide (r.path ≠ p))).map (fun r => (joinDots r.path, r.handle)) := by
  unfold dictDel
  rw [h.all, List.filter_map]
  congr 1
  apply List.filter_congr
  intro r hr
  simp only [Function.comp]
  congr 1
  rw [eq_iff_iff, not_iff_not]
  exact h.live_join hr hp hpd

theorem TreeRel.del_absent (h : TreeRel st s) {k : Name} (hk : ∀ r ∈ s.live, joinDots r.path ≠ k) :
    dictDel st.all k = st.all := by
  apply dictDel_of_not_mem
  rw [h.all]
  simp only [List.map_map, List.mem_map, Function.comp, not_exists, not_and]
  exact fun r hr e => hk r hr e

/-- The state after adding a legal choice with path `p` below `parent`; `kids` is the update of the parent's children. -/
theorem TreeRel.add (h : TreeRel st s) (n : Name) (sc : F) (p : List Name) (parent : Option Nat) (nodes' : List (Node F))
    (top' : List Nat) (hlegal : Legal n sc)
    (hclean : ∀ r ∈ s.live, p <+: r.path → r.path = p)
    (hpar : match parent with
      | none => p = [n]
      | some q => (∃ r ∈ s.live, r.handle = q) ∧ ∃ pq, s.made[q]? = some pq ∧ p = pq ++ [n])
    (hnodes : ∀ i, nodes'[i]? = if i = s.made.length then some ⟨n, parent, sc, newLevel st.nodes parent, []⟩
      else (st.nodes[i]?).map (fun nd =>
        if parent = some i then { nd with children := dictSet nd.children n s.made.length } else nd))
    (htop : top' = match parent with
      | none => st.top.filter (fun i => decide (∀ r ∈ s.live, r.path = [n] → i ≠ r.handle)) ++ [s.made.length]
      | some _ => st.top) :
    TreeRel ⟨nodes', dictSet (dictDel st.all (joinDots p)) (joinDots p) s.made.length, top'⟩
      ⟨s.made ++ [p], s.live.filter (fun r => decide (r.path ≠ p)) ++ [⟨s.made.length, p, sc⟩]⟩ := by
  have hpne : p ≠ [] := by
    cases parent with
    | none => simp only at hpar; simp [hpar]
    | some q => obtain ⟨_, pq, _, e⟩ := hpar; simp [e]
  have hpd : ∀ m ∈ p, '.' ∉ m := by
    cases parent with
    | none => simp only at hpar; rw [hpar]; simpa using hlegal.1
    | some q =>
      obtain ⟨_, pq, e1, e⟩ := hpar
      rw [e]
      intro m hm
      rcases List.mem_append.mp hm with hm | hm
      · exact (h.made_ok pq (List.mem_of_getElem? e1)).2 m hm
      · rw [List.mem_singleton.mp hm]; exact hlegal.1
  have hparlt : ∀ q, parent = some q → q < s.made.length := by
    intro q hq
    subst hq
    obtain ⟨_, pq, e1, _⟩ := hpar
    by_contra hc
    rw [List.getElem?_eq_none (by omega)] at e1
    cases e1
  have hold : ∀ i, i < s.made.length → nodes'[i]? = (st.nodes[i]?).map (fun nd =>
        if parent = some i then { nd with children := dictSet nd.children n s.made.length } else nd) := by
    intro i hi
    rw [hnodes, if_neg (by omega)]
  have hnew : nodes'[s.made.length]? = some ⟨n, parent, sc, newLevel st.nodes parent, []⟩ := by rw [hnodes, if_pos rfl]
  have hbig : ∀ i, s.made.length < i → nodes'[i]? = none := by
    intro i hi
    rw [hnodes, if_neg (by omega), List.getElem?_eq_none (by have := h.len; omega)]
    rfl
  have hlen' : nodes'.length = s.made.length + 1 := by
    apply Nat.le_antisymm
    · by_contra hc
      have := hbig (s.made.length + 1) (by omega)
      rw [List.getElem?_eq_none_iff] at this
      omega
    · by_contra hc
      rw [List.getElem?_eq_none (by omega)] at hnew
      cases hnew
  have hpathold : ∀ i, i < s.made.length → nodePath nodes' i = nodePath st.nodes i := by
    intro i hi
    apply nodePath_congr
    intro j hj
    rw [hold j (by omega)]
    cases st.nodes[j]? with
    | none => rfl
    | some nd =>
      simp only [Option.map_some]
      split <;> rfl
  have hmadeold : ∀ (i : Nat) (p' : List Name), s.made[i]? = some p' → (s.made ++ [p])[i]? = some p' := by
    intro i p' e
    have : i < s.made.length := by
      by_contra hc
      rw [List.getElem?_eq_none (by omega)] at e
      cases e
    rw [List.getElem?_append_left this, e]
  have hmadenew : (s.made ++ [p])[s.made.length]? = some p := by simp
  -- facts on the parent
  have hhandle_lt : ∀ r ∈ s.live, r.handle < s.made.length := by
    intro r hr
    have := h.live_made r hr
    by_contra hc
    rw [List.getElem?_eq_none (by omega)] at this
    cases this
  refine ⟨?_, ?_, ?_, ?_, ?_, ?_, ?_, ?_, ?_, ?_, ?_, ?_, ?_⟩
  · simp [hlen']
  · -- node
    intro i nd hnd
    simp only at hnd ⊢
    by_cases hi : i = s.made.length
    · subst hi
      rw [hnew] at hnd
      obtain rfl := Option.some.inj hnd
      refine ⟨p, hmadenew, ?_, ?_, ?_⟩
      · rw [nodePath, hnew]
        cases parent with
        | none => simpa using hpar.symm
        | some q =>
          obtain ⟨_, pq, e1, e⟩ := hpar
          have hq := hparlt q rfl
          simp only [hq, dif_pos]
          rw [hpathold q hq, e]
          have hq' : q < st.nodes.length := by rw [h.len]; exact hq
          obtain ⟨p', hp', hpath, _⟩ := h.node q _ (List.getElem?_eq_getElem hq')
          rw [e1] at hp'
          rw [hpath, Option.some.inj hp']
      · cases parent with
        | none => simp only at hpar; simp [newLevel, hpar]
        | some q =>
          obtain ⟨_, pq, e1, e⟩ := hpar
          have hq := hparlt q rfl
          have hq' : q < st.nodes.length := by rw [h.len]; exact hq
          obtain ⟨p', hp', _, hl, _⟩ := h.node q _ (List.getElem?_eq_getElem hq')
          rw [e1] at hp'
          simp [newLevel, List.getElem?_eq_getElem hq', hl, e, Option.some.inj hp']
      · cases parent with
        | none => exact hpar
        | some q =>
          obtain ⟨_, pq, e1, e⟩ := hpar
          exact ⟨hparlt q rfl, pq, hmadeold q pq e1, e⟩
    · have hlt : i < s.made.length := by
        by_contra hc
        rw [hbig i (by omega)] at hnd
        cases hnd
      rw [hold i hlt] at hnd
      simp only [Option.map_eq_some_iff] at hnd
      obtain ⟨nd0, h0, rfl⟩ := hnd
      obtain ⟨p', hp', hpath, hl, hm⟩ := h.node i nd0 h0
      refine ⟨p', hmadeold i p' hp', by rw [hpathold i hlt, hpath], ?_, ?_⟩
      · split <;> exact hl
      · have e1 : (if parent = some i then { nd0 with children := dictSet nd0.children n s.made.length } else nd0).parent
            = nd0.parent := by split <;> rfl
        have e2 : (if parent = some i then { nd0 with children := dictSet nd0.children n s.made.length } else nd0).name
            = nd0.name := by split <;> rfl
        rw [e1, e2]
        cases hq : nd0.parent with
        | none => rw [hq] at hm; exact hm
        | some q =>
          rw [hq] at hm
          obtain ⟨h1, pq, h2, h3⟩ := hm
          exact ⟨h1, pq, hmadeold q pq h2, h3⟩
  · -- made_ok
    intro p' hp'
    rcases List.mem_append.mp hp' with hp' | hp'
    · exact h.made_ok p' hp'
    · rw [List.mem_singleton.mp hp']; exact ⟨hpne, hpd⟩
  · -- all
    simp only
    rw [dictSet_of_not_mem (dictDel_not_mem _ _), h.del hpne hpd]
    simp
  · -- live_made
    intro r hr
    rcases List.mem_append.mp hr with hr | hr
    · exact hmadeold _ _ (h.live_made r (List.mem_of_mem_filter hr))
    · rw [List.mem_singleton.mp hr]; exact hmadenew
  · -- live_nodup
    rw [List.map_append, List.nodup_append]
    refine ⟨(h.live_nodup).sublist (List.Sublist.map _ List.filter_sublist), by simp, ?_⟩
    intro a ha b hb
    simp only [List.map_cons, List.map_nil, List.mem_singleton] at hb
    subst hb
    obtain ⟨r, hr, rfl⟩ := List.mem_map.mp ha
    simpa using (List.mem_filter.mp hr).2
  · -- scale
    intro r hr nd hnd
    rcases List.mem_append.mp hr with hr | hr
    · have hr' := List.mem_of_mem_filter hr
      rw [hold _ (hhandle_lt r hr')] at hnd
      simp only [Option.map_eq_some_iff] at hnd
      obtain ⟨nd0, h0, rfl⟩ := hnd
      have := h.scale r hr' nd0 h0
      split <;> exact this
    · rw [List.mem_singleton.mp hr] at hnd ⊢
      simp only at hnd ⊢
      rw [hnew] at hnd
      obtain rfl := Option.some.inj hnd
      rfl
  · -- scale_ok
    intro r hr
    rcases List.mem_append.mp hr with hr | hr
    · exact h.scale_ok r (List.mem_of_mem_filter hr)
    · rw [List.mem_singleton.mp hr]; exact ⟨hlegal.2.2.1, hlegal.2.2.2⟩
  · -- top_nodup
    rw [htop]
    cases parent with
    | some q => exact h.top_nodup
    | none =>
      simp only
      rw [List.nodup_append]
      refine ⟨h.top_nodup.sublist List.filter_sublist, by simp, ?_⟩
      intro a ha b hb
      rw [List.mem_singleton.mp hb]
      obtain ⟨r, hr, rfl, _⟩ := (h.top_mem a).mp (List.mem_of_mem_filter ha)
      have := hhandle_lt r hr
      omega
  · -- top_mem
    intro k
    rw [htop]
    cases parent with
    | some q =>
      simp only
      obtain ⟨_, pq, e1, e⟩ := hpar
      have hlen2 : 2 ≤ p.length := by
        have := (h.made_ok pq (List.mem_of_getElem? e1)).1
        have : 0 < pq.length := List.length_pos_iff.mpr this
        simp [e]; omega
      rw [h.top_mem]
      constructor
      · rintro ⟨r, hr, rfl, hl⟩
        refine ⟨r, List.mem_append_left _ (List.mem_filter.mpr ⟨hr, ?_⟩), rfl, hl⟩
        simp only [decide_eq_true_eq]
        rintro rfl
        omega
      · rintro ⟨r, hr, rfl, hl⟩
        rcases List.mem_append.mp hr with hr | hr
        · exact ⟨r, List.mem_of_mem_filter hr, rfl, hl⟩
        · rw [List.mem_singleton.mp hr] at hl
          simp only at hl; omega
    | none =>
      simp only at hpar ⊢
      constructor
      · intro hk
        rcases List.mem_append.mp hk with hk | hk
        · obtain ⟨hk1, hk2⟩ := List.mem_filter.mp hk
          obtain ⟨r, hr, rfl, hl⟩ := (h.top_mem k).mp hk1
          refine ⟨r, List.mem_append_left _ (List.mem_filter.mpr ⟨hr, ?_⟩), rfl, hl⟩
          simp only [decide_eq_true_eq] at hk2 ⊢
          intro hc
          exact hk2 r hr (by rw [hc, hpar]) rfl
        · rw [List.mem_singleton.mp hk]
          exact ⟨_, List.mem_append_right _ (List.mem_singleton.mpr rfl), rfl, by simp [hpar]⟩
      · rintro ⟨r, hr, rfl, hl⟩
        rcases List.mem_append.mp hr with hr | hr
        · obtain ⟨hr1, hr2⟩ := List.mem_filter.mp hr
          refine List.mem_append_left _ (List.mem_filter.mpr ⟨(h.top_mem _).mpr ⟨r, hr1, rfl, hl⟩, ?_⟩)
          simp only [decide_eq_true_eq] at hr2 ⊢
          intro r' hr' e1 e2
          have := h.live_inj_handle hr1 hr' e2
          subst this
          exact hr2 (by rw [e1, hpar])
        · rw [List.mem_singleton.mp hr]
          exact List.mem_append_right _ (List.mem_singleton.mpr rfl)
  · -- parent_live
    intro r hr nd q hnd hq
    rcases List.mem_append.mp hr with hr | hr
    · have hr' := List.mem_of_mem_filter hr
      rw [hold _ (hhandle_lt r hr')] at hnd
      simp only [Option.map_eq_some_iff] at hnd
      obtain ⟨nd0, h0, rfl⟩ := hnd
      have e1 : (if parent = some r.handle then { nd0 with children := dictSet nd0.children n s.made.length } else nd0).parent
            = nd0.parent := by split <;> rfl
      rw [e1] at hq
      obtain ⟨r1, hr1, e⟩ := h.parent_live r hr' nd0 q h0 hq
      refine ⟨r1, List.mem_append_left _ (List.mem_filter.mpr ⟨hr1, ?_⟩), e⟩
      simp only [decide_eq_true_eq]
      intro hc
      obtain ⟨p', hp', _, _, hm⟩ := h.node _ _ h0
      rw [hq] at hm
      obtain ⟨_, pq, hpq, ep⟩ := hm
      rw [h.live_made r hr'] at hp'
      have e2 : r.path = p' := Option.some.inj hp'
      rw [← e, h.live_made r1 hr1] at hpq
      have e3 : r1.path = pq := Option.some.inj hpq
      have hpre : p <+: r.path := by rw [e2, ep, ← e3, hc]; exact List.prefix_append _ _
      have e4 := hclean r hr' hpre
      rw [e2, ep, ← e3, hc] at e4
      simp at e4
    · rw [List.mem_singleton.mp hr] at hnd
      simp only at hnd
      rw [hnew] at hnd
      obtain rfl := Option.some.inj hnd
      simp only at hq
      subst hq
      obtain ⟨⟨r1, hr1, e⟩, pq, e1, e2⟩ := hpar
      refine ⟨r1, List.mem_append_left _ (List.mem_filter.mpr ⟨hr1, ?_⟩), e⟩
      simp only [decide_eq_true_eq]
      intro hc
      rw [← e, h.live_made r1 hr1] at e1
      rw [Option.some.inj e1, e2] at hc
      simp at hc
  · -- child_nodup
    intro r hr nd hnd
    rcases List.mem_append.mp hr with hr | hr
    · have hr' := List.mem_of_mem_filter hr
      rw [hold _ (hhandle_lt r hr')] at hnd
      simp only [Option.map_eq_some_iff] at hnd
      obtain ⟨nd0, h0, rfl⟩ := hnd
      have := h.child_nodup r hr' nd0 h0
      split
      · exact dictSet_keys_nodup this _ _
      · exact this
    · rw [List.mem_singleton.mp hr] at hnd
      simp only at hnd
      rw [hnew] at hnd
      obtain rfl := Option.some.inj hnd
      simp
  · -- child
    intro r hr nd hnd m c
    rcases List.mem_append.mp hr with hr | hr
    · have hr' := List.mem_of_mem_filter hr
      rw [hold _ (hhandle_lt r hr')] at hnd
      simp only [Option.map_eq_some_iff] at hnd
      obtain ⟨nd0, h0, rfl⟩ := hnd
      have hc0 := h.child r hr' nd0 h0
      by_cases hpr : parent = some r.handle
      · subst hpr
        simp only [if_true] at hpar ⊢
        obtain ⟨_, pq, e1, e2⟩ := hpar
        rw [h.live_made r hr'] at e1
        obtain rfl := Option.some.inj e1
        rw [mem_dictSet, hc0]
        simp only [Prod.mk.injEq, List.mem_append, List.mem_filter, decide_eq_true_eq, List.mem_singleton]
        constructor
        · rintro (⟨rfl, rfl⟩ | ⟨⟨r1, hr1, h1, h2⟩, hmn⟩)
          · exact ⟨_, .inr rfl, rfl, e2⟩
          · refine ⟨r1, .inl ⟨hr1, ?_⟩, h1, h2⟩
            rw [h2, e2]
            intro hc
            simp at hc
            exact hmn hc
        · rintro ⟨r1, ⟨hr1, hne⟩ | rfl, h1, h2⟩
          · right
            refine ⟨⟨r1, hr1, h1, h2⟩, ?_⟩
            rintro rfl
            exact hne (by rw [h2, e2])
          · left
            simp only at h1 h2
            rw [e2] at h2
            simp at h2
            exact ⟨h2.symm, h1.symm⟩
      · rw [if_neg hpr, hc0]
        simp only [List.mem_append, List.mem_filter, decide_eq_true_eq, List.mem_singleton]
        have hno : p ≠ r.path ++ [m] := by
          intro hc
          cases parent with
          | none =>
            simp only at hpar
            rw [hpar] at hc
            have := (h.live_ok hr').1
            have h2 : r.path = [] := by
              have := congrArg List.length hc
              simp at this
              exact this
            exact this h2
          | some q =>
            obtain ⟨⟨r1, hr1, e⟩, pq, e1, e2⟩ := hpar
            rw [e2] at hc
            obtain ⟨hc1, _⟩ := List.append_inj' hc rfl
            rw [← e, h.live_made r1 hr1] at e1
            have := h.live_inj hr1 hr' (by rw [Option.some.inj e1, hc1])
            subst this
            exact hpr (by rw [e])
        constructor
        · rintro ⟨r1, hr1, h1, h2⟩
          exact ⟨r1, .inl ⟨hr1, by rw [h2]; exact hno.symm⟩, h1, h2⟩
        · rintro ⟨r1, ⟨hr1, _⟩ | rfl, h1, h2⟩
          · exact ⟨r1, hr1, h1, h2⟩
          · exact absurd h2 hno
    · obtain rfl := List.mem_singleton.mp hr
      simp only at hnd ⊢
      rw [hnew] at hnd
      obtain rfl := Option.some.inj hnd
      simp only [List.not_mem_nil, List.mem_append, List.mem_filter, decide_eq_true_eq, List.mem_singleton, false_iff,
        not_exists, not_and]
      rintro r1 (⟨hr1, _⟩ | rfl) _ h2
      · have := hclean r1 hr1 (by rw [h2]; exact List.prefix_append _ _)
        rw [h2] at this
        simp at this
      · simp at h2

theorem TreeRel.fullName_eq (h : TreeRel st s) {i : Nat} {p : List Name} (hp : s.made[i]? = some p) :
    fullName st.nodes i = joinDots p := by
  have hi : i < s.made.length := by
    by_contra hc
    rw [List.getElem?_eq_none (by omega)] at hp
    cases hp
  have hi' : i < st.nodes.length := by rw [h.len]; exact hi
  obtain ⟨p', hp', hpath, _⟩ := h.node i _ (List.getElem?_eq_getElem hi')
  rw [fullName, hpath]
  rw [hp] at hp'
  rw [Option.some.inj hp']

theorem TreeRel.step (h : TreeRel st s) (op : TreeOp F) (hc : Clean s op) :
    TreeRel (treeStep st op).1 (s.step op).1 ∧ (treeStep st op).2 = (s.step op).2 := by
  cases op with
  | addTop n sc =>
    obtain ⟨hc1, hc2⟩ := hc
    simp only [treeStep, Choices.step, Choices.add, addTop, createNode]
    by_cases hl : Legal n sc
    · rw [if_pos hl]
      have hb := (nodeLegal_iff n sc).mpr hl
      have hnd : ∀ m ∈ [n], '.' ∉ m := by simpa using hl.1
      have key : ∀ (top0 : List Nat),
          top0 = st.top.filter (fun i => decide (∀ r ∈ s.live, r.path = [n] → i ≠ r.handle)) →
          TreeRel ⟨st.nodes ++ [⟨n, none, sc, newLevel st.nodes none, []⟩],
            dictSet (dictDel st.all n) n st.nodes.length, top0 ++ [st.nodes.length]⟩
          ⟨s.made ++ [[n]], s.live.filter (fun r => decide (r.path ≠ [n])) ++ [⟨s.made.length, [n], sc⟩]⟩ := by
        intro top0 htop
        have := h.add n sc [n] none (st.nodes ++ [⟨n, none, sc, newLevel st.nodes none, []⟩]) (top0 ++ [st.nodes.length]) hl
          (hc1 hl) rfl (by
            intro i
            simp only [reduceCtorEq, if_false, Option.map_id']
            rw [← h.len]
            split
            · rename_i hi; subst hi; simp
            · rename_i hi
              by_cases hlt : i < st.nodes.length
              · rw [List.getElem?_append_left hlt]
              · rw [List.getElem?_eq_none (by simp; omega), List.getElem?_eq_none (by omega)]) (by rw [htop, h.len])
        rw [joinDots_singleton] at this
        rw [h.len] at this ⊢
        exact this
      cases hg : dictGet st.all n with
      | none =>
        rw [dictGet_eq_none] at hg
        have hno : ∀ r ∈ s.live, r.path ≠ [n] := by
          intro r hr hc
          apply hg
          rw [h.all, List.map_map]
          exact List.mem_map.mpr ⟨r, hr, by simp [hc]⟩
        simp only [finishCreate, hb, if_true]
        refine ⟨?_, by rw [h.len]⟩
        have := key st.top (by
          rw [eq_comm, List.filter_eq_self]
          intro i _
          simp only [decide_eq_true_eq]
          intro r hr e
          exact absurd e (hno r hr))
        rw [dictDel_of_not_mem hg] at this
        exact this
      | some old =>
        have hmem := (dictGet_eq_some h.keys_nodup).mp hg
        rw [h.all] at hmem
        obtain ⟨r, hr, he⟩ := List.mem_map.mp hmem
        simp only [Prod.mk.injEq] at he
        obtain ⟨he1, rfl⟩ := he
        rw [← joinDots_singleton n, h.live_join hr (by simp) hnd] at he1
        have htop : r.handle ∈ st.top := (h.top_mem _).mpr ⟨r, hr, rfl, by simp [he1]⟩
        simp only [htop, if_true, finishCreate, hb]
        refine ⟨?_, by rw [h.len]⟩
        apply key
        apply List.filter_congr
        intro i _
        congr 1
        rw [eq_iff_iff]
        constructor
        · intro hne r' hr' e
          rw [h.live_inj hr' hr (e.trans he1.symm)]; exact hne
        · intro hall; exact hall r hr he1
    · rw [if_neg hl]
      have hb : nodeLegal n sc = false := by
        rw [← Bool.not_eq_true, nodeLegal_iff]; exact hl
      have hg : dictGet st.all n = none := by
        rw [dictGet_eq_none, h.all, List.map_map]
        intro hm
        obtain ⟨r, hr, e⟩ := List.mem_map.mp hm
        exact hc2 hl r hr (by simpa using e)
      rw [hg]
      simp only [finishCreate, hb, Bool.false_eq_true, if_false]
      exact ⟨h, trivial⟩
  | addChild q n sc =>
    obtain ⟨⟨r0, hr0, hq0⟩, hc1, hc2⟩ := hc
    have hmade : s.made[q]? = some r0.path := by rw [← hq0]; exact h.live_made r0 hr0
    have hgd : s.made.getD q [] = r0.path := by simp [List.getD_eq_getElem?_getD, hmade]
    have hname : expectedName st.nodes n (some q) = joinDots (r0.path ++ [n]) := by
      rw [expectedName, h.fullName_eq hmade, joinDots_snoc _ (h.live_ok hr0).1]
    rw [hgd] at hc1 hc2
    simp only [treeStep, Choices.step, Choices.add, addChild, createNode, hgd, hname]
    by_cases hl : Legal n sc
    · rw [if_pos hl]
      have hb := (nodeLegal_iff n sc).mpr hl
      simp only [finishCreate, hb, if_true, hname]
      refine ⟨?_, by rw [h.len]⟩
      have hql : q < s.made.length := by
        by_contra hcc
        rw [List.getElem?_eq_none (by omega)] at hmade
        cases hmade
      have := h.add n sc (r0.path ++ [n]) (some q)
        ((st.nodes ++ [(⟨n, some q, sc, newLevel st.nodes (some q), []⟩ : Node F)]).modify q
          (fun nd => { nd with children := dictSet nd.children n st.nodes.length })) st.top hl
        (hc1 hl) ⟨⟨r0, hr0, hq0⟩, r0.path, hmade, rfl⟩ (by
            intro i
            rw [← h.len] at hql ⊢
            rw [List.getElem?_modify]
            rcases Nat.lt_trichotomy i st.nodes.length with hlt | heq | hgt
            · rw [if_neg (by omega), List.getElem?_append_left hlt]
              by_cases hqi : q = i
              · simp [hqi]
              · simp [hqi]
            · subst heq
              have : ¬ q = st.nodes.length := by omega
              simp [this]
            · rw [if_neg (by omega), List.getElem?_eq_none (by simp; omega), List.getElem?_eq_none (by omega)]; simp) rfl
      rw [h.len] at this ⊢
      exact this
    · rw [if_neg hl]
      have hb : nodeLegal n sc = false := by
        rw [← Bool.not_eq_true, nodeLegal_iff]; exact hl
      simp only [finishCreate, hb, Bool.false_eq_true, if_false]
      rw [h.del_absent (hc2 hl)]
      exact ⟨h, trivial⟩
  | setScale k v =>
    simp only [treeStep, Choices.step, setScale]
    by_cases hv : lt zero v = true ∧ le v one = true
    · rw [if_pos hv, if_pos (by simpa using hv)]
      refine ⟨?_, rfl⟩
      set f : Node F → Node F := fun nd => { nd with scale := v } with hf
      set g : Rec F → Rec F := fun r => if r.handle = k then { r with scale := v } else r with hg
      have gh : ∀ r, (g r).handle = r.handle := by intro r; simp only [hg]; split <;> rfl
      have gp : ∀ r, (g r).path = r.path := by intro r; simp only [hg]; split <;> rfl
      have hget : ∀ i nd, (st.nodes.modify k f)[i]? = some nd → ∃ nd0, st.nodes[i]? = some nd0 ∧ nd.name = nd0.name ∧
          nd.parent = nd0.parent ∧ nd.level = nd0.level ∧ nd.children = nd0.children ∧
          nd.scale = if i = k then v else nd0.scale := by
        intro i nd hnd
        rw [List.getElem?_modify] at hnd
        simp only [Option.map_eq_map, Option.map_eq_some_iff] at hnd
        obtain ⟨nd0, h0, rfl⟩ := hnd
        refine ⟨nd0, h0, ?_⟩
        by_cases hki : k = i
        · simp [hki, hf]
        · simp [hki, Ne.symm hki]
      have hpath : ∀ i, nodePath (st.nodes.modify k f) i = nodePath st.nodes i := by
        intro i
        apply nodePath_congr
        intro j _
        rw [List.getElem?_modify]
        cases st.nodes[j]? with
        | none => simp
        | some nd => by_cases hkj : k = j <;> simp [hkj, hf]
      have hex : ∀ (P : Rec F → Prop), (∀ r, P (g r) ↔ P r) →
          ((∃ r ∈ s.live.map g, P r) ↔ ∃ r ∈ s.live, P r) := by
        intro P hP
        simp only [List.mem_map, exists_exists_and_eq_and, hP]
      refine ⟨by simp [h.len], ?_, h.made_ok, ?_, ?_, ?_, ?_, ?_, h.top_nodup, ?_, ?_, ?_, ?_⟩
      · intro i nd hnd
        obtain ⟨nd0, h0, e1, e2, e3, _⟩ := hget i nd hnd
        simp only [hpath, e1, e2, e3]
        exact h.node i nd0 h0
      · simp only [List.map_map, Function.comp_def, gh, gp, h.all]
      · intro r hr
        obtain ⟨r0, hr0, rfl⟩ := List.mem_map.mp hr
        rw [gh, gp]; exact h.live_made r0 hr0
      · simp only [List.map_map, Function.comp_def, gp]; exact h.live_nodup
      · intro r hr nd hnd
        obtain ⟨r0, hr0, rfl⟩ := List.mem_map.mp hr
        rw [gh] at hnd
        obtain ⟨nd0, h0, _, _, _, _, e⟩ := hget _ nd hnd
        rw [e]
        simp only [hg]
        split
        · rfl
        · exact h.scale r0 hr0 nd0 h0
      · intro r hr
        obtain ⟨r0, hr0, rfl⟩ := List.mem_map.mp hr
        simp only [hg]
        split
        · exact hv
        · exact h.scale_ok r0 hr0
      · intro i
        rw [h.top_mem, hex _ (fun r => by rw [gh, gp])]
      · intro r hr nd q hnd hq
        obtain ⟨r0, hr0, rfl⟩ := List.mem_map.mp hr
        rw [gh] at hnd
        obtain ⟨nd0, h0, _, e2, _, _, _⟩ := hget _ nd hnd
        rw [e2] at hq
        rw [hex _ (fun r => by rw [gh])]
        exact h.parent_live r0 hr0 nd0 q h0 hq
      · intro r hr nd hnd
        obtain ⟨r0, hr0, rfl⟩ := List.mem_map.mp hr
        rw [gh] at hnd
        obtain ⟨nd0, h0, _, _, _, e4, _⟩ := hget _ nd hnd
        rw [e4]
        exact h.child_nodup r0 hr0 nd0 h0
      · intro r hr nd hnd n c
        obtain ⟨r0, hr0, rfl⟩ := List.mem_map.mp hr
        rw [gh] at hnd
        obtain ⟨nd0, h0, _, _, _, e4, _⟩ := hget _ nd hnd
        rw [e4, gp, hex _ (fun r => by rw [gh, gp])]
        exact h.child r0 hr0 nd0 h0 n c
    · rw [if_neg hv, if_neg (by simpa using hv)]
      exact ⟨h, rfl⟩

theorem TreeRel.run (h : TreeRel st s) (ops : List (TreeOp F)) (hc : CleanRun s ops) :
    TreeRel (treeRun st ops) (s.run ops) := by
  induction ops generalizing st s with
  | nil => exact h
  | cons op ops ih =>
    obtain ⟨h1, h2⟩ := hc
    exact ih (h.step op h1).1 h2

end
end Cheval
