import Verif.Props.Tree

/-!
# C15 for histories of successful calls and for arbitrary histories; C17, C18: replaced and rejected choices
-/
set_option linter.unusedSectionVars false
namespace Cheval
open FOps Spec
variable {F : Type} [FOps F]

/-! ## Histories of successful calls that never reuse a (nest, name) pair -/

/-- the call is accepted and its handle (if any) was returned by an earlier call -/
def Accepted (s : Choices F) : TreeOp F → Prop
  | .addTop n sc => Legal n sc
  | .addChild h n sc => h < s.made.length ∧ Legal n sc
  | .setScale h v => h < s.made.length ∧ lt zero v = true ∧ le v one = true

/-- every call of the history is accepted -/
def AllAccepted (s : Choices F) : List (TreeOp F) → Prop
  | [] => True
  | op :: ops => Accepted s op ∧ AllAccepted (s.step op).1 ops

private structure Fresh (s : Choices F) : Prop where
  live : s.live.map (·.path) = s.made
  handle : s.live.map (·.handle) = List.range s.made.length
  closed : ∀ p ∈ s.made, ∀ q, q <+: p → q ≠ [] → q ∈ s.made

private theorem made_prefix (s : Choices F) (ops : List (TreeOp F)) : s.made <+: (s.run ops).made := by
  induction ops generalizing s with
  | nil => exact List.prefix_rfl
  | cons op ops ih =>
    refine List.IsPrefix.trans ?_ (ih (s.step op).1)
    cases op with
    | addTop n sc =>
      simp only [Choices.step, Choices.add]
      split
      · exact List.prefix_append _ _
      · exact List.prefix_rfl
    | addChild h n sc =>
      simp only [Choices.step, Choices.add]
      split
      · exact List.prefix_append _ _
      · exact List.prefix_rfl
    | setScale h v =>
      simp only [Choices.step]
      split <;> exact List.prefix_rfl

private theorem Fresh.add {s : Choices F} (h : Fresh s) {p : List Name} {n : Name} {sc : F} (hl : Legal n sc)
    (hp : ∀ q, q <+: p → q ≠ [] → q = p ∨ q ∈ s.made) (hnew : p ∉ s.made) : Fresh (s.add p n sc).1 := by
  simp only [Choices.add, if_pos hl]
  have hf : s.live.filter (fun r => decide (r.path ≠ p)) = s.live := by
    rw [List.filter_eq_self]
    intro r hr
    simp only [decide_eq_true_eq]
    rintro rfl
    exact hnew (by rw [← h.live]; exact List.mem_map_of_mem hr)
  refine ⟨?_, ?_, ?_⟩
  · simp only [List.map_append, List.map_cons, List.map_nil]
    rw [hf, h.live]
  · simp only [List.map_append, List.map_cons, List.map_nil, List.length_append, List.length_singleton, List.range_succ]
    rw [hf, h.handle]
  · intro p' hp' q hq hne
    simp only [List.mem_append, List.mem_singleton] at hp' ⊢
    rcases hp' with hp' | rfl
    · exact .inl (h.closed p' hp' q hq hne)
    · exact (hp q hq hne).symm.imp id id

/-- A history of accepted calls that never creates the same path twice is clean: all theorems of `Props.Tree` apply. -/
theorem cleanRun_of_accepted (ops : List (TreeOp F)) (ha : AllAccepted Choices.empty ops)
    (hnd : (expected ops).made.Nodup) : CleanRun Choices.empty ops := by
  have key : ∀ (ops : List (TreeOp F)) (s : Choices F), Fresh s → AllAccepted s ops → (s.run ops).made.Nodup →
      CleanRun s ops := by
    intro ops
    induction ops with
    | nil => intro s _ _ _; trivial
    | cons op ops ih =>
      intro s hf ⟨ha1, ha2⟩ hnd
      have hpre : ((s.step op).1).made <+: (s.run (op :: ops)).made := made_prefix (s.step op).1 ops
      have hnd1 : ((s.step op).1).made.Nodup := hnd.sublist hpre.sublist
      have hadd : ∀ p n sc, Legal n sc → p ≠ [] → (∀ q, q <+: p → q ≠ [] → q = p ∨ q ∈ s.made) →
          ((s.add p n sc).1).made.Nodup → p ∉ s.made ∧ CleanAdd s p n sc := by
        intro p n sc hl hpne hp hnd
        simp only [Choices.add, if_pos hl] at hnd
        rw [List.nodup_append] at hnd
        have hnew : p ∉ s.made := fun hc => hnd.2.2 p hc p (by simp) rfl
        refine ⟨hnew, fun _ r hr hpr => ?_, fun hc => absurd hl hc⟩
        exact absurd (hf.closed r.path (by rw [← hf.live]; exact List.mem_map_of_mem hr) p hpr hpne) hnew
      cases op with
      | addTop n sc =>
        have hp : ∀ q, q <+: [n] → q ≠ [] → q = [n] ∨ q ∈ s.made := by
          intro q hq hne
          left
          rcases List.prefix_cons_iff.mp hq with rfl | ⟨t, rfl, ht⟩
          · exact absurd rfl hne
          · rw [List.prefix_nil.mp ht]
        obtain ⟨hnew, hcl⟩ := hadd [n] n sc ha1 (by simp) hp hnd1
        exact ⟨hcl, ih _ (hf.add ha1 hp hnew) ha2 hnd⟩
      | addChild k n sc =>
        obtain ⟨hk, hl⟩ := ha1
        have hm : s.made.getD k [] ∈ s.made := by
          rw [List.getD_eq_getElem?_getD, List.getElem?_eq_getElem hk]
          exact List.getElem_mem hk
        have hp : ∀ q, q <+: s.made.getD k [] ++ [n] → q ≠ [] → q = s.made.getD k [] ++ [n] ∨ q ∈ s.made := by
          intro q hq hne
          rcases List.prefix_concat_iff.mp hq with h | h
          · exact .inl h
          · exact .inr (hf.closed _ hm q h hne)
        obtain ⟨hnew, hcl⟩ := hadd _ n sc hl (by simp) hp hnd1
        refine ⟨⟨?_, hcl⟩, ih _ (hf.add hl hp hnew) ha2 hnd⟩
        have : k ∈ s.live.map (·.handle) := by rw [hf.handle]; exact List.mem_range.mpr hk
        exact List.mem_map.mp this
      | setScale k v =>
        obtain ⟨hk, hv⟩ := ha1
        refine ⟨hk, ih _ ?_ ha2 hnd⟩
        simp only [Choices.step, if_pos hv]
        have gh : ∀ r : Rec F, (if r.handle = k then { r with scale := v } else r).handle = r.handle := by
          intro r; split <;> rfl
        have gp : ∀ r : Rec F, (if r.handle = k then { r with scale := v } else r).path = r.path := by
          intro r; split <;> rfl
        refine ⟨?_, ?_, hf.closed⟩
        · simp only [List.map_map, Function.comp_def, gp]; exact hf.live
        · simp only [List.map_map, Function.comp_def, gh]; exact hf.handle
  refine key ops Choices.empty ⟨rfl, rfl, by simp [Choices.empty]⟩ ha hnd

open Classical in
/-- **C15** After any sequence of accepted `add_choice` calls (top-level or nested) that never reuses a (nest, name) pair,
`choices` lists every created choice exactly once, in the order of creation, labelled by its path padded with "."; the
labels are pairwise distinct; `elemental_choices` are exactly the choices nothing was nested in, in the same order. -/
theorem C15_successful (ops : List (TreeOp F)) (ha : AllAccepted Choices.empty ops) (hnd : (expected ops).made.Nodup)
    (hv : validateTree (after ops) = .ok ()) :
    ∃ d, depth (after ops) = .ok d ∧ (∀ p ∈ (expected ops).made, p.length ≤ d) ∧ (∃ p ∈ (expected ops).made, p.length = d) ∧
      choices (after ops) = .ok ((expected ops).made.map (pad d)) ∧ ((expected ops).made.map (pad d)).Nodup ∧
      elementalChoices (after ops) =
        .ok (((expected ops).made.filter fun p => decide (∀ n, p ++ [n] ∉ (expected ops).made)).map (pad d)) := by
  obtain ⟨h1, h2, h3, h4, ⟨r0, hr0, h5⟩, h6⟩ := C15_choices ops (cleanRun_of_accepted ops ha hnd) hv
  have hm := C15_insertion_order ops hnd
  have hmap : ∀ (g : List Name → List Name), (expected ops).live.map (fun r => g r.path) = (expected ops).made.map g := by
    intro g; rw [← hm, List.map_map]; rfl
  refine ⟨_, h4, ?_, ?_, by rw [h1, hmap], by rw [← hmap]; exact h2, ?_⟩
  · intro p hp
    rw [← hm] at hp
    obtain ⟨r, hr, rfl⟩ := List.mem_map.mp hp
    exact h6 r hr
  · exact ⟨r0.path, by rw [← hm]; exact List.mem_map_of_mem hr0, h5⟩
  · rw [h3]
    congr 1
    have : (expected ops).made.filter (fun p => decide (∀ n, p ++ [n] ∉ (expected ops).made)) =
        ((expected ops).live.filter fun r => decide (¬ ∃ c ∈ (expected ops).live, IsChild r c)).map (·.path) := by
      conv_lhs => rw [← hm]
      rw [List.filter_map]
      congr 1
      apply List.filter_congr
      intro r _
      simp only [Function.comp]
      congr 1
      rw [eq_iff_iff]
      constructor
      · rintro hall ⟨c, hc, n, e⟩
        exact hall n (by rw [← e]; exact List.mem_map_of_mem hc)
      · intro hno n hc
        obtain ⟨c, hc, e⟩ := List.mem_map.mp hc
        exact hno ⟨c, hc, n, e⟩
    rw [this, List.map_map]
    rfl

/-! ## Arbitrary histories -/

/-- every nested choice is added through a handle that was returned by an earlier call -/
def KnownHandles (s : Choices F) : List (TreeOp F) → Prop
  | [] => True
  | .addChild h n sc :: ops => h < s.made.length ∧ KnownHandles (s.step (.addChild h n sc)).1 ops
  | op :: ops => KnownHandles (s.step op).1 ops

private structure WeakOk (st : TreeSt F) (made : List (List Name)) : Prop where
  heap : HeapOk st.nodes made
  keys : (st.all.map (·.1)).Nodup
  ids : (st.all.map (·.2)).Pairwise (· < ·)
  entry : ∀ e ∈ st.all, ∃ p, made[e.2]? = some p ∧ e.1 = joinDots p
  top : ∀ e ∈ st.all, ∀ p, made[e.2]? = some p → p.length = 1 → e.2 ∈ st.top

theorem getElem?_lt {α : Type} {l : List α} {i : Nat} {a : α} (h : l[i]? = some a) : i < l.length := by
  by_contra hc
  rw [List.getElem?_eq_none (by omega)] at h
  cases h

theorem HeapOk.congr {nodes nodes' : List (Node F)} {made : List (List Name)} (h : HeapOk nodes made)
    (hs : ∀ i : Nat, (nodes'[i]?).map (fun nd => (nd.name, nd.parent, nd.level)) =
      (nodes[i]?).map (fun nd => (nd.name, nd.parent, nd.level))) : HeapOk nodes' made := by
  have hlen : nodes'.length = nodes.length := by
    apply Nat.le_antisymm
    · by_contra hc
      have := hs nodes.length
      rw [List.getElem?_eq_getElem (by omega), List.getElem?_eq_none (by omega)] at this
      cases this
    · by_contra hc
      have := hs nodes'.length
      rw [List.getElem?_eq_none (by omega), List.getElem?_eq_getElem (by omega)] at this
      cases this
  refine ⟨hlen.trans h.len, ?_, h.made_ok⟩
  intro i nd hnd
  have := hs i
  rw [hnd] at this
  simp only [Option.map_some] at this
  obtain ⟨nd0, h0, e⟩ := Option.map_eq_some_iff.mp this.symm
  simp only [Prod.mk.injEq] at e
  obtain ⟨e1, e2, e3⟩ := e
  obtain ⟨p, hp, hpath, hl, hm⟩ := h.node i nd0 h0
  refine ⟨p, hp, ?_, by rw [← e3]; exact hl, by rw [← e1, ← e2]; exact hm⟩
  rw [← hpath]
  apply nodePath_congr
  intro j _
  have := congrArg (Option.map (fun t : Name × Option Nat × Nat => (t.1, t.2.1))) (hs j)
  rw [Option.map_map, Option.map_map] at this
  exact this

theorem HeapOk.append {nodes : List (Node F)} {made : List (List Name)} (h : HeapOk nodes made) (n : Name) (sc : F)
    (hn : '.' ∉ n) (parent : Option Nat) (p : List Name)
    (hp : match parent with
      | none => p = [n]
      | some q => ∃ pq, made[q]? = some pq ∧ p = pq ++ [n]) :
    HeapOk (nodes ++ [⟨n, parent, sc, newLevel nodes parent, []⟩]) (made ++ [p]) := by
  have hpath : ∀ i < nodes.length, nodePath (nodes ++ [⟨n, parent, sc, newLevel nodes parent, []⟩]) i = nodePath nodes i := by
    intro i hi
    apply nodePath_congr
    intro j hj
    rw [List.getElem?_append_left (by omega)]
  refine ⟨by simp [h.len], ?_, ?_⟩
  · intro i nd hnd
    by_cases hi : i < nodes.length
    · rw [List.getElem?_append_left hi] at hnd
      obtain ⟨p', hp', h1, h2, h3⟩ := h.node i nd hnd
      refine ⟨p', by rw [List.getElem?_append_left (by rw [← h.len]; exact hi)]; exact hp', by rw [hpath i hi, h1], h2, ?_⟩
      cases hq : nd.parent with
      | none => rw [hq] at h3; exact h3
      | some q =>
        rw [hq] at h3
        obtain ⟨hlt, pq, hpq, e⟩ := h3
        exact ⟨hlt, pq, by rw [List.getElem?_append_left (getElem?_lt hpq)]; exact hpq, e⟩
    · have hi' : i = nodes.length := by
        have := getElem?_lt hnd
        simp at this; omega
      subst hi'
      rw [List.getElem?_append_right (Nat.le_refl _)] at hnd
      simp only [Nat.sub_self, List.getElem?_cons_zero, Option.some.injEq] at hnd
      subst hnd
      refine ⟨p, by rw [h.len]; simp, ?_, ?_, ?_⟩
      · rw [nodePath, List.getElem?_append_right (Nat.le_refl _)]
        simp only [Nat.sub_self, List.getElem?_cons_zero]
        cases parent with
        | none => exact hp.symm
        | some q =>
          obtain ⟨pq, hpq, e⟩ := hp
          have hq : q < nodes.length := by rw [h.len]; exact getElem?_lt hpq
          simp only [hq, dif_pos]
          rw [hpath q hq]
          obtain ⟨p', hp', h1, _⟩ := h.node q _ (List.getElem?_eq_getElem hq)
          rw [hpq] at hp'
          rw [h1, e, Option.some.inj hp']
      · cases parent with
        | none => simp only at hp; simp [newLevel, hp]
        | some q =>
          obtain ⟨pq, hpq, e⟩ := hp
          have hq : q < nodes.length := by rw [h.len]; exact getElem?_lt hpq
          obtain ⟨p', hp', _, h1, _⟩ := h.node q _ (List.getElem?_eq_getElem hq)
          rw [hpq] at hp'
          simp [newLevel, List.getElem?_eq_getElem hq, h1, e, Option.some.inj hp']
      · cases parent with
        | none => exact hp
        | some q =>
          obtain ⟨pq, hpq, e⟩ := hp
          have hq := getElem?_lt hpq
          exact ⟨by rw [h.len]; exact hq, pq, by rw [List.getElem?_append_left hq]; exact hpq, e⟩
  · intro p' hp'
    rcases List.mem_append.mp hp' with hp' | hp'
    · exact h.made_ok p' hp'
    · rw [List.mem_singleton.mp hp']
      cases parent with
      | none => simp only at hp; rw [hp]; simpa using hn
      | some q =>
        obtain ⟨pq, hpq, e⟩ := hp
        rw [e]
        refine ⟨by simp, ?_⟩
        intro m hm
        rcases List.mem_append.mp hm with hm | hm
        · exact (h.made_ok pq (List.mem_of_getElem? hpq)).2 m hm
        · rw [List.mem_singleton.mp hm]; exact hn

private theorem WeakOk.del {st : TreeSt F} {made : List (List Name)} (h : WeakOk st made) (k : Name) (top : List Nat)
    (htop : ∀ e ∈ dictDel st.all k, e.2 ∈ st.top → e.2 ∈ top) :
    WeakOk ⟨st.nodes, dictDel st.all k, top⟩ made := by
  have hsub : (dictDel st.all k).Sublist st.all := List.filter_sublist
  refine ⟨h.heap, h.keys.sublist (hsub.map _), h.ids.sublist (hsub.map _), fun e he => h.entry e (hsub.subset he), ?_⟩
  intro e he p hp hl
  exact htop e he (h.top e (hsub.subset he) p hp hl)

theorem HeapOk.fullName_eq {nodes : List (Node F)} {made : List (List Name)} (h : HeapOk nodes made) {i : Nat}
    {p : List Name} (hp : made[i]? = some p) : fullName nodes i = joinDots p := by
  have hi : i < nodes.length := by rw [h.len]; exact getElem?_lt hp
  obtain ⟨p', hp', hpath, _⟩ := h.node i _ (List.getElem?_eq_getElem hi)
  rw [fullName, hpath]
  rw [hp] at hp'
  rw [Option.some.inj hp']

/-- adding the entry of a new node -/
private theorem WeakOk.push {st : TreeSt F} {made : List (List Name)} (h : WeakOk st made) (k : Name)
    (hk : k ∉ st.all.map (·.1)) (nodes' : List (Node F)) (p : List Name) (hheap : HeapOk nodes' (made ++ [p]))
    (hkp : k = joinDots p) (top' : List Nat) (htop : ∀ i ∈ st.top, i ∈ top') (hnew : p.length = 1 → made.length ∈ top') :
    WeakOk ⟨nodes', dictSet st.all k made.length, top'⟩ (made ++ [p]) := by
  have hlt : ∀ e ∈ st.all, e.2 < made.length := by
    intro e he
    obtain ⟨p, hp, _⟩ := h.entry e he
    exact getElem?_lt hp
  rw [dictSet_of_not_mem hk]
  refine ⟨hheap, ?_, ?_, ?_, ?_⟩
  · simp only [List.map_append, List.map_cons, List.map_nil]
    rw [List.nodup_append]
    refine ⟨h.keys, by simp, ?_⟩
    intro a ha b hb
    rw [List.mem_singleton.mp hb]
    rintro rfl
    exact hk ha
  · simp only [List.map_append, List.map_cons, List.map_nil]
    rw [List.pairwise_append]
    refine ⟨h.ids, by simp, ?_⟩
    intro a ha b hb
    rw [List.mem_singleton.mp hb]
    obtain ⟨e, he, rfl⟩ := List.mem_map.mp ha
    exact hlt e he
  · intro e he
    rcases List.mem_append.mp he with he | he
    · obtain ⟨p', hp', e'⟩ := h.entry e he
      exact ⟨p', by rw [List.getElem?_append_left (hlt e he)]; exact hp', e'⟩
    · rw [List.mem_singleton.mp he]
      exact ⟨p, by simp, hkp⟩
  · intro e he p' hp' hl
    rcases List.mem_append.mp he with he | he
    · rw [List.getElem?_append_left (hlt e he)] at hp'
      exact htop _ (h.top e he p' hp' hl)
    · rw [List.mem_singleton.mp he] at hp' ⊢
      simp at hp'
      subst hp'
      exact hnew hl

private theorem WeakOk.step {st : TreeSt F} {s : Choices F} (h : WeakOk st s.made) (op : TreeOp F)
    (hk : ∀ q n sc, op = .addChild q n sc → q < s.made.length) :
    WeakOk (treeStep st op).1 (s.step op).1.made := by
  have hlen := h.heap.len
  cases op with
  | addTop n sc =>
    simp only [treeStep, Choices.step, Choices.add, addTop, createNode]
    by_cases hl : Legal n sc
    · rw [if_pos hl]
      have hb := (nodeLegal_iff n sc).mpr hl
      have hheap := h.heap.append n sc hl.1 none [n] rfl
      cases hg : dictGet st.all n with
      | none =>
        rw [dictGet_eq_none] at hg
        simp only [finishCreate, hb, if_true, expectedName]
        have := h.push n hg _ [n] hheap (by simp) (st.top ++ [s.made.length]) (by simp +contextual) (by simp)
        rw [hlen]; exact this
      | some old =>
        have hmem := (dictGet_eq_some h.keys).mp hg
        obtain ⟨p, hp, e⟩ := h.entry _ hmem
        simp only at hp e
        have hpok := h.heap.made_ok p (List.mem_of_getElem? hp)
        have hpn : p = [n] := by
          apply joinDots_inj hpok.1 (by simp) hpok.2 (by simpa using hl.1)
          rw [joinDots_singleton, e]
        have htop : old ∈ st.top := h.top _ hmem p hp (by simp [hpn])
        simp only [htop, if_true, finishCreate, hb, expectedName]
        have hd : WeakOk ⟨st.nodes, dictDel st.all n, st.top.filter (fun i => decide (i ≠ old))⟩ s.made := by
          apply h.del
          intro e' he' ht
          refine List.mem_filter.mpr ⟨ht, ?_⟩
          simp only [decide_eq_true_eq]
          intro hc
          -- the ids are distinct, so e' would be the removed entry
          obtain ⟨h1, h2⟩ := List.mem_filter.mp he'
          simp only [decide_eq_true_eq] at h2
          obtain ⟨p', hp', e2⟩ := h.entry e' h1
          rw [hc, hp] at hp'
          apply h2
          rw [e2, ← Option.some.inj hp', ← e]
        have := hd.push n (dictDel_not_mem _ _) _ [n] hheap (by simp)
          (st.top.filter (fun i => decide (i ≠ old)) ++ [s.made.length])
          (fun i hi => List.mem_append_left _ hi) (by simp)
        rw [hlen]; exact this
    · rw [if_neg hl]
      have hb : nodeLegal n sc = false := by
        rw [← Bool.not_eq_true, nodeLegal_iff]; exact hl
      cases hg : dictGet st.all n with
      | none =>
        simp only [finishCreate, hb, Bool.false_eq_true, if_false]
        exact h
      | some old =>
        have hmem := (dictGet_eq_some h.keys).mp hg
        simp only [finishCreate, hb, Bool.false_eq_true, if_false]
        by_cases hot : old ∈ st.top
        · rw [if_pos hot]
          apply h.del
          intro e' he' ht
          refine List.mem_filter.mpr ⟨ht, ?_⟩
          simp only [decide_eq_true_eq]
          intro hc
          obtain ⟨h1, h2⟩ := List.mem_filter.mp he'
          simp only [decide_eq_true_eq] at h2
          obtain ⟨p', hp', e2⟩ := h.entry e' h1
          obtain ⟨p, hp, e⟩ := h.entry _ hmem
          rw [hc] at hp'
          simp only at hp e
          rw [hp] at hp'
          apply h2
          rw [e2, ← Option.some.inj hp', ← e]
        · rw [if_neg hot]
          exact h.del n st.top (fun _ _ ht => ht)
  | addChild q n sc =>
    have hq := hk q n sc rfl
    have hmade : s.made[q]? = some (s.made.getD q []) := by
      rw [List.getD_eq_getElem?_getD, List.getElem?_eq_getElem hq]; rfl
    have hmok := h.heap.made_ok _ (List.mem_of_getElem? hmade)
    have hname : expectedName st.nodes n (some q) = joinDots (s.made.getD q [] ++ [n]) := by
      rw [expectedName, h.heap.fullName_eq hmade, joinDots_snoc _ hmok.1]
    have hd := h.del (joinDots (s.made.getD q [] ++ [n])) st.top (fun _ _ ht => ht)
    simp only [treeStep, Choices.step, Choices.add, addChild, createNode, hname]
    by_cases hl : Legal n sc
    · rw [if_pos hl]
      have hb := (nodeLegal_iff n sc).mpr hl
      simp only [finishCreate, hb, if_true, hname]
      have hheap := h.heap.append n sc hl.1 (some q) (s.made.getD q [] ++ [n]) ⟨_, hmade, rfl⟩
      have hheap' := hheap.congr (nodes' := (st.nodes ++ [(⟨n, some q, sc, newLevel st.nodes (some q), []⟩ : Node F)]).modify q
          (fun nd => { nd with children := dictSet nd.children n st.nodes.length })) (by
        intro i
        rw [List.getElem?_modify]
        cases (st.nodes ++ [(⟨n, some q, sc, newLevel st.nodes (some q), []⟩ : Node F)])[i]? with
        | none => simp
        | some nd => by_cases hqi : q = i <;> simp [hqi])
      have := hd.push _ (dictDel_not_mem _ _) _ _ hheap' rfl st.top (fun _ ht => ht) (by
        intro hlen1
        have := List.length_pos_iff.mpr hmok.1
        simp only [List.length_append, List.length_singleton] at hlen1
        omega)
      rw [hlen] at this ⊢
      exact this
    · rw [if_neg hl]
      have hb : nodeLegal n sc = false := by
        rw [← Bool.not_eq_true, nodeLegal_iff]; exact hl
      simp only [finishCreate, hb, Bool.false_eq_true, if_false]
      exact hd
  | setScale k v =>
    simp only [treeStep, Choices.step, setScale]
    by_cases hv : lt zero v = true ∧ le v one = true
    · rw [if_pos hv, if_pos (by simpa using hv)]
      refine ⟨h.heap.congr (by
        intro i
        rw [List.getElem?_modify]
        cases st.nodes[i]? with
        | none => simp
        | some nd => by_cases hqi : k = i <;> simp [hqi]), h.keys, h.ids, h.entry, h.top⟩
    · rw [if_neg hv, if_neg (by simpa using hv)]
      exact h

private theorem WeakOk.run {st : TreeSt F} {s : Choices F} (h : WeakOk st s.made) (ops : List (TreeOp F))
    (hk : KnownHandles s ops) : WeakOk (treeRun st ops) (s.run ops).made := by
  induction ops generalizing st s with
  | nil => exact h
  | cons op ops ih =>
    have hstep := h.step op (by
      rintro q n sc rfl
      exact hk.1)
    refine ih hstep ?_
    cases op with
    | addTop n sc => exact hk
    | addChild q n sc => exact hk.2
    | setScale k v => exact hk

/-- **C15 (any history)** After any history whatsoever - rejected calls, replaced choices and choices added through handles of
replaced choices included - `choices` lists distinct created choices in the order of creation, with pairwise distinct
labels, each being the path of the choice padded with "." to the depth of the model. -/
theorem C15_any_history (ops : List (TreeOp F)) (hk : KnownHandles Choices.empty ops)
    (hv : validateTree (after ops) = .ok ()) (hne : (after ops).all ≠ []) :
    ∃ (ids : List Nat) (d : Nat), depth (after ops) = .ok d ∧ ids.Pairwise (· < ·) ∧ (∀ i ∈ ids, i < (expected ops).made.length) ∧
      choices (after ops) = .ok (ids.map fun i => pad d ((expected ops).made.getD i [])) ∧
      (ids.map fun i => pad d ((expected ops).made.getD i [])).Nodup := by
  have h : WeakOk (after ops) (expected ops).made := by
    refine WeakOk.run (s := Choices.empty) ⟨⟨rfl, by simp [TreeSt.empty], by simp [Choices.empty]⟩, by simp [TreeSt.empty],
      by simp [TreeSt.empty], by simp [TreeSt.empty], by simp [TreeSt.empty]⟩ ops hk
  obtain ⟨d, hd⟩ : ∃ d, depth (after ops) = .ok d := ⟨_, by unfold depth; rw [if_neg hne]⟩
  have hlev : ∀ e ∈ (after ops).all, ∀ p, (expected ops).made[e.2]? = some p → p.length ≤ d := by
    intro e he p hp
    have hi : e.2 < (after ops).nodes.length := by rw [h.heap.len]; exact getElem?_lt hp
    obtain ⟨p', hp', _, hl, _⟩ := h.heap.node _ _ (List.getElem?_eq_getElem hi)
    rw [hp] at hp'
    have : levelOf (after ops) e.2 = p.length := by
      simp [levelOf, List.getElem?_eq_getElem hi, hl, Option.some.inj hp']
    unfold depth at hd
    rw [if_neg hne] at hd
    simp only [Except.ok.injEq] at hd
    rw [← this, ← hd]
    have hmono : ∀ (l : List (Name × Nat)) m, m ≤ l.foldl (fun m e => max m (levelOf (after ops) e.2)) m := by
      intro l
      induction l with
      | nil => intro m; exact Nat.le_refl _
      | cons b l ih => intro m; exact le_trans (Nat.le_max_left _ _) (ih _)
    have key : ∀ (l : List (Name × Nat)) (m : Nat), e ∈ l →
        levelOf (after ops) e.2 ≤ l.foldl (fun m e => max m (levelOf (after ops) e.2)) m := by
      intro l
      induction l with
      | nil => intro m h; simp at h
      | cons a l ih =>
        intro m h
        rw [List.foldl_cons]
        rcases List.mem_cons.mp h with rfl | h
        · exact le_trans (Nat.le_max_right _ _) (hmono _ _)
        · exact ih _ h
    exact key _ _ he
  have hget : ∀ e ∈ (after ops).all, ∃ p, (expected ops).made[e.2]? = some p ∧ (expected ops).made.getD e.2 [] = p ∧
      e.1 = joinDots p := by
    intro e he
    obtain ⟨p, hp, e1⟩ := h.entry e he
    exact ⟨p, hp, by simp [List.getD_eq_getElem?_getD, hp], e1⟩
  refine ⟨(after ops).all.map (·.2), d, hd, h.ids, ?_, ?_, ?_⟩
  · intro i hi
    obtain ⟨e, he, rfl⟩ := List.mem_map.mp hi
    obtain ⟨p, hp, _⟩ := h.entry e he
    exact getElem?_lt hp
  · unfold choices
    rw [hv, hd]
    simp only [bind, Except.bind, pure, Except.pure]
    split
    · rename_i hd1
      rw [List.map_map]
      congr 1
      apply List.map_congr_left
      intro e he
      obtain ⟨p, hp, e1, e2⟩ := hget e he
      have hl := hlev e he p hp
      have hpne := (h.heap.made_ok p (List.mem_of_getElem? hp)).1
      have := List.length_pos_iff.mpr hpne
      obtain ⟨m, hm⟩ := List.length_eq_one_iff.mp (show p.length = 1 by omega)
      simp only [Function.comp, e1, e2, hm, joinDots_singleton, hd1]
      rfl
    · rw [List.map_map]
      congr 1
      apply List.map_congr_left
      intro e he
      obtain ⟨p, hp, e1, e2⟩ := hget e he
      simp only [Function.comp, e1]
      exact nestedId_eq (s := expected ops) h.heap d e.2 p hp (hlev e he p hp)
  · rw [List.map_map, List.nodup_map_iff_inj_on (List.Nodup.of_map _ h.keys)]
    intro a ha b hb e
    obtain ⟨p, hp, e1, e2⟩ := hget a ha
    obtain ⟨q, hq, f1, f2⟩ := hget b hb
    simp only [Function.comp, e1, f1] at e
    have hpo := h.heap.made_ok p (List.mem_of_getElem? hp)
    have hqo := h.heap.made_ok q (List.mem_of_getElem? hq)
    have := pad_inj hpo.2 hqo.2 e (hlev a ha p hp) (hlev b hb q hq)
    exact List.inj_on_of_nodup_map h.keys ha hb (by rw [e2, f2, this])

end Cheval
