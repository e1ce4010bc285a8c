import Verif.Props.TreeHistory
import Verif.Core.Handles
import Verif.Core.DictLemmas
import Verif.Spec.Handles

/-!
# C69: the handles returned by `add_choice`
-/
set_option linter.unusedSectionVars false
namespace Cheval
open FOps Spec
variable {F : Type} [FOps F]

/-! ## the effect of one call on the nodes -/

private theorem createNode_nodes (st : TreeSt F) (n : Name) (s : F) (p : Option Nat) :
    (∃ e, (createNode st n s p).2 = .error e ∧ (createNode st n s p).1.nodes = st.nodes) ∨
    ((createNode st n s p).2 = .ok st.nodes.length ∧
      (createNode st n s p).1.nodes = st.nodes ++ [⟨n, p, s, newLevel st.nodes p, []⟩]) := by
  have hf : ∀ st' : TreeSt F, st'.nodes = st.nodes →
      (∃ e, (finishCreate st' n s p).2 = .error e ∧ (finishCreate st' n s p).1.nodes = st.nodes) ∨
      ((finishCreate st' n s p).2 = .ok st.nodes.length ∧
        (finishCreate st' n s p).1.nodes = st.nodes ++ [⟨n, p, s, newLevel st.nodes p, []⟩]) := by
    intro st' h
    unfold finishCreate
    split
    · right; simp only [h]; exact ⟨trivial, trivial⟩
    · left; exact ⟨_, rfl, h⟩
  unfold createNode
  cases p with
  | some q => exact hf _ rfl
  | none =>
    simp only
    cases dictGet st.all n with
    | none => exact hf _ rfl
    | some old =>
      simp only
      split
      · exact hf _ rfl
      · left; exact ⟨_, rfl, rfl⟩

private theorem addTop_nodes (st : TreeSt F) (n : Name) (s : F) :
    (∃ e, (addTop st n s).2 = .error e ∧ (addTop st n s).1.nodes = st.nodes) ∨
    ((addTop st n s).2 = .ok st.nodes.length ∧ (addTop st n s).1.nodes = st.nodes ++ [⟨n, none, s, 1, []⟩]) := by
  rcases createNode_nodes st n s none with ⟨e, h1, h2⟩ | ⟨h1, h2⟩
  · left
    refine ⟨e, ?_⟩
    unfold addTop
    rcases hc : createNode st n s none with ⟨st', r⟩
    rw [hc] at h1 h2
    simp only at h1 h2
    subst h1
    exact ⟨rfl, h2⟩
  · right
    unfold addTop
    rcases hc : createNode st n s none with ⟨st', r⟩
    rw [hc] at h1 h2
    simp only at h1 h2
    subst h1
    exact ⟨rfl, h2⟩

private theorem addChild_nodes (st : TreeSt F) (h : Nat) (n : Name) (s : F) :
    (∃ e, (addChild st h n s).2 = .error e ∧ (addChild st h n s).1.nodes = st.nodes) ∨
    ((addChild st h n s).2 = .ok st.nodes.length ∧
      (addChild st h n s).1.nodes = (st.nodes ++ [(⟨n, some h, s, newLevel st.nodes (some h), []⟩ : Node F)]).modify h
        (fun nd => { nd with children := dictSet nd.children n st.nodes.length })) := by
  rcases createNode_nodes st n s (some h) with ⟨e, h1, h2⟩ | ⟨h1, h2⟩
  · left
    refine ⟨e, ?_⟩
    unfold addChild
    rcases hc : createNode st n s (some h) with ⟨st', r⟩
    rw [hc] at h1 h2
    simp only at h1 h2
    subst h1
    exact ⟨rfl, h2⟩
  · right
    unfold addChild
    rcases hc : createNode st n s (some h) with ⟨st', r⟩
    rw [hc] at h1 h2
    simp only at h1 h2
    subst h1
    refine ⟨rfl, ?_⟩
    simp only [h2]

private theorem setScale_nodes (st : TreeSt F) (h : Nat) (v : F) :
    (∃ e, (setScale st h v).2 = .error e ∧ (setScale st h v).1.nodes = st.nodes) ∨
    ((setScale st h v).2 = .ok h ∧ (setScale st h v).1.nodes = st.nodes.modify h (fun nd => { nd with scale := v })) := by
  unfold setScale
  split
  · right; exact ⟨rfl, rfl⟩
  · left; exact ⟨_, rfl, rfl⟩

/-! ## invariant -/

/-- what the nodes of the heap have to do with the calls made so far -/
private structure Told (st : TreeSt F) (tr : List (Call F)) : Prop where
  made : tr.filterMap madeBy = List.range st.nodes.length
  scale : ∀ i nd, st.nodes[i]? = some nd → (tr.filterMap (scaleGiven i)).getLast? = some nd.scale
  kids : ∀ i nd, st.nodes[i]? = some nd → nd.children = (tr.filterMap (addedUnder i)).foldl (fun d e => dictSet d e.1 e.2) []
  none' : ∀ i, st.nodes.length ≤ i → tr.filterMap (scaleGiven i) = [] ∧ tr.filterMap (addedUnder i) = []
  top : ∀ n s k, (TreeOp.addTop n s, Except.ok k) ∈ tr → ∃ nd, st.nodes[k]? = some nd ∧ nd.name = n ∧ nd.parent = none ∧ nd.level = 1
  sub : ∀ h n s k, (TreeOp.addChild h n s, Except.ok k) ∈ tr → h < k ∧ ∃ nd p, st.nodes[k]? = some nd ∧ st.nodes[h]? = some p ∧
    nd.name = n ∧ nd.parent = some h ∧ nd.level = p.level + 1

private theorem madeBy_error (op : TreeOp F) (e : Err) : madeBy (op, .error e) = none := by cases op <;> rfl
private theorem scaleGiven_error (i : Nat) (op : TreeOp F) (e : Err) : scaleGiven i (op, .error e) = none := by cases op <;> rfl
private theorem addedUnder_error (i : Nat) (op : TreeOp F) (e : Err) : addedUnder i (op, .error e) = none := by cases op <;> rfl

private theorem Told.refused {st st' : TreeSt F} {tr : List (Call F)} (h : Told st tr) (hn : st'.nodes = st.nodes)
    (op : TreeOp F) (e : Err) : Told st' (tr ++ [(op, .error e)]) := by
  constructor
  · rw [List.filterMap_append, hn, ← h.made]; simp [madeBy_error]
  · intro i nd hi
    rw [hn] at hi
    rw [List.filterMap_append, ← h.scale i nd hi]; simp [scaleGiven_error]
  · intro i nd hi
    rw [hn] at hi
    rw [List.filterMap_append, h.kids i nd hi]; simp [addedUnder_error]
  · intro i hi
    rw [hn] at hi
    obtain ⟨a, b⟩ := h.none' i hi
    rw [List.filterMap_append, List.filterMap_append, a, b]; simp [addedUnder_error, scaleGiven_error]
  · intro n s k hm
    rw [hn]
    apply h.top n s k
    simpa using hm
  · intro q n s k hm
    rw [hn]
    apply h.sub q n s k
    simpa using hm

private theorem lt_of_get {α : Type} {l : List α} {i : Nat} {a : α} (h : l[i]? = some a) : i < l.length := by
  by_contra hc
  rw [List.getElem?_eq_none (by omega)] at h
  cases h

private theorem Told.step {st : TreeSt F} {tr : List (Call F)} (h : Told st tr) (op : TreeOp F)
    (hu : ∀ q, usedBy op = some q → q < st.nodes.length) :
    Told (treeStep st op).1 (tr ++ [(op, (treeStep st op).2)]) := by
  cases op with
  | addTop n s =>
    show Told (addTop st n s).1 (tr ++ [(.addTop n s, (addTop st n s).2)])
    rcases addTop_nodes st n s with ⟨e, h1, h2⟩ | ⟨h1, h2⟩
    · rw [h1]; exact h.refused h2 _ _
    rw [h1]
    constructor
    · rw [List.filterMap_append, h2, h.made]
      simp [madeBy, List.range_succ]
    · intro i nd hi
      rw [h2] at hi
      rw [List.filterMap_append]
      rcases Nat.lt_trichotomy i st.nodes.length with hl | rfl | hl
      · rw [List.getElem?_append_left hl] at hi
        rw [← h.scale i nd hi]
        simp [scaleGiven, show st.nodes.length ≠ i by omega]
      · simp at hi; subst hi; simp [scaleGiven]
      · have := lt_of_get hi; simp at this; omega
    · intro i nd hi
      rw [h2] at hi
      rw [List.filterMap_append]
      have e1 : [((TreeOp.addTop n s : TreeOp F), (Except.ok st.nodes.length : Except Err Nat))].filterMap (addedUnder i) = [] := by
        simp [addedUnder]
      rw [e1, List.append_nil]
      rcases Nat.lt_trichotomy i st.nodes.length with hl | rfl | hl
      · rw [List.getElem?_append_left hl] at hi
        exact h.kids i nd hi
      · simp at hi; subst hi
        rw [(h.none' st.nodes.length (Nat.le_refl _)).2]; rfl
      · have := lt_of_get hi; simp at this; omega
    · intro i hi
      rw [h2] at hi
      simp at hi
      obtain ⟨a, b⟩ := h.none' i (by omega)
      rw [List.filterMap_append, List.filterMap_append, a, b]
      simp [addedUnder, scaleGiven, show st.nodes.length ≠ i by omega]
    · intro n' s' k hm
      rw [h2]
      rcases List.mem_append.mp hm with hm | hm
      · obtain ⟨nd, hk, hr⟩ := h.top n' s' k hm
        exact ⟨nd, by rw [List.getElem?_append_left (lt_of_get hk)]; exact hk, hr⟩
      · simp at hm
        obtain ⟨⟨rfl, rfl⟩, rfl⟩ := hm
        exact ⟨⟨n', none, s', 1, []⟩, by simp, rfl, rfl, rfl⟩
    · intro q n' s' k hm
      rw [h2]
      have hm : (TreeOp.addChild q n' s', Except.ok k) ∈ tr := by simpa using hm
      obtain ⟨hlt, nd, p, hk, hp, hr⟩ := h.sub q n' s' k hm
      exact ⟨hlt, nd, p, by rw [List.getElem?_append_left (lt_of_get hk)]; exact hk,
        by rw [List.getElem?_append_left (lt_of_get hp)]; exact hp, hr⟩
  | addChild q n s =>
    have hq : q < st.nodes.length := hu q rfl
    show Told (addChild st q n s).1 (tr ++ [(.addChild q n s, (addChild st q n s).2)])
    rcases addChild_nodes st q n s with ⟨e, h1, h2⟩ | ⟨h1, h2⟩
    · rw [h1]; exact h.refused h2 _ _
    rw [h1]
    have hget : ∀ i, i < st.nodes.length → (addChild st q n s).1.nodes[i]? =
        (st.nodes[i]?).map (fun nd => if q = i then { nd with children := dictSet nd.children n st.nodes.length } else nd) := by
      intro i hi
      rw [h2, List.getElem?_modify, List.getElem?_append_left hi]
      cases st.nodes[i]? with
      | none => rfl
      | some nd => by_cases hqi : q = i <;> simp [hqi]
    have hlast : (addChild st q n s).1.nodes[st.nodes.length]? = some ⟨n, some q, s, newLevel st.nodes (some q), []⟩ := by
      rw [h2, List.getElem?_modify]
      simp [show q ≠ st.nodes.length by omega]
    have hlen : (addChild st q n s).1.nodes.length = st.nodes.length + 1 := by rw [h2]; simp
    have hcase : ∀ i nd, (addChild st q n s).1.nodes[i]? = some nd →
        (i < st.nodes.length ∧ ∃ o, st.nodes[i]? = some o ∧ nd = if q = i then { o with children := dictSet o.children n st.nodes.length } else o)
        ∨ (i = st.nodes.length ∧ nd = ⟨n, some q, s, newLevel st.nodes (some q), []⟩) := by
      intro i nd hi
      rcases Nat.lt_trichotomy i st.nodes.length with hl | rfl | hl
      · left
        rw [hget i hl] at hi
        rw [Option.map_eq_some_iff] at hi
        obtain ⟨o, ho, e⟩ := hi
        exact ⟨hl, o, ho, e.symm⟩
      · right
        rw [hlast] at hi
        exact ⟨rfl, (Option.some.inj hi).symm⟩
      · have := lt_of_get hi; omega
    constructor
    · rw [List.filterMap_append, hlen, h.made]
      simp [madeBy, List.range_succ]
    · intro i nd hi
      rw [List.filterMap_append]
      rcases hcase i nd hi with ⟨hl, o, ho, rfl⟩ | ⟨rfl, rfl⟩
      · have : (if q = i then { o with children := dictSet o.children n st.nodes.length } else o).scale = o.scale := by
          split <;> rfl
        rw [this, ← h.scale i o ho]
        simp [scaleGiven, show st.nodes.length ≠ i by omega]
      · simp [scaleGiven]
    · intro i nd hi
      rw [List.filterMap_append]
      rcases hcase i nd hi with ⟨hl, o, ho, rfl⟩ | ⟨rfl, rfl⟩
      · by_cases hqi : q = i
        · simp [addedUnder, hqi, h.kids i o ho]
        · simp [addedUnder, hqi, h.kids i o ho]
      · rw [(h.none' st.nodes.length (Nat.le_refl _)).2]
        simp [addedUnder, show q ≠ st.nodes.length by omega]
    · intro i hi
      rw [hlen] at hi
      obtain ⟨a, b⟩ := h.none' i (by omega)
      rw [List.filterMap_append, List.filterMap_append, a, b]
      simp [addedUnder, scaleGiven, show st.nodes.length ≠ i by omega, show q ≠ i by omega]
    · intro n' s' k hm
      have hm : (TreeOp.addTop n' s', Except.ok k) ∈ tr := by simpa using hm
      obtain ⟨nd, hk, e1, e2, e3⟩ := h.top n' s' k hm
      rw [hget k (lt_of_get hk), hk]
      refine ⟨_, rfl, ?_⟩
      split <;> exact ⟨e1, e2, e3⟩
    · intro q' n' s' k hm
      rcases List.mem_append.mp hm with hm | hm
      · obtain ⟨hlt, nd, p, hk, hp, e1, e2, e3⟩ := h.sub q' n' s' k hm
        rw [hget k (lt_of_get hk), hk, hget q' (lt_of_get hp), hp]
        refine ⟨hlt, _, _, rfl, rfl, ?_⟩
        split <;> split <;> exact ⟨e1, e2, e3⟩
      · simp at hm
        obtain ⟨⟨rfl, rfl, rfl⟩, rfl⟩ := hm
        obtain ⟨o, ho⟩ : ∃ o, st.nodes[q']? = some o := ⟨_, List.getElem?_eq_getElem hq⟩
        rw [hlast, hget q' hq, ho]
        refine ⟨hq, _, _, rfl, rfl, rfl, rfl, ?_⟩
        simp [newLevel, ho]
  | setScale q v =>
    have hq : q < st.nodes.length := hu q rfl
    show Told (setScale st q v).1 (tr ++ [(.setScale q v, (setScale st q v).2)])
    rcases setScale_nodes st q v with ⟨e, h1, h2⟩ | ⟨h1, h2⟩
    · rw [h1]; exact h.refused h2 _ _
    rw [h1]
    have hget : ∀ i, (setScale st q v).1.nodes[i]? =
        (st.nodes[i]?).map (fun nd => if q = i then { nd with scale := v } else nd) := by
      intro i
      rw [h2, List.getElem?_modify]
      cases st.nodes[i]? with
      | none => rfl
      | some nd => by_cases hqi : q = i <;> simp [hqi]
    have hlen : (setScale st q v).1.nodes.length = st.nodes.length := by rw [h2]; simp
    constructor
    · rw [List.filterMap_append, hlen, h.made]
      simp [madeBy]
    · intro i nd hi
      rw [hget, Option.map_eq_some_iff] at hi
      obtain ⟨o, ho, rfl⟩ := hi
      rw [List.filterMap_append]
      by_cases hqi : q = i
      · simp [scaleGiven, hqi]
      · simp [scaleGiven, hqi, h.scale i o ho]
    · intro i nd hi
      rw [hget, Option.map_eq_some_iff] at hi
      obtain ⟨o, ho, rfl⟩ := hi
      rw [List.filterMap_append]
      have : (if q = i then { o with scale := v } else o).children = o.children := by split <;> rfl
      rw [this, h.kids i o ho]
      have e1 : [((TreeOp.setScale q v : TreeOp F), (Except.ok q : Except Err Nat))].filterMap (addedUnder i) = [] := by
        simp [addedUnder]
      rw [e1, List.append_nil]
    · intro i hi
      rw [hlen] at hi
      obtain ⟨a, b⟩ := h.none' i hi
      rw [List.filterMap_append, List.filterMap_append, a, b]
      simp [addedUnder, scaleGiven, show q ≠ i by omega]
    · intro n' s' k hm
      have hm : (TreeOp.addTop n' s', Except.ok k) ∈ tr := by simpa using hm
      obtain ⟨nd, hk, e1, e2, e3⟩ := h.top n' s' k hm
      rw [hget k, hk]
      refine ⟨_, rfl, ?_⟩
      split <;> exact ⟨e1, e2, e3⟩
    · intro q' n' s' k hm
      have hm : (TreeOp.addChild q' n' s', Except.ok k) ∈ tr := by simpa using hm
      obtain ⟨hlt, nd, p, hk, hp, e1, e2, e3⟩ := h.sub q' n' s' k hm
      rw [hget k, hk, hget q', hp]
      refine ⟨hlt, _, _, rfl, rfl, ?_⟩
      split <;> split <;> exact ⟨e1, e2, e3⟩

private theorem Told.run {st : TreeSt F} {tr : List (Call F)} (h : Told st tr) (ops : List (TreeOp F))
    (hu : OwnHandles (tr ++ treeTrace st ops)) : Told (treeRun st ops) (tr ++ treeTrace st ops) := by
  induction ops generalizing st tr with
  | nil => simpa [treeTrace, treeRun] using h
  | cons op ops ih =>
    have hs := h.step op (by
      intro q hq
      have := hu tr _ (treeTrace (treeStep st op).1 ops) rfl q hq
      rw [h.made] at this
      exact List.mem_range.mp this)
    have e : tr ++ treeTrace st (op :: ops) =
        (tr ++ [(op, (treeStep st op).2)]) ++ treeTrace (treeStep st op).1 ops := by
      simp [treeTrace]
    rw [e] at hu ⊢
    exact ih hs hu

/-- the calls of a history on a new model, with their outcomes -/
abbrev callsOf (ops : List (TreeOp F)) : List (Call F) := treeTrace TreeSt.empty ops

private theorem told (ops : List (TreeOp F)) (hu : OwnHandles (callsOf ops)) : Told (after ops) (callsOf ops) := by
  have h0 : Told (TreeSt.empty : TreeSt F) [] := by
    constructor <;> simp [TreeSt.empty]
  simpa using h0.run ops (by simpa using hu)

/-! ## the theorems -/

/-- **C69** no two accepted additions return the same handle, and the handles are exactly the nodes of the model -/
theorem C69_distinct (ops : List (TreeOp F)) (hu : OwnHandles (callsOf ops)) :
    ((callsOf ops).filterMap madeBy).Nodup ∧ ∀ i, i ∈ (callsOf ops).filterMap madeBy ↔ (nodeName (after ops) i).isSome := by
  rw [(told ops hu).made]
  refine ⟨List.nodup_range, fun i => ?_⟩
  rw [List.mem_range]
  simp [nodeName]

/-- **C69** a handle returned by the model's `add_choice` describes a top-level choice of that name, whatever happened
before and after -/
theorem C69_top (ops : List (TreeOp F)) (hu : OwnHandles (callsOf ops)) (n : Name) (s : F) (k : Nat)
    (hk : (TreeOp.addTop n s, Except.ok k) ∈ callsOf ops) :
    nodeName (after ops) k = some n ∧ nodeParent (after ops) k = some none ∧ nodeLevel (after ops) k = some 1 ∧
      fullName (after ops).nodes k = n := by
  obtain ⟨nd, h1, rfl, h3, h4⟩ := (told ops hu).top n s k hk
  refine ⟨by simp [nodeName, h1], by simp [nodeParent, h1, h3], by simp [nodeLevel, h1, h4], ?_⟩
  unfold fullName
  rw [nodePath, h1]
  simp [h3]

private theorem nodePath_ne (nodes : List (Node F)) (i : Nat) (nd : Node F) (h : nodes[i]? = some nd) : nodePath nodes i ≠ [] := by
  rw [nodePath, h]
  simp only
  cases nd.parent with
  | none => simp
  | some p => simp only; split <;> simp

/-- **C69** a handle returned by a choice's `add_choice` describes a choice nested in it -/
theorem C69_nested (ops : List (TreeOp F)) (hu : OwnHandles (callsOf ops)) (h : Nat) (n : Name) (s : F) (k : Nat)
    (hk : (TreeOp.addChild h n s, Except.ok k) ∈ callsOf ops) :
    nodeName (after ops) k = some n ∧ nodeParent (after ops) k = some (some h) ∧
      nodeLevel (after ops) k = (nodeLevel (after ops) h).map (· + 1) ∧
      fullName (after ops).nodes k = fullName (after ops).nodes h ++ ['.'] ++ n := by
  obtain ⟨hlt, nd, p, h1, h2, rfl, h4, h5⟩ := (told ops hu).sub h n s k hk
  refine ⟨by simp [nodeName, h1], by simp [nodeParent, h1, h4], by simp [nodeLevel, h1, h2, h5], ?_⟩
  unfold fullName
  rw [nodePath, h1]
  simp only [h4, dif_pos hlt]
  rw [joinDots_snoc _ (nodePath_ne _ _ _ h2)]

/-- **C69** `logsum_scale` is the value given last -/
theorem C69_scale (ops : List (TreeOp F)) (hu : OwnHandles (callsOf ops)) (i : Nat) :
    nodeScale (after ops) i = ((callsOf ops).filterMap (scaleGiven i)).getLast? := by
  unfold nodeScale
  cases h : (after ops).nodes[i]? with
  | none =>
    rw [((told ops hu).none' i (by rwa [List.getElem?_eq_none_iff] at h)).1]; rfl
  | some nd => rw [(told ops hu).scale i nd h]; rfl

private theorem foldl_dictSet_latest (l : List (Name × Nat)) :
    (l.foldl (fun d e => dictSet d e.1 e.2) []).map (·.1) = firstNames l [] ∧
      ∀ n, dictGet (l.foldl (fun d e => dictSet d e.1 e.2) []) n = lastNamed l n := by
  constructor
  · have : ∀ (l d : List (Name × Nat)), (l.foldl (fun d e => dictSet d e.1 e.2) d).map (·.1) = firstNames l (d.map (·.1)) := by
      intro l
      induction l with
      | nil => intro d; rfl
      | cons e l ih =>
        intro d
        rw [List.foldl_cons, ih, firstNames]
        congr 1
        unfold dictSet
        split
        · rename_i hm
          rw [List.map_map]
          apply List.map_congr_left
          intro x _
          simp only [Function.comp]
          split
          · rename_i hx; simp [hx]
          · rfl
        · simp
    simpa using this l []
  · intro n
    induction l using List.reverseRecOn with
    | nil => rfl
    | append_singleton l e ih =>
      rw [List.foldl_append, List.foldl_cons, List.foldl_nil, dictGet_dictSet, ih]
      unfold lastNamed
      rw [List.reverse_append]
      simp only [List.reverse_cons, List.reverse_nil, List.nil_append, List.cons_append, List.find?_cons]
      by_cases h : e.1 = n
      · simp [h]
      · simp [h, Ne.symm h]

private theorem foldl_dictSet_nodup (l d : List (Name × Nat)) (h : (d.map (·.1)).Nodup) :
    ((l.foldl (fun d e => dictSet d e.1 e.2) d).map (·.1)).Nodup := by
  induction l generalizing d with
  | nil => exact h
  | cons e l ih => exact ih _ (dictSet_keys_nodup h _ _)

private theorem dict_values (d : List (Name × Nat)) (h : (d.map (·.1)).Nodup) :
    d.map (·.2) = (d.map (·.1)).filterMap (dictGet d) := by
  rw [List.filterMap_map]
  have : ∀ e ∈ d, (dictGet d ∘ (·.1)) e = some e.2 := fun e he => (dictGet_eq_some h).mpr he
  have e2 : d.filterMap (dictGet d ∘ (·.1)) = d.filterMap (fun e => some e.2) := by
    apply List.filterMap_congr
    exact this
  rw [e2]
  simp

/-- **C69** `children()` yields one choice per name used in this choice's `add_choice`: the last one added, in the order in
which the names were first used. `n_children` and `is_parent` agree with it. -/
theorem C69_children (ops : List (TreeOp F)) (hu : OwnHandles (callsOf ops)) (i : Nat) :
    nodeChildren (after ops) i = nestedIn (callsOf ops) i ∧
      nChildren (after ops) i = (nestedIn (callsOf ops) i).length ∧
      (isParent (after ops) i = true ↔ ∃ h n s k, (TreeOp.addChild h n s, Except.ok k) ∈ callsOf ops ∧ h = i) := by
  have e1 : nodeChildren (after ops) i = nestedIn (callsOf ops) i := by
    unfold nodeChildren nestedIn
    cases h : (after ops).nodes[i]? with
    | none =>
      rw [((told ops hu).none' i (by rwa [List.getElem?_eq_none_iff] at h)).2]; rfl
    | some nd =>
      simp only
      rw [(told ops hu).kids i nd h]
      obtain ⟨a, b⟩ := foldl_dictSet_latest ((callsOf ops).filterMap (addedUnder i))
      rw [dict_values _ (foldl_dictSet_nodup _ [] (by simp)), a]
      apply List.filterMap_congr
      intro n _
      exact b n
  have e2 : nChildren (after ops) i = (nodeChildren (after ops) i).length := by
    unfold nChildren nodeChildren
    cases (after ops).nodes[i]? with
    | none => rfl
    | some nd => simp
  refine ⟨e1, by rw [e2, e1], ?_⟩
  unfold isParent nChildren
  have hmem : (∃ h n s k, (TreeOp.addChild h n s, Except.ok k) ∈ callsOf ops ∧ h = i) ↔
      (callsOf ops).filterMap (addedUnder i) ≠ [] := by
    rw [ne_eq, List.filterMap_eq_nil_iff]
    push Not
    constructor
    · rintro ⟨h, n, s, k, hm, rfl⟩
      exact ⟨_, hm, by simp [addedUnder]⟩
    · rintro ⟨⟨op, r⟩, hm, hne⟩
      unfold addedUnder at hne
      split at hne
      · rename_i h n s k heq
        obtain ⟨rfl, rfl⟩ := Prod.mk.inj heq
        split at hne
        · rename_i hi; exact ⟨h, n, s, k, hm, hi⟩
        · exact absurd rfl hne
      · exact absurd rfl hne
  rw [hmem]
  cases h : (after ops).nodes[i]? with
  | none =>
    rw [((told ops hu).none' i (by rwa [List.getElem?_eq_none_iff] at h)).2]; simp
  | some nd =>
    simp only
    rw [decide_eq_true_eq, (told ops hu).kids i nd h]
    have hl : ((callsOf ops).filterMap (addedUnder i)).foldl (fun d e => dictSet d e.1 e.2) ([] : List (Name × Nat)) = [] ↔
        (callsOf ops).filterMap (addedUnder i) = [] := by
      constructor
      · intro h0
        obtain ⟨a, b⟩ := foldl_dictSet_latest ((callsOf ops).filterMap (addedUnder i))
        by_contra hne
        obtain ⟨e, l, he⟩ := List.exists_cons_of_ne_nil hne
        have hb := b e.1
        rw [h0] at hb
        have : lastNamed ((callsOf ops).filterMap (addedUnder i)) e.1 = none := by rw [← hb]; rfl
        unfold lastNamed at this
        rw [Option.map_eq_none_iff, List.find?_eq_none] at this
        exact this e (by rw [he]; simp) (by simp)
      · intro h0; rw [h0]; rfl
    rw [← not_iff_not, not_lt, Nat.le_zero, List.length_eq_zero_iff, hl, not_not]

private theorem kid_after (ops : List (TreeOp F)) (hu : OwnHandles (callsOf ops)) {i j : Nat} (h : j ∈ nestedIn (callsOf ops) i) :
    i < j ∧ j < (after ops).nodes.length := by
  unfold nestedIn at h
  rw [List.mem_filterMap] at h
  obtain ⟨n, _, hn⟩ := h
  unfold lastNamed at hn
  rw [Option.map_eq_some_iff] at hn
  obtain ⟨e, he, rfl⟩ := hn
  have hm := List.mem_of_find?_eq_some he
  rw [List.mem_reverse, List.mem_filterMap] at hm
  obtain ⟨⟨op, r⟩, hc, hh⟩ := hm
  unfold addedUnder at hh
  split at hh
  · rename_i q n' s k heq
    obtain ⟨rfl, rfl⟩ := Prod.mk.inj heq
    split at hh
    · rename_i hi
      subst hi
      cases hh
      obtain ⟨hlt, nd, p, h1, _⟩ := (told ops hu).sub q n' s k hc
      exact ⟨hlt, lt_of_get h1⟩
    · cases hh
  · cases hh

private theorem foldl_max_spec (l : List Nat) (f : Nat → Nat) (m : Nat) :
    m ≤ l.foldl (fun m c => max m (f c)) m ∧ (∀ c ∈ l, f c ≤ l.foldl (fun m c => max m (f c)) m) ∧
      (l.foldl (fun m c => max m (f c)) m = m ∨ ∃ c ∈ l, l.foldl (fun m c => max m (f c)) m = f c) := by
  induction l generalizing m with
  | nil => simp
  | cons a l ih =>
    obtain ⟨h1, h2, h3⟩ := ih (max m (f a))
    rw [List.foldl_cons]
    refine ⟨le_trans (le_max_left _ _) h1, ?_, ?_⟩
    · intro c hc
      rcases List.mem_cons.mp hc with rfl | hc
      · exact le_trans (le_max_right _ _) h1
      · exact h2 c hc
    · rcases h3 with h3 | ⟨c, hc, h3⟩
      · rcases le_total m (f a) with hle | hle
        · right; exact ⟨a, by simp, by rw [h3, max_eq_right hle]⟩
        · left; rw [h3, max_eq_left hle]
      · right; exact ⟨c, by simp [hc], h3⟩

private theorem foldl_congr_mem {α β : Type} (l : List α) (f g : β → α → β) (b : β) (h : ∀ b, ∀ a ∈ l, f b a = g b a) :
    l.foldl f b = l.foldl g b := by
  induction l generalizing b with
  | nil => rfl
  | cons a l ih =>
    rw [List.foldl_cons, List.foldl_cons, h b a (by simp)]
    exact ih _ (fun b x hx => h b x (by simp [hx]))

private theorem maxLevel_eq (ops : List (TreeOp F)) (hu : OwnHandles (callsOf ops)) (i : Nat) :
    maxLevel (after ops) i =
      (nestedIn (callsOf ops) i).foldl (fun m c => max m (maxLevel (after ops) c)) (levelOf (after ops) i) := by
  rw [maxLevel, (C69_children ops hu i).1]
  apply foldl_congr_mem
  intro b c hc
  rw [dif_pos (kid_after ops hu hc)]

/-- **C69** `max_level()` is the level of the deepest choice nested in this one -/
theorem C69_max_level (ops : List (TreeOp F)) (hu : OwnHandles (callsOf ops)) (i : Nat) :
    (∀ k, Within (callsOf ops) i k → levelOf (after ops) k ≤ maxLevel (after ops) i) ∧
      ∃ k, Within (callsOf ops) i k ∧ levelOf (after ops) k = maxLevel (after ops) i := by
  constructor
  · intro k hk
    induction hk with
    | self i =>
      rw [maxLevel_eq ops hu]
      exact (foldl_max_spec _ _ _).1
    | nested hj _ ih =>
      rw [maxLevel_eq ops hu]
      exact le_trans ih ((foldl_max_spec _ (fun c => maxLevel (after ops) c) _).2.1 _ hj)
  · generalize hd : (after ops).nodes.length - i = d
    induction d using Nat.strong_induction_on generalizing i with
    | _ d ih =>
      rcases (foldl_max_spec (nestedIn (callsOf ops) i) (fun c => maxLevel (after ops) c) (levelOf (after ops) i)).2.2 with h | ⟨c, hc, h⟩
      · exact ⟨i, .self i, by rw [maxLevel_eq ops hu, h]⟩
      · obtain ⟨h1, h2⟩ := kid_after ops hu hc
        obtain ⟨k, hk, hl⟩ := ih ((after ops).nodes.length - c) (by omega) c rfl
        exact ⟨k, .nested hc hk, by rw [hl, maxLevel_eq ops hu i, h]⟩

/-- **C69** for histories that do not replace a choice that has nested choices (C17) and in which no replacement is rejected
(C18): the children of a choice of the model are the choices of the model nested directly in it -/
theorem C69_live (ops : List (TreeOp F)) (hc : CleanRun Choices.empty ops) (r : Rec F) (hr : r ∈ (expected ops).live) :
    (nodeChildren (after ops) r.handle).Perm (((expected ops).kids r).map (·.handle)) := by
  have h := rel_after ops hc
  obtain ⟨nd, h1, _⟩ := h.get hr
  have hnd := h.child_nodup r hr nd h1
  have hch := h.child r hr nd h1
  have hlive : (expected ops).live.Nodup := List.Nodup.of_map _ h.live_nodup
  have hk : ((expected ops).kids r).Nodup := hlive.filter _
  unfold nodeChildren
  rw [h1]
  simp only
  rw [List.perm_ext_iff_of_nodup]
  · intro c
    simp only [List.mem_map, Choices.mem_kids, IsChild]
    constructor
    · rintro ⟨⟨n, c'⟩, hm, rfl⟩
      obtain ⟨r', hr', e1, e2⟩ := (hch n c').mp hm
      exact ⟨r', ⟨hr', n, e2⟩, e1⟩
    · rintro ⟨r', ⟨hr', n, e2⟩, rfl⟩
      exact ⟨(n, r'.handle), (hch n r'.handle).mpr ⟨r', hr', rfl, e2⟩, rfl⟩
  · have hnd' := hnd
    rw [List.nodup_map_iff_inj_on (List.Nodup.of_map _ hnd)]
    rintro ⟨n, c⟩ hm ⟨n', c'⟩ hm' e
    simp only at e
    subst e
    obtain ⟨r1, hr1, e1, e2⟩ := (hch n c).mp hm
    obtain ⟨r2, hr2, e3, e4⟩ := (hch n' c).mp hm'
    have := h.live_inj_handle hr1 hr2 (by rw [e1, e3])
    subst this
    rw [e2] at e4
    have := List.append_cancel_left e4
    simp at this
    rw [this]
  · rw [List.nodup_map_iff_inj_on hk]
    intro a ha b hb e
    exact h.live_inj_handle (Choices.mem_kids.mp ha).1 (Choices.mem_kids.mp hb).1 e

/-! ### A concrete case: nest A with x and y next to B; a rejected scale; x is added again to A -/

section concrete
variable (half : F)

private def hsHistory : List (TreeOp F) :=
  [.addTop ['A'] one, .addTop ['B'] one, .addChild 0 ['x'] one, .setScale 0 zero, .addChild 0 ['y'] one, .addChild 2 ['z'] one,
    .setScale 0 half, .addChild 0 ['x'] one]

private def hn0 (l : List (Node F)) := nodePath.eq_1 l 0
private def hn2 (l : List (Node F)) := nodePath.eq_1 l 2

variable (h01 : lt (zero : F) one = true) (h11 : le (one : F) one = true) (h00 : lt (zero : F) zero = false)
  (hh : lt zero half = true) (hh1 : le half one = true)
include h01 h11 h00 hh hh1

private theorem hsCalls : callsOf (hsHistory half) =
    (hsHistory half).zip [.ok 0, .ok 1, .ok 2, .error .assertion, .ok 3, .ok 4, .ok 0, .ok 5] := by
  simp [callsOf, hsHistory, treeTrace, treeStep, addTop, addChild, setScale, createNode, finishCreate, nodeLegal, h01, h11, h00, hh, hh1,
    TreeSt.empty, dictGet, dictSet, dictDel, expectedName, fullName, joinDots, newLevel, hn0, hn2, List.modify,
    List.modifyTailIdx, List.modifyTailIdx.go, List.modifyHead, List.intercalate]

private theorem hsOwn : OwnHandles (callsOf (hsHistory half)) := by
  rw [hsCalls half h01 h11 h00 hh hh1]
  intro pre c post e h hc
  simp only [hsHistory, List.zip_cons_cons, List.zip_nil_left] at e
  rcases pre with _ | ⟨p0, _ | ⟨p1, _ | ⟨p2, _ | ⟨p3, _ | ⟨p4, _ | ⟨p5, _ | ⟨p6, _ | ⟨p7, pre⟩⟩⟩⟩⟩⟩⟩⟩ <;>
    simp at e <;> (try obtain ⟨rfl, e⟩ := e) <;> (try obtain ⟨rfl, e⟩ := e) <;> (try obtain ⟨rfl, e⟩ := e) <;>
    (try obtain ⟨rfl, e⟩ := e) <;> (try obtain ⟨rfl, e⟩ := e) <;> (try obtain ⟨rfl, e⟩ := e) <;> (try obtain ⟨rfl, e⟩ := e) <;>
    (try obtain ⟨rfl, e⟩ := e) <;> (try subst e) <;> simp_all [usedBy, madeBy]

/-- `children()` of A yields the new x before y, the scale of A is 1/2, `max_level()` of A is at least 2 -/
private theorem hsCase : nodeChildren (after (hsHistory half)) 0 = [5, 3] ∧ nodeScale (after (hsHistory half)) 0 = some half ∧
    fullName (after (hsHistory half)).nodes 5 = ['A', '.', 'x'] ∧ 2 ≤ maxLevel (after (hsHistory half)) 0 := by
  have own := hsOwn half h01 h11 h00 hh hh1
  have calls := hsCalls half h01 h11 h00 hh hh1
  have hkids : nestedIn (callsOf (hsHistory half)) 0 = [5, 3] := by
    rw [calls]; rfl
  have hA := C69_top (hsHistory half) own ['A'] one 0 (by rw [calls]; simp [hsHistory])
  have hx := C69_nested (hsHistory half) own 0 ['x'] one 5 (by rw [calls]; simp [hsHistory])
  refine ⟨by rw [(C69_children _ own 0).1, hkids], ?_, ?_, ?_⟩
  · rw [C69_scale _ own, calls]; rfl
  · rw [hx.2.2.2, hA.2.2.2]; rfl
  · have h5 : levelOf (after (hsHistory half)) 5 = 2 := by
      have h1 := hx.2.2.1
      rw [hA.2.2.1] at h1
      unfold nodeLevel at h1
      unfold levelOf
      cases hn : (after (hsHistory half)).nodes[5]? with
      | none => rw [hn] at h1; cases h1
      | some nd => rw [hn] at h1; simpa using h1
    rw [← h5]
    exact (C69_max_level _ own 0).1 5 (.nested (by rw [hkids]; simp) (.self 5))

end concrete

/-- with real numbers -/
example : nodeChildren (after (hsHistory (XR.fin (1/2)))) 0 = [5, 3] ∧
    nodeScale (after (hsHistory (XR.fin (1/2)))) 0 = some (XR.fin (1/2)) :=
  have h := hsCase (XR.fin (1/2)) (by simp [lt, zero, one, XR.lt]) (by simp [le, one, XR.le]) (by simp [lt, zero, XR.lt])
    (by simp [lt, zero, XR.lt]) (by simp [le, one, XR.le]; norm_num)
  ⟨h.1, h.2.1⟩

end Cheval
