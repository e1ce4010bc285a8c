import Verif.Core.TreeLemmas
import Verif.Core.NestedLemmas
import Mathlib.Data.List.Perm.Basic

/-!
Helper lemmas: what the model's observers return, in terms of the flat list of records.
-/
set_option linter.unusedSectionVars false
namespace Cheval
open FOps Spec
variable {F : Type} [FOps F] {st : TreeSt F} {s : Choices F}

namespace Spec
/-- longest path -/
def Choices.depth (s : Choices F) : Nat := s.live.foldl (fun m r => max m r.path.length) 0

open Classical in
/-- the choices nested directly in `r` -/
noncomputable def Choices.kids (s : Choices F) (r : Rec F) : List (Rec F) := s.live.filter (fun c => decide (IsChild r c))
theorem Choices.mem_kids {s : Choices F} {r c : Rec F} : c ∈ s.kids r ↔ c ∈ s.live ∧ IsChild r c := by
  simp [Choices.kids]
end Spec

theorem TreeRel.get (h : TreeRel st s) {r : Rec F} (hr : r ∈ s.live) : ∃ nd, st.nodes[r.handle]? = some nd ∧
    nd.level = r.path.length ∧ nodePath st.nodes r.handle = r.path ∧ nd.scale = r.scale := by
  have hm := h.live_made r hr
  have hi : r.handle < st.nodes.length := by
    rw [h.len]
    by_contra hc
    rw [List.getElem?_eq_none (by omega)] at hm
    cases hm
  refine ⟨_, List.getElem?_eq_getElem hi, ?_⟩
  obtain ⟨p, hp, h1, h2, _⟩ := h.node _ _ (List.getElem?_eq_getElem hi)
  rw [hm] at hp
  obtain rfl := Option.some.inj hp
  exact ⟨h2, h1, h.scale r hr _ (List.getElem?_eq_getElem hi)⟩

theorem TreeRel.level_eq (h : TreeRel st s) {r : Rec F} (hr : r ∈ s.live) : levelOf st r.handle = r.path.length := by
  obtain ⟨nd, h1, h2, _⟩ := h.get hr
  simp [levelOf, h1, h2]

theorem foldl_max_congr {α : Type} (l : List α) (f g : α → Nat) (h : ∀ a ∈ l, f a = g a) (m : Nat) :
    l.foldl (fun m a => max m (f a)) m = l.foldl (fun m a => max m (g a)) m := by
  induction l generalizing m with
  | nil => rfl
  | cons a l ih =>
    rw [List.foldl_cons, List.foldl_cons, h a (by simp)]
    exact ih (fun b hb => h b (by simp [hb])) _

theorem TreeRel.depth_eq (h : TreeRel st s) (hne : s.live ≠ []) : depth st = .ok s.depth := by
  unfold depth
  rw [if_neg (by rw [h.all]; simpa using hne), h.all, List.foldl_map]
  congr 1
  exact foldl_max_congr s.live (fun r => levelOf st r.handle) (fun r => r.path.length) (fun r hr => h.level_eq hr) 0

theorem Spec.Choices.le_depth (s : Choices F) {r : Rec F} (hr : r ∈ s.live) : r.path.length ≤ s.depth := by
  unfold Choices.depth
  have hmono : ∀ (l : List (Rec F)) m, m ≤ l.foldl (fun m r => max m r.path.length) m := by
    intro l
    induction l with
    | nil => intro m; exact Nat.le_refl _
    | cons b l ih => intro m; exact le_trans (Nat.le_max_left _ _) (ih _)
  have key : ∀ (l : List (Rec F)) (m : Nat), r ∈ l → r.path.length ≤ l.foldl (fun m r => max m r.path.length) m := by
    intro l
    induction l with
    | nil => intro m h; simp at h
    | cons a l ih =>
      intro m h
      rw [List.foldl_cons]
      rcases List.mem_cons.mp h with rfl | h
      · exact le_trans (Nat.le_max_right _ _) (hmono _ _)
      · exact ih _ h
  exact key _ _ hr

theorem Spec.Choices.depth_le (s : Choices F) {d : Nat} (hd : ∀ r ∈ s.live, r.path.length ≤ d) : s.depth ≤ d := by
  unfold Choices.depth
  have key : ∀ (l : List (Rec F)) (m : Nat), m ≤ d → (∀ r ∈ l, r.path.length ≤ d) →
      l.foldl (fun m r => max m r.path.length) m ≤ d := by
    intro l
    induction l with
    | nil => intro m hm _; exact hm
    | cons a l ih => intro m hm h; exact ih _ (max_le hm (h a (by simp))) (fun r hr => h r (by simp [hr]))
  exact key _ _ (Nat.zero_le _) hd

/-- what is known of the heap in every history -/
structure HeapOk (nodes : List (Node F)) (made : List (List Name)) : Prop where
  len : nodes.length = made.length
  node : ∀ i nd, nodes[i]? = some nd → ∃ p, made[i]? = some p ∧ nodePath nodes i = p ∧ nd.level = p.length ∧
    (match nd.parent with
      | none => p = [nd.name]
      | some q => q < i ∧ ∃ pq, made[q]? = some pq ∧ p = pq ++ [nd.name])
  made_ok : ∀ p ∈ made, p ≠ [] ∧ ∀ n ∈ p, '.' ∉ n

theorem TreeRel.heap (h : TreeRel st s) : HeapOk st.nodes s.made := ⟨h.len, h.node, h.made_ok⟩

theorem nestedId_eq (h : HeapOk st.nodes s.made) (d : Nat) (i : Nat) (p : List Name) (hp : s.made[i]? = some p) (hd : p.length ≤ d) :
    nestedId st.nodes d i = pad d p := by
  induction i using Nat.strong_induction_on generalizing p with
  | _ i ih =>
    have hi : i < st.nodes.length := by
      rw [h.len]
      by_contra hc
      rw [List.getElem?_eq_none (by omega)] at hp
      cases hp
    obtain ⟨p', hp', _, hl, hm⟩ := h.node i _ (List.getElem?_eq_getElem hi)
    rw [hp] at hp'
    obtain rfl := Option.some.inj hp'
    rw [nestedId, List.getElem?_eq_getElem hi]
    simp only
    cases hq : st.nodes[i].parent with
    | none =>
      rw [hq] at hm
      simp only at hm ⊢
      rw [hm] at hd ⊢
      obtain ⟨d', rfl⟩ : ∃ d', d = d' + 1 := ⟨d - 1, by simp at hd; omega⟩
      simp [pad, List.replicate_succ]
    | some q =>
      rw [hq] at hm
      obtain ⟨hlt, pq, hpq, rfl⟩ := hm
      simp only [hlt, dif_pos]
      have hlen : pq.length + 1 ≤ d := by simpa using hd
      rw [ih q hlt pq hpq (by omega), hl]
      have hpadlen : (pad d pq).length = d := by simp [pad]; omega
      -- the slice assignment keeps everything
      have e1 : (pad d pq).take ((pq ++ [st.nodes[i].name]).length + 1) ++
          (List.replicate d ['.']).drop ((pq ++ [st.nodes[i].name]).length + 1) = pad d pq := by
        have hd1 : (List.replicate d ['.']).drop ((pq ++ [st.nodes[i].name]).length + 1) =
            (pad d pq).drop ((pq ++ [st.nodes[i].name]).length + 1) := by
          unfold pad
          rw [List.drop_append, List.drop_eq_nil_of_le (as := pq) (by simp; omega)]
          simp only [List.drop_replicate, List.nil_append, List.length_append, List.length_singleton]
          congr 1
          omega
        rw [hd1, List.take_append_drop]
      rw [e1]
      have e2 : (pq ++ [st.nodes[i].name]).length + 1 - 2 = pq.length := by simp
      rw [e2]
      unfold pad
      obtain ⟨k, hk⟩ : ∃ k, d - pq.length = k + 1 := ⟨d - pq.length - 1, by omega⟩
      have hk2 : d - (pq ++ [st.nodes[i].name]).length = k := by simp; omega
      rw [hk, hk2, List.replicate_succ, List.set_append_right _ _ (Nat.le_refl _)]
      simp

theorem pad_inj {d : Nat} {p q : List Name} (hp : ∀ n ∈ p, '.' ∉ n) (hq : ∀ n ∈ q, '.' ∉ n)
    (h : pad d p = pad d q) (hpd : p.length ≤ d) (hqd : q.length ≤ d) : p = q := by
  have key : ∀ (r : List Name), (∀ n ∈ r, '.' ∉ n) → (pad d r).takeWhile (fun n => decide (n ≠ ['.'])) = r := by
    intro r hr
    unfold pad
    induction r with
    | nil =>
      cases d with
      | zero => simp
      | succ d => simp [List.replicate_succ]
    | cons a r ih =>
      have ha : a ≠ ['.'] := by
        rintro rfl
        exact hr ['.'] (by simp) (by simp)
      have hr' : ∀ n ∈ r, '.' ∉ n := fun n hn => hr n (by simp [hn])
      simp only [List.cons_append]
      rw [List.takeWhile_cons, if_pos (by simpa using ha)]
      congr 1
      have hgen : ∀ (k : Nat) (r : List Name), (∀ n ∈ r, '.' ∉ n) →
          (r ++ List.replicate k ['.']).takeWhile (fun n => decide (n ≠ ['.'])) = r := by
        intro k r hr
        induction r with
        | nil => cases k <;> simp [List.replicate_succ]
        | cons b r ihr =>
          have hb : b ≠ ['.'] := by
            rintro rfl
            exact hr ['.'] (by simp) (by simp)
          rw [List.cons_append, List.takeWhile_cons, if_pos (by simpa using hb), ihr (fun n hn => hr n (by simp [hn]))]
      exact hgen _ r hr'
  rw [← key p hp, ← key q hq, h]

/-- number of children -/
theorem TreeRel.nChildren_eq (h : TreeRel st s) {r : Rec F} (hr : r ∈ s.live) :
    nChildren st r.handle = (s.kids r).length := by
  obtain ⟨nd, h1, _⟩ := h.get hr
  unfold nChildren
  rw [h1]
  simp only
  have hnd := h.child_nodup r hr nd h1
  have hch := h.child r hr nd h1
  have hlive : s.live.Nodup := List.Nodup.of_map _ h.live_nodup
  have hperm : nd.children.Perm ((s.kids r).map (fun c => (c.path.getLastD [], c.handle))) := by
    rw [List.perm_ext_iff_of_nodup (List.Nodup.of_map _ hnd)]
    · rintro ⟨n, c⟩
      rw [hch]
      simp only [List.mem_map, Choices.mem_kids, Prod.mk.injEq, IsChild]
      constructor
      · rintro ⟨r', hr', e1, e2⟩
        exact ⟨r', ⟨hr', n, e2⟩, by simp [e2], e1⟩
      · rintro ⟨r', ⟨hr', m, e2⟩, e3, e1⟩
        refine ⟨r', hr', e1, ?_⟩
        rw [e2] at e3 ⊢
        simp at e3
        rw [e3]
    · have hk : (s.kids r).Nodup := hlive.filter _
      rw [List.nodup_map_iff_inj_on hk]
      intro a ha b hb e
      simp only [Prod.mk.injEq] at e
      exact h.live_inj_handle (Choices.mem_kids.mp ha).1 (Choices.mem_kids.mp hb).1 e.2
  rw [hperm.length_eq, List.length_map]

theorem TreeRel.isParent_iff (h : TreeRel st s) {r : Rec F} (hr : r ∈ s.live) :
    isParent st r.handle = true ↔ ∃ c ∈ s.live, IsChild r c := by
  unfold isParent
  rw [h.nChildren_eq hr, decide_eq_true_eq, List.length_pos_iff_exists_mem]
  simp [Choices.mem_kids]

theorem TreeRel.top_length (h : TreeRel st s) : st.top.length = (s.live.filter (fun r => decide (r.path.length = 1))).length := by
  have hlive : s.live.Nodup := List.Nodup.of_map _ h.live_nodup
  have hperm : st.top.Perm ((s.live.filter (fun r => decide (r.path.length = 1))).map (·.handle)) := by
    rw [List.perm_ext_iff_of_nodup h.top_nodup]
    · intro a
      rw [h.top_mem]
      simp only [List.mem_map, List.mem_filter, decide_eq_true_eq]
      constructor
      · rintro ⟨r, hr, e, hl⟩; exact ⟨r, ⟨hr, hl⟩, e⟩
      · rintro ⟨r, ⟨hr, hl⟩, e⟩; exact ⟨r, hr, e, hl⟩
    · rw [List.nodup_map_iff_inj_on (hlive.filter _)]
      intro a ha b hb e
      exact h.live_inj_handle (List.mem_of_mem_filter ha) (List.mem_of_mem_filter hb) e
  rw [hperm.length_eq, List.length_map]

theorem TreeRel.parent_rec (h : TreeRel st s) {r : Rec F} (hr : r ∈ s.live) (hlen : 1 < r.path.length) :
    ∃ r' ∈ s.live, r'.path = r.path.dropLast ∧ IsChild r' r := by
  obtain ⟨nd, h1, _, _⟩ := h.get hr
  obtain ⟨p, hp, _, _, hm⟩ := h.node _ _ h1
  rw [h.live_made r hr] at hp
  obtain rfl := Option.some.inj hp
  cases hq : nd.parent with
  | none => rw [hq] at hm; simp only at hm; rw [hm] at hlen; simp at hlen
  | some q =>
    rw [hq] at hm
    obtain ⟨_, pq, hpq, e⟩ := hm
    obtain ⟨r', hr', e'⟩ := h.parent_live r hr nd q h1 hq
    rw [← e', h.live_made r' hr'] at hpq
    obtain rfl := Option.some.inj hpq
    exact ⟨r', hr', by rw [e]; simp, nd.name, e⟩

/-! ### flatten -/

/-- position of a path in the list -/
def posOf (s : Choices F) (p : List Name) : Nat := (s.live.map (·.path)).idxOf p

open Classical in
/-- the arrays after the first `k` nodes -/
noncomputable def flatUpto (s : Choices F) (k : Nat) : Flat F where
  n := s.live.length
  parent i := if i < k then
      match s.live[i]? with
      | none => -1
      | some r => if r.path.length ≤ 1 then -1 else (posOf s r.path.dropLast : Int)
    else -1
  level i := if i < k then
      match s.live[i]? with
      | none => 0
      | some r => r.path.length - 1
    else 0
  scale i := if i < k then
      match s.live[i]? with
      | none => one
      | some r => if ∃ c ∈ s.live, IsChild r c then r.scale else one
    else one
  bottom i := if i < k then
      match s.live[i]? with
      | none => true
      | some r => if ∃ c ∈ s.live, IsChild r c then false else true
    else true

theorem foldl_dictSet_zipIdx {K : Type} [DecidableEq K] {α : Type} (f : α → K) (l : List α) (k : Nat) (d : List (K × Nat))
    (hnd : (d.map (·.1) ++ l.map f).Nodup) :
    (l.zipIdx k).foldl (fun d e => dictSet d (f e.1) e.2) d = d ++ (l.zipIdx k).map (fun e => (f e.1, e.2)) := by
  induction l generalizing k d with
  | nil => simp
  | cons a l ih =>
    simp only [List.zipIdx_cons, List.foldl_cons, List.map_cons]
    have hna : f a ∉ d.map (·.1) := by
      rw [List.nodup_append] at hnd
      intro hc
      exact hnd.2.2 _ hc _ (by simp) rfl
    rw [dictSet_of_not_mem hna, ih]
    · simp
    · simpa [List.append_assoc] using hnd

theorem TreeRel.positions (h : TreeRel st s) {r : Rec F} (hr : r ∈ s.live) :
    dictGet (nodePositions st) (joinDots r.path) = some (posOf s r.path) := by
  have hnames : ∀ e ∈ st.all, fullName st.nodes e.2 = e.1 := by
    intro e he
    rw [h.all] at he
    obtain ⟨r', hr', rfl⟩ := List.mem_map.mp he
    exact h.fullName_eq (h.live_made r' hr')
  have hkeys := h.keys_nodup
  have e0 : nodePositions st = (st.all.zipIdx).map (fun e => (e.1.1, e.2)) := by
    unfold nodePositions
    have hmap : st.all.map (fun e => fullName st.nodes e.2) = st.all.map (·.1) :=
      List.map_congr_left hnames
    have := foldl_dictSet_zipIdx (fun e : Name × Nat => fullName st.nodes e.2) st.all 0 []
      (by simp only [List.map_nil, List.nil_append, hmap]; exact hkeys)
    rw [this, List.nil_append]
    apply List.map_congr_left
    intro e he
    have : e.1 ∈ st.all := by
      have := List.mem_zipIdx he
      simp at this
      rw [this.2]
      exact List.getElem_mem _
    rw [hnames _ this]
  have hnd : ((nodePositions st).map (·.1)).Nodup := by
    rw [e0, List.map_map]
    have : ((fun x : Name × Nat => x.1) ∘ fun e : (Name × Nat) × Nat => (e.1.1, e.2)) = (·.1) ∘ Prod.fst := rfl
    rw [this, ← List.map_map, List.zipIdx_map_fst]
    exact hkeys
  rw [dictGet_eq_some hnd, e0]
  simp only [List.mem_map, Prod.mk.injEq]
  have hidx : posOf s r.path < s.live.length := by
    unfold posOf
    have := List.idxOf_lt_length_iff.mpr (List.mem_map_of_mem (f := (·.path)) hr)
    simpa using this
  have hget : (s.live[posOf s r.path]).path = r.path := by
    have := List.getElem_idxOf (List.idxOf_lt_length_iff.mpr (List.mem_map_of_mem (f := (·.path)) hr))
    rw [List.getElem_map] at this
    exact this
  have hidx' : posOf s r.path < st.all.length := by rw [h.all]; simpa using hidx
  refine ⟨((st.all)[posOf s r.path], posOf s r.path), ?_, ?_, rfl⟩
  · rw [List.mem_zipIdx_iff_getElem?]
    simp [List.getElem?_eq_getElem hidx']
  · simp only [h.all, List.getElem_map, hget]

theorem TreeRel.posOf_getElem (h : TreeRel st s) (k : Nat) (hk : k < s.live.length) : posOf s s.live[k].path = k := by
  unfold posOf
  have := h.live_nodup.idxOf_getElem k (by simpa using hk)
  simpa using this

theorem TreeRel.flattenNode_eq (h : TreeRel st s) (k : Nat) (hk : k < s.live.length) :
    flattenNode st (nodePositions st) (flatUpto s k) s.live[k].handle = .ok (flatUpto s (k + 1)) := by
  classical
  have hr : s.live[k] ∈ s.live := List.getElem_mem hk
  set r := s.live[k] with hrdef
  have hlk : s.live[k]? = some r := by rw [List.getElem?_eq_getElem hk]
  obtain ⟨nd, h1, hlev, hpath, hsc⟩ := h.get hr
  obtain ⟨p, hp, _, _, hm⟩ := h.node _ _ h1
  rw [h.live_made r hr] at hp
  obtain rfl := Option.some.inj hp
  have hfn : fullName st.nodes r.handle = joinDots r.path := h.fullName_eq (h.live_made r hr)
  have hpos := h.positions hr
  rw [h.posOf_getElem k hk] at hpos
  have hup : ∀ {α : Type} (f : Nat → α) (d v : α), (∀ i, i = k → f i = v) →
      upd (fun i => if i < k then f i else d) k v = fun i => if i < k + 1 then f i else d := by
    intro α f d v hf
    funext i
    unfold upd
    by_cases hik : i = k
    · rw [if_pos hik, if_pos (by omega), hf i hik]
    · rw [if_neg hik]
      simp only
      by_cases hlt : i < k
      · rw [if_pos hlt, if_pos (by omega)]
      · rw [if_neg hlt, if_neg (by omega)]
  have hsame : ∀ {α : Type} (f : Nat → α) (d : α), (∀ i, i = k → f i = d) →
      (fun i => if i < k then f i else d) = fun i => if i < k + 1 then f i else d := by
    intro α f d hf
    funext i
    by_cases hik : i = k
    · subst hik; simp [hf i rfl]
    · by_cases hlt : i < k
      · rw [if_pos hlt, if_pos (by omega)]
      · rw [if_neg hlt, if_neg (by omega)]
  unfold flattenNode
  rw [h1]
  simp only [hfn, hpos]
  have hlevel : upd (flatUpto s k).level k (nd.level - 1) = (flatUpto s (k + 1)).level := by
    refine hup (fun i => match s.live[i]? with | none => 0 | some r => r.path.length - 1) 0 _ ?_
    rintro i rfl
    simp only [hlk, hlev]
  have hscale1 : (∃ c ∈ s.live, IsChild r c) → upd (flatUpto s k).scale k nd.scale = (flatUpto s (k + 1)).scale := by
    intro hc
    refine hup (fun i => match s.live[i]? with | none => one | some r => if ∃ c ∈ s.live, IsChild r c then r.scale else one) one _ ?_
    rintro i rfl
    simp only [hlk, if_pos hc, hsc]
  have hbot1 : (∃ c ∈ s.live, IsChild r c) → upd (flatUpto s k).bottom k false = (flatUpto s (k + 1)).bottom := by
    intro hc
    refine hup (fun i => match s.live[i]? with | none => true | some r => if ∃ c ∈ s.live, IsChild r c then false else true) true _ ?_
    rintro i rfl
    simp only [hlk, if_pos hc]
  have hscale0 : (¬ ∃ c ∈ s.live, IsChild r c) → (flatUpto s k).scale = (flatUpto s (k + 1)).scale := by
    intro hc
    refine hsame (fun i => match s.live[i]? with | none => one | some r => if ∃ c ∈ s.live, IsChild r c then r.scale else one) one ?_
    rintro i rfl
    simp only [hlk, if_neg hc]
  have hbot0 : (¬ ∃ c ∈ s.live, IsChild r c) → (flatUpto s k).bottom = (flatUpto s (k + 1)).bottom := by
    intro hc
    refine hsame (fun i => match s.live[i]? with | none => true | some r => if ∃ c ∈ s.live, IsChild r c then false else true) true ?_
    rintro i rfl
    simp only [hlk, if_neg hc]
  have hfin : ∀ (par : Nat → Int), par = (flatUpto s (k + 1)).parent →
      (if isParent st r.handle = true then
        Flat.mk s.live.length par (upd (flatUpto s k).level k (nd.level - 1)) (upd (flatUpto s k).scale k nd.scale)
          (upd (flatUpto s k).bottom k false)
      else Flat.mk s.live.length par (upd (flatUpto s k).level k (nd.level - 1)) (flatUpto s k).scale
          (flatUpto s k).bottom) = flatUpto s (k + 1) := by
    rintro par rfl
    by_cases hc : ∃ c ∈ s.live, IsChild r c
    · rw [if_pos ((h.isParent_iff hr).mpr hc), hlevel, hscale1 hc, hbot1 hc]
      rfl
    · rw [if_neg (fun hh => hc ((h.isParent_iff hr).mp hh)), hlevel, hscale0 hc, hbot0 hc]
      rfl
  cases hq : nd.parent with
  | none =>
    rw [hq] at hm
    simp only [Except.map] at hm ⊢
    refine congrArg Except.ok (hfin _ ?_)
    refine hsame (fun i => match s.live[i]? with | none => -1 | some r => if r.path.length ≤ 1 then -1 else (posOf s r.path.dropLast : Int)) (-1) ?_
    rintro i rfl
    simp only [hlk]
    rw [if_pos (by rw [hm]; simp)]
  | some q =>
    rw [hq] at hm
    obtain ⟨_, pq, hpq, e⟩ := hm
    obtain ⟨r', hr', e'⟩ := h.parent_live r hr nd q h1 hq
    have hpq' : s.made[q]? = some r'.path := by rw [← e']; exact h.live_made r' hr'
    rw [hpq'] at hpq
    obtain rfl := Option.some.inj hpq
    simp only [h.fullName_eq hpq', h.positions hr', Except.map]
    refine congrArg Except.ok (hfin _ ?_)
    refine hup (fun i => match s.live[i]? with | none => -1 | some r => if r.path.length ≤ 1 then -1 else (posOf s r.path.dropLast : Int)) (-1) _ ?_
    rintro i rfl
    simp only [hlk]
    have hne := (h.live_ok hr').1
    have h2 : ¬ r.path.length ≤ 1 := by
      have := List.length_pos_iff.mpr hne
      rw [e]; simp; omega
    rw [if_neg h2, e]
    simp

theorem TreeRel.flatten_eq (h : TreeRel st s) (hd : 1 < s.depth) : flatten st = .ok (flatUpto s s.live.length) := by
  have hne : s.live ≠ [] := by
    intro hc
    simp [Choices.depth, hc] at hd
  unfold flatten
  rw [h.depth_eq hne]
  simp only [bind, Except.bind]
  rw [if_neg (by omega)]
  have key : ∀ k ≤ s.live.length, ((st.all.take k).foldlM (fun fl e => flattenNode st (nodePositions st) fl e.2)
      { n := st.all.length, parent := fun _ => -1, level := fun _ => 0, scale := fun _ => one, bottom := fun _ => true })
      = .ok (flatUpto s k) := by
    intro k
    induction k with
    | zero =>
      intro _
      simp only [List.take_zero, List.foldlM_nil]
      rw [h.all]
      simp [flatUpto, pure, Except.pure]
    | succ k ih =>
      intro hk
      have hk' : k < st.all.length := by rw [h.all]; simp; omega
      rw [List.take_succ_eq_append_getElem hk', List.foldlM_append, ih (by omega)]
      simp only [bind, Except.bind, List.foldlM_cons, List.foldlM_nil]
      have : (st.all[k]).2 = (s.live[k]'(by omega)).handle := by
        simp only [h.all, List.getElem_map]
      rw [this, h.flattenNode_eq k (by omega)]
      rfl
  have := key s.live.length (Nat.le_refl _)
  rwa [List.take_of_length_le (by rw [h.all]; simp)] at this

end Cheval
