import Verif.Core.Logit
import Mathlib.Tactic.Common

/-!
Helper lemmas: closed form of `nested` for an arbitrary numeric carrier (no property statements here).
-/
set_option linter.unusedSectionVars false
namespace Cheval
open FOps
variable {F : Type} [FOps F]

/-- A flattened tree is well formed: it is not empty, every node is either a top node (parent `-1`, level 0) or has a
parent in the table one level higher, and the bottom flag marks exactly the nodes without children. The order of the
nodes is arbitrary. `Verif/Props/Tree.lean` proves that `ChoiceModel` only produces such tables. -/
structure Flat.WF (t : Flat F) : Prop where
  pos : 0 < t.n
  node : ∀ i < t.n, (t.parent i = -1 ∧ t.level i = 0) ∨
    ∃ p < t.n, t.parent i = (p : Int) ∧ t.level i = t.level p + 1
  bottom : ∀ i < t.n, (t.bottom i = true ↔ ∀ j < t.n, t.parent j ≠ (i : Int))

/-- positions of the children of `j`, in increasing order -/
def Flat.children (t : Flat F) (j : Nat) : List Nat := (List.range t.n).filter fun i => t.parent i == (j : Int)
/-- positions of the top-level nodes, in increasing order -/
def Flat.tops (t : Flat F) : List Nat := (List.range t.n).filter fun i => t.parent i == -1

theorem Flat.mem_children {t : Flat F} {i j : Nat} : i ∈ t.children j ↔ i < t.n ∧ t.parent i = (j : Int) := by
  simp [Flat.children]
theorem Flat.mem_tops {t : Flat F} {i : Nat} : i ∈ t.tops ↔ i < t.n ∧ t.parent i = -1 := by
  simp [Flat.tops]

theorem foldl_max_le (l : List Nat) (f : Nat → Nat) (m : Nat) : m ≤ l.foldl (fun m i => max m (f i)) m := by
  induction l generalizing m with
  | nil => simp
  | cons a l ih => simp only [List.foldl_cons]; exact le_trans (Nat.le_max_left _ _) (ih _)

theorem le_foldl_max (l : List Nat) (f : Nat → Nat) (m : Nat) (i : Nat) (h : i ∈ l) :
    f i ≤ l.foldl (fun m i => max m (f i)) m := by
  induction l generalizing m with
  | nil => simp at h
  | cons a l ih =>
    simp only [List.foldl_cons]
    rcases List.mem_cons.mp h with rfl | h
    · exact le_trans (Nat.le_max_right _ _) (foldl_max_le _ _ _)
    · exact ih _ h

theorem Flat.level_le_max (t : Flat F) (i : Nat) (h : i < t.n) : t.level i ≤ t.maxLevel :=
  le_foldl_max _ _ _ _ (List.mem_range.mpr h)

/-- logsum term of node `i` from the utilities `u` and the sum `g` of its children's terms -/
def termOf (t : Flat F) (scaleU : Bool) (u : Nat → F) (i : Nat) (g : F) : F :=
  if t.bottom i then exp (div (u i) (parentScale t scaleU i))
  else exp (div (add (u i) (mul (t.scale i) (log g))) (parentScale t scaleU i))

/-- logsum term with recursion fuel -/
def termAux (t : Flat F) (scaleU : Bool) (u : Nat → F) : Nat → Nat → F
  | 0, _ => zero
  | f + 1, i => termOf t scaleU u i (sumF ((t.children i).map (termAux t scaleU u f)))

/-- logsum term of node `i` -/
def term (t : Flat F) (scaleU : Bool) (u : Nat → F) (i : Nat) : F :=
  termAux t scaleU u (t.maxLevel + 1 - t.level i) i

/-- sum of the terms of the children of `j` -/
def childSum (t : Flat F) (scaleU : Bool) (u : Nat → F) (j : Nat) : F :=
  sumF ((t.children j).map (term t scaleU u))
/-- sum of the terms of the top nodes -/
def topSum (t : Flat F) (scaleU : Bool) (u : Nat → F) : F := sumF (t.tops.map (term t scaleU u))

theorem Flat.WF.level_child {t : Flat F} (h : t.WF) {i j : Nat} (hc : i ∈ t.children j) : t.level i = t.level j + 1 := by
  obtain ⟨hi, hp⟩ := Flat.mem_children.mp hc
  rcases h.node i hi with ⟨h1, _⟩ | ⟨p, _, h1, h2⟩
  · omega
  · have : p = j := by omega
    rw [h2, this]

theorem Flat.WF.child_lt {t : Flat F} (h : t.WF) {i j : Nat} (hc : i ∈ t.children j) : j < t.n := by
  obtain ⟨hi, hp⟩ := Flat.mem_children.mp hc
  rcases h.node i hi with ⟨h1, _⟩ | ⟨p, hpn, h1, h2⟩
  · omega
  · have : p = j := by omega
    omega

theorem term_eq {t : Flat F} (h : t.WF) (scaleU : Bool) (u : Nat → F) (i : Nat) (hi : i < t.n) :
    term t scaleU u i = termOf t scaleU u i (childSum t scaleU u i) := by
  have hl := t.level_le_max i hi
  have : t.maxLevel + 1 - t.level i = (t.maxLevel - t.level i) + 1 := by omega
  unfold term childSum
  rw [this, termAux]
  congr 2
  apply List.map_congr_left
  intro j hj
  unfold term
  rw [h.level_child hj]
  congr 1
  omega

/-- the nodes already processed by step 1 when sweeping level `lev` at position `k` -/
def doneB (t : Flat F) (lev k : Nat) (i : Nat) : Bool :=
  decide (lev < t.level i) || (decide (t.level i = lev) && decide (i < k))

/-- state of step 1 with the nodes in `done` processed -/
def stOf (t : Flat F) (scaleU : Bool) (u : Nat → F) (done : Nat → Bool) : NSt F where
  prob i := if i < t.n ∧ done i then term t scaleU u i else u i
  final i := if i < t.n ∧ done i then term t scaleU u i else zero
  grouped j := sumF (((t.children j).filter done).map (term t scaleU u))
  top := sumF ((t.tops.filter done).map (term t scaleU u))

theorem sumF_append_singleton (l : List F) (x : F) : sumF (l ++ [x]) = add (sumF l) x := by
  simp [sumF]

theorem range_filter_done (t : Flat F) (q : Nat → Bool) (lev k : Nat) (hk : k < t.n) (hq : q k = true)
    (hlev : t.level k = lev) (hlevs : ∀ i < t.n, q i = true → t.level i = lev) :
    ((List.range t.n).filter q).filter (doneB t lev (k + 1)) =
      ((List.range t.n).filter q).filter (doneB t lev k) ++ [k] := by
  have hsplit : List.range t.n = List.range k ++ k :: (List.range (t.n - k - 1)).map (fun x => x + (k + 1)) := by
    have : t.n = k + ((t.n - k - 1) + 1) := by omega
    conv_lhs => rw [this]
    rw [List.range_add, List.range_succ_eq_map]
    simp only [List.map_cons, List.map_map, Nat.add_zero]
    congr 2
    apply List.map_congr_left
    intro x _
    simp only [Function.comp]
    omega
  rw [hsplit]
  simp only [List.filter_append, List.filter_cons, hq, if_true]
  have hk1 : doneB t lev (k + 1) k = true := by simp [doneB, hlev]
  have hk0 : doneB t lev k k = false := by simp [doneB, hlev]
  rw [hk1, hk0]
  have hA : ∀ m, ((List.map (fun x => x + (k + 1)) (List.range (t.n - k - 1))).filter q).filter (doneB t lev m) = [] ∨
      m > k + 1 := by
    intro m
    by_cases hm : m > k + 1
    · exact Or.inr hm
    left
    rw [List.filter_eq_nil_iff]
    intro a ha
    simp only [List.mem_filter, List.mem_map, List.mem_range] at ha
    obtain ⟨⟨x, hx, rfl⟩, hqa⟩ := ha
    have := hlevs (x + (k + 1)) (by omega) hqa
    simp [doneB, this]
    omega
  have h1 := (hA (k + 1)).resolve_right (by omega)
  have h2 := (hA k).resolve_right (by omega)
  rw [h1, h2]
  have hB : (List.filter (doneB t lev (k + 1)) (List.filter q (List.range k))) =
      (List.filter (doneB t lev k) (List.filter q (List.range k))) := by
    apply List.filter_congr
    intro x hx
    have : x < k := by
      have := (List.mem_filter.mp hx).1
      simpa using this
    simp [doneB, this, show x < k + 1 by omega]
  rw [hB]
  simp

theorem filter_done_same (t : Flat F) (q : Nat → Bool) (lev k : Nat) (h : t.level k ≠ lev ∨ q k = false) :
    ((List.range t.n).filter q).filter (doneB t lev (k + 1)) = ((List.range t.n).filter q).filter (doneB t lev k) := by
  apply List.filter_congr
  intro x hx
  have hq := (List.mem_filter.mp hx).2
  by_cases hxk : x = k
  · subst hxk
    have : t.level x ≠ lev := by
      rcases h with h | h
      · exact h
      · simp [hq] at h
    simp [doneB, this]
  · have : (x < k + 1) = (x < k) := by simp; omega
    simp [doneB, this]

theorem step1Node_stOf {t : Flat F} (h : t.WF) (scaleU : Bool) (u : Nat → F) (lev k : Nat) (hk : k < t.n) :
    step1Node t scaleU lev (stOf t scaleU u (doneB t lev k)) k = stOf t scaleU u (doneB t lev (k + 1)) := by
  by_cases hlev : t.level k = lev
  · have hnd : doneB t lev k k = false := by simp [doneB, hlev]
    have hch : ((t.children k).filter (doneB t lev k)) = t.children k := by
      rw [List.filter_eq_self]
      intro x hx
      have := h.level_child hx
      simp [doneB]; omega
    have he : nodeExp t scaleU (stOf t scaleU u (doneB t lev k)) k = term t scaleU u k := by
      rw [term_eq h _ _ _ hk]
      unfold nodeExp termOf
      simp only [stOf, hnd, hch, childSum]
      simp
    have hprob : ∀ i, upd (fun i => if i < t.n ∧ doneB t lev k i = true then term t scaleU u i else u i) k
        (term t scaleU u k) i = if i < t.n ∧ doneB t lev (k + 1) i = true then term t scaleU u i else u i := by
      intro i
      unfold upd
      by_cases hik : i = k
      · subst hik; simp [hk, doneB, hlev]
      · have : (i < k + 1) = (i < k) := by simp; omega
        simp [hik, doneB, this]
    have hfin : ∀ i, upd (fun i => if i < t.n ∧ doneB t lev k i = true then term t scaleU u i else (zero : F)) k
        (term t scaleU u k) i = if i < t.n ∧ doneB t lev (k + 1) i = true then term t scaleU u i else zero := by
      intro i
      unfold upd
      by_cases hik : i = k
      · subst hik; simp [hk, doneB, hlev]
      · have : (i < k + 1) = (i < k) := by simp; omega
        simp [hik, doneB, this]
    unfold step1Node
    simp only [hlev, ne_eq, not_true_eq_false, if_false, he]
    rcases h.node k hk with ⟨hp, hl0⟩ | ⟨p, hpn, hp, hlp⟩
    · -- top node
      have hneg : ¬ (0 ≤ t.parent k) := by omega
      simp only [hneg, if_false]
      have htop : add (sumF ((t.tops.filter (doneB t lev k)).map (term t scaleU u))) (term t scaleU u k) =
          sumF ((t.tops.filter (doneB t lev (k + 1))).map (term t scaleU u)) := by
        unfold Flat.tops
        rw [range_filter_done t _ lev k hk (by simp [hp]) hlev, List.map_append, List.map_singleton,
          sumF_append_singleton]
        intro i hi hq
        have hq' : t.parent i = -1 := by simpa using hq
        rcases h.node i hi with ⟨_, h2⟩ | ⟨p, _, h1, _⟩
        · omega
        · omega
      have hgr : ∀ j, sumF (((t.children j).filter (doneB t lev k)).map (term t scaleU u)) =
          sumF (((t.children j).filter (doneB t lev (k + 1))).map (term t scaleU u)) := by
        intro j
        unfold Flat.children
        rw [filter_done_same t _ lev k (Or.inr (by simp [hp]))]
      simp only [stOf, NSt.mk.injEq]
      exact ⟨funext hprob, htop, funext hgr, funext hfin⟩
    · have hnn : 0 ≤ t.parent k := by omega
      have htn : (t.parent k).toNat = p := by omega
      simp only [hnn, if_true, htn]
      have htop : sumF ((t.tops.filter (doneB t lev k)).map (term t scaleU u)) =
          sumF ((t.tops.filter (doneB t lev (k + 1))).map (term t scaleU u)) := by
        unfold Flat.tops
        rw [filter_done_same t _ lev k (Or.inr (by simp [hp]))]
      have hgr : ∀ j, upd (fun j => sumF (((t.children j).filter (doneB t lev k)).map (term t scaleU u))) p
            (add (sumF (((t.children p).filter (doneB t lev k)).map (term t scaleU u))) (term t scaleU u k)) j =
          sumF (((t.children j).filter (doneB t lev (k + 1))).map (term t scaleU u)) := by
        intro j
        unfold upd
        by_cases hjp : j = p
        · subst hjp
          simp only [if_true]
          unfold Flat.children
          rw [range_filter_done t _ lev k hk (by simp [hp]) hlev, List.map_append, List.map_singleton,
            sumF_append_singleton]
          intro i hi hq
          have hq' : t.parent i = (j : Int) := by simpa using hq
          have := h.level_child (Flat.mem_children.mpr ⟨hi, hq'⟩)
          omega
        · simp only [hjp, if_false]
          unfold Flat.children
          rw [filter_done_same t _ lev k (Or.inr (by simp [hp]; omega))]
      simp only [stOf, NSt.mk.injEq]
      exact ⟨funext hprob, htop, funext hgr, funext hfin⟩
  · unfold step1Node
    simp only [ne_eq, hlev, not_false_eq_true, if_true]
    have hd : ∀ i, doneB t lev (k + 1) i = doneB t lev k i := by
      intro i
      by_cases hik : i = k
      · subst hik; simp [doneB, hlev]
      · have : (i < k + 1) = (i < k) := by simp; omega
        simp [doneB, this]
    rw [funext hd]

theorem step1Level_stOf {t : Flat F} (h : t.WF) (scaleU : Bool) (u : Nat → F) (lev : Nat) :
    step1Level t scaleU (stOf t scaleU u (doneB t lev 0)) lev = stOf t scaleU u (doneB t lev t.n) := by
  unfold step1Level
  have : ∀ k, k ≤ t.n → (List.range k).foldl (step1Node t scaleU lev) (stOf t scaleU u (doneB t lev 0)) =
      stOf t scaleU u (doneB t lev k) := by
    intro k
    induction k with
    | zero => intro _; rfl
    | succ k ih =>
      intro hk
      rw [List.range_succ, List.foldl_append, ih (by omega)]
      exact step1Node_stOf h scaleU u lev k (by omega)
  exact this _ (le_refl _)

theorem stOf_congr {t : Flat F} (scaleU : Bool) (u : Nat → F) (d d' : Nat → Bool) (hd : ∀ i < t.n, d i = d' i) :
    stOf t scaleU u d = stOf t scaleU u d' := by
  simp only [stOf, NSt.mk.injEq]
  refine ⟨?_, ?_, ?_, ?_⟩
  · funext i
    by_cases hi : i < t.n
    · simp [hi, hd i hi]
    · simp [hi]
  · rw [List.filter_congr (fun i hi => hd i (Flat.mem_tops.mp hi).1)]
  · funext j
    rw [List.filter_congr (fun i hi => hd i (Flat.mem_children.mp hi).1)]
  · funext i
    by_cases hi : i < t.n
    · simp [hi, hd i hi]
    · simp [hi]

theorem foldl_levels {t : Flat F} (h : t.WF) (scaleU : Bool) (u : Nat → F) (m : Nat) :
    ((List.range m).reverse).foldl (step1Level t scaleU) (stOf t scaleU u (fun i => decide (m ≤ t.level i))) =
      stOf t scaleU u (fun _ => true) := by
  induction m with
  | zero => simp
  | succ m ih =>
    rw [List.range_succ, List.reverse_append, List.reverse_singleton, List.singleton_append, List.foldl_cons]
    have h0 : stOf t scaleU u (fun i => decide (m + 1 ≤ t.level i)) = stOf t scaleU u (doneB t m 0) := by
      apply stOf_congr
      intro i hi
      simp only [doneB, Nat.not_lt_zero, decide_false, Bool.and_false, Bool.or_false]
      rfl
    rw [h0, step1Level_stOf h]
    have h1 : stOf t scaleU u (doneB t m t.n) = stOf t scaleU u (fun i => decide (m ≤ t.level i)) := by
      apply stOf_congr
      intro i hi
      simp only [doneB, hi, decide_true, Bool.and_true]
      by_cases hh : m ≤ t.level i
      · simp [hh]; omega
      · simp [hh]; omega
    rw [h1, ih]

/-- closed form of step 1 -/
theorem step1_eq {t : Flat F} (h : t.WF) (scaleU : Bool) (u : Nat → F) :
    step1 t scaleU { prob := u, top := zero, grouped := fun _ => zero, final := fun _ => zero } =
      stOf t scaleU u (fun _ => true) := by
  unfold step1
  rw [← foldl_levels h scaleU u (t.maxLevel + 1)]
  congr 1
  have hno : ∀ i < t.n, ¬ (t.maxLevel + 1 ≤ t.level i) := by
    intro i hi; have := t.level_le_max i hi; omega
  simp only [stOf, NSt.mk.injEq]
  refine ⟨?_, ?_, ?_, ?_⟩
  · funext i
    by_cases hi : i < t.n
    · simp [hi, hno i hi]
    · simp [hi]
  · rw [show (t.tops.filter fun i => decide (t.maxLevel + 1 ≤ t.level i)) = [] by
      rw [List.filter_eq_nil_iff]; intro i hi; simpa using hno i (Flat.mem_tops.mp hi).1]
    rfl
  · funext j
    rw [show ((t.children j).filter fun i => decide (t.maxLevel + 1 ≤ t.level i)) = [] by
      rw [List.filter_eq_nil_iff]; intro i hi; simpa using hno i (Flat.mem_children.mp hi).1]
    rfl
  · funext i
    by_cases hi : i < t.n
    · simp [hi, hno i hi]
    · simp [hi]

theorem stOf_true (t : Flat F) (scaleU : Bool) (u : Nat → F) :
    (stOf t scaleU u (fun _ => true)).top = topSum t scaleU u ∧
    (∀ j, (stOf t scaleU u (fun _ => true)).grouped j = childSum t scaleU u j) ∧
    (∀ i < t.n, (stOf t scaleU u (fun _ => true)).prob i = term t scaleU u i) ∧
    (∀ i < t.n, (stOf t scaleU u (fun _ => true)).final i = term t scaleU u i) := by
  refine ⟨?_, ?_, ?_, ?_⟩
  · simp [stOf, topSum]
  · intro j; simp [stOf, childSum]
  · intro i hi; simp [stOf, hi]
  · intro i hi; simp [stOf, hi]

/-- A fold of independent point updates: position `i` gets `f i (a i)`. -/
theorem foldl_upd_range {α : Type} (f : Nat → α → α) (a : Nat → α) (n : Nat) :
    (List.range n).foldl (fun a i => upd a i (f i (a i))) a = fun i => if i < n then f i (a i) else a i := by
  induction n with
  | zero => funext i; simp
  | succ n ih =>
    rw [List.range_succ, List.foldl_append, ih]
    funext i
    simp only [List.foldl_cons, List.foldl_nil, upd]
    by_cases h : i = n
    · subst h; simp
    · by_cases h' : i < n
      · simp [h, h', show i < n + 1 by omega]
      · simp [h, h', show ¬ i < n + 1 by omega]

/-- conditional probability of node `i` -/
def condP (t : Flat F) (scaleU : Bool) (u : Nat → F) (i : Nat) : F :=
  let ls := if t.parent i = -1 then topSum t scaleU u else childSum t scaleU u (t.parent i).toNat
  if le ls zero then zero else div (term t scaleU u i) ls

theorem step2_eq (t : Flat F) (top : F) (grouped prob : Nat → F) :
    step2 t top grouped prob = fun i => if i < t.n then
      (let ls := if t.parent i = -1 then top else grouped (t.parent i).toNat
       if le ls zero then zero else div (prob i) ls) else prob i := by
  unfold step2
  exact foldl_upd_range (fun i p =>
    let ls := if t.parent i = -1 then top else grouped (t.parent i).toNat
    if le ls zero then zero else div p ls) prob t.n

/-- product of conditional probabilities down to the ancestor at level 0; fuel = level -/
def absAux (t : Flat F) (c : Nat → F) : Nat → Nat → F
  | 0, i => c i
  | f + 1, i => mul (c i) (absAux t c f (t.parent i).toNat)

def absP (t : Flat F) (c : Nat → F) (i : Nat) : F := absAux t c (t.level i) i

/-- one sweep of step 3: all positions at `lev` are multiplied by their parent's value, which is at another level -/
theorem step3_level {t : Flat F} (h : t.WF) (lev : Nat) (prob : Nat → F) :
    (List.range t.n).foldl (step3Node t (lev + 1)) prob =
      fun i => if i < t.n ∧ t.level i = lev + 1 then mul (prob i) (prob (t.parent i).toNat) else prob i := by
  have : ∀ k, k ≤ t.n → (List.range k).foldl (step3Node t (lev + 1)) prob =
      fun i => if i < k ∧ t.level i = lev + 1 then mul (prob i) (prob (t.parent i).toNat) else prob i := by
    intro k
    induction k with
    | zero => intro _; funext i; simp
    | succ k ih =>
      intro hk
      rw [List.range_succ, List.foldl_append, ih (by omega)]
      simp only [List.foldl_cons, List.foldl_nil]
      unfold step3Node
      by_cases hl : t.level k = lev + 1
      · simp only [hl, ne_eq, not_true_eq_false, if_false]
        have hpl : ¬ ((t.parent k).toNat < k ∧ t.level (t.parent k).toNat = lev + 1) := by
          rcases h.node k (by omega) with ⟨_, h2⟩ | ⟨p, _, h1, h2⟩
          · omega
          · have : (t.parent k).toNat = p := by omega
            rw [this]; omega
        funext i
        unfold upd
        by_cases hik : i = k
        · subst hik
          simp only [if_true, hpl, if_false, hl, and_true, lt_irrefl, Nat.lt_succ_self]
        · have : (i < k + 1) = (i < k) := by simp; omega
          simp only [hik, if_false, this]
      · simp only [ne_eq, hl, not_false_eq_true, if_true]
        funext i
        by_cases hik : i = k
        · subst hik; simp [hl]
        · have : (i < k + 1) = (i < k) := by simp; omega
          simp only [this]
  exact this _ (le_refl _)

theorem step3_eq {t : Flat F} (h : t.WF) (c : Nat → F) (i : Nat) (hi : i < t.n) :
    step3 t c i = absP t c i := by
  have key : ∀ m i, i < t.n → (List.range m).foldl
      (fun prob k => (List.range t.n).foldl (step3Node t (k + 1)) prob) c i =
        if t.level i ≤ m then absP t c i else c i := by
    intro m
    induction m with
    | zero =>
      intro i hi
      simp only [List.range_zero, List.foldl_nil]
      by_cases hl : t.level i = 0
      · simp [hl, absP, absAux]
      · simp [hl]
    | succ m ih =>
      intro i hi
      rw [List.range_succ, List.foldl_append]
      simp only [List.foldl_cons, List.foldl_nil]
      rw [step3_level h]
      by_cases hl : t.level i = m + 1
      · simp only [hi, hl, and_self, if_true, le_refl]
        rw [ih i hi]
        rcases h.node i hi with ⟨_, h2⟩ | ⟨p, hpn, h1, h2⟩
        · omega
        · have hpt : (t.parent i).toNat = p := by omega
          rw [hpt, ih p hpn]
          have hlp : t.level p = m := by omega
          simp only [hl, hlp, le_refl, if_true, show ¬ (m + 1 ≤ m) by omega, if_false]
          unfold absP
          rw [hl, absAux, hpt, hlp]
      · simp only [hl, and_false, if_false]
        rw [ih i hi]
        by_cases hh : t.level i ≤ m
        · simp [hh, show t.level i ≤ m + 1 by omega]
        · simp [hh, show ¬ t.level i ≤ m + 1 by omega]
  unfold step3
  rw [key t.maxLevel i hi, if_pos (t.level_le_max i hi)]

theorem step4_eq (t : Flat F) (prob : Nat → F) (i : Nat) :
    step4 t prob i = if ∃ j < t.n, t.parent j = (i : Int) then zero else prob i := by
  have key : ∀ m, (List.range m).foldl (step4Node t) prob i =
      if ∃ j < m, t.parent j = (i : Int) then zero else prob i := by
    intro m
    induction m with
    | zero => simp
    | succ m ih =>
      rw [List.range_succ, List.foldl_append]
      simp only [List.foldl_cons, List.foldl_nil]
      generalize (List.range m).foldl (step4Node t) prob = q at ih ⊢
      unfold step4Node
      by_cases hneg : t.parent m < 0
      · simp only [hneg, if_true, ih]
        have : (∃ j < m + 1, t.parent j = (i : Int)) ↔ ∃ j < m, t.parent j = (i : Int) := by
          constructor
          · rintro ⟨j, hj, hp⟩
            refine ⟨j, ?_, hp⟩
            rcases Nat.lt_succ_iff_lt_or_eq.mp hj with h | rfl
            · exact h
            · omega
          · rintro ⟨j, hj, hp⟩; exact ⟨j, by omega, hp⟩
        simp only [this]
      · simp only [hneg, if_false]
        unfold upd
        by_cases hi : i = (t.parent m).toNat
        · have : ∃ j < m + 1, t.parent j = (i : Int) := ⟨m, by omega, by omega⟩
          simp only [hi.symm, if_true, if_pos this]
        · simp only [hi, if_false, ih]
          have : (∃ j < m + 1, t.parent j = (i : Int)) ↔ ∃ j < m, t.parent j = (i : Int) := by
            constructor
            · rintro ⟨j, hj, hp⟩
              refine ⟨j, ?_, hp⟩
              rcases Nat.lt_succ_iff_lt_or_eq.mp hj with h | rfl
              · exact h
              · omega
            · rintro ⟨j, hj, hp⟩; exact ⟨j, by omega, hp⟩
          simp only [this]
  exact key t.n

/-- recursion of the absolute probabilities -/
theorem absP_eq {t : Flat F} (h : t.WF) (c : Nat → F) (i : Nat) (hi : i < t.n) :
    (t.parent i = -1 → absP t c i = c i) ∧
    (∀ p : Nat, t.parent i = (p : Int) → absP t c i = mul (c i) (absP t c p)) := by
  constructor
  · intro hp
    rcases h.node i hi with ⟨_, h2⟩ | ⟨p, _, h1, _⟩
    · simp [absP, h2, absAux]
    · omega
  · intro p hp
    have := h.level_child (Flat.mem_children.mpr ⟨hi, hp⟩)
    unfold absP
    rw [this, absAux]
    simp [hp]

/-- closed form of `nested_probabilities` on a well-formed tree, any carrier -/
theorem nested_eq {t : Flat F} (h : t.WF) (us : List F) (scaleU check : Bool) :
    nested us t scaleU check =
      let u := fun i => us.getD i zero
      if le (topSum t scaleU u) zero && check then .error .utilityBounds
      else .ok (arr t.n (fun i => if ∃ j < t.n, t.parent j = (i : Int) then zero else absP t (condP t scaleU u) i),
        topSum t scaleU u, arr t.n (term t scaleU u)) := by
  have hpos := h.pos
  unfold nested
  simp only [show t.n ≠ 0 by omega, if_false]
  rw [step1_eq h]
  obtain ⟨h1, h2, h3, h4⟩ := stOf_true t scaleU (fun i => us.getD i zero)
  simp only [h1]
  congr 1
  have e1 : arr t.n (stOf t scaleU (fun i => us.getD i zero) fun _ => true).final =
      arr t.n (term t scaleU fun i => us.getD i zero) := by
    unfold arr
    exact List.map_congr_left (fun i hi => h4 i (List.mem_range.mp hi))
  rw [e1]
  congr 2
  unfold arr
  apply List.map_congr_left
  intro i hi
  have hi := List.mem_range.mp hi
  rw [step4_eq]
  by_cases hc : ∃ j < t.n, t.parent j = (i : Int)
  · simp only [hc, if_true]
  · simp only [hc, if_false]
    rw [step3_eq h _ _ hi]
    -- only positions below n are read
    have hcong : ∀ f i (c c' : Nat → F), (∀ i < t.n, c i = c' i) → i < t.n → t.level i = f →
        absAux t c f i = absAux t c' f i := by
      intro f
      induction f with
      | zero => intro i c c' hcc hi _; simp [absAux, hcc i hi]
      | succ f ih =>
        intro i c c' hcc hi hl
        rcases h.node i hi with ⟨_, h2⟩ | ⟨p, hpn, hp1, hp2⟩
        · omega
        · have : (t.parent i).toNat = p := by omega
          simp only [absAux, this]
          rw [hcc i hi, ih p c c' hcc hpn (by omega)]
    apply hcong _ _ _ _ _ hi rfl
    intro j hj
    rw [step2_eq]
    simp only [hj, if_true, condP, h2, h3 j hj]

end Cheval
