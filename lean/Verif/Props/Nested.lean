import Mathlib.Tactic.IntervalCases
import Verif.Core.NestedSpecLemmas
import Verif.Props.Multinomial

/-!
# C08-C11, C14 (nested part) : nested logit

Specification: `Spec.Tree.IsNestedLogit` (textbook recursion), `Spec.Tree.Open` (a node and its ancestors are available).
`t.spec θ` is the tree denoted by the flattened arrays, `Flat.WF` says the arrays describe a forest (any depth, width and
node order; C16 proves that every choice model yields such arrays), `HasScales` that the scales are the positive reals `θ`.
A row of utilities is a function `u`; `arr t.n (fun i => util (u i))` is the array given to the program.
-/
set_option linter.unusedSectionVars false
namespace Cheval
open FOps Spec

/-- the row of utilities given to the program -/
noncomputable def row (n : Nat) (u : Nat → Util) : List XR := arr n fun i => util (u i)

section exact
variable {t : Flat XR} {θ : Nat → ℝ}

/-- **C09 (the specification is well defined)** A nested logit model has exactly one solution. -/
theorem C09_spec_unique (h : t.WF) (hs : t.HasScales θ) (scaled : Bool) (u : Nat → Util) :
    ∃ T P, (t.spec θ).IsNestedLogit scaled u T P ∧
      ∀ T' P', (t.spec θ).IsNestedLogit scaled u T' P' → ∀ i < t.n, T' i = T i ∧ P' i = P i :=
  ⟨_, _, isNestedLogit h hs scaled u, fun _ _ s' => IsNestedLogit_unique h scaled u s' (isNestedLogit h hs scaled u)⟩

open Classical in
/-- **C09** The program computes the textbook nested logit: probability `P i` for elemental choices and 0 for nests, top
logsum `Σ T` over the top nodes and logsum terms `T`; if that sum is 0 and the check is on it raises instead. -/
theorem C09_textbook (h : t.WF) (hs : t.HasScales θ) (scaled check : Bool) (u : Nat → Util) (T P : Nat → ℝ)
    (hspec : (t.spec θ).IsNestedLogit scaled u T P) :
    nested (row t.n u) t scaled check =
      if (∑ i ∈ (t.spec θ).tops, T i) = 0 ∧ check = true then .error .utilityBounds
      else .ok (arr t.n (fun i => .fin (if (t.spec θ).Leaf i then P i else 0)),
        .fin (∑ i ∈ (t.spec θ).tops, T i), arr t.n (fun i => .fin (T i))) := by
  have huniq := IsNestedLogit_unique h scaled u hspec (isNestedLogit h hs scaled u)
  have htops : ∑ i ∈ (t.spec θ).tops, T i = ∑ i ∈ (t.spec θ).tops, termR t scaled u i :=
    Finset.sum_congr rfl fun i hi => (huniq i (Finset.mem_range.mp (Finset.mem_filter.mp hi).1)).1
  have hnn := (nl_of h hs scaled u).topSum_nonneg
  unfold row
  rw [nested_exact h hs, htops]
  have hc : ((∑ i ∈ (t.spec θ).tops, termR t scaled u i) ≤ 0) = ((∑ i ∈ (t.spec θ).tops, termR t scaled u i) = 0) :=
    propext ⟨fun hle => le_antisymm hle hnn, fun he => he.le⟩
  simp only [hc]
  congr 2
  unfold arr
  congr 1
  · apply List.map_congr_left
    intro i hi
    have hi := List.mem_range.mp hi
    rw [(huniq i hi).2]
    by_cases hb : t.bottom i = true
    · rw [if_pos hb, if_pos ((spec_leaf h i hi).mpr hb)]
    · rw [if_neg hb, if_neg (fun hl => hb ((spec_leaf h i hi).mp hl))]
  · congr 1
    apply List.map_congr_left
    intro i hi
    rw [(huniq i (List.mem_range.mp hi)).1]

open Classical in
/-- **C08** If some elemental choice is available, the returned probabilities are non-negative, at most 1, exactly 0 on
nests, and sum to exactly 1 over the elemental choices. -/
theorem C08_distribution (h : t.WF) (hs : t.HasScales θ) (scaled check : Bool) (u : Nat → Util)
    (hfeas : ∃ l < t.n, (t.spec θ).Leaf l ∧ (t.spec θ).Open u l) :
    ∃ (p : Nat → ℝ) (ls : XR) (terms : List XR),
      nested (row t.n u) t scaled check = .ok (arr t.n (fun i => .fin (p i)), ls, terms) ∧
      (∀ i < t.n, 0 ≤ p i ∧ p i ≤ 1) ∧ (∀ i < t.n, ¬ (t.spec θ).Leaf i → p i = 0) ∧
      ∑ i ∈ (Finset.range t.n).filter (fun i => (t.spec θ).Leaf i), p i = 1 ∧
      ((List.range t.n).map p).sum = 1 := by
  have m := nl_of h hs scaled u
  have hpos := m.feasible_iff.mpr hfeas
  have hleaf := m.leaf_sum (absR t θ scaled u) (fun j hj hl => m.P_children j hj hl)
  rw [m.P_tops hpos] at hleaf
  have hsum : ∑ i ∈ (Finset.range t.n).filter (fun i => (t.spec θ).Leaf i),
      (if (t.spec θ).Leaf i then absR t θ scaled u i else 0) = 1 := by
    rw [← hleaf]
    apply Finset.sum_congr rfl
    intro i hi
    rw [if_pos (Finset.mem_filter.mp hi).2]
  have hnn : ∀ i < t.n, 0 ≤ if (t.spec θ).Leaf i then absR t θ scaled u i else 0 := by
    intro i hi
    by_cases hl : (t.spec θ).Leaf i
    · rw [if_pos hl]; exact m.P_nonneg i hi
    · rw [if_neg hl]
  refine ⟨fun i => if (t.spec θ).Leaf i then absR t θ scaled u i else 0, .fin (∑ i ∈ (t.spec θ).tops, termR t scaled u i),
    arr t.n (fun i => .fin (termR t scaled u i)), ?_, ?_, ?_, hsum, ?_⟩
  · rw [C09_textbook h hs scaled check u _ _ m.is, if_neg (fun hh => hpos.ne' hh.1)]
  · intro i hi
    refine ⟨hnn i hi, ?_⟩
    by_cases hl : (t.spec θ).Leaf i
    · rw [← hsum]
      exact Finset.single_le_sum (f := fun i => if (t.spec θ).Leaf i then absR t θ scaled u i else 0)
        (fun j hj => hnn j (Finset.mem_range.mp (Finset.mem_filter.mp hj).1))
        (Finset.mem_filter.mpr ⟨Finset.mem_range.mpr hi, hl⟩)
    · simp only [hl, if_false]; norm_num
  · intro i hi hl
    simp [hl]
  · rw [← hsum, Finset.sum_filter]
    have e := sum_range_filter t.n (fun _ => true) (fun i => if (t.spec θ).Leaf i then absR t θ scaled u i else 0)
    simp only [List.filter_true, Finset.filter_true] at e
    rw [e]
    apply Finset.sum_congr rfl
    intro i hi
    by_cases hl : (t.spec θ).Leaf i <;> simp [hl]

/-- **C10 (check on)** The row is rejected iff no elemental choice is available. -/
theorem C10_infeasible_iff (h : t.WF) (hs : t.HasScales θ) (scaled : Bool) (u : Nat → Util) :
    nested (row t.n u) t scaled true = .error .utilityBounds ↔
      ¬ ∃ l < t.n, (t.spec θ).Leaf l ∧ (t.spec θ).Open u l := by
  have m := nl_of h hs scaled u
  rw [C09_textbook h hs scaled true u _ _ m.is, ← m.feasible_iff]
  have hnn := m.topSum_nonneg
  by_cases h0 : ∑ i ∈ (t.spec θ).tops, termR t scaled u i = 0
  · rw [if_pos ⟨h0, rfl⟩, h0]; simp
  · rw [if_neg (fun hh => h0 hh.1)]
    simp only [reduceCtorEq, false_iff, not_not]
    exact lt_of_le_of_ne hnn (Ne.symm h0)

/-- **C10 (check off)** Without an available elemental choice all probabilities are 0. -/
theorem C10_nocheck_zero (h : t.WF) (hs : t.HasScales θ) (scaled : Bool) (u : Nat → Util)
    (hno : ¬ ∃ l < t.n, (t.spec θ).Leaf l ∧ (t.spec θ).Open u l) :
    ∃ terms, nested (row t.n u) t scaled false = .ok (arr t.n (fun _ => .fin 0), .fin 0, terms) := by
  classical
  have m := nl_of h hs scaled u
  have h0 : ∑ i ∈ (t.spec θ).tops, termR t scaled u i = 0 := by
    by_contra hne
    exact hno (m.feasible_iff.mp (lt_of_le_of_ne m.topSum_nonneg (Ne.symm hne)))
  refine ⟨arr t.n (fun i => .fin (termR t scaled u i)), ?_⟩
  rw [C09_textbook h hs scaled false u _ _ m.is, if_neg (by simp), h0]
  congr 2
  unfold arr
  apply List.map_congr_left
  intro i hi
  have hi := List.mem_range.mp hi
  by_cases hl : (t.spec θ).Leaf i
  · rw [if_pos hl]
    congr 1
    have : ¬ 0 < absR t θ scaled u i := fun hp => hno ⟨i, hi, hl, (m.leaf_pos_iff i hi hl).mp hp⟩
    exact le_antisymm (not_lt.mp this) (m.P_nonneg i hi)
  · rw [if_neg hl]

/-- **C10 (switched off exactly)** A returned elemental probability is positive iff the choice and all its ancestors have
finite utility; otherwise it is 0. -/
theorem C10_zero_iff (h : t.WF) (hs : t.HasScales θ) (scaled check : Bool) (u : Nat → Util) (p : Nat → ℝ) (ls : XR)
    (terms : List XR) (hr : nested (row t.n u) t scaled check = .ok (arr t.n (fun i => .fin (p i)), ls, terms))
    (i : Nat) (hi : i < t.n) (hl : (t.spec θ).Leaf i) :
    (0 < p i ↔ (t.spec θ).Open u i) ∧ (¬ (t.spec θ).Open u i → p i = 0) := by
  classical
  have m := nl_of h hs scaled u
  rw [C09_textbook h hs scaled check u _ _ m.is] at hr
  split at hr
  · cases hr
  · simp only [Except.ok.injEq, Prod.mk.injEq] at hr
    have hp : p i = absR t θ scaled u i := by
      have h1 := congrArg (fun l => l[i]?) hr.1
      simp only [arr, List.getElem?_map, List.getElem?_range hi, Option.map_some, Option.some.injEq, XR.fin.injEq] at h1
      rw [← h1, if_pos hl]
    rw [hp]
    exact ⟨m.leaf_pos_iff i hi hl, m.P_zero_of_not_open i hi⟩

/-- **C10 (unavailable nests do not compete)** If no elemental choice below `d` is available, neither in row `u` nor in
row `u'`, and the rows agree outside `d`'s subtree, both rows get the same probabilities: what is inside (or assigned to)
an unavailable nest has no influence. -/
theorem C10_independent (h : t.WF) (hs : t.HasScales θ) (scaled check : Bool) (u u' : Nat → Util) (d : Nat) (hd : d < t.n)
    (hsame : ∀ i < t.n, ¬ (t.spec θ).Above d i → u i = u' i)
    (hdead : ∀ l < t.n, (t.spec θ).Leaf l → (t.spec θ).Above d l → ¬ (t.spec θ).Open u l)
    (hdead' : ∀ l < t.n, (t.spec θ).Leaf l → (t.spec θ).Above d l → ¬ (t.spec θ).Open u' l) :
    (nested (row t.n u) t scaled check).map (·.1) = (nested (row t.n u') t scaled check).map (·.1) := by
  classical
  have m := nl_of h hs scaled u
  have m' := nl_of h hs scaled u'
  -- find the node above (or equal to) d that is switched off in both rows
  have key : ∃ e < t.n, (t.spec θ).Above e d ∧ termR t scaled u e = 0 ∧ termR t scaled u' e = 0 := by
    by_cases hpar : ∀ p, (t.spec θ).parent d = some p → (t.spec θ).Open u p
    · have hpar' : ∀ p, (t.spec θ).parent d = some p → (t.spec θ).Open u' p := by
        intro p hp
        have hop := hpar p hp
        have hnot : ∀ q, (t.spec θ).Open u q → q < t.n → t.level q < t.level d → (t.spec θ).Open u' q := by
          intro q ho
          induction ho with
          | top q hq hu =>
            intro hqn hlv
            have : ¬ (t.spec θ).Above d q := by
              intro ha
              cases ha with
              | self => omega
              | child _ _ hp _ => rw [hq] at hp; cases hp
            exact .top q hq (by rw [← hsame q hqn this]; exact hu)
          | child q r hqr hu ho ih =>
            intro hqn hlv
            obtain ⟨hrn, hrl⟩ := m.parent_lt hqn hqr
            have habove_level : ∀ x, (t.spec θ).Above d x → x < t.n → t.level d ≤ t.level x := by
              intro x hx
              induction hx with
              | self => intro _; exact le_refl _
              | child a b hab _ ihx =>
                intro hxn
                obtain ⟨hbn, hbl⟩ := m.parent_lt hxn hab
                have := ihx hbn
                omega
            have : ¬ (t.spec θ).Above d q := fun ha => by have := habove_level q ha hqn; omega
            exact .child q r hqr (by rw [← hsame q hqn this]; exact hu) (ih hrn (by omega))
        obtain ⟨hpn, hpl⟩ := m.parent_lt hd hp
        exact hnot p hop hpn (by omega)
      refine ⟨d, hd, .self, ?_, ?_⟩
      · by_contra hne
        obtain ⟨l, a, b, c, e⟩ := m.open_leaf_of_pos d hd hpar (lt_of_le_of_ne (m.nonneg d hd) (Ne.symm hne))
        exact hdead l a b e c
      · by_contra hne
        obtain ⟨l, a, b, c, e⟩ := m'.open_leaf_of_pos d hd hpar' (lt_of_le_of_ne (m'.nonneg d hd) (Ne.symm hne))
        exact hdead' l a b e c
    · push Not at hpar
      obtain ⟨p, hp, hno⟩ := hpar
      obtain ⟨hpn, hpl⟩ := m.parent_lt hd hp
      -- an ancestor of p (or p) has utility -inf
      have : ∀ q < t.n, ¬ (t.spec θ).Open u q → ∃ e < t.n, (t.spec θ).Above e q ∧ u e = none ∧ t.level e ≤ t.level q := by
        apply m.down_induction
        · intro q hq hqp hno
          refine ⟨q, hq, .self, ?_, le_refl _⟩
          by_contra hne; exact hno (.top q hqp hne)
        · intro q hq r hr hqr ih hno
          by_cases hu : u q = none
          · exact ⟨q, hq, .self, hu, le_refl _⟩
          · obtain ⟨e, he1, he2, he3, he4⟩ := ih (fun ho => hno (.child q r hqr hu ho))
            have := (m.parent_lt hq hqr).2
            exact ⟨e, he1, .child q r hqr he2, he3, by omega⟩
      obtain ⟨e, he1, he2, he3, he4⟩ := this p hpn hno
      have habove_level : ∀ x, (t.spec θ).Above d x → x < t.n → t.level d ≤ t.level x := by
        intro x hx
        induction hx with
        | self => intro _; exact le_refl _
        | child a b hab _ ihx =>
          intro hxn
          obtain ⟨hbn, hbl⟩ := m.parent_lt hxn hab
          have := ihx hbn
          omega
      have hna : ¬ (t.spec θ).Above d e := fun ha => by have := habove_level e ha he1; omega
      have he3' : u' e = none := by rw [← hsame e he1 hna]; exact he3
      refine ⟨e, he1, .child d p hp he2, ?_, ?_⟩
      · by_contra hne
        exact ((m.term_pos_iff e he1).mp (lt_of_le_of_ne (m.nonneg e he1) (Ne.symm hne))).1 he3
      · by_contra hne
        exact ((m'.term_pos_iff e he1).mp (lt_of_le_of_ne (m'.nonneg e he1) (Ne.symm hne))).1 he3'
  obtain ⟨e, he, hed, hT, hT'⟩ := key
  have htrans : ∀ i, (t.spec θ).Above d i → (t.spec θ).Above e i := by
    intro i hi
    induction hi with
    | self => exact hed
    | child a b hab _ ih => exact .child a b hab ih
  have hP := m.indep_zero m' e he (fun i hi hna => hsame i hi (fun ha => hna (htrans i ha))) hT hT'
  have hfe : (∑ i ∈ (t.spec θ).tops, termR t scaled u i = 0) = (∑ i ∈ (t.spec θ).tops, termR t scaled u' i = 0) := by
    have e1 : (0 < ∑ i ∈ (t.spec θ).tops, termR t scaled u i) ↔ (0 < ∑ i ∈ (t.spec θ).tops, termR t scaled u' i) := by
      rw [m.feasible_iff, m'.feasible_iff]
      constructor
      · rintro ⟨l, a, b, c⟩
        exact ⟨l, a, b, (m'.leaf_pos_iff l a b).mp (by rw [← hP l a]; exact (m.leaf_pos_iff l a b).mpr c)⟩
      · rintro ⟨l, a, b, c⟩
        exact ⟨l, a, b, (m.leaf_pos_iff l a b).mp (by rw [hP l a]; exact (m'.leaf_pos_iff l a b).mpr c)⟩
    have n1 := m.topSum_nonneg
    have n2 := m'.topSum_nonneg
    apply propext
    constructor
    · intro h0; rw [h0] at e1; by_contra hne
      exact lt_irrefl _ (e1.mpr (lt_of_le_of_ne n2 (Ne.symm hne)))
    · intro h0; rw [h0] at e1; by_contra hne
      exact lt_irrefl _ (e1.mp (lt_of_le_of_ne n1 (Ne.symm hne)))
  rw [C09_textbook h hs scaled check u _ _ m.is, C09_textbook h hs scaled check u' _ _ m'.is]
  simp only [hfe]
  split
  · rfl
  · simp only [Except.map]
    congr 1
    unfold arr
    apply List.map_congr_left
    intro i hi
    rw [hP i (List.mem_range.mp hi)]

open Classical in
/-- **C11** With unit scales and zero utility on every nest, each elemental choice has its multinomial probability over
the elemental choices, and the top logsum is `Σ exp(u)` over them. -/
theorem C11_collapse (h : t.WF) (hs : t.HasScales (fun _ => 1)) (scaled check : Bool) (u : Nat → Util)
    (hnest : ∀ i < t.n, ¬ (t.spec fun _ => 1).Leaf i → u i = some 0)
    (hfeas : ∃ l < t.n, (t.spec fun _ => 1).Leaf l ∧ u l ≠ none) :
    let leaves := (Finset.range t.n).filter (fun i => (t.spec fun _ => 1).Leaf i)
    let total := ∑ i ∈ leaves, expw (u i)
    ∃ terms, nested (row t.n u) t scaled check =
      .ok (arr t.n (fun i => .fin (if (t.spec fun _ => 1).Leaf i then expw (u i) / total else 0)), .fin total, terms) := by
  intro leaves total
  have m := nl_of h hs scaled u
  set T := termR t scaled u with hTdef
  set P := absR t (fun _ => 1) scaled u with hPdef
  have hθp : ∀ i, (t.spec fun _ => 1).θp scaled i = 1 := by
    intro i; unfold Tree.θp
    cases (t.spec fun _ => 1).parent i with
    | none => rfl
    | some p => simp [Flat.spec]
  have hTleaf : ∀ i < t.n, (t.spec fun _ => 1).Leaf i → T i = expw (u i) := by
    intro i hi hl
    rw [m.is.leaf i hi hl]
    cases u i with
    | none => rfl
    | some x => simp [expw, hθp]
  have hTnest : ∀ i < t.n, ¬ (t.spec fun _ => 1).Leaf i → ∑ j ∈ (t.spec fun _ => 1).children i, T j = T i := by
    intro i hi hl
    have hθ1 : (t.spec fun _ => 1).θ i = 1 := rfl
    rw [m.is.nest i hi hl, hnest i hi hl]
    simp [hθp, hθ1]
  have htotal : ∑ i ∈ (t.spec fun _ => 1).tops, T i = total := by
    rw [← m.leaf_sum T hTnest]
    apply Finset.sum_congr rfl
    intro i hi
    obtain ⟨h1, h2⟩ := Finset.mem_filter.mp hi
    exact hTleaf i (Finset.mem_range.mp h1) h2
  have hpos : 0 < total := by
    obtain ⟨l, h1, h2, h3⟩ := hfeas
    apply Finset.sum_pos' (fun i _ => expw_nonneg _)
    refine ⟨l, Finset.mem_filter.mpr ⟨Finset.mem_range.mpr h1, h2⟩, ?_⟩
    exact lt_of_le_of_ne (expw_nonneg _) (Ne.symm (fun h0 => h3 ((expw_eq_zero _).mp h0)))
  have hP : ∀ i < t.n, P i = T i / total := by
    apply m.down_induction
    · intro i hi hp
      rw [m.is.top i hi hp, htotal]
    · intro i hi p hpn hp ih
      rw [m.is.child i hi p hp, ih, hTnest p hpn (m.not_leaf_of_child hi hp)]
      by_cases h0 : T p = 0
      · have : T i = 0 := by
          have hsum := hTnest p hpn (m.not_leaf_of_child hi hp)
          rw [h0] at hsum
          exact (Finset.sum_eq_zero_iff_of_nonneg (fun k hk => m.nonneg k (m.mem_children.mp hk).1)).mp hsum i
            (m.mem_children.mpr ⟨hi, hp⟩)
        simp [this, h0]
      · field_simp
  refine ⟨arr t.n (fun i => .fin (T i)), ?_⟩
  rw [C09_textbook h hs scaled check u _ _ m.is, if_neg (by rw [htotal]; exact fun hh => hpos.ne' hh.1), htotal]
  congr 2
  unfold arr
  apply List.map_congr_left
  intro i hi
  have hi := List.mem_range.mp hi
  by_cases hl : (t.spec fun _ => 1).Leaf i
  · rw [if_pos hl, if_pos hl, hP i hi, hTleaf i hi hl]
  · rw [if_neg hl, if_neg hl]

end exact

/-! ### Rounded arithmetic -/
section rounded
variable {F : Type} [FOps F] [FLaws F]

/-- sum of the returned logsum terms over the children of `j`, left to right -/
def sibSum (t : Flat F) (terms : List F) (j : Nat) : F := sumF ((t.children j).map fun i => terms.getD i zero)

/-- **C14 (nested)** In any monotonically rounded arithmetic: if no returned logsum term is NaN or negative and no sum of
terms overflowed, every returned probability is in `[0,1]`. -/
theorem C14_nested (t : Flat F) (h : t.WF) (us : List F) (scaled check : Bool) (ps : List F) (ls : F) (terms : List F)
    (hr : nested us t scaled check = .ok (ps, ls, terms))
    (hterms : ∀ x ∈ terms, FOps.le FOps.zero x = true) (hls : FOps.lt ls FOps.posInf = true)
    (hsib : ∀ j < t.n, FOps.lt (sibSum t terms j) FOps.posInf = true) :
    ps.length = t.n ∧ ∀ p ∈ ps, FOps.le FOps.zero p = true ∧ FOps.le p FOps.one = true := by
  rw [nested_eq h] at hr
  simp only at hr
  split at hr
  · cases hr
  simp only [Except.ok.injEq, Prod.mk.injEq] at hr
  obtain ⟨rfl, rfl, rfl⟩ := hr
  set u : Nat → F := fun i => us.getD i zero with hu
  have hz : FOps.le (FOps.zero : F) FOps.zero = true := FLaws.le_refl _ FLaws.zero_notNan
  have hT : ∀ i < t.n, FOps.le FOps.zero (term t scaled u i) = true := fun i hi =>
    hterms _ (List.mem_map.mpr ⟨i, List.mem_range.mpr hi, rfl⟩)
  have hget : ∀ i < t.n, (arr t.n (term t scaled u)).getD i zero = term t scaled u i := by
    intro i hi; simp [arr, hi]
  have hsib' : ∀ j < t.n, FOps.lt (childSum t scaled u j) FOps.posInf = true := by
    intro j hj
    have := hsib j hj
    unfold sibSum at this
    rw [List.map_congr_left (fun i hi => hget i (Flat.mem_children.mp hi).1)] at this
    exact this
  have hunit : ∀ (S : F) (i : Nat) (l : List Nat), (∀ k ∈ l, k < t.n) → i ∈ l → S = sumF (l.map (term t scaled u)) →
      FOps.lt S FOps.posInf = true →
      FOps.le FOps.zero (if FOps.le S FOps.zero then FOps.zero else FOps.div (term t scaled u i) S) = true ∧
      FOps.le (if FOps.le S FOps.zero then FOps.zero else FOps.div (term t scaled u i) S) FOps.one = true := by
    intro S i l hl hi hS hSinf
    by_cases hle : FOps.le S FOps.zero = true
    · rw [if_pos hle]; exact ⟨hz, FLaws.zero_le_one⟩
    · rw [if_neg hle]
      have hws : ∀ w ∈ l.map (term t scaled u), FOps.le FOps.zero w = true := by
        intro w hw; obtain ⟨k, hk, rfl⟩ := List.mem_map.mp hw; exact hT k (hl k hk)
      have hnn := (foldl_add_nonneg (FOps.zero : F) _ hz hws).1
      have hle2 := le_foldl_add_of_mem (FOps.zero : F) _ hz hws _ (List.mem_map_of_mem (f := term t scaled u) hi)
      have hS' : FOps.le FOps.zero S = true := by rw [hS]; exact hnn
      have hpos : FOps.lt (FOps.zero : F) S = true := by
        rw [FLaws.lt_iff]
        exact ⟨FLaws.zero_notNan, (FLaws.le_notNan _ _ hS').2, by simpa using hle⟩
      exact FLaws.div_unit _ _ (hT i (hl i hi)) (by rw [hS]; exact hle2) hpos hSinf
  have hc : ∀ i < t.n, FOps.le FOps.zero (condP t scaled u i) = true ∧ FOps.le (condP t scaled u i) FOps.one = true := by
    intro i hi
    unfold condP
    rcases h.node i hi with ⟨h1, _⟩ | ⟨p, hpn, h1, _⟩
    · simp only [h1, if_true]
      exact hunit _ i t.tops (fun k hk => (Flat.mem_tops.mp hk).1) (Flat.mem_tops.mpr ⟨hi, h1⟩) rfl hls
    · have hne : t.parent i ≠ -1 := by omega
      have htn : (t.parent i).toNat = p := by omega
      simp only [hne, if_false, htn]
      exact hunit _ i (t.children p) (fun k hk => (Flat.mem_children.mp hk).1) (Flat.mem_children.mpr ⟨hi, h1⟩) rfl
        (hsib' p hpn)
  have ha : ∀ d i, i < t.n → t.level i = d → FOps.le FOps.zero (absP t (condP t scaled u) i) = true ∧
      FOps.le (absP t (condP t scaled u) i) FOps.one = true := by
    intro d
    induction d with
    | zero =>
      intro i hi hd
      rcases h.node i hi with ⟨h1, _⟩ | ⟨p, _, _, h2⟩
      · rw [(absP_eq h _ i hi).1 h1]; exact hc i hi
      · omega
    | succ d ih =>
      intro i hi hd
      rcases h.node i hi with ⟨h1, h2⟩ | ⟨p, hpn, h1, h2⟩
      · omega
      · rw [(absP_eq h _ i hi).2 p h1]
        obtain ⟨a, b⟩ := hc i hi
        obtain ⟨c, d⟩ := ih p hpn (by omega)
        exact FLaws.mul_unit _ _ a b c d
  refine ⟨by simp [arr], ?_⟩
  intro p hp
  obtain ⟨i, hi, rfl⟩ := List.mem_map.mp hp
  have hi := List.mem_range.mp hi
  by_cases hcb : ∃ j < t.n, t.parent j = (i : Int)
  · rw [if_pos hcb]; exact ⟨hz, FLaws.zero_le_one⟩
  · rw [if_neg hcb]; exact ha _ i hi rfl

/-- **C14 (running totals)** The running totals of a row with non-negative entries never decrease, so the binary search of
the multi-draw path is applied to a sorted array. -/
theorem C14_cumsum_monotone (ps : List F) (hps : ∀ p ∈ ps, FOps.le FOps.zero p = true) (i j : Nat) (hij : i ≤ j)
    (hi : i < (nbfCumsum ps).length) (hj : j < (nbfCumsum ps).length) :
    FOps.le (nbfCumsum ps)[i] (nbfCumsum ps)[j] = true := cumsum_mono ps hps i j hij hi hj

end rounded

/-! ### Non-vacuity: a two-level tree whose nodes are not in depth-first order -/

/-- Nodes: 0 = leaf under 2, 1 = top leaf, 2 = nest (scale 1/2), 3 = leaf under 2. -/
noncomputable def exTree : Flat XR where
  n := 4
  parent i := if i = 0 ∨ i = 3 then 2 else -1
  level i := if i = 0 ∨ i = 3 then 1 else 0
  scale i := .fin (if i = 2 then 1/2 else 1)
  bottom i := !(i == 2)

theorem exTree_wf : exTree.WF where
  pos := by simp [exTree]
  node := by
    intro i hi
    simp only [exTree] at hi ⊢
    by_cases h : i = 0 ∨ i = 3
    · right; exact ⟨2, by norm_num, by simp [h], by simp [h]⟩
    · left; simp [h]
  bottom := by
    intro i hi
    simp only [exTree] at hi ⊢
    constructor
    · intro hb j hj
      have : i ≠ 2 := by simpa using hb
      split <;> omega
    · intro hh
      have := hh 0 (by norm_num)
      simp at this ⊢
      omega

theorem exTree_scales : exTree.HasScales (fun i => if i = 2 then 1/2 else 1) := by
  intro i _
  refine ⟨rfl, ?_⟩
  show (0:ℝ) < if i = 2 then 1/2 else 1
  split <;> norm_num

/-- the hypotheses of C08-C10 hold for this tree with utilities 1, -inf, 0, -inf: node 0 is available -/
example : ∃ u : Nat → Util, (∃ l < exTree.n, (exTree.spec fun i => if i = 2 then 1/2 else 1).Leaf l ∧
    (exTree.spec fun i => if i = 2 then 1/2 else 1).Open u l) ∧ u 1 = none ∧ u 3 = none := by
  refine ⟨fun i => if i = 0 then some 1 else if i = 2 then some 0 else none, ⟨0, by simp [exTree], ?_, ?_⟩, rfl, rfl⟩
  · rw [spec_leaf exTree_wf 0 (by simp [exTree])]; rfl
  · refine .child 0 2 ?_ (by simp) (.top 2 ?_ (by simp))
    · simp [Flat.spec, exTree]
    · simp [Flat.spec, exTree]

/-! A full numerical example: utilities 0 (node 0), `log 2` (node 1), 0 (the nest), `log 3 / 2` (node 3). -/

private noncomputable def exθ : Nat → ℝ := fun i => if i = 2 then 1/2 else 1
private theorem exθ_scales : exTree.HasScales exθ := exTree_scales
private noncomputable def exU : Nat → Util := fun i =>
  if i = 1 then some (Real.log 2) else if i = 3 then some (Real.log 3 / 2) else some 0
private noncomputable def exTerm : Nat → ℝ := fun i => if i = 0 then 1 else if i = 3 then 3 else 2
private noncomputable def exProb : Nat → ℝ := fun i => if i = 0 then 1/8 else if i = 3 then 3/8 else 1/2

private theorem exTree_parent (i : Nat) : (exTree.spec exθ).parent i = if i = 0 ∨ i = 3 then some 2 else none := by
  by_cases h : i = 0 ∨ i = 3
  · simp only [Flat.spec, exTree, if_pos h]; rfl
  · simp only [Flat.spec, exTree, if_neg h]; rfl

private theorem exTree_children2 : (exTree.spec exθ).children 2 = {0, 3} := by
  ext i
  simp only [Tree.children, exTree_parent, Finset.mem_filter, Finset.mem_range, Finset.mem_insert, Finset.mem_singleton]
  refine ⟨fun ⟨_, h⟩ => by_contra fun h' => by simp [h'] at h, fun h => ⟨?_, by simp [h]⟩⟩
  show i < 4
  omega

private theorem exTree_tops : (exTree.spec exθ).tops = {1, 2} := by
  ext i
  simp only [Tree.tops, exTree_parent, Finset.mem_filter, Finset.mem_range, Finset.mem_insert, Finset.mem_singleton]
  constructor
  · rintro ⟨hi, h⟩
    have hi : i < 4 := hi
    by_cases h' : i = 0 ∨ i = 3
    · simp [h'] at h
    · omega
  · intro h
    refine ⟨show i < 4 by omega, if_neg (by omega)⟩

private theorem exTree_leaf (i : Nat) (hi : i < 4) : (exTree.spec exθ).Leaf i ↔ i ≠ 2 := by
  rw [spec_leaf exTree_wf i hi]; simp [exTree]

private theorem exTree_nested : (exTree.spec exθ).IsNestedLogit true exU exTerm exProb where
  leaf := by
    intro i hi hl
    have h2 := (exTree_leaf i hi).mp hl
    have hi : i < 4 := hi
    interval_cases i
    · simp [exU, exTerm]
    · simp [exU, exTerm, Tree.θp, Flat.spec, exTree, Real.exp_log]
    · exact absurd rfl h2
    · have : Real.log 3 / 2 / (1 / 2) = Real.log 3 := by ring
      have hp : (exTree.spec exθ).θp true 3 = 1 / 2 := by simp only [Tree.θp, exTree_parent]; simp [Flat.spec, exθ]
      rw [hp]
      norm_num [exU, exTerm, this, Real.exp_log]
  nest := by
    intro i hi hl
    have h2 : i = 2 := by have := mt (exTree_leaf i hi).mpr hl; omega
    subst h2
    rw [exTree_children2]
    have : (4 : ℝ) ^ ((2 : ℝ)⁻¹) = 2 := by
      rw [show (4 : ℝ) = 2 ^ (2 : ℝ) by norm_num, ← Real.rpow_mul (by norm_num)]; norm_num
    simp [exU, exTerm, Tree.θp, Flat.spec, exTree, exθ]
    norm_num [this]
  top := by
    intro i hi hp
    rw [exTree_tops]
    have hi : i < 4 := hi
    interval_cases i <;> simp [Flat.spec, exTree] at hp <;> simp [exProb, exTerm] <;> norm_num
  child := by
    intro i hi p hp
    have hi : i < 4 := hi
    interval_cases i <;> simp [Flat.spec, exTree] at hp <;> subst hp <;> rw [exTree_children2] <;> simp [exProb, exTerm] <;> norm_num

/-- C09_textbook: the computed probabilities are 1/8, 1/2, 0 (the nest) and 3/8, the logsum is 4 -/
private theorem exTree_run (check : Bool) : nested (row 4 exU) exTree true check =
    .ok ([.fin (1/8), .fin (1/2), .fin 0, .fin (3/8)], .fin 4, [.fin 1, .fin 2, .fin 2, .fin 3]) := by
  have h := C09_textbook exTree_wf exθ_scales true check exU exTerm exProb exTree_nested
  have hs : ∑ i ∈ (exTree.spec exθ).tops, exTerm i = 4 := by rw [exTree_tops]; simp [exTerm]; norm_num
  rw [hs] at h
  refine h.trans ?_
  have l0 := (exTree_leaf 0 (by norm_num)).mpr (by norm_num)
  have l1 := (exTree_leaf 1 (by norm_num)).mpr (by norm_num)
  have l2 : ¬ (exTree.spec exθ).Leaf 2 := fun h => (exTree_leaf 2 (by norm_num)).mp h rfl
  have l3 := (exTree_leaf 3 (by norm_num)).mpr (by norm_num)
  have hn : exTree.n = 4 := rfl
  simp [arr, hn, List.range_succ, l0, l1, l2, l3, exProb, exTerm]

private theorem exU_open (i : Nat) (hi : i < 4) : (exTree.spec exθ).Open exU i := by
  have h2 : (exTree.spec exθ).Open exU 2 := .top 2 (by simp [Flat.spec, exTree]) (by simp [exU])
  interval_cases i
  · exact .child 0 2 (by simp [Flat.spec, exTree]) (by simp [exU]) h2
  · exact .top 1 (by simp [Flat.spec, exTree]) (by simp [exU])
  · exact h2
  · exact .child 3 2 (by simp [Flat.spec, exTree]) (by simp [exU]) h2

/-- C08_distribution on this row -/
example : ∃ (p : Nat → ℝ) (ls : XR) (terms : List XR),
    nested (row 4 exU) exTree true true = .ok (arr 4 (fun i => .fin (p i)), ls, terms) ∧ p 2 = 0 ∧
    ((List.range 4).map p).sum = 1 := by
  obtain ⟨p, ls, terms, h1, _, h2, _, h3⟩ := C08_distribution exTree_wf exθ_scales true true exU
    ⟨0, by simp [exTree], (exTree_leaf 0 (by norm_num)).mpr (by norm_num), exU_open 0 (by norm_num)⟩
  exact ⟨p, ls, terms, h1, h2 2 (by simp [exTree]) fun h => (exTree_leaf 2 (by norm_num)).mp h rfl, h3⟩

/-- only the two alternatives of the nest have a finite utility, but the nest itself has not -/
private noncomputable def exShut : Nat → Util := fun i => if i = 0 ∨ i = 3 then some 0 else none

private theorem exShut_open (i : Nat) (h : (exTree.spec exθ).Open exShut i) : False := by
  induction h with
  | top i hp hu => 
    by_cases hi : i = 0 ∨ i = 3
    · rcases hi with rfl | rfl <;> simp [Flat.spec, exTree] at hp
    · simp [exShut, hi] at hu
  | child i p hp hu _ ih => exact ih

/-- C10_infeasible_iff, C10_nocheck_zero: such a row is infeasible, the row above is not -/
example : nested (row 4 exShut) exTree true true = .error .utilityBounds ∧
    (∃ terms, nested (row 4 exShut) exTree true false = .ok ([.fin 0, .fin 0, .fin 0, .fin 0], .fin 0, terms)) ∧
    nested (row 4 exU) exTree true true ≠ .error .utilityBounds := by
  have hno : ¬ ∃ l < exTree.n, (exTree.spec exθ).Leaf l ∧ (exTree.spec exθ).Open exShut l :=
    fun ⟨l, _, _, h⟩ => exShut_open l h
  refine ⟨(C10_infeasible_iff exTree_wf exθ_scales true exShut).mpr hno,
    C10_nocheck_zero exTree_wf exθ_scales true exShut hno, fun h => ?_⟩
  exact (C10_infeasible_iff exTree_wf exθ_scales true exU).mp h
    ⟨0, by simp [exTree], (exTree_leaf 0 (by norm_num)).mpr (by norm_num), exU_open 0 (by norm_num)⟩

/-- C10_zero_iff for node 3 -/
example : 0 < exProb 3 ↔ (exTree.spec exθ).Open exU 3 := by
  refine (C10_zero_iff exTree_wf exθ_scales true true exU (fun i => if i = 2 then 0 else exProb i) (.fin 4)
    [.fin 1, .fin 2, .fin 2, .fin 3] ?_ 3 (by simp [exTree]) ((exTree_leaf 3 (by norm_num)).mpr (by norm_num))).1
  refine (exTree_run true).trans ?_
  simp [arr, exTree, List.range_succ, exProb]

/-- C10_independent: with the nest switched off, the utilities of its alternatives do not matter -/
example (x y : Util) : (nested (row 4 fun i => if i = 1 then some 0 else if i = 2 then none else x) exTree true true).map (·.1) =
    (nested (row 4 fun i => if i = 1 then some 0 else if i = 2 then none else y) exTree true true).map (·.1) := by
  have hdead : ∀ x : Util, ∀ l < exTree.n, (exTree.spec exθ).Leaf l → (exTree.spec exθ).Above 2 l →
      ¬ (exTree.spec exθ).Open (fun i => if i = 1 then some 0 else if i = 2 then none else x) l := by
    intro x l hl hlf ha ho
    have h2 := (exTree_leaf l hl).mp hlf
    cases ha with
    | self => exact h2 rfl
    | child _ p hp ha =>
      cases ho with
      | top _ hp' _ => rw [hp] at hp'; cases hp'
      | child _ q hp' _ ho =>
        have : q = 2 := by
          have h : (exTree.spec exθ).parent l = some 2 ∨ (exTree.spec exθ).parent l = none := by
            rw [exTree_parent]
            by_cases h : l = 0 ∨ l = 3
            · exact .inl (if_pos h)
            · exact .inr (if_neg h)
          rcases h with h | h <;> rw [h] at hp' <;> cases hp'
          rfl
        subst this
        cases ho with
        | top _ _ hu => exact hu rfl
        | child _ _ _ hu _ => exact hu rfl
  refine C10_independent exTree_wf exθ_scales true true _ _ 2 (by simp [exTree]) ?_ (hdead x) (hdead y)
  intro i hi hab
  have hi : i < 4 := hi
  interval_cases i
  · exact absurd (.child 0 2 (by simp [Flat.spec, exTree]) .self) hab
  · rfl
  · rfl
  · exact absurd (.child 3 2 (by simp [Flat.spec, exTree]) .self) hab

/-- the same tree with scale 1 -/
private noncomputable def exFlat : Flat XR := ⟨4, exTree.parent, exTree.level, fun _ => .fin 1, exTree.bottom⟩
private theorem exFlat_wf : exFlat.WF := ⟨exTree_wf.pos, exTree_wf.node, exTree_wf.bottom⟩
private theorem exFlat_leaf (i : Nat) (hi : i < 4) : (exFlat.spec fun _ => 1).Leaf i ↔ i ≠ 2 := by
  rw [spec_leaf exFlat_wf i hi]; simp [exFlat, exTree]
private noncomputable def exFlatU : Nat → Util := fun i => if i = 1 then some (Real.log 2) else some 0

/-- C11_collapse: utilities `log 2` (node 1), 0 (others) give the multinomial probabilities 1/4, 1/2, 1/4 -/
example : ∃ (terms : List XR) (p : Nat → ℝ),
    nested (row 4 exFlatU) exFlat true true = .ok (arr 4 (fun i => .fin (p i)), .fin 4, terms) ∧ p 0 = 1/4 ∧ p 1 = 1/2 := by
  classical
  obtain ⟨terms, h⟩ := C11_collapse exFlat_wf (fun i _ => ⟨rfl, one_pos⟩) true true exFlatU
    (by
      intro i hi hl
      have h2 : i = 2 := by have := mt (exFlat_leaf i hi).mpr hl; omega
      simp [exFlatU, h2])
    ⟨0, by simp [exFlat], (exFlat_leaf 0 (by norm_num)).mpr (by norm_num), by simp [exFlatU]⟩
  have hset : ((Finset.range 4).filter fun i => (exFlat.spec fun _ => 1).Leaf i) = {0, 1, 3} := by
    ext i
    simp only [Finset.mem_filter, Finset.mem_range, Finset.mem_insert, Finset.mem_singleton]
    constructor
    · rintro ⟨hi, h⟩
      have := (exFlat_leaf i hi).mp h
      omega
    · intro h
      exact ⟨by omega, (exFlat_leaf _ (by omega)).mpr (by omega)⟩
  have htot : ∑ i ∈ (Finset.range 4).filter (fun i => (exFlat.spec fun _ => 1).Leaf i), expw (exFlatU i) = 4 := by
    rw [hset]; simp [expw, exFlatU, Real.exp_log]; norm_num
  refine ⟨terms, fun i => if (exFlat.spec fun _ => 1).Leaf i then expw (exFlatU i) / 4 else 0, ?_, ?_, ?_⟩
  · refine h.trans ?_
    have hn : exFlat.n = 4 := rfl
    rw [← htot]
    simp only [hn]
  · simp only [(exFlat_leaf 0 (by norm_num)).mpr (by norm_num), if_true]; simp [expw, exFlatU]
  · simp only [(exFlat_leaf 1 (by norm_num)).mpr (by norm_num), if_true]; simp [expw, exFlatU, Real.exp_log]; norm_num

/-- C14_nested and C14_cumsum_monotone on the row above (exact arithmetic is one of the arithmetics they cover) -/
example : (∀ p ∈ ([.fin (1/8), .fin (1/2), .fin 0, .fin (3/8)] : List XR), FOps.le FOps.zero p = true ∧ FOps.le p FOps.one = true) ∧
    FOps.le (nbfCumsum ([.fin (1/8), .fin (1/2), .fin 0, .fin (3/8)] : List XR))[1]
      (nbfCumsum ([.fin (1/8), .fin (1/2), .fin 0, .fin (3/8)] : List XR))[3] = true := by
  have hsib : ∀ j < 4, sibSum exTree [.fin 1, .fin 2, .fin 2, .fin 3] j = .fin 0 ∨
      sibSum exTree [.fin 1, .fin 2, .fin 2, .fin 3] j = .fin 4 := by
    intro j hj
    interval_cases j <;> simp [sibSum, Flat.children, exTree, List.range_succ, sumF, FOps.add, FOps.zero, XR.add]
    all_goals norm_num
  have h := (C14_nested exTree exTree_wf (row 4 exU) true true _ _ _ (exTree_run true) (by simp [FOps.le, FOps.zero, XR.le])
    (by simp [FOps.lt, FOps.posInf, XR.lt])
    (by
      intro j hj
      rcases hsib j hj with h | h <;> rw [h] <;> simp [FOps.lt, FOps.posInf, XR.lt])).2
  exact ⟨h, C14_cumsum_monotone _ (fun p hp => (h p hp).1) 1 3 (by norm_num) _ _⟩

end Cheval
