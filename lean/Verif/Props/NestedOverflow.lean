import Verif.Props.NestedRange
import Verif.Props.DrawRuns
import Verif.Props.LargeRuns

/-!
# C75: overflow in nested models

The utility of a choice is divided by the scale of its nest before its exponential is taken, so that small scales overflow for utilities of
ordinary size.
-/
set_option linter.unusedSectionVars false
namespace Cheval
open FOps B64 Spec

section row
variable {t : Flat F64} {θ : Nat → ℝ} {scaled : Bool} {us : List F64}

/-- what the overflow theorems assume about a row: scales `θ`, no NaN, nests with finite utilities -/
structure OverflowData (t : Flat F64) (θ : Nat → ℝ) (us : List F64) : Prop where
  scale : ∀ i < t.n, (t.scale i).v = .fin (θ i) ∧ 0 < θ i ∧ θ i ≤ 1
  util : ∀ i < t.n, (us.getD i zero).v ≠ .nan
  nest : ∀ i < t.n, ¬ (t.tree θ).Leaf i → ∃ x : ℝ, (us.getD i zero).v = .fin x

theorem not_nan_le {a : F64} (h : a.v ≠ .nan) : FOps.isNan a = false := by
  show XR.isNan a.v = false
  cases hv : a.v <;> first | rfl | exact absurd hv h

theorem exp_nonneg64 {a : F64} (h : a.v ≠ .nan) : XR.le (.fin 0) (FOps.exp a).v = true := FLaws.exp_nonneg a (not_nan_le h)

theorem parentScale_fin (D : OverflowData t θ us) (h : t.WF) {i : Nat} (hi : i < t.n) :
    (parentScale t scaled i).v = .fin ((t.tree θ).θp scaled i) ∧ 0 < (t.tree θ).θp scaled i := by
  have D' : NestedData t θ scaled ((List.range t.n).map fun _ => (zero : F64)) (fun _ => some 0) 0 := by
    refine ⟨D.scale, fun i hi => ?_, fun i hi => ?_⟩
    · simp [hi]; rfl
    · unfold Tree.θp
      split
      · exact zero_le_one
      · rename_i p hp
        split
        · rcases h.node i hi with ⟨h1, _⟩ | ⟨p', hp', h1, _⟩
          · simp [Flat.tree, h1] at hp
          · have : p = p' := by
              have hne : ¬ t.parent i = -1 := by omega
              simp [Flat.tree, hne, h1] at hp
              exact hp.symm
            subst this
            exact (D.scale p hp').2.1.le
        · exact zero_le_one
  obtain ⟨h1, h2, -⟩ := D'.parentScale h hi
  exact ⟨h1, h2⟩

theorem div_not_nan {a b : F64} {q : ℝ} (ha : a.v ≠ .nan) (hb : b.v = .fin q) (hq : 0 < q) : (FOps.div a b).v ≠ .nan := by
  show R64.rndX (XR.div a.v b.v) ≠ .nan
  rw [hb]
  cases hv : a.v with
  | nan => exact absurd hv ha
  | ninf => simp [XR.div, Rounding.rndX, hq.le]
  | pinf => simp [XR.div, Rounding.rndX, hq.le]
  | fin x =>
    simp only [XR.div, if_neg hq.ne', Rounding.rndX]
    exact R64.not_nan _

theorem div_pinf {a b : F64} {q : ℝ} (ha : a.v = .pinf) (hb : b.v = .fin q) (hq : 0 < q) : (FOps.div a b).v = .pinf := by
  show R64.rndX (XR.div a.v b.v) = .pinf
  rw [ha, hb]
  simp [XR.div, Rounding.rndX, hq.le]

/-- a nest's argument of `exp` is not NaN, and infinite if the children's sum is -/
theorem nest_arg {a sc g : F64} {x s : ℝ} (ha : a.v = .fin x) (hs : sc.v = .fin s) (hs0 : 0 < s) (hg : XR.le (.fin 0) g.v = true) :
    (FOps.add a (FOps.mul sc (FOps.log g))).v ≠ .nan ∧ (g.v = .pinf → (FOps.add a (FOps.mul sc (FOps.log g))).v = .pinf) := by
  have hl : (FOps.log g).v ≠ .nan ∧ (g.v = .pinf → (FOps.log g).v = .pinf) := by
    have e : (FOps.log g).v = Rnd.logV R64 g.v := rfl
    rw [e]
    rcases XR.nonneg_cases hg with hv | ⟨y, hv, hy⟩ <;> rw [hv]
    · exact ⟨by simp [Rnd.logV], fun _ => rfl⟩
    · refine ⟨?_, fun h => by cases h⟩
      rcases hy.eq_or_lt with h0 | h0
      · simp [Rnd.logV, ← h0]
      · simp only [Rnd.logV, if_neg h0.ne', if_pos h0]
        exact R64.not_nan _
  have hm : (FOps.mul sc (FOps.log g)).v ≠ .nan ∧ (g.v = .pinf → (FOps.mul sc (FOps.log g)).v = .pinf) := by
    have e : (FOps.mul sc (FOps.log g)).v = R64.rndX (XR.mul sc.v (FOps.log g).v) := rfl
    rw [e, hs]
    constructor
    · cases hv : (FOps.log g).v with
      | nan => exact absurd hv hl.1
      | fin y => exact R64.not_nan _
      | pinf => simp [XR.mul, XR.mulPinf, hs0, hs0.ne', Rounding.rndX]
      | ninf => simp [XR.mul, XR.mulNinf, hs0, hs0.ne', Rounding.rndX]
    · intro h
      rw [hl.2 h]
      simp [XR.mul, XR.mulPinf, hs0, hs0.ne', Rounding.rndX]
  have e : (FOps.add a (FOps.mul sc (FOps.log g))).v = R64.rndX (XR.add a.v (FOps.mul sc (FOps.log g)).v) := rfl
  rw [e, ha]
  constructor
  · cases hv : (FOps.mul sc (FOps.log g)).v with
    | nan => exact absurd hv hm.1
    | fin y => exact R64.not_nan _
    | pinf => simp [XR.add, Rounding.rndX]
    | ninf => simp [XR.add, Rounding.rndX]
  · intro h
    rw [hm.2 h]
    simp [XR.add, Rounding.rndX]

theorem sum_nonneg64 (ws : List F64) (h : ∀ w ∈ ws, XR.le (.fin 0) w.v = true) : XR.le (.fin 0) (sumF ws).v = true := by
  have key : ∀ (ws : List F64) (c : F64), XR.le (.fin 0) c.v = true → (∀ w ∈ ws, XR.le (.fin 0) w.v = true) →
      XR.le (.fin 0) (ws.foldl FOps.add c).v = true := by
    intro ws
    induction ws with
    | nil => intro c hc _; exact hc
    | cons w ws ih =>
      intro c hc hw
      refine ih _ ?_ fun x hx => hw x (List.mem_cons_of_mem _ hx)
      exact XR.le_trans _ _ _ hc (FLaws.le_add c w hc (hw w (List.mem_cons_self ..)))
  exact key ws _ (XR.le_refl _ rfl) h

/-- no term is NaN -/
theorem terms_nonneg (h : t.WF) (D : OverflowData t θ us) (i : Nat) (hi : i < t.n) :
    XR.le (.fin 0) (term t scaled (fun i => us.getD i zero) i).v = true := by
  have key : ∀ k i, i < t.n → t.maxLevel - t.level i = k → XR.le (.fin 0) (term t scaled (fun i => us.getD i zero) i).v = true := by
    intro k
    induction k using Nat.strong_induction_on with
    | _ k ih =>
      intro i hi hk
      obtain ⟨hq, hq0⟩ := parentScale_fin (scaled := scaled) D h hi
      have hterm := term_eq h scaled (fun i => us.getD i zero) i hi
      by_cases hb : t.bottom i = true
      · rw [hterm, termOf, if_pos hb]
        exact exp_nonneg64 (div_not_nan (D.util i hi) hq hq0)
      · rw [hterm, termOf, if_neg hb]
        obtain ⟨x, hx⟩ := D.nest i hi fun hc => hb ((tree_leaf h hi).mp hc)
        obtain ⟨hs, hs0, -⟩ := D.scale i hi
        refine exp_nonneg64 (div_not_nan (nest_arg hx hs hs0 ?_).1 hq hq0)
        refine sum_nonneg64 _ fun w hw => ?_
        obtain ⟨c, hc, rfl⟩ := List.mem_map.mp hw
        have hcn := (Flat.mem_children.mp hc).1
        have hl := h.level_child hc
        have := t.level_le_max c hcn
        exact ih (t.maxLevel - t.level c) (by omega) c hcn rfl
  exact key _ i hi rfl

theorem tree_parent {i p : Nat} (hi : i < t.n) (h : t.WF) (hp : (t.tree θ).parent i = some p) : p < t.n ∧ t.parent i = (p : Int) := by
  rcases h.node i hi with ⟨h1, _⟩ | ⟨p', hp', h1, _⟩
  · simp [Flat.tree, h1] at hp
  · have hne : ¬ t.parent i = -1 := by omega
    simp [Flat.tree, hne, h1] at hp
    subst hp
    exact ⟨hp', h1⟩

/-- an infinite term makes the terms of all nests around it infinite -/
theorem above_pinf (h : t.WF) (D : OverflowData t θ us) {a i : Nat} (hab : (t.tree θ).Above a i) (hi : i < t.n)
    (ht : (term t scaled (fun i => us.getD i zero) i).v = .pinf) : (term t scaled (fun i => us.getD i zero) a).v = .pinf := by
  induction hab with
  | self => exact ht
  | child i p hp _ ih =>
    obtain ⟨hpn, hpar⟩ := tree_parent hi h hp
    refine ih hpn ?_
    have hmem : i ∈ t.children p := Flat.mem_children.mpr ⟨hi, hpar⟩
    have hb : ¬ t.bottom p = true := by
      rw [h.bottom p hpn]; intro hc; exact hc i hi hpar
    rw [term_eq h scaled (fun i => us.getD i zero) p hpn, termOf, if_neg hb]
    obtain ⟨x, hx⟩ := D.nest p hpn fun hc => hb ((tree_leaf h hpn).mp hc)
    obtain ⟨hs, hs0, -⟩ := D.scale p hpn
    obtain ⟨hq, hq0⟩ := parentScale_fin (scaled := scaled) D h hpn
    have hsum : (childSum t scaled (fun i => us.getD i zero) p).v = .pinf := by
      refine foldl_add_pinf _ _ (XR.le_refl _ rfl) ?_ (Or.inr ⟨_, List.mem_map_of_mem hmem, ht⟩)
      intro w hw
      obtain ⟨c, hc, rfl⟩ := List.mem_map.mp hw
      exact terms_nonneg h D c (Flat.mem_children.mp hc).1
    have hd := div_pinf ((nest_arg hx hs hs0 (by rw [hsum]; rfl)).2 hsum) hq hq0
    show Rnd.expV R64 _ = _
    rw [hd]; rfl

/-- every node lies below a top-level node -/
theorem exists_above (h : t.WF) (i : Nat) (hi : i < t.n) : ∃ a < t.n, t.parent a = -1 ∧ (t.tree θ).Above a i := by
  have key : ∀ d i, i < t.n → t.level i = d → ∃ a < t.n, t.parent a = -1 ∧ (t.tree θ).Above a i := by
    intro d
    induction d with
    | zero =>
      intro i hi hd
      rcases h.node i hi with ⟨h1, _⟩ | ⟨p, _, _, h2⟩
      · exact ⟨i, hi, h1, .self⟩
      · omega
    | succ d ih =>
      intro i hi hd
      rcases h.node i hi with ⟨h1, _⟩ | ⟨p, hp, h1, h2⟩
      · exact ⟨i, hi, h1, .self⟩
      · obtain ⟨a, ha, h3, h4⟩ := ih p hp (by omega)
        refine ⟨a, ha, h3, .child i p ?_ h4⟩
        have hne : ¬ t.parent i = -1 := by omega
        simp [Flat.tree, hne, h1]
  exact key _ i hi rfl

theorem mul_void {a b : F64} (hb : Void b) : Void (FOps.mul a b) := by
  show R64.rndX (XR.mul a.v b.v) = .fin 0 ∨ R64.rndX (XR.mul a.v b.v) = .nan
  rcases hb with e | e <;> rw [e]
  · cases a.v with
    | nan => right; rfl
    | pinf => right; simp [XR.mul, XR.mulPinf, Rounding.rndX]
    | ninf => right; simp [XR.mul, XR.mulNinf, Rounding.rndX]
    | fin x => left; simp only [XR.mul, mul_zero, Rounding.rndX]; exact R64.zero
  · right; cases a.v <;> rfl

theorem mul_nan {a b : F64} (hb : b.v = .nan) : (FOps.mul a b).v = .nan := by
  show R64.rndX (XR.mul a.v b.v) = .nan
  rw [hb]; cases a.v <;> rfl

/-- the exponential of a quotient of at least 710 -/
theorem leaf_pinf {a b : F64} {x q : ℝ} (ha : a.v = .fin x) (hb : b.v = .fin q) (hq : 0 < q) (hx : 710 ≤ x / q) :
    (FOps.exp (FOps.div a b)).v = .pinf := by
  have hv := rndX_div_fin a b x q ha hb hq.ne'
  have h710 : B64.rnd 710 = .fin 710 := by
    have := rnd_dyadic 710 0 (by norm_num) (by norm_num) (by norm_num)
    simpa using this
  have hm := B64.rnd_mono 710 (x / q) hx
  rw [h710] at hm
  have hv' : (FOps.div a b).v = B64.rnd (x / q) := hv
  show Rnd.expV R64 (FOps.div a b).v = _
  rw [hv']
  cases hc : B64.rnd (x / q) with
  | nan => rw [hc] at hm; cases hm
  | ninf => rw [hc] at hm; cases hm
  | pinf => rfl
  | fin y =>
    rw [hc] at hm
    exact expRange_64.overflow y (by simpa [XR.le] using hm)

/-- **C75 (overflow, nested)** Double precision, scales in (0, 1], no utility NaN, those of the nests finite. If the utility of an elemental
choice divided by the scale of its nest (if utilities are scaled) is 710 or more, nothing is reported, with or without the check: the
logsum is `+inf`; the choice's probability and those of all elemental choices in the same top-level nest are NaN; all others are 0 or NaN;
and sampling draws the last node, whatever the random number. -/
theorem C75_nested_overflow (h : t.WF) (D : OverflowData t θ us) (l : Nat) (hl : l < t.n) (hleaf : (t.tree θ).Leaf l) (x : ℝ)
    (hx : (us.getD l zero).v = .fin x) (hover : 710 ≤ x / (t.tree θ).θp scaled l) (check : Bool) :
    ∃ ps terms, nested us t scaled check = .ok (ps, FOps.posInf, terms) ∧ ps.length = t.n ∧
      (∀ i (hi : i < ps.length), (t.tree θ).Leaf i → (∃ a, (t.tree θ).parent a = none ∧ (t.tree θ).Above a l ∧ (t.tree θ).Above a i) → ps[i].v = .nan) ∧
      (∀ i (hi : i < ps.length), ps[i].v = .fin 0 ∨ ps[i].v = .nan) ∧
      ∀ r : F64, FOps.le FOps.zero r = true → sampleOnce ps r = (t.n : Int) - 1 ∧ logSearch r (nbfCumsum ps) = some (t.n - 1) := by
  set uv : Nat → F64 := fun i => us.getD i zero with huv
  obtain ⟨hq, hq0⟩ := parentScale_fin (scaled := scaled) D h hl
  have hterm : (term t scaled uv l).v = .pinf := by
    rw [term_eq h scaled uv l hl, termOf, if_pos ((tree_leaf h hl).mp hleaf)]
    exact leaf_pinf hx hq hq0 hover
  have habove : ∀ a, (t.tree θ).Above a l → (term t scaled uv a).v = .pinf := fun a ha => above_pinf h D ha hl hterm
  have htn : ∀ i < t.n, XR.le (.fin 0) (term t scaled uv i).v = true := fun i hi => terms_nonneg h D i hi
  obtain ⟨a, han, hap, haa⟩ := exists_above (θ := θ) h l hl
  have htop : (topSum t scaled uv).v = .pinf := by
    refine foldl_add_pinf _ _ (XR.le_refl _ rfl) ?_ (Or.inr ⟨_, List.mem_map_of_mem (Flat.mem_tops.mpr ⟨han, hap⟩), habove a haa⟩)
    intro w hw
    obtain ⟨c, hc, rfl⟩ := List.mem_map.mp hw
    exact htn c (Flat.mem_tops.mp hc).1
  have htop' : topSum t scaled uv = FOps.posInf := by
    cases hs : topSum t scaled uv
    rw [hs] at htop
    simp only at htop
    subst htop
    rfl
  have hle : FOps.le (FOps.posInf : F64) FOps.zero = false := rfl
  have hr : nested us t scaled check = .ok (arr t.n (fun i => if ∃ j < t.n, t.parent j = (i : Int) then zero else absP t (condP t scaled uv) i),
      FOps.posInf, arr t.n (term t scaled uv)) := by
    rw [nested_eq h]
    simp only [← huv, htop', hle, Bool.false_and, Bool.false_eq_true, if_false]
  have hcond : ∀ i < t.n, t.parent i = -1 → condP t scaled uv i = FOps.div (term t scaled uv i) FOps.posInf := by
    intro i _ hp
    unfold condP
    simp only [hp, if_true, htop', hle, Bool.false_eq_true, if_false]
  have hvoid : ∀ d i, i < t.n → t.level i = d → Void (absP t (condP t scaled uv) i) := by
    intro d
    induction d with
    | zero =>
      intro i hi hd
      rcases h.node i hi with ⟨h1, _⟩ | ⟨p, _, _, h2⟩
      · rw [(absP_eq h _ i hi).1 h1, hcond i hi h1]
        show R64.rndX (XR.div (term t scaled uv i).v .pinf) = .fin 0 ∨ R64.rndX (XR.div (term t scaled uv i).v .pinf) = .nan
        rcases XR.nonneg_cases (htn i hi) with e | ⟨y, e, _⟩ <;> rw [e]
        · right; rfl
        · left; exact R64.zero
      · omega
    | succ d ih =>
      intro i hi hd
      rcases h.node i hi with ⟨_, h2⟩ | ⟨p, hp, h1, h2⟩
      · omega
      · rw [(absP_eq h _ i hi).2 p h1]
        exact mul_void (ih p hp (by omega))
  have hnan : ∀ b i, (t.tree θ).Above b i → i < t.n → t.parent b = -1 → (t.tree θ).Above b l → (absP t (condP t scaled uv) i).v = .nan := by
    intro b i hbi
    induction hbi with
    | self =>
      intro hb hp hbl
      rw [(absP_eq h _ b hb).1 hp, hcond b hb hp]
      show R64.rndX (XR.div (term t scaled uv b).v .pinf) = .nan
      rw [habove b hbl]; rfl
    | child i p hpar _ ih =>
      intro hi hp hbl
      obtain ⟨hpn, hpi⟩ := tree_parent hi h hpar
      rw [(absP_eq h _ i hi).2 p hpi]
      exact mul_nan (ih hpn hp hbl)
  have hall : ∀ i < t.n, Void (if ∃ j < t.n, t.parent j = (i : Int) then zero else absP t (condP t scaled uv) i) := by
    intro i hi
    split
    · exact Or.inl rfl
    · exact hvoid _ i hi rfl
  refine ⟨_, _, hr, by simp [arr], ?_, ?_, ?_⟩
  · rintro i hi hlf ⟨b, hb, hbl, hbi⟩
    have hin : i < t.n := by simpa [arr] using hi
    have hbn : ∀ {b i}, (t.tree θ).Above b i → i < t.n → b < t.n := by
      intro b i hab
      induction hab with
      | self => exact fun h => h
      | child i p hpar _ ih => exact fun hi => ih (tree_parent hi h hpar).1
    have hbp : t.parent b = -1 := by
      by_contra hc
      simp [Flat.tree, hc] at hb
    have hno : ¬ ∃ j < t.n, t.parent j = (i : Int) := by
      rintro ⟨j, hj, hp⟩
      have := (tree_leaf h hin).mp hlf
      rw [h.bottom i hin] at this
      exact this j hj hp
    have hget : (arr t.n (fun i => if ∃ j < t.n, t.parent j = (i : Int) then zero else absP t (condP t scaled uv) i))[i] =
      if ∃ j < t.n, t.parent j = (i : Int) then zero else absP t (condP t scaled uv) i := by simp [arr]
    rw [hget, if_neg hno]
    exact hnan b i hbi hin hbp hbl
  · intro i hi
    have hin : i < t.n := by simpa [arr] using hi
    have hget : (arr t.n (fun i => if ∃ j < t.n, t.parent j = (i : Int) then zero else absP t (condP t scaled uv) i))[i] =
      if ∃ j < t.n, t.parent j = (i : Int) then zero else absP t (condP t scaled uv) i := by simp [arr]
    rw [hget]
    exact hall i hin
  · intro r hr0
    have := draws_void (arr t.n (fun i => if ∃ j < t.n, t.parent j = (i : Int) then zero else absP t (condP t scaled uv) i)) (by
      intro hc
      have := congrArg List.length hc
      simp [arr] at this
      omega) (by
      intro p hp
      unfold arr at hp
      obtain ⟨i, hi, rfl⟩ := List.mem_map.mp hp
      exact hall i (List.mem_range.mp hi)) r hr0
    simpa [arr] using this

end row
end Cheval
