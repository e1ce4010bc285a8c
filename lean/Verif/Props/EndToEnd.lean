import Verif.Props.Sensitivity
import Verif.Props.AccurateRuns
import Verif.Props.RoundedUtilities

/-!
# C74: from the values of the expressions to the probabilities, in double precision
-/
namespace Cheval
open FOps B64 Spec
variable {U Q : Type} [DecidableEq U] {R : Rounding}

open Classical in
/-- the exact sum of numbers that are finite or `-inf`: `-inf` (`none`) if one of them is -/
noncomputable def Spec.exactSum (l : List (Rnd R)) : Util := if ∃ v ∈ l, v.v = .ninf then none else some (l.map Rnd.val).sum

/-- the absolute values of the finite ones, added up -/
noncomputable def Spec.absSum (l : List (Rnd R)) : ℝ := (l.map fun v => |v.val|).sum

theorem absSum_nonneg (l : List (Rnd R)) : 0 ≤ absSum l := List.sum_nonneg (by
  intro x hx
  obtain ⟨y, -, rfl⟩ := List.mem_map.mp hx
  exact abs_nonneg _)

theorem add_ninf_left {a b : Rnd R} (ha : a.v = .ninf) (hb : b.v = .ninf ∨ ∃ x, b.v = .fin x) : (FOps.add a b).v = .ninf := by
  show R.rndX (XR.add a.v b.v) = _
  rcases hb with hb | ⟨x, hb⟩ <;> rw [ha, hb] <;> rfl

theorem add_ninf_right {a b : Rnd R} (hb : b.v = .ninf) (ha : a.v = .ninf ∨ ∃ x, a.v = .fin x) : (FOps.add a b).v = .ninf := by
  show R.rndX (XR.add a.v b.v) = _
  rcases ha with ha | ⟨x, ha⟩ <;> rw [ha, hb] <;> rfl

/-- adding up doubles that are finite or `-inf` and not too large -/
theorem foldl_add_total (hR : R.rnd = B64.rnd) : ∀ (ws : List (Rnd R)) (c : Rnd R),
    (∀ w ∈ c :: ws, w.v = .ninf ∨ ∃ x, w.v = .fin x) → (1 + uro) ^ ws.length * absSum (c :: ws) ≤ 2 ^ 1000 →
    ((∃ w ∈ c :: ws, w.v = .ninf) → (ws.foldl FOps.add c).v = .ninf) ∧
    ((¬ ∃ w ∈ c :: ws, w.v = .ninf) → ∃ S : ℝ, (ws.foldl FOps.add c).v = .fin S)
  | [], c, hv, _ => by
    refine ⟨?_, ?_⟩
    · rintro ⟨w, hw, h⟩
      simp only [List.mem_singleton] at hw
      subst hw; exact h
    · intro hn
      rcases hv c (by simp) with h | h
      · exact absurd ⟨c, by simp, h⟩ hn
      · exact h
  | w :: ws, c, hv, hA => by
    have hu := uro_pos
    have hc := hv c (by simp)
    have hw := hv w (by simp)
    have hp : 1 ≤ (1 + uro) ^ ws.length := one_le_pow₀ (by linarith)
    have hrest : ∀ x ∈ ws, x.v = .ninf ∨ ∃ y, x.v = .fin y := fun x hx => hv x (by simp [hx])
    have e : absSum (c :: w :: ws) = |c.val| + (|w.val| + absSum ws) := by simp [absSum]
    rw [e, List.length_cons, pow_succ] at hA
    have hB := absSum_nonneg ws
    rw [List.foldl_cons]
    by_cases hx : c.v = .ninf ∨ w.v = .ninf
    · have hs : (FOps.add c w).v = .ninf := by
        rcases hx with h | h
        · exact add_ninf_left h hw
        · exact add_ninf_right h hc
      have hz : (FOps.add c w).val = 0 := by unfold Rnd.val; rw [hs]
      have ih := foldl_add_total hR ws (FOps.add c w) (by
        intro x hx
        rcases List.mem_cons.mp hx with rfl | hx
        · exact .inl hs
        · exact hrest x hx) (by
        have e2 : absSum (FOps.add c w :: ws) = absSum ws := by simp [absSum, hz]
        rw [e2]
        refine le_trans ?_ hA
        have h1 : absSum ws ≤ (1 + uro) * (|c.val| + (|w.val| + absSum ws)) := by
          nlinarith [abs_nonneg c.val, abs_nonneg w.val]
        rw [mul_assoc]
        exact mul_le_mul_of_nonneg_left h1 (by linarith))
      refine ⟨fun _ => ih.1 ⟨_, by simp, hs⟩, fun hn => absurd ?_ hn⟩
      rcases hx with h | h
      · exact ⟨c, by simp, h⟩
      · exact ⟨w, by simp, h⟩
    · have hcf : c.v = .fin c.val := by
        rcases hc with h | ⟨y, h⟩
        · exact absurd (.inl h) hx
        · rw [Rnd.val_fin h, h]
      have hwf : w.v = .fin w.val := by
        rcases hw with h | ⟨y, h⟩
        · exact absurd (.inr h) hx
        · rw [Rnd.val_fin h, h]
      have hab := abs_add_le c.val w.val
      have hle : |c.val + w.val| ≤ 2 ^ 1000 := by
        refine le_trans ?_ hA
        have h1 : |c.val| + |w.val| ≤ |c.val| + (|w.val| + absSum ws) := by linarith
        have h0 : 0 ≤ |c.val| + (|w.val| + absSum ws) := by linarith [abs_nonneg c.val, abs_nonneg w.val]
        have h2 : (1 : ℝ) ≤ (1 + uro) ^ ws.length * (1 + uro) := one_le_mul_of_one_le_of_one_le hp (by linarith)
        calc |c.val + w.val| ≤ 1 * (|c.val| + (|w.val| + absSum ws)) := by linarith
          _ ≤ _ := mul_le_mul_of_nonneg_right h2 h0
      obtain ⟨y, hy, -⟩ := rnd_signed hle
      have hsv : (FOps.add c w).v = .fin y := by
        show R.rndX (XR.add c.v w.v) = _
        rw [hcf, hwf]
        show R.rnd (c.val + w.val) = _
        rw [hR]; exact hy
      have herr := rnd_sum_err (by rw [← hR]; exact c.rep _ hcf) (by rw [← hR]; exact w.rep _ hwf) hy
      have hya : |y| ≤ (1 + uro) * (|c.val| + |w.val|) := by
        have : |y| ≤ |y - (c.val + w.val)| + |c.val + w.val| := by
          have := abs_add_le (y - (c.val + w.val)) (c.val + w.val)
          rwa [sub_add_cancel] at this
        nlinarith
      have ih := foldl_add_total hR ws (FOps.add c w) (by
        intro x hx
        rcases List.mem_cons.mp hx with rfl | hx
        · exact .inr ⟨y, hsv⟩
        · exact hrest x hx) (by
        have e2 : absSum (FOps.add c w :: ws) = |y| + absSum ws := by simp [absSum, Rnd.val_fin hsv]
        rw [e2]
        refine le_trans ?_ hA
        rw [mul_assoc]
        refine mul_le_mul_of_nonneg_left ?_ (by linarith)
        nlinarith)
      have hiff : (∃ x ∈ FOps.add c w :: ws, x.v = .ninf) ↔ ∃ x ∈ c :: w :: ws, x.v = .ninf := by
        constructor
        · rintro ⟨x, hx', h⟩
          rcases List.mem_cons.mp hx' with rfl | hx'
          · rw [hsv] at h; cases h
          · exact ⟨x, by simp [hx'], h⟩
        · rintro ⟨x, hx', h⟩
          rcases List.mem_cons.mp hx' with rfl | hx'
          · exact absurd (.inl h) hx
          · rcases List.mem_cons.mp hx' with rfl | hx'
            · exact absurd (.inr h) hx
            · exact ⟨x, by simp [hx'], h⟩
      rwa [hiff] at ih

/-- the computed sum and the exact one -/
theorem foldl_add_near (hR : R.rnd = B64.rnd) (ws : List (Rnd R)) (c : Rnd R) (hv : ∀ w ∈ c :: ws, w.v = .ninf ∨ ∃ x, w.v = .fin x)
    (hn : ws.length ≤ 2 ^ 51) (hA : absSum (c :: ws) ≤ 2 ^ 999) {δ : ℝ} (hδ : ws.length / 2 ^ 52 * absSum (c :: ws) ≤ δ) :
    ∃ W : Util, (ws.foldl FOps.add c).v = util W ∧ Near δ W (exactSum (c :: ws)) := by
  have h2 : (1 + uro) ^ ws.length ≤ 2 := by
    have h1 := pow_uro_le hn
    have : (ws.length : ℝ) / 2 ^ 52 ≤ 1 := by
      rw [div_le_one (by positivity)]
      have : (ws.length : ℝ) ≤ 2 ^ 51 := by exact_mod_cast hn
      linarith [show (2 : ℝ) ^ 51 ≤ 2 ^ 52 by norm_num]
    linarith
  have hb : (1 + uro) ^ ws.length * absSum (c :: ws) ≤ 2 ^ 1000 := by
    have := mul_le_mul h2 hA (absSum_nonneg _) (by norm_num)
    have e : (2 : ℝ) ^ 1000 = 2 * 2 ^ 999 := by rw [← pow_succ']
    rw [e]; exact this
  obtain ⟨h3, h4⟩ := foldl_add_total hR ws c hv hb
  unfold exactSum
  by_cases hx : ∃ v ∈ c :: ws, v.v = .ninf
  · rw [if_pos hx]
    exact ⟨none, h3 hx, trivial⟩
  · rw [if_neg hx]
    obtain ⟨S, hS⟩ := h4 hx
    refine ⟨some S, hS, ?_⟩
    have := foldl_add_close hR ws hn c S hS
    show |S - _| ≤ δ
    rw [List.map_cons, List.sum_cons]
    refine this.trans (le_trans (le_of_eq ?_) hδ)
    simp [absSum]

/-- the data of a run in which every expression has a value in every cell it applies to, and none reads `OUT`: `vals i j` are the values of
the applying expressions for unit `i` and choice `j`, in order -/
structure PlainData (env : PyEnv) (py : PyParser) (K : Kernel (Rnd R)) (m : CModel U (Rnd R)) (g : Option Nat) (paths : List (List Name)) (depth : Nat)
    (units : List U) (c : Container) (srcs : List Source) (vals : Nat → Nat → List (Rnd R)) : Prop where
  consistent : Consistent m paths depth units
  held : Held env py m.exprs
  runs : m.container g = .ok c
  ready : List.Forall₂ (Ready env m.scope paths depth) srcs c.exprs
  noTables : ∀ y ∈ c.simple, ∀ o ma al t, dictGet m.scope y ≠ some (.table o ma al t)
  noOut : ∀ x ∈ srcs, ¬ Mentions outStr x.1
  values : ∀ i j (_ : i < units.length) (hj : j < paths.length),
    (srcs.filter fun x => filterMeans paths[j] x.2).map (contribution K m.scope paths[j] i j) = (vals i j).map fun v => some (.num v)

/-- the same, the values being added up in double precision -/
structure PlainRun (env : PyEnv) (py : PyParser) (K : Kernel (Rnd R)) (m : CModel U (Rnd R)) (g : Option Nat) (paths : List (List Name)) (depth : Nat)
    (units : List U) (c : Container) (srcs : List Source) (vals : Nat → Nat → List (Rnd R)) : Prop
    extends PlainData env py K m g paths depth units c srcs vals where
  accumulates : ∀ a x, K.acc a (.num x) = some (add a x)

/-- the utilities of unit `i` are sums of at most `2^51` values that are finite or `-inf`, and the rounding errors of each sum stay below `δ` -/
def Moderate (start : Nat → Rnd R) (vals : Nat → List (Rnd R)) (n : Nat) (δ : ℝ) : Prop :=
  ∀ j < n, (∀ w ∈ start j :: vals j, w.v = .ninf ∨ ∃ x, w.v = .fin x) ∧ (vals j).length ≤ 2 ^ 51 ∧
    absSum (start j :: vals j) ≤ 2 ^ 999 ∧ (vals j).length / 2 ^ 52 * absSum (start j :: vals j) ≤ δ

theorem PlainRun.utilities {env : PyEnv} {py : PyParser} {K : Kernel (Rnd R)} {m : CModel U (Rnd R)} {g : Option Nat} {paths : List (List Name)} {depth : Nat}
    {units : List U} {c : Container} {srcs : List Source} {vals : Nat → Nat → List (Rnd R)} (h : PlainRun env py K m g paths depth units c srcs vals)
    (hR : R.rnd = B64.rnd) {clear : Bool} {m' : CModel U (Rnd R)} {u : Tab (Rnd R)} (hu : m.runUtilities K g clear = (m', .ok u)) :
    u.rows = units.length ∧ u.cols = paths.length ∧
    ∀ i < units.length, ∀ δ, Moderate (startAt m i) (vals i) paths.length δ → ∃ W : Nat → Util, ∀ j < paths.length,
      (u.val i j).v = util (W j) ∧ Near δ (W j) (exactSum (startAt m i j :: vals i j)) := by
  obtain ⟨hv, ⟨ix, hix⟩, -⟩ := runUtilities_ok hu
  have htot : ∀ i j (_ : i < units.length) (hj : j < paths.length),
      cellTotal K m.scope paths[j] i j srcs (startAt m i j) = some ((vals i j).foldl add (startAt m i j)) := fun i j hi hj =>
    C35_total_is_sum K h.accumulates m.scope paths[j] i j srcs h.noOut (vals i j) (startAt m i j) (h.values i j hi hj)
  obtain ⟨u0, h1, h2, h3, h4, ix0, h5⟩ := C35_sum K h.consistent h.held h.runs hv h.ready h.noTables
    (fun i j hi hj => by rw [htot i j hi hj]; rfl) clear
  have e : u0 = u := by
    rw [hu] at h5
    rw [h5] at hix
    exact (Prod.mk.inj (Option.some.inj hix)).2
  subst e
  refine ⟨h1, h2, fun i hi δ hmod => ?_⟩
  have hx : ∀ j, ∃ W : Util, j < paths.length → (u0.val i j).v = util W ∧ Near δ W (exactSum (startAt m i j :: vals i j)) := by
    intro j
    by_cases hj : j < paths.length
    · obtain ⟨k1, k2, k3, k4⟩ := hmod j hj
      obtain ⟨W, w1, w2⟩ := foldl_add_near hR (vals i j) (startAt m i j) k1 k2 k3 k4
      have := h3 i j hi hj
      rw [htot i j hi hj, Option.some.injEq] at this
      exact ⟨W, fun _ => ⟨by rw [this]; exact w1, w2⟩⟩
    · exact ⟨none, fun hc => absurd hc hj⟩
  exact ⟨fun j => (hx j).choose, fun j hj => (hx j).choose_spec hj⟩

theorem runStochastic_utilities {s : Setting (Rnd R) Q} {m m' : CModel U (Rnd R)} {g : Option Nat} {threads : Int} {clear scaled check : Bool}
    {x : Frame (Rnd R) × (Nat → Rnd R) × Frame (Rnd R)} (h : RunStochastic s m g threads clear scaled check (m', .ok x)) :
    ∃ u, m.runUtilities s.K g clear = (m', .ok u) := by
  unfold RunStochastic at h
  rcases hr : m.runUtilities s.K g clear with ⟨m1, r⟩
  rw [hr] at h
  cases r with
  | error e => cases h
  | ok u =>
    simp only at h
    split at h
    · cases h
    obtain ⟨res, -, he⟩ := h
    obtain ⟨rfl, -⟩ := Prod.mk.inj he
    exact ⟨u, rfl⟩

/-- **C74 (no nests)** In double precision, `exp` having relative error at most `ε <= 1/100`: when run_stochastic on a model of `n` choices
without nests returns, then for every decision unit whose utilities are sums of values that are finite or `-inf`, with rounding errors of
the sums at most `δ <= 1/4` (see `Moderate`), an exact utility of at least -619, and a finite positive logsum: the probability in the column
of each choice differs from the logit probability computed exactly from the exact sums by at most `3 ε + n * 2^-52 + 4 δ`. -/
theorem C74_flat (hR : R.rnd = B64.rnd) {ε : ℝ} (hε : 0 ≤ ε) (hε1 : ε ≤ 1 / 100) (hexp : ExpAcc R ε)
    (ops : List (TreeOp (Rnd R))) (hc : CleanRun Choices.empty ops) (hd : (expected ops).depth ≤ 1)
    (hn : (expected ops).live.length ≤ 2 ^ 50) (s : Setting (Rnd R) Q) (m m' : CModel U (Rnd R)) (hm : m.tree = after ops)
    {env : PyEnv} {py : PyParser} {g : Option Nat} {depth : Nat} {units : List U} {c : Container} {srcs : List Source} {vals : Nat → Nat → List (Rnd R)}
    (hp : PlainRun env py s.K m g ((expected ops).live.map (·.path)) depth units c srcs vals)
    (threads : Int) (clear scaled check : Bool) (fr : Frame (Rnd R)) (ls : Nat → Rnd R) (nls : Frame (Rnd R))
    (h : RunStochastic s m g threads clear scaled check (m', .ok (fr, ls, nls))) :
    choices m.tree = .ok fr.cols ∧ fr.cols.length = (expected ops).live.length ∧
    ∀ i < units.length, ∀ S δ : ℝ, (ls i).v = .fin S → 0 < S → 0 ≤ δ → δ ≤ 1 / 4 → Moderate (startAt m i) (vals i) (expected ops).live.length δ →
      (∃ j < (expected ops).live.length, ∃ x : ℝ, exactSum (startAt m i j :: vals i j) = some x ∧ -619 ≤ x) →
      ∀ j < (expected ops).live.length,
        |(fr.val i j).val - expw (exactSum (startAt m i j :: vals i j)) /
            ∑ k ∈ Finset.range (expected ops).live.length, expw (exactSum (startAt m i k :: vals i k))| ≤
          3 * ε + (expected ops).live.length * (1 / 2 ^ 52) + 4 * δ := by
  obtain ⟨u, hu⟩ := runStochastic_utilities h
  obtain ⟨hrow, hcol, hut⟩ := hp.utilities hR hu
  rw [List.length_map] at hcol hut
  obtain ⟨k1, k2, k3⟩ := C58_run hR hε hε1 hexp ops hc hd hn s m m' hm g threads clear scaled check u hu fr ls nls h
  refine ⟨k1, by rw [k2, hcol], fun i hi S δ hS hpos hδ0 hδ hmod hbig j hj => ?_⟩
  obtain ⟨W, hW⟩ := hut i hi δ hmod
  have hw : ∀ k < (expected ops).live.length, exactWeight (u.val i k) = expw (W k) := by
    intro k hk
    unfold exactWeight
    rw [(hW k hk).1]
    cases W k <;> rfl
  have h1 := k3 i (by rw [hrow]; exact hi) S hS hpos (by
    obtain ⟨k, hk, x, hx, hge⟩ := hbig
    have hnear := (hW k hk).2
    rw [hx] at hnear
    cases hwk : W k with
    | none => rw [hwk] at hnear; exact hnear.elim
    | some y =>
      rw [hwk] at hnear
      have hnear : |y - x| ≤ δ := hnear
      refine ⟨k, by rw [hcol]; exact hk, y, by rw [(hW k hk).1, hwk]; rfl, ?_⟩
      linarith [(abs_le.mp hnear).1]) j (by rw [hcol]; exact hj)
  rw [hcol] at h1
  rw [hw j hj, Finset.sum_congr rfl fun k hk => hw k (Finset.mem_range.mp hk)] at h1
  have h2 := C74_sensitivity_flat hδ0 hδ (fun k hk => (hW k hk).2) j hj
  rw [abs_sub_comm] at h2
  refine (abs_sub_le _ _ _).trans (add_le_add h1 h2)

/-- one decision unit whose stored utilities `W` are near the exact ones, `w` -/
theorem nested_near (hR : R.rnd = B64.rnd) {ε : ℝ} (hε : 0 ≤ ε) (hε1 : ε ≤ 1 / 1000) (hexp : ExpAcc R ε) (hlog : LogAcc R ε)
    (ops : List (TreeOp (Rnd R))) (hc : CleanRun Choices.empty ops) (hd : 1 < (expected ops).depth)
    (hn : (expected ops).live.length ≤ 2 ^ 48) (s : Setting (Rnd R) Q) (m m' : CModel U (Rnd R)) (hm : m.tree = after ops)
    {g : Option Nat} (threads : Int) (clear scaled check : Bool) {u : Tab (Rnd R)} (hu : m.runUtilities s.K g clear = (m', .ok u))
    (hcol : u.cols = (expected ops).live.length) (fr : Frame (Rnd R)) (ls : Nat → Rnd R) (nls : Frame (Rnd R))
    (h : RunStochastic s m g threads clear scaled check (m', .ok (fr, ls, nls))) :
    elementalChoices m.tree = .ok fr.cols ∧
    ∀ i < u.rows, ∀ (W w : Nat → Util) (T P : Nat → ℝ) (S σ M Δ δ : ℝ),
      (∀ j < (expected ops).live.length, (u.val i j).v = util (W j) ∧ Near δ (W j) (w j)) →
      (expected ops).treeR.IsNestedLogit scaled w T P → (ls i).v = .fin S →
      0 ≤ δ → 0 < σ → 4 * (expected ops).depth * δ ≤ σ →
      (∀ k < (expected ops).live.length, σ ≤ (expected ops).treeR.θp scaled k) → 0 ≤ M → M ≤ 599 →
      (∀ k < (expected ops).live.length, T k = 0 ∨ |Real.log (T k)| ≤ M) → Δ ≤ 1 / 5 →
      (expected ops).depth * ((M + 41) * ε + (3 * M + 2 * (expected ops).live.length + 53) * (1 / 2 ^ 53)) ≤ σ * Δ →
      ∀ j (_ : j < fr.cols.length), ∃ k, ∃ _ : k < (expected ops).live.length,
        fr.cols[j] = pad (expected ops).depth (expected ops).live[k].path ∧ (expected ops).treeR.Leaf k ∧
        |(fr.val i j).val - P k| ≤ (expected ops).depth * (4 * Δ + (4 * (expected ops).live.length + 5) * (1 / 2 ^ 53)) +
          4 * (expected ops).depth ^ 2 * δ / σ := by
  obtain ⟨k1, k2⟩ := C72_run hR hε hε1 hexp hlog ops hc hd hn s m m' hm g threads clear scaled check u hu fr ls nls h
  refine ⟨k1, fun i hi W w T P S σ M Δ δ hW hspec hS hδ0 hσ hσδ hσ' hM0 hM hTM hΔ hsmall => ?_⟩
  have hr := rel_after ops hc
  have hvt : validateTree (after ops) = .ok () := by
    rw [← hm]; exact validateTree_of_validate (runUtilities_ok hu).1
  have hne := live_ne_of_valid hr hvt
  have hwf := flat_wf hr hne
  set fl := flatUpto (expected ops) (expected ops).live.length with hfl
  have htr : fl.tree (expected ops).treeR.θ = (expected ops).treeR := flat_treeR _
  have hθ : ∀ k < fl.n, 0 < (expected ops).treeR.θ k ∧ (expected ops).treeR.θ k ≤ 1 := fun k hk => (flat_scaleR hr k hk).2
  have hlev : ((fl.maxLevel : ℕ) : ℝ) + 1 ≤ (expected ops).depth := by
    exact_mod_cast flat_maxLevel (expected ops) (by omega)
  have hlev0 : (0 : ℝ) ≤ (fl.maxLevel : ℕ) := Nat.cast_nonneg _
  -- the exact model for the computed utilities
  obtain ⟨T1, P1, hs1⟩ : ∃ T1 P1, (fl.tree (expected ops).treeR.θ).IsNestedLogit scaled W T1 P1 := by
    obtain ⟨T1, P1, h1, -⟩ := C09_spec_unique (t := ⟨fl.n, fl.parent, fl.level, fun k => .fin ((expected ops).treeR.θ k), fl.bottom⟩)
      (θ := (expected ops).treeR.θ) ⟨hwf.pos, hwf.node, hwf.bottom⟩ (fun k hk => ⟨rfl, (hθ k hk).1⟩) scaled W
    exact ⟨T1, P1, h1⟩
  have hsm : 4 * ((fl.maxLevel : ℕ) + 1) * δ ≤ σ := by
    refine le_trans ?_ hσδ
    exact mul_le_mul_of_nonneg_right (by linarith) hδ0
  have hsens : ∀ k < (expected ops).live.length, LogClose (((fl.maxLevel : ℕ) + 1) * δ / σ) (T1 k) (T k) ∧
      |P k - P1 k| ≤ 4 * ((fl.maxLevel : ℕ) + 1) ^ 2 * δ / σ := by
    intro k hk
    exact C74_sensitivity hwf hθ hσ (by rw [htr]; exact hσ') hδ0 hsm (fun j hj => (hW j hj).2) hs1 (by rw [htr]; exact hspec) k hk
  have hq : ((fl.maxLevel : ℕ) + 1) * δ / σ ≤ 1 := by
    rw [div_le_one hσ]
    nlinarith
  have hTM1 : ∀ k < (expected ops).live.length, T1 k = 0 ∨ |Real.log (T1 k)| ≤ M + 1 := by
    intro k hk
    rcases (hsens k hk).1 with ⟨h1, -⟩ | ⟨h1, h2, h3⟩
    · exact .inl h1
    · right
      have h4 := (hTM k hk).resolve_left h2.ne'
      have e : Real.log (T1 k) = Real.log (T k) - (Real.log (T k) - Real.log (T1 k)) := by ring
      rw [e]
      refine (abs_sub _ _).trans ?_
      linarith
  intro j hj
  obtain ⟨k, hk, a1, a2, a3⟩ := k2 i hi W T1 P1 S σ (M + 1) Δ (fun j hj => (hW j (by rw [← hcol]; exact hj)).1)
    (by rw [← htr]; exact hs1) hS hσ hσ' (by linarith) (by linarith) hTM1 hΔ (by
      refine le_trans (le_of_eq ?_) hsmall
      ring) j hj
  refine ⟨k, hk, a1, a2, ?_⟩
  have h5 := (hsens k hk).2
  rw [abs_sub_comm] at h5
  refine (abs_sub_le _ _ _).trans (add_le_add a3 (h5.trans ?_))
  refine div_le_div_of_nonneg_right ?_ hσ.le
  refine mul_le_mul_of_nonneg_right ?_ hδ0
  have := pow_le_pow_left₀ (by linarith : (0 : ℝ) ≤ (fl.maxLevel : ℕ) + 1) hlev 2
  linarith

/-- **C74 (nests)** In double precision, `exp` and `log` having relative error at most `ε <= 1/1000`: when run_stochastic on a model of `n`
choices (nests included) on `d` levels returns, then for every decision unit whose utilities are sums of values that are finite or `-inf`,
with rounding errors of the sums at most `δ` (see `Moderate`), and whose returned logsum is finite: let `T`, `P` be the nested logit computed
exactly from the exact sums, with terms between `exp(-M)` and `exp(M)`, `M <= 599`, and `σ` the smallest scale applied. The probability under
the label of each elemental choice differs from the exact one by at most `d (4Δ + (4n+5) 2^-53) + 4 d² δ / σ`, if
`d ((M+41) ε + (3M+2n+53) 2^-53) <= σ Δ`, `Δ <= 1/5` and `4 d δ <= σ`. -/
theorem C74_nested (hR : R.rnd = B64.rnd) {ε : ℝ} (hε : 0 ≤ ε) (hε1 : ε ≤ 1 / 1000) (hexp : ExpAcc R ε) (hlog : LogAcc R ε)
    (ops : List (TreeOp (Rnd R))) (hc : CleanRun Choices.empty ops) (hd : 1 < (expected ops).depth)
    (hn : (expected ops).live.length ≤ 2 ^ 48) (s : Setting (Rnd R) Q) (m m' : CModel U (Rnd R)) (hm : m.tree = after ops)
    {env : PyEnv} {py : PyParser} {g : Option Nat} {depth : Nat} {units : List U} {c : Container} {srcs : List Source} {vals : Nat → Nat → List (Rnd R)}
    (hp : PlainRun env py s.K m g ((expected ops).live.map (·.path)) depth units c srcs vals)
    (threads : Int) (clear scaled check : Bool) (fr : Frame (Rnd R)) (ls : Nat → Rnd R) (nls : Frame (Rnd R))
    (h : RunStochastic s m g threads clear scaled check (m', .ok (fr, ls, nls))) :
    elementalChoices m.tree = .ok fr.cols ∧
    ∀ i < units.length, ∀ (T P : Nat → ℝ) (S σ M Δ δ : ℝ),
      (expected ops).treeR.IsNestedLogit scaled (fun j => exactSum (startAt m i j :: vals i j)) T P → (ls i).v = .fin S →
      0 ≤ δ → Moderate (startAt m i) (vals i) (expected ops).live.length δ → 0 < σ → 4 * (expected ops).depth * δ ≤ σ →
      (∀ k < (expected ops).live.length, σ ≤ (expected ops).treeR.θp scaled k) → 0 ≤ M → M ≤ 599 →
      (∀ k < (expected ops).live.length, T k = 0 ∨ |Real.log (T k)| ≤ M) → Δ ≤ 1 / 5 →
      (expected ops).depth * ((M + 41) * ε + (3 * M + 2 * (expected ops).live.length + 53) * (1 / 2 ^ 53)) ≤ σ * Δ →
      ∀ j (_ : j < fr.cols.length), ∃ k, ∃ _ : k < (expected ops).live.length,
        fr.cols[j] = pad (expected ops).depth (expected ops).live[k].path ∧ (expected ops).treeR.Leaf k ∧
        |(fr.val i j).val - P k| ≤ (expected ops).depth * (4 * Δ + (4 * (expected ops).live.length + 5) * (1 / 2 ^ 53)) +
          4 * (expected ops).depth ^ 2 * δ / σ := by
  obtain ⟨u, hu⟩ := runStochastic_utilities h
  obtain ⟨hrow, hcol, hut⟩ := hp.utilities hR hu
  rw [List.length_map] at hcol hut
  obtain ⟨k1, k2⟩ := nested_near hR hε hε1 hexp hlog ops hc hd hn s m m' hm threads clear scaled check hu hcol fr ls nls h
  refine ⟨k1, fun i hi T P S σ M Δ δ hspec hS hδ0 hmod hσ hσδ hσ' hM0 hM hTM hΔ hsmall => ?_⟩
  obtain ⟨W, hW⟩ := hut i hi δ hmod
  exact k2 i (by rw [hrow]; exact hi) W _ T P S σ M Δ δ hW hspec hS hδ0 hσ hσδ hσ' hM0 hM hTM hΔ hsmall

/-! ### Concrete calls -/

/-- the model of `ruModel` with utilities `0, 0, -inf` computed before -/
noncomputable def reModel (env : PyEnv) : CModel Nat F64 :=
  { ruModel env ['x'] ['y'] ['z'] with cached := some ([7, 8], ⟨2, 3, fun _ j => if j = 2 then FOps.negInf else FOps.zero⟩) }

theorem re_data (env : PyEnv) (K : Kernel F64) :
    PlainData env ruPy K (reModel env) none ((expected rfOps).live.map (·.path)) 1 [7, 8]
      ⟨[['x'], ['y'], ['z']], [], [ruExpr ['x'], ruExpr ['y'], ruExpr ['z']]⟩ [(.name ['x'], none), (.name ['y'], none), (.name ['z'], none)]
      (fun _ _ => [ruX, ruY, ruZ]) ∧
    (reModel env).validate true true true true none = .ok () := by
  have h1 : (['x'] : Str) ≠ ['y'] := by decide
  have h2 : (['x'] : Str) ≠ ['z'] := by decide
  have h3 : (['y'] : Str) ≠ ['z'] := by decide
  obtain ⟨hc, hv, hm, hr, ht, ho, hvals⟩ := ru_facts env K (.inl rfl) (.inr (.inl rfl)) (.inr (.inr rfl)) h1 h2 h3
  have e1 : ruVal ['x'] = ruX := by simp [ruVal]
  have e2 : ruVal ['y'] = ruY := by simp [ruVal]
  have e3 : ruVal ['z'] = ruZ := by simp [ruVal]
  have hp : (expected rfOps).live.map (·.path) = [[['A']], [['B']], [['C']]] := by rw [rfOps_expected]; rfl
  rw [hp]
  refine ⟨⟨⟨hm.unitsEq, hm.choices, hm.fits, ?_⟩, (Held.empty env ruPy).run _, hc, hr, ht, ho, ?_⟩, hv⟩
  · intro ix u h
    simp only [reModel, Option.some.injEq, Prod.mk.injEq] at h
    obtain ⟨rfl, rfl⟩ := h
    exact ⟨rfl, rfl⟩
  · intro i j hi hj
    have := hvals i j hi hj
    rw [e1, e2, e3] at this
    exact this

theorem re_plain (env : PyEnv) (K : Kernel F64) (hacc : ∀ a x, K.acc a (.num x) = some (add a x)) :
    PlainRun env ruPy K (reModel env) none ((expected rfOps).live.map (·.path)) 1 [7, 8]
      ⟨[['x'], ['y'], ['z']], [], [ruExpr ['x'], ruExpr ['y'], ruExpr ['z']]⟩ [(.name ['x'], none), (.name ['y'], none), (.name ['z'], none)]
      (fun _ _ => [ruX, ruY, ruZ]) ∧
    (reModel env).validate true true true true none = .ok () :=
  ⟨⟨(re_data env K).1, hacc⟩, (re_data env K).2⟩

theorem rnd_eq_of_v {a b : Rnd R} (h : a.v = b.v) : a = b := by
  cases a; cases b; cases h; rfl

theorem re_ninf : ([ruX, ruY, ruZ].foldl add (FOps.negInf : F64)) = FOps.negInf := by
  have h1 : (add (FOps.negInf : F64) ruX).v = .ninf := add_ninf_left rfl (.inr ⟨_, rfl⟩)
  have h2 : (add (add (FOps.negInf : F64) ruX) ruY).v = .ninf := add_ninf_left h1 (.inr ⟨_, rfl⟩)
  have h3 : (add (add (add (FOps.negInf : F64) ruX) ruY) ruZ).v = .ninf := add_ninf_left h2 (.inr ⟨_, rfl⟩)
  exact rnd_eq_of_v h3

theorem re_run (env : PyEnv) (K : Kernel F64) (hacc : ∀ a x, K.acc a (.num x) = some (add a x)) :
    ∃ m' u, (reModel env).runUtilities K none true = (m', .ok u) ∧ m'.tree = after rfOps ∧
    u.toRows = [[FOps.zero, FOps.zero, FOps.negInf], [FOps.zero, FOps.zero, FOps.negInf]] := by
  obtain ⟨hp, hv⟩ := re_plain env K hacc
  have hpa : (expected rfOps).live.map (·.path) = [[['A']], [['B']], [['C']]] := by rw [rfOps_expected]; rfl
  rw [hpa] at hp
  have hst : ∀ i j, startAt (reModel env) i j = if j = 2 then FOps.negInf else FOps.zero := fun i j => rfl
  have htot : ∀ i j (_ : i < 2) (hj : j < 3), cellTotal K (reModel env).scope ([[['A']], [['B']], [['C']]] : List (List Name))[j] i j
      [(.name ['x'], none), (.name ['y'], none), (.name ['z'], none)] (startAt (reModel env) i j) = some (if j = 2 then FOps.negInf else FOps.zero) := by
    intro i j hi hj
    rw [C35_total_is_sum K hacc _ _ i j _ hp.noOut _ _ (hp.values i j hi hj), hst]
    split
    · rw [re_ninf]
    · congr 1
      exact rnd_eq_of_v ru_sum1
  obtain ⟨u, h1, h2, h3, h4, ix, h5⟩ := C35_sum K hp.consistent hp.held hp.runs hv hp.ready hp.noTables
    (fun i j hi hj => by rw [htot i j hi hj]; rfl) true
  have hval : ∀ i j, i < 2 → j < 3 → u.val i j = if j = 2 then FOps.negInf else FOps.zero := by
    intro i j hi hj
    have := h3 i j hi hj
    rw [htot i j hi hj] at this
    exact Option.some.inj this
  rw [if_neg] at h4
  swap
  · rintro ⟨i, j, hi, hj, h⟩
    rw [hval i j hi hj] at h
    split at h <;> cases h
  rcases hru : (reModel env).runUtilities K none true with ⟨m', r⟩
  rw [hru] at h4
  have h4 : r = .ok u := h4
  subst h4
  refine ⟨m', u, rfl, (runUtilities_ok hru).2.2.1, ?_⟩
  unfold Tab.toRows
  have e1 : u.rows = 2 := h1
  have e2 : u.cols = 3 := h2
  rw [e1, e2]
  simp [List.range_succ, hval]

theorem re_call (env : PyEnv) (K : Kernel F64) (hacc : ∀ a x, K.acc a (.num x) = some (add a x)) (g : Rng F64) (l : LegacyRandom Nat) : ∃ m' fr ls nls,
    RunStochastic ⟨K, g, l, 0, 4⟩ (reModel env) none 2 true true true (m', .ok (fr, ls, nls)) ∧ ∀ i < 2, (ls i).v = .fin 2 := by
  obtain ⟨m', u, hru, htree, hrows⟩ := re_run env K hacc
  have hs := f64_sum_example
  have hn := multinomial_eq ([FOps.zero, FOps.zero, FOps.negInf] : List F64) true
  rw [if_neg (by show ¬ XR.le _ _ = true; rw [hs]; norm_num [XR.le, FOps.zero])] at hn
  have hr := rel_after rfOps rfOps_clean
  have hd : (expected rfOps).depth ≤ 1 := by rw [rfOps_expected]; simp [Choices.depth]
  have hne := live_ne_of_valid hr rfOps_valid
  obtain ⟨mem, hmem⟩ := ParLoop.exists_ok (n := u.toRows.length) (init := zeroMem)
    (body := probBody (fun u => multinomial u true) u.toRows) (by
      rw [hrows]
      intro i hi
      have : i = 0 ∨ i = 1 := by simp at hi; omega
      rcases this with rfl | rfl <;> exact ⟨_, by simp only [probBody, List.getD_cons_zero, List.getD_cons_succ, hn, bind, Except.bind]; rfl⟩)
  have hch := choices_eq hr rfOps_valid
  obtain ⟨fr, nls, hst⟩ : ∃ fr nls, StochasticStage m'.tree u.toRows true true (.ok (fr, fun i => readNum mem (aLs, i, 0), nls)) := by
    unfold StochasticStage
    rw [htree, hr.depth_eq hne]
    simp only [if_neg (not_lt.mpr hd)]
    rw [hch]
    exact ⟨_, _, _, hmem, rfl⟩
  have ho : RunStochastic ⟨K, g, l, 0, 4⟩ (reModel env) none 2 true true true (m', .ok (fr, fun i => readNum mem (aLs, i, 0), nls)) := by
    unfold RunStochastic
    simp only [hru]
    rw [if_neg (by omega)]
    exact ⟨_, hst, rfl⟩
  refine ⟨m', fr, _, nls, ho, fun i hi => ?_⟩
  rcases C12_multinomial_probabilities _ _ _ hmem with ⟨mem', he, hrow⟩ | ⟨_, _, _, _, he⟩
  swap
  · cases he
  cases he
  obtain ⟨p, ls', t', hmn, -, h2, -⟩ := hrow i (by rw [hrows]; exact hi)
  have : u.toRows[i]'(by rw [hrows]; exact hi) = [FOps.zero, FOps.zero, FOps.negInf] := by
    have : i = 0 ∨ i = 1 := by omega
    simp only [hrows]
    rcases this with rfl | rfl <;> rfl
  have hmn : multinomial (u.toRows[i]'(by rw [hrows]; exact hi)) true = _ := hmn
  rw [this, hn] at hmn
  cases hmn
  rw [readNum_eq h2]
  exact hs

/-- C74 for a model whose three expressions have the values 2^-54, 1 and -1 everywhere, on top of utilities `0, 0, -inf`: the exact utilities
are 2^-54, 2^-54 and -inf, the computed probability of the first choice is 1/2 up to 2^-46 -/
example (env : PyEnv) (K : Kernel F64) (hacc : ∀ a x, K.acc a (.num x) = some (add a x)) (g : Rng F64) (l : LegacyRandom Nat) : ∃ m' fr ls nls,
    RunStochastic ⟨K, g, l, 0, 4⟩ (reModel env) none 2 true true true (m', .ok (fr, ls, nls)) ∧ ∀ i < 2, |(fr.val i 0).val - 1 / 2| ≤ 1 / 2 ^ 46 := by
  obtain ⟨m', fr, ls, nls, ho, hl⟩ := re_call env K hacc g l
  obtain ⟨hp, -⟩ := re_plain env K hacc
  have hd : (expected rfOps).depth ≤ 1 := by rw [rfOps_expected]; simp [Choices.depth]
  have hlen : (expected rfOps).live.length = 3 := by rw [rfOps_expected]; rfl
  obtain ⟨-, -, h⟩ := C74_flat (R := R64) rfl (ε := 1 / 2 ^ 53) (by positivity) (by norm_num) expAcc_R64 rfOps rfOps_clean hd
    (by rw [hlen]; norm_num) _ (reModel env) m' rfl hp 2 true true true fr ls nls ho
  refine ⟨m', fr, ls, nls, ho, fun i hi => ?_⟩
  have hst : ∀ j, startAt (reModel env) i j = if j = 2 then FOps.negInf else FOps.zero := fun j => rfl
  have x1 : Rnd.val ruX = ruSmall := rfl
  have x2 : Rnd.val ruY = 1 := rfl
  have x3 : Rnd.val ruZ = -1 := rfl
  have x4 : Rnd.val (FOps.zero : F64) = 0 := rfl
  have x5 : Rnd.val (FOps.negInf : F64) = 0 := rfl
  have hsm : ruSmall ≤ 1 := by
    unfold ruSmall
    rw [zpow_neg]
    exact inv_le_one_of_one_le₀ (by norm_num)
  have habs : ∀ j, absSum (startAt (reModel env) i j :: [ruX, ruY, ruZ]) = ruSmall + 2 := by
    intro j
    rw [hst]
    split <;> simp only [absSum, List.map_cons, List.map_nil, List.sum_cons, List.sum_nil, x1, x2, x3, x4, x5, abs_of_pos ruSmall_pos, abs_zero, abs_one, abs_neg] <;> ring
  have hex : ∀ j < 3, exactSum (startAt (reModel env) i j :: [ruX, ruY, ruZ]) = if j = 2 then none else some ruSmall := by
    intro j hj
    rw [hst]
    by_cases h2 : j = 2
    · rw [if_pos h2, if_pos h2]
      exact if_pos ⟨_, List.mem_cons_self, rfl⟩
    · rw [if_neg h2, if_neg h2]
      unfold exactSum
      rw [if_neg]
      · simp [x1, x2, x3, x4]
      · rintro ⟨v, hv, h⟩
        simp only [List.mem_cons, List.not_mem_nil, or_false] at hv
        rcases hv with rfl | rfl | rfl | rfl <;> cases h
  have := h i hi 2 (9 / 2 ^ 52) (hl i hi) (by norm_num) (by positivity) (by norm_num) (by
    intro j hj
    refine ⟨?_, by norm_num, ?_, ?_⟩
    · intro w hw
      rw [hst] at hw
      simp only [List.mem_cons, List.not_mem_nil, or_false] at hw
      rcases hw with rfl | rfl | rfl | rfl
      · split
        · exact .inl rfl
        · exact .inr ⟨_, rfl⟩
      · exact .inr ⟨_, rfl⟩
      · exact .inr ⟨_, rfl⟩
      · exact .inr ⟨_, rfl⟩
    · rw [habs]
      refine le_trans (b := 2 ^ 2) (by linarith) (pow_le_pow_right₀ (by norm_num) (by norm_num))
    · rw [habs]
      simp only [List.length_cons, List.length_nil]
      push_cast
      rw [div_mul_eq_mul_div]
      exact div_le_div_of_nonneg_right (by linarith) (by positivity)) ⟨0, by rw [hlen]; norm_num, ruSmall, hex 0 (by norm_num), by linarith [ruSmall_pos]⟩
    0 (by rw [hlen]; norm_num)
  rw [hlen] at this
  simp only [Finset.sum_range_succ, Finset.sum_range_zero, hex 0 (by norm_num), hex 1 (by norm_num), hex 2 (by norm_num)] at this
  have e : expw (some ruSmall) / (0 + expw (some ruSmall) + expw (some ruSmall) + expw none) = 1 / 2 := by
    have : Real.exp ruSmall ≠ 0 := (Real.exp_pos _).ne'
    show Real.exp ruSmall / (0 + Real.exp ruSmall + Real.exp ruSmall + 0) = 1 / 2
    field_simp
    ring
  rw [if_neg (by norm_num : ¬ (0 : Nat) = 2), if_neg (by norm_num : ¬ (1 : Nat) = 2), if_pos trivial, e] at this
  refine this.trans ?_
  norm_num

/-- C74 with nests: all hypotheses hold for a run without expressions on top of the utilities `0, 0, 0, -inf`, computed before -/
example (K : Kernel F64) (hacc : ∀ a x, K.acc a (.num x) = some (add a x)) (g : Rng F64) (l : LegacyRandom Nat) : ∃ m' fr ls nls,
    RunStochastic ⟨K, g, l, 0, 4⟩ rrModel none 2 true true true (m', .ok (fr, ls, nls)) ∧
    ∀ i < 2, ∀ j < fr.cols.length, ∃ k < 4, |(fr.val i j).val - nxP k| ≤ 1 / 2 ^ 40 := by
  obtain ⟨m', u, fr, ls, nls, hru, hrows, ho, hl⟩ := rr_call K g l
  have hd : 1 < (expected rrOps).depth := by rw [rrOps_expected]; simp [Choices.depth]
  have hdep : (expected rrOps).depth = 2 := by rw [rrOps_expected]; simp [Choices.depth]
  have hlen : (expected rrOps).live.length = 4 := by rw [rrOps_expected]; rfl
  let env : PyEnv := ⟨false, fun _ => false, id, .utilities⟩
  have hp : PlainRun env emPy K rrModel none ((expected rrOps).live.map (·.path)) (expected rrOps).depth [7, 8] ⟨[], [], []⟩ [] (fun _ _ => []) := by
    refine ⟨⟨⟨rfl, ?_, (by intro e he; simp [rrModel] at he), ?_⟩, Held.empty env emPy, ?_, .nil, (by intro y hy; cases hy), (by intro x hx; cases hx),
      fun _ _ _ _ => rfl⟩, hacc⟩
    · exact labelled_after rrOps rrOps_clean rrOps_valid
    · intro ix u h
      simp only [rrModel, Option.some.injEq, Prod.mk.injEq] at h
      obtain ⟨rfl, rfl⟩ := h
      exact ⟨rfl, by rw [List.length_map, hlen]⟩
    · simp [CModel.container, rrModel, ExprGroup.empty, ExprGroup.itersimple, ExprGroup.iterchained, ExprGroup.all]
  obtain ⟨-, h2⟩ := C74_nested (R := R64) rfl (ε := 1 / 2 ^ 53) (by positivity) (by norm_num) expAcc_R64 logAcc_R64 rrOps rrOps_clean hd
    (by rw [hlen]; norm_num) _ rrModel m' rfl hp 2 true true true fr ls nls ho
  refine ⟨m', fr, ls, nls, ho, fun i hi j hj => ?_⟩
  have hst : ∀ j, startAt rrModel i j = if j = 3 then FOps.negInf else FOps.zero := fun j => rfl
  have hex : (fun j => exactSum [startAt rrModel i j]) = nxU := by
    funext j
    rw [hst]
    unfold nxU exactSum
    have x4 : Rnd.val (FOps.zero : F64) = 0 := rfl
    by_cases h3 : j = 3
    · rw [if_pos h3, if_pos h3]
      exact if_pos ⟨_, List.mem_cons_self, rfl⟩
    · rw [if_neg h3, if_neg h3, if_neg]
      · simp [x4]
      · rintro ⟨v, hv, h⟩
        simp only [List.mem_singleton] at hv
        subst hv; cases h
  have hdata := nestEx_data
  rw [rr_treeR] at h2
  obtain ⟨k, hk, -, -, h3⟩ := h2 i hi nxT nxP 2 1 0 (2 * (41 * (1 / 2 ^ 53) + (2 * 4 + 53) * (1 / 2 ^ 53))) 0 (by rw [hex]; exact nestEx_spec) (hl i hi)
    (le_refl _) (by
      intro j _
      refine ⟨?_, by norm_num, ?_, by norm_num⟩
      · intro w hw
        rw [hst, List.mem_singleton] at hw
        subst hw
        split
        · exact .inl rfl
        · exact .inr ⟨_, rfl⟩
      · have x4 : Rnd.val (FOps.zero : F64) = 0 := rfl
        have x5 : Rnd.val (FOps.negInf : F64) = 0 := rfl
        rw [hst]
        split <;> simp only [absSum, List.map_cons, List.map_nil, List.sum_cons, List.sum_nil, x4, x5, abs_zero, add_zero] <;> positivity)
    one_pos (by norm_num) (fun k hk => hdata.applied k (by rw [hlen] at hk; exact hk)) (le_refl _) (by norm_num) (by
      intro k hk
      by_cases h3 : k = 3
      · left; simp [nxT, h3]
      · right; simp [nxT, h3]) (by norm_num) (by rw [hlen, hdep]; norm_num) j hj
  refine ⟨k, by rw [← hlen]; exact hk, h3.trans ?_⟩
  rw [hlen, hdep]
  norm_num

end Cheval
