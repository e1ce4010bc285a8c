import Verif.Props.LargeRuns
import Verif.Props.AccurateRuns

/-!
# C59, C60: how often each choice is drawn by run_discrete, in double precision

The generator's number for a unit and draw is one of the `2^53` values of `uniform(MIN_RANDOM_VALUE, 1.0)`. Running the model once for each
of them, the share of the runs that draw a choice is the probability that run_stochastic reports, up to rounding.
-/
namespace Cheval
open FOps B64 Spec
variable {U Q V : Type}

section columns
variable {F : Type} [FOps F] {ops : List (TreeOp F)} (hc : CleanRun Choices.empty ops)
include hc

/-- the columns of the table that run_stochastic returns: each belongs to a choice and holds the probabilities of its position -/
theorem stochastic_columns {s : Setting F Q} {m m' : CModel U F} (hm : m.tree = after ops) {group : Option Nat} {threads : Int}
    {clear scaled check : Bool} {u : Tab F} (hu : m.runUtilities s.K group clear = (m', .ok u)) {fr : Frame F} {ls : Nat → F}
    {nls : Frame F} (h : RunStochastic s m group threads clear scaled check (m', .ok (fr, ls, nls))) :
    u.cols = (expected ops).live.length ∧ ∃ ch, choices m.tree = .ok ch ∧ ch.length = u.cols ∧ ch.Nodup ∧
    ∀ j (hj : j < fr.cols.length), ∃ k, ch[k]? = some fr.cols[j] ∧
      ∀ i < u.rows, ∃ p t, rowCalc ops scaled check (unitRow u i) = .ok (p, ls i, t) ∧ ∀ (hk : k < p.length), fr.val i j = p[k] := by
  unfold RunStochastic at h
  rw [hu] at h
  obtain ⟨hv, _, ht, _, -, labels, hl1, hl2⟩ := runUtilities_ok hu
  simp only at h
  split at h
  · cases h
  obtain ⟨res, hst, he⟩ := h
  obtain ⟨-, rfl⟩ := Prod.mk.inj he
  have hvt := validateTree_of_validate hv
  rw [hm] at hvt hl1
  have hr := rel_after ops hc
  have hne := live_ne_of_valid hr hvt
  have hch := choices_eq hr hvt
  have hcols : u.cols = (expected ops).live.length := by
    rw [hch] at hl1
    cases hl1; simpa using hl2
  refine ⟨hcols, _, by rw [hm]; exact hch, by simp [hcols], labels_nodup hr, ?_⟩
  rw [ht, hm] at hst
  unfold StochasticStage at hst
  rw [hr.depth_eq hne] at hst
  rcases Nat.lt_or_ge 1 (expected ops).depth with hd | hd
  · simp only [if_pos hd] at hst
    rw [hr.flatten_eq hd] at hst
    obtain ⟨res, hw, hout⟩ := hst
    rcases C12_nested_probabilities _ _ _ _ _ hw with ⟨mem, rfl, hrow⟩ | ⟨_, _, _, _, rfl⟩
    swap
    · rw [elemental_eq hr hvt, hch] at hout; cases hout
    rw [elemental_eq hr hvt, hch] at hout
    simp only [Except.ok.injEq, Prod.mk.injEq] at hout
    rw [keep_general hr] at hout
    obtain ⟨rfl, rfl, -⟩ := hout
    simp only [List.length_map]
    set keep := (List.range (expected ops).live.length).filter (keptB (expected ops)) with hkeep
    intro j hj
    have hkm : keep[j] < (expected ops).live.length := List.mem_range.mp (List.mem_of_mem_filter (List.getElem_mem hj))
    refine ⟨keep[j], ?_, ?_⟩
    · simp only [List.getElem_map]
      rw [List.getElem?_eq_getElem (by simpa using hkm)]; simp [hkm]
    intro i hi
    have hir : i < u.toRows.length := by unfold Tab.toRows; simpa using hi
    obtain ⟨p, lsv, terms, hmn, h1, h2, -⟩ := hrow i hir
    rw [toRows_get] at hmn
    refine ⟨p, terms, ?_, ?_⟩
    · rw [rowCalc_nested hd, readNum_eq h2]; exact hmn
    · intro hk
      have hgd : keep.getD j 0 = keep[j] := by simp [hj]
      have := h1 keep[j] (by simpa using hk)
      rw [List.getElem_map] at this
      rw [hgd]
      exact readNum_eq this
  · simp only [if_neg (not_lt.mpr hd)] at hst
    obtain ⟨res, hw, hout⟩ := hst
    rcases C12_multinomial_probabilities _ _ _ hw with ⟨mem, rfl, hrow⟩ | ⟨_, _, _, _, rfl⟩
    swap
    · rw [hch] at hout; cases hout
    rw [hch] at hout
    simp only [Except.ok.injEq, Prod.mk.injEq] at hout
    obtain ⟨rfl, rfl, -⟩ := hout
    intro j hj
    refine ⟨j, List.getElem?_eq_getElem hj, fun i hi => ?_⟩
    have hir : i < u.toRows.length := by unfold Tab.toRows; simpa using hi
    obtain ⟨p, lsv, terms, hmn, h1, h2, -⟩ := hrow i hir
    rw [toRows_get] at hmn
    refine ⟨p, terms, ?_, ?_⟩
    · rw [rowCalc_flat hd]
      show _ = Except.ok (p, readNum mem (aLs, i, 0), terms)
      rw [readNum_eq h2]; exact hmn
    · intro hk
      have := h1 j (by simpa using hk)
      rw [List.getElem_map] at this
      exact readNum_eq this

end columns

variable {R : Rounding}

/-- the position drawn with the computed draw `k` is that of `drawShare` -/
theorem drawnPos_iff (hR : R.rnd = B64.rnd) (g : Rng (Rnd R)) (n : Nat) (seed : Int) (i c : Nat) (p : List (Rnd R)) (hne : p ≠ [])
    (hps : ∀ q ∈ p, ∃ x : ℝ, q.v = .fin x ∧ 0 ≤ x) (k : Fin (2 ^ 53)) (hk : numberFor g n seed i c = computedDraw hR k) :
    ∃ j : Nat, j < p.length ∧ drawnPos g n seed i c p = some (j : Int) ∧ sampleOnce p (uniformDraw hR k) = (j : Int) := by
  have hnn : ∀ q ∈ p, FOps.le FOps.zero q = true := fun q hq => FinNonneg.le_zero (hps q hq)
  obtain ⟨j, hso, hsp⟩ := sampleOnce_spec p (uniformDraw hR k) hne
  have hj : j < p.length := by have := hsp.1; rwa [nbfCumsum_length] at this
  have hs := (C59_search hR p hne hps k j).mpr hso
  refine ⟨j, hj, ?_, hso⟩
  unfold drawnPos
  rw [hk, (C59_uniform hR p k).1, (C59_uniform hR p k).2, hso, hs]
  split <;> rfl

theorem share_congr (N : Nat) (b : ℝ) (P P' : Fin N → Prop) (i1 : DecidablePred P) (i2 : DecidablePred P') (h : ∀ k, P k ↔ P' k) :
    ((Finset.univ.filter P).card : ℝ) / b = ((Finset.univ.filter P').card : ℝ) / b := by
  have : Finset.univ.filter P = Finset.univ.filter P' := by ext k; simp [h k]
  rw [this]

open Classical in
/-- the common part of C59_run and C60_run_draws -/
theorem share_of_runs (hR : R.rnd = B64.rnd) {ops : List (TreeOp (Rnd R))} (hc : CleanRun Choices.empty ops) {m m' : CModel U (Rnd R)}
    (hm : m.tree = after ops) {a : DiscreteArgs Q V} (ha : a.astype = .category) {s : Fin (2 ^ 53) → Setting (Rnd R) Q}
    {sd' : Fin (2 ^ 53) → SeedArg Q} {sd : Fin (2 ^ 53) → Int}
    (hsd : ∀ k, resolveSeed (s k).legacy (s k).fresh a.seed = (sd' k, .ok (sd k)))
    {r : Fin (2 ^ 53) → ResObj V} {ls : Fin (2 ^ 53) → Nat → Rnd R}
    (h : ∀ k, RunDiscrete (s k) m a (m', sd' k, .ok (r k, ls k))) {u : Tab (Rnd R)}
    (hu : ∀ k, m.runUtilities (s k).K none a.clear = (m', .ok u)) {i c : Nat} (hi : i < u.rows) (hcn : c < a.nDraws.toNat)
    (hdraw : ∀ k, numberFor (s k).rng a.nDraws.toNat (sd k) i c = computedDraw hR k) {ch : List (List Name)}
    (hch : choices m.tree = .ok ch) (hnd : ch.Nodup) {p : List (Rnd R)} {lsv : Rnd R} {t : List (Rnd R)}
    (hrow : rowCalc ops a.scale true (unitRow u i) = .ok (p, lsv, t)) (hlen : p.length = ch.length)
    (hps : ∀ q ∈ p, ∃ x : ℝ, q.v = .fin x ∧ 0 ≤ x) {j : Nat} {l : List Name} (hj : ch[j]? = some l) :
    ((Finset.univ.filter fun k : Fin (2 ^ 53) => (r k).cell i c = ResCell.label l).card : ℝ) / 2 ^ 53 = drawShare hR p j := by
  have hjl : j < ch.length := (List.getElem?_eq_some_iff.mp hj).1
  have hne : p ≠ [] := by
    intro e; rw [e] at hlen; simp at hlen; omega
  unfold drawShare
  refine share_congr _ _ _ _ _ _ fun k => ?_
  obtain ⟨u2, seed, ch2, hu2, hseed2, -, hch2, -, -, pos, hcv, hall⟩ := discrete_calc hc hm (h k)
  rw [hu k] at hu2
  simp only [Prod.mk.injEq, Except.ok.injEq, true_and] at hu2
  subst hu2
  rw [hsd k] at hseed2
  simp only [Prod.mk.injEq, Except.ok.injEq, true_and] at hseed2
  subst hseed2
  rw [hch] at hch2
  obtain rfl := Except.ok.inj hch2
  obtain ⟨p2, t2, hp2, hdr⟩ := hall i hi
  rw [hrow] at hp2
  simp only [Except.ok.injEq, Prod.mk.injEq] at hp2
  obtain ⟨rfl, -, -⟩ := hp2
  obtain ⟨q, hq, hd1, hd2⟩ := drawnPos_iff hR (s k).rng a.nDraws.toNat (sd k) i c p hne hps k (hdraw k)
  have hpos : pos i c = (q : Int) := by
    have := hdr c hcn
    rw [hd1] at this
    exact (Option.some.inj this).symm
  have hql : q < ch.length := by omega
  have hcell := convertResult_cell hcv hi hcn hpos (List.getElem?_eq_getElem hql)
  rw [ha] at hcell
  have hcell : (r k).cell i c = ResCell.label ch[q] := hcell
  rw [hcell, hd2]
  have hj' : ch[j] = l := by
    rw [List.getElem?_eq_getElem hjl] at hj; exact Option.some.inj hj
  constructor
  · intro e
    have e : ch[q] = l := by injection e
    rw [← hj'] at e
    have := (List.Nodup.getElem_inj_iff hnd).mp e
    rw [this]
  · intro e
    have e : q = j := by exact_mod_cast e
    subst e
    rw [hj']

open Classical in
/-- **C59 (run_discrete)** Double precision, a model without nests, any schedule of the threads, one draw or several: over the `2^53`
equally likely numbers that the generator may return for a decision unit and draw, run_discrete draws the choice of each column of
run_stochastic's table in a share of the runs that differs from the probability in the table by at most `(2 n + 2) * 2^-52`, provided the
unit's logsum is finite and positive. -/
theorem C59_run (hR : R.rnd = B64.rnd) (ops : List (TreeOp (Rnd R))) (hc : CleanRun Choices.empty ops) (hd : (expected ops).depth ≤ 1)
    (hn : (expected ops).live.length ≤ 2 ^ 50) (m m' : CModel U (Rnd R)) (hm : m.tree = after ops)
    (a : DiscreteArgs Q V) (ha : a.astype = .category) (K : Kernel (Rnd R)) (u : Tab (Rnd R)) (hu : m.runUtilities K none a.clear = (m', .ok u))
    (s0 : Setting (Rnd R) Q) (hK0 : s0.K = K) (threads : Int) (fr : Frame (Rnd R)) (ls0 : Nat → Rnd R) (nls : Frame (Rnd R))
    (h0 : RunStochastic s0 m none threads a.clear a.scale true (m', .ok (fr, ls0, nls)))
    (s : Fin (2 ^ 53) → Setting (Rnd R) Q) (hK : ∀ k, (s k).K = K) (sd' : Fin (2 ^ 53) → SeedArg Q) (sd : Fin (2 ^ 53) → Int)
    (hsd : ∀ k, resolveSeed (s k).legacy (s k).fresh a.seed = (sd' k, .ok (sd k)))
    (r : Fin (2 ^ 53) → ResObj V) (ls : Fin (2 ^ 53) → Nat → Rnd R)
    (h : ∀ k, RunDiscrete (s k) m a (m', sd' k, .ok (r k, ls k))) (i c : Nat) (hi : i < u.rows) (hcn : c < a.nDraws.toNat)
    (hdraw : ∀ k, numberFor (s k).rng a.nDraws.toNat (sd k) i c = computedDraw hR k)
    (S : ℝ) (hS : (ls0 i).v = .fin S) (hpos : 0 < S) (j : Nat) (hj : j < fr.cols.length) :
    |((Finset.univ.filter fun k : Fin (2 ^ 53) => (r k).cell i c = ResCell.label fr.cols[j]).card : ℝ) / 2 ^ 53 - (fr.val i j).val|
      ≤ (2 * (u.cols : ℝ) + 2) * (1 / 2 ^ 52) := by
  subst hK0
  obtain ⟨hcols, ch, hch, hchl, hnd, hcol⟩ := stochastic_columns hc hm hu h0
  obtain ⟨k, hk, hall⟩ := hcol j hj
  obtain ⟨p, t, hrow, hval⟩ := hall i hi
  have hmn := hrow
  rw [rowCalc_flat hd] at hmn
  have hul : (unitRow u i).length = u.cols := by simp [unitRow]
  obtain ⟨g1, g2, g3⟩ := C57_sum hR _ _ p _ t hmn S hS hpos (by rw [hul]; omega)
  have hkl : k < ch.length := (List.getElem?_eq_some_iff.mp hk).1
  have hkp : k < p.length := by omega
  rw [share_of_runs hR hc hm ha hsd h (fun k => by rw [hK k]; exact hu) hi hcn hdraw hch hnd hrow (by omega) g2 hk, hval hkp]
  have := C59_frequency hR p g2 (by omega) (by rw [g1]; exact g3) k hkp
  rw [g1, hul] at this
  exact this

open Classical in
/-- **C59 (run_discrete, exact probabilities)** If moreover `exp` has relative error at most `ε` and the unit has a utility of at least
-620, the share differs from `exp(u_j) / sum of exp(u_k)` by at most `3 ε + (3 n + 2) * 2^-52`. -/
theorem C59_run_exact (hR : R.rnd = B64.rnd) {ε : ℝ} (hε : 0 ≤ ε) (hε1 : ε ≤ 1 / 100) (hexp : ExpAcc R ε) (ops : List (TreeOp (Rnd R))) (hc : CleanRun Choices.empty ops) (hd : (expected ops).depth ≤ 1)
    (hn : (expected ops).live.length ≤ 2 ^ 50) (m m' : CModel U (Rnd R)) (hm : m.tree = after ops)
    (a : DiscreteArgs Q V) (ha : a.astype = .category) (K : Kernel (Rnd R)) (u : Tab (Rnd R)) (hu : m.runUtilities K none a.clear = (m', .ok u))
    (s0 : Setting (Rnd R) Q) (hK0 : s0.K = K) (threads : Int) (fr : Frame (Rnd R)) (ls0 : Nat → Rnd R) (nls : Frame (Rnd R))
    (h0 : RunStochastic s0 m none threads a.clear a.scale true (m', .ok (fr, ls0, nls)))
    (s : Fin (2 ^ 53) → Setting (Rnd R) Q) (hK : ∀ k, (s k).K = K) (sd' : Fin (2 ^ 53) → SeedArg Q) (sd : Fin (2 ^ 53) → Int)
    (hsd : ∀ k, resolveSeed (s k).legacy (s k).fresh a.seed = (sd' k, .ok (sd k)))
    (r : Fin (2 ^ 53) → ResObj V) (ls : Fin (2 ^ 53) → Nat → Rnd R)
    (h : ∀ k, RunDiscrete (s k) m a (m', sd' k, .ok (r k, ls k))) (i c : Nat) (hi : i < u.rows) (hcn : c < a.nDraws.toNat)
    (hdraw : ∀ k, numberFor (s k).rng a.nDraws.toNat (sd k) i c = computedDraw hR k)
    (S : ℝ) (hS : (ls0 i).v = .fin S) (hpos : 0 < S) (j : Nat) (hj : j < fr.cols.length)
    (hbig : ∃ j < u.cols, ∃ x : ℝ, (u.val i j).v = .fin x ∧ -620 ≤ x) :
    |((Finset.univ.filter fun k : Fin (2 ^ 53) => (r k).cell i c = ResCell.label fr.cols[j]).card : ℝ) / 2 ^ 53
        - exactWeight (u.val i j) / ∑ k ∈ Finset.range u.cols, exactWeight (u.val i k)|
      ≤ 3 * ε + (3 * (u.cols : ℝ) + 2) * (1 / 2 ^ 52) := by
  have h1 := C59_run hR ops hc hd hn m m' hm a ha K u hu s0 hK0 threads fr ls0 nls h0 s hK sd' sd hsd r ls h i c hi hcn hdraw S hS hpos j hj
  subst hK0
  obtain ⟨-, hcl, hacc⟩ := C58_run hR hε hε1 hexp ops hc hd hn s0 m m' hm none threads a.clear a.scale true u hu fr ls0 nls h0
  have h2 := hacc i hi S hS hpos hbig j (by omega)
  rw [abs_le] at *
  constructor <;> linarith [h1.1, h1.2, h2.1, h2.2]

open Classical in
/-- **C60 (run_discrete)** The same for a model with nests, with the bound `(3 n + 2) * 2^-52`, `n` being the number of all choices, nests
included. -/
theorem C60_run_draws (hR : R.rnd = B64.rnd) (ops : List (TreeOp (Rnd R))) (hc : CleanRun Choices.empty ops) (hd : 1 < (expected ops).depth)
    (hn : (expected ops).live.length ≤ 2 ^ 50) (m m' : CModel U (Rnd R)) (hm : m.tree = after ops)
    (a : DiscreteArgs Q V) (ha : a.astype = .category) (K : Kernel (Rnd R)) (u : Tab (Rnd R)) (hu : m.runUtilities K none a.clear = (m', .ok u))
    (s0 : Setting (Rnd R) Q) (hK0 : s0.K = K) (threads : Int) (fr : Frame (Rnd R)) (ls0 : Nat → Rnd R) (nls : Frame (Rnd R))
    (h0 : RunStochastic s0 m none threads a.clear a.scale true (m', .ok (fr, ls0, nls)))
    (s : Fin (2 ^ 53) → Setting (Rnd R) Q) (hK : ∀ k, (s k).K = K) (sd' : Fin (2 ^ 53) → SeedArg Q) (sd : Fin (2 ^ 53) → Int)
    (hsd : ∀ k, resolveSeed (s k).legacy (s k).fresh a.seed = (sd' k, .ok (sd k)))
    (r : Fin (2 ^ 53) → ResObj V) (ls : Fin (2 ^ 53) → Nat → Rnd R)
    (h : ∀ k, RunDiscrete (s k) m a (m', sd' k, .ok (r k, ls k))) (i c : Nat) (hi : i < u.rows) (hcn : c < a.nDraws.toNat)
    (hdraw : ∀ k, numberFor (s k).rng a.nDraws.toNat (sd k) i c = computedDraw hR k)
    (S : ℝ) (hS : (ls0 i).v = .fin S) (hpos : 0 < S) (j : Nat) (hj : j < fr.cols.length) :
    |((Finset.univ.filter fun k : Fin (2 ^ 53) => (r k).cell i c = ResCell.label fr.cols[j]).card : ℝ) / 2 ^ 53 - (fr.val i j).val|
      ≤ (3 * (u.cols : ℝ) + 2) * (1 / 2 ^ 52) := by
  subst hK0
  obtain ⟨hcols, ch, hch, hchl, hnd, hcol⟩ := stochastic_columns hc hm hu h0
  obtain ⟨k, hk, hall⟩ := hcol j hj
  obtain ⟨p, t, hrow, hval⟩ := hall i hi
  have hmn := hrow
  rw [rowCalc_nested hd] at hmn
  have hr := rel_after ops hc
  have hvt := validateTree_of_validate (runUtilities_ok hu).1
  rw [hm] at hvt
  have hwf := flat_wf hr (live_ne_of_valid hr hvt)
  have hn' : (flatUpto (expected ops) (expected ops).live.length).n ≤ 2 ^ 50 := hn
  obtain ⟨g1, g2, g3⟩ := C60_sum hR _ hwf (flat_pos_scales hr) _ _ _ p _ t hmn S hS hpos hn'
  have g1 : p.length = (expected ops).live.length := g1
  have hkl : k < ch.length := (List.getElem?_eq_some_iff.mp hk).1
  have hkp : k < p.length := by omega
  rw [share_of_runs hR hc hm ha hsd h (fun k => by rw [hK k]; exact hu) hi hcn hdraw hch hnd hrow (by omega)
    (fun q hq => (g2 q hq).imp fun x hx => ⟨hx.1, hx.2.1⟩) hk, hval hkp]
  have := C60_draws hR _ hwf (flat_pos_scales hr) _ _ _ p _ t hmn S hS hpos hn' k hkp
  rw [hcols]
  exact this

theorem mapM_range_ok (f : Nat → Except Err Nat) (N b : Nat) (h : ∀ c < N, ∃ k : Nat, k < b ∧ f c = .ok k) :
    ∃ ks : List Nat, (List.range N).mapM f = .ok ks ∧ ks.length = N ∧ ∀ k ∈ ks, k < b := by
  induction N with
  | zero => exact ⟨[], rfl, rfl, by simp⟩
  | succ N ih =>
    obtain ⟨ks, e1, e2, e3⟩ := ih fun c hcN => h c (by omega)
    obtain ⟨k, hk, e⟩ := h N (by omega)
    refine ⟨ks ++ [k], ?_, by simp [e2], ?_⟩
    · rw [List.range_succ, List.mapM_append, e1]
      simp [e, bind, Except.bind, pure, Except.pure]
    · intro q hq
      rcases List.mem_append.mp hq with h | h
      · exact e3 q h
      · rw [List.mem_singleton.mp h]; exact hk

/-- run_discrete returns if the calculation succeeds for every row and the numbers select positions -/
theorem discrete_returns {F : Type} [FOps F] {ops : List (TreeOp F)} (hc : CleanRun Choices.empty ops) {s : Setting F Q} {m m' : CModel U F}
    (hm : m.tree = after ops) {a : DiscreteArgs Q V} (ha : a.astype = .category) {u : Tab F} (hu : m.runUtilities s.K none a.clear = (m', .ok u))
    {seed' : SeedArg Q} {seed : Int} (hseed : resolveSeed s.legacy s.fresh a.seed = (seed', .ok seed)) (hn : 1 ≤ a.nDraws)
    (ht1 : 1 ≤ a.nThreads) (ht2 : a.nThreads ≤ s.maxThreads)
    (hrow : ∀ i < u.rows, ∃ p l t, rowCalc ops a.scale true (unitRow u i) = .ok (p, l, t) ∧
      ∀ c < a.nDraws.toNat, ∃ k : Nat, k < u.cols ∧ drawnPos s.rng a.nDraws.toNat seed i c p = some (k : Int)) :
    ∃ r ls, RunDiscrete s m a (m', seed', .ok (r, ls)) := by
  obtain ⟨⟨m2, s2, res⟩, ho⟩ := C53_total s m a
  have ho' := ho
  obtain ⟨hv, _, ht, _, -, labels, hl1, hl2⟩ := runUtilities_ok hu
  have hvt := validateTree_of_validate hv
  rw [hm] at hvt
  have hr := rel_after ops hc
  have hne := live_ne_of_valid hr hvt
  have htree : m'.tree = after ops := ht.trans hm
  rw [hm] at hl1
  have hir : ∀ i, i < u.toRows.length → i < u.rows := by intro i hi; unfold Tab.toRows at hi; simpa using hi
  unfold RunDiscrete at ho
  simp only [hv, hseed, hu] at ho
  rw [if_neg (by omega), if_neg (by omega)] at ho
  obtain ⟨dres, hd, hout⟩ := ho
  rw [htree, hl1] at hout
  unfold DiscreteStage at hd
  simp only at hd
  rw [htree, hr.depth_eq hne, hl1] at hd
  -- either worker
  have core : ∀ (f : List F → Except Err (List F × F × List F)) (one' : List F → F → Except Err (Int × F))
      (multi : List F → Int → Except Err (List Nat × F)),
      (∀ us, f us = rowCalc ops a.scale true us) →
      (∀ u r, one' u r = (f u).map fun o => (sampleOnce o.1 r, o.2.1)) →
      (∀ u t, multi u t = (f u).bind fun o => (sampleMulti s.rng o.1 a.nDraws.toNat t (some a.nDraws.toNat)).map fun ks => (ks, o.2.1)) →
      ∀ out, SampleOutcome one' multi s.rng u.toRows a.nDraws.toNat seed out → ∃ mem, out = .ok mem ∧
        ∀ i < u.rows, ∀ c < a.nDraws.toNat, ∃ k : Nat, k < u.cols ∧ readIdx mem (aRes, i, c) = (k : Int) := by
    intro f one' multi hf h1 h2 out hout
    have hmulti : ∀ i (hi : i < u.toRows.length), 1 < a.nDraws.toNat → ∃ ks l, multi u.toRows[i] (s.rng.randint seed i) = .ok (ks, l) ∧
        ks.length = a.nDraws.toNat ∧ ∀ k ∈ ks, k < u.cols := by
      intro i hi hn1
      obtain ⟨p, l, t, hp, hdr⟩ := hrow i (hir i hi)
      have hdr' : ∀ c < a.nDraws.toNat, ∃ k : Nat, k < u.cols ∧ logSearch (s.rng.uniform (s.rng.randint seed i) c) (nbfCumsum p) = some k := by
        intro c hcn
        obtain ⟨k, hk, hd⟩ := hdr c hcn
        unfold drawnPos at hd
        rw [if_neg (not_le.mpr hn1)] at hd
        simp only [numberFor, if_neg (not_le.mpr hn1)] at hd
        cases hl : logSearch (s.rng.uniform (s.rng.randint seed i) c) (nbfCumsum p) with
        | none => rw [hl] at hd; cases hd
        | some q =>
          rw [hl] at hd
          simp only [Option.map_some, Option.some.injEq, Nat.cast_inj] at hd
          exact ⟨k, hk, by rw [hd]⟩
      rw [h2, toRows_get, hf, hp]
      simp only [Except.bind]
      unfold sampleMulti
      simp only [Option.getD_some, ne_eq, not_true_eq_false, if_false]
      obtain ⟨ks, e1, e2, e3⟩ := mapM_range_ok (fun c => match logSearch (s.rng.uniform (s.rng.randint seed i) c) (nbfCumsum p) with
        | none => Except.error Err.oob
        | some k => Except.ok k) a.nDraws.toNat u.cols (by
          intro c hcn
          obtain ⟨k, hk, e⟩ := hdr' c hcn
          exact ⟨k, hk, by rw [e]⟩)
      refine ⟨ks, l, ?_, e2, e3⟩
      have : ((List.range a.nDraws.toNat).mapM fun i_1 => match logSearch (s.rng.uniform (s.rng.randint seed i) i_1) (nbfCumsum p) with
        | none => Except.error Err.oob
        | some k => Except.ok k) = .ok ks := e1
      exact congrArg (Except.map fun ks => (ks, l)) this
    have hone : ∀ i (hi : i < u.toRows.length), a.nDraws.toNat ≤ 1 → ∃ (k : Nat) (l : F), one' u.toRows[i] (s.rng.uniform seed i) = .ok ((k : Int), l) ∧ k < u.cols := by
      intro i hi hn1
      obtain ⟨p, l, t, hp, hdr⟩ := hrow i (hir i hi)
      obtain ⟨k, hk, hd⟩ := hdr 0 (by omega)
      unfold drawnPos at hd
      rw [if_pos hn1] at hd
      simp only [numberFor, if_pos hn1, Option.some.injEq] at hd
      refine ⟨k, l, ?_, hk⟩
      rw [h1, toRows_get, hf, hp]
      simp only [Except.map, hd]
    rcases hout with ⟨mem, rfl, hall⟩ | ⟨i, hi, e, -, he⟩
    swap
    · exfalso
      rcases he with ⟨hn1, he⟩ | ⟨hn1, he⟩
      · obtain ⟨k, l, e1, -⟩ := hone i hi hn1
        rw [e1] at he; cases he
      · obtain ⟨ks, l, e1, -⟩ := hmulti i hi hn1
        rw [e1] at he; cases he
    refine ⟨mem, rfl, fun i hi c hcn => ?_⟩
    have hil : i < u.toRows.length := by unfold Tab.toRows; simpa using hi
    obtain ⟨h1', h2'⟩ := hall i hil
    rcases Nat.lt_or_ge 1 a.nDraws.toNat with hn1 | hn1
    · obtain ⟨ks, l, e1, e2, -⟩ := h2' hn1
      obtain ⟨ks2, l2, f1, f2, f3⟩ := hmulti i hil hn1
      rw [f1] at e1
      simp only [Except.ok.injEq, Prod.mk.injEq] at e1
      obtain ⟨rfl, -⟩ := e1
      have hcl : c < ks2.length := by omega
      have := e2 c (by simpa using hcl)
      rw [List.getElem_map] at this
      exact ⟨ks2[c], f3 _ (List.getElem_mem _), by simp only [readIdx, this]⟩
    · obtain ⟨k, l, e1, e2, -⟩ := h1' hn1
      obtain ⟨k2, l2, f1, f2⟩ := hone i hil hn1
      rw [f1] at e1
      simp only [Except.ok.injEq, Prod.mk.injEq] at e1
      obtain ⟨rfl, -⟩ := e1
      obtain rfl : c = 0 := by omega
      exact ⟨k2, f2, by simp only [readIdx, e2]⟩
  have finish : ∀ (mem : Mem F), (∀ i < u.rows, ∀ c < a.nDraws.toNat, ∃ k : Nat, k < u.cols ∧ readIdx mem (aRes, i, c) = (k : Int)) →
      dres = .ok ⟨a.nDraws.toNat, fun i c => readIdx mem (aRes, i, c), fun i c => takeLabel labels (readIdx mem (aRes, i, c)),
        fun i => readNum mem (aLs, i, 0)⟩ → ∃ r ls, RunDiscrete s m a (m', seed', .ok (r, ls)) := by
    intro mem hk e
    subst e
    simp only at hout
    have hno : ¬ ∃ i < u.rows, ∃ c < a.nDraws.toNat, takeAt labels.length (readIdx mem (aRes, i, c)) = none := by
      rintro ⟨i, hi, c, hcn, hnone⟩
      obtain ⟨k, hk1, hk2⟩ := hk i hi c hcn
      rw [hk2, takeAt_nat (by omega)] at hnone
      cases hnone
    unfold convertResult at hout
    rw [ha] at hout
    simp only [if_neg hno, Except.map] at hout
    rw [hout] at ho'
    exact ⟨_, _, ho'⟩
  rcases Nat.lt_or_ge 1 (expected ops).depth with hd1 | hd1
  · simp only [if_pos hd1] at hd
    rw [hr.flatten_eq hd1] at hd
    obtain ⟨wres, hw, hfin⟩ := hd
    obtain ⟨mem, rfl, hk⟩ := core (fun u => nested u (flatUpto (expected ops) (expected ops).live.length) a.scale true) _ _
        (fun us => (rowCalc_nested hd1 _ _ us).symm)
        (by intro u r; unfold nestedSample; cases nested u _ a.scale true <;> rfl)
        (by
          intro u t; unfold nestedMultisample
          cases nested u _ a.scale true with
          | error e => rfl
          | ok o => simp only [bind, Except.bind]; cases sampleMulti s.rng o.1 a.nDraws.toNat t (some a.nDraws.toNat) <;> rfl)
        wres (C12_nested_sample _ _ _ _ _ _ _ hw)
    exact finish mem hk hfin
  · simp only [if_neg (not_lt.mpr hd1)] at hd
    obtain ⟨wres, hw, hfin⟩ := hd
    obtain ⟨mem, rfl, hk⟩ := core (fun u => multinomial u true) _ _
        (fun us => (rowCalc_flat hd1 _ _ us).symm)
        (by intro u r; unfold multinomialSample; cases multinomial u true <;> rfl)
        (by
          intro u t; unfold multinomialMultisample
          cases multinomial u true with
          | error e => rfl
          | ok o => simp only [bind, Except.bind]; cases sampleMulti s.rng o.1 a.nDraws.toNat t (some a.nDraws.toNat) <;> rfl)
        wres (C12_multinomial_sample _ _ _ _ _ hw)
    exact finish mem hk hfin


/-! ### Concrete runs -/

/-- the number `k`, for every unit and draw -/
noncomputable def constRng (k : Fin (2 ^ 53)) : Rng F64 := ⟨fun _ _ => computedDraw (R := R64) rfl k, fun s _ => s⟩

/-- three draws -/
def drawArgs : DiscreteArgs Nat Unit := ⟨.number 5, 3, .category, true, 2, true, true⟩

open Classical in
/-- C60_run_draws: the model with the nest A; all runs return -/
example (K : Kernel F64) (l : LegacyRandom Nat) : ∃ m' fr ls nls, ∃ (r : Fin (2 ^ 53) → ResObj Unit) (ls' : Fin (2 ^ 53) → Nat → F64),
    RunStochastic ⟨K, constRng 0, l, 0, 4⟩ rrModel none 2 true true true (m', .ok (fr, ls, nls)) ∧
    (∀ k, RunDiscrete ⟨K, constRng k, l, 0, 4⟩ rrModel drawArgs (m', .number 5, .ok (r k, ls' k))) ∧
    ∀ i < 2, ∀ c < 3, ∀ j (hj : j < fr.cols.length),
      |((Finset.univ.filter fun k : Fin (2 ^ 53) => (r k).cell i c = ResCell.label fr.cols[j]).card : ℝ) / 2 ^ 53 - (fr.val i j).val| ≤ 14 * (1 / 2 ^ 52) := by
  obtain ⟨m', u, fr, ls, nls, hru, hrows, ho, hl⟩ := rr_call K (constRng 0) l
  have hd : 1 < (expected rrOps).depth := by rw [rrOps_expected]; simp [Choices.depth]
  have hlen := congrArg List.length hrows
  have hr2 : u.rows = 2 := by simpa [Tab.toRows] using hlen
  have hn : (expected rrOps).live.length = 4 := by rw [rrOps_expected]; rfl
  obtain ⟨hcols, ch, hch, hchl, -, hcol⟩ := stochastic_columns (s := ⟨K, constRng 0, l, 0, 4⟩) rrOps_clean (show rrModel.tree = after rrOps from rfl) hru ho
  have hu4 : u.cols = 4 := by rw [hcols, hn]
  have hr := rel_after rrOps rrOps_clean
  have hvt := rrOps_valid
  have hwf := flat_wf hr (live_ne_of_valid hr hvt)
  have hret : ∀ k, ∃ r ls, RunDiscrete ⟨K, constRng k, l, 0, 4⟩ rrModel drawArgs (m', .number 5, .ok (r, ls)) := by
    intro k
    refine discrete_returns rrOps_clean rfl rfl hru rfl (by decide) (by decide) (show (2 : Int) ≤ 4 by decide) ?_
    intro i hi
    obtain ⟨fr2, ls2, t2⟩ := stochastic_calc (s := ⟨K, constRng 0, l, 0, 4⟩) rrOps_clean (show rrModel.tree = after rrOps from rfl) hru ho
    obtain ⟨p, t, hp, -⟩ := t2 i hi
    refine ⟨p, ls i, t, hp, ?_⟩
    intro c hcn
    rw [rowCalc_nested hd] at hp
    obtain ⟨g1, g2, -⟩ := C60_sum (R := R64) rfl _ hwf (flat_pos_scales hr) _ _ _ p _ t hp 2 (hl i (by omega)) (by norm_num) (by
      show (expected rrOps).live.length ≤ 2 ^ 50
      rw [hn]; norm_num)
    have g1 : p.length = (expected rrOps).live.length := g1
    obtain ⟨q, hq, hd, -⟩ := drawnPos_iff (R := R64) rfl (constRng k) (drawArgs.nDraws).toNat 5 i c p (by intro e; rw [e, hn] at g1; simp at g1)
      (fun q hq => (g2 q hq).imp fun x hx => ⟨hx.1, hx.2.1⟩) k (by unfold numberFor; split <;> rfl)
    exact ⟨q, by omega, hd⟩
  choose r ls' hrun using hret
  refine ⟨m', fr, ls, nls, r, ls', ho, hrun, ?_⟩
  intro i hi c hcn j hj
  have := C60_run_draws (R := R64) rfl rrOps rrOps_clean hd (by rw [hn]; norm_num) rrModel m' rfl drawArgs rfl K u hru ⟨K, constRng 0, l, 0, 4⟩ rfl 2
    fr ls nls ho (fun k => ⟨K, constRng k, l, 0, 4⟩) (fun _ => rfl) (fun _ => .number 5) (fun _ => 5) (fun _ => rfl) r ls' hrun i c (by omega) (by simpa [drawArgs] using hcn)
    (by intro k; unfold numberFor; split <;> rfl) 2 (hl i hi) (by norm_num) j hj
  rw [hu4] at this
  refine this.trans (le_of_eq ?_)
  norm_num

theorem rf_draws (K : Kernel F64) (l : LegacyRandom Nat) : ∃ (m' : CModel Nat F64) (u : Tab F64) (fr : Frame F64) (ls : Nat → F64) (nls : Frame F64)
    (r : Fin (2 ^ 53) → ResObj Unit) (ls' : Fin (2 ^ 53) → Nat → F64), rfModel.runUtilities K none true = (m', .ok u) ∧ u.rows = 2 ∧ u.cols = 3 ∧
    (∀ i < 2, unitRow u i = [FOps.zero, FOps.zero, FOps.negInf]) ∧
    RunStochastic ⟨K, constRng 0, l, 0, 4⟩ rfModel none 2 true true true (m', .ok (fr, ls, nls)) ∧ (∀ i < 2, (ls i).v = .fin 2) ∧
    ∀ k, RunDiscrete ⟨K, constRng k, l, 0, 4⟩ rfModel drawArgs (m', .number 5, .ok (r k, ls' k)) := by
  obtain ⟨m', u, fr, ls, nls, hru, hrows, ho, hl⟩ := rf_call K (constRng 0) l
  have hd : (expected rfOps).depth ≤ 1 := by rw [rfOps_expected]; simp [Choices.depth]
  have hlen := congrArg List.length hrows
  have hr2 : u.rows = 2 := by simpa [Tab.toRows] using hlen
  have hn : (expected rfOps).live.length = 3 := by rw [rfOps_expected]; rfl
  obtain ⟨hcols, mem, t2⟩ := stochastic_calc (s := ⟨K, constRng 0, l, 0, 4⟩) rfOps_clean (show rfModel.tree = after rfOps from rfl) hru ho
  have hu3 : u.cols = 3 := by rw [hcols, hn]
  have hret : ∀ k, ∃ r ls, RunDiscrete ⟨K, constRng k, l, 0, 4⟩ rfModel drawArgs (m', .number 5, .ok (r, ls)) := by
    intro k
    refine discrete_returns rfOps_clean rfl rfl hru rfl (by decide) (by decide) (show (2 : Int) ≤ 4 by decide) ?_
    intro i hi
    obtain ⟨p, t, hp, -⟩ := t2 i hi
    refine ⟨p, ls i, t, hp, ?_⟩
    intro c hcn
    rw [rowCalc_flat hd] at hp
    have hul : (unitRow u i).length = 3 := by simp [unitRow, hu3]
    obtain ⟨g1, g2, -⟩ := C57_sum (R := R64) rfl _ _ p _ t hp 2 (hl i (by omega)) (by norm_num) (by rw [hul]; norm_num)
    obtain ⟨q, hq, hd, -⟩ := drawnPos_iff (R := R64) rfl (constRng k) (drawArgs.nDraws).toNat 5 i c p (by intro e; rw [e, hul] at g1; simp at g1)
      g2 k (by unfold numberFor; split <;> rfl)
    exact ⟨q, by omega, hd⟩
  choose r ls' hrun using hret
  refine ⟨m', u, fr, ls, nls, r, ls', hru, hr2, hu3, ?_, ho, hl, hrun⟩
  intro i hi
  have hir : i < u.toRows.length := by rw [hrows]; exact hi
  rw [← toRows_get u i hir]
  have : i = 0 ∨ i = 1 := by omega
  simp only [hrows]
  rcases this with rfl | rfl <;> rfl

open Classical in
/-- C59_run, C59_run_exact: choices A, B, C with utilities 0, 0, -inf: A is drawn in half of the runs, up to rounding -/
example (K : Kernel F64) (l : LegacyRandom Nat) : ∃ (m' : CModel Nat F64) (r : Fin (2 ^ 53) → ResObj Unit) (ls' : Fin (2 ^ 53) → Nat → F64),
    (∀ k, RunDiscrete ⟨K, constRng k, l, 0, 4⟩ rfModel drawArgs (m', .number 5, .ok (r k, ls' k))) ∧
    ∀ i < 2, ∀ c < 3, |((Finset.univ.filter fun k : Fin (2 ^ 53) => (r k).cell i c = ResCell.label [['A']]).card : ℝ) / 2 ^ 53 - 1 / 2| ≤ 1 / 2 ^ 47 := by
  obtain ⟨m', u, fr, ls, nls, r, ls', hru, hr2, hu3, hrow, ho, hl, hrun⟩ := rf_draws K l
  refine ⟨m', r, ls', hrun, ?_⟩
  intro i hi c hcn
  have hd : (expected rfOps).depth ≤ 1 := by rw [rfOps_expected]; simp [Choices.depth]
  have hn : (expected rfOps).live.length = 3 := by rw [rfOps_expected]; rfl
  have hcl := (C58_run (R := R64) rfl (ε := 1 / 2 ^ 53) (by positivity) (by norm_num) expAcc_R64 rfOps rfOps_clean hd (by rw [hn]; norm_num)
    ⟨K, constRng 0, l, 0, 4⟩ rfModel m' rfl none 2 true true true u hru fr ls nls ho).1
  have hcols : fr.cols = [[['A']], [['B']], [['C']]] := by
    have h : choices (after rfOps) = .ok fr.cols := hcl
    rw [choices_eq (rel_after rfOps rfOps_clean) rfOps_valid, rfOps_expected] at h
    have := Except.ok.inj h
    rw [← this]; simp [Choices.depth, pad]
  have e := hrow i hi
  unfold unitRow at e
  rw [hu3] at e
  simp only [List.range_succ, List.range_zero, List.nil_append, List.map_append, List.map_cons, List.map_nil, List.cons_append, List.cons.injEq, and_true] at e
  obtain ⟨e0, e1, e2⟩ := e
  have w1 : exactWeight (FOps.zero : F64) = 1 := by show Real.exp 0 = 1; exact Real.exp_zero
  have w2 : exactWeight (FOps.negInf : F64) = 0 := rfl
  have := C59_run_exact (R := R64) rfl (ε := 1 / 2 ^ 53) (by positivity) (by norm_num) expAcc_R64 rfOps rfOps_clean hd (by rw [hn]; norm_num) rfModel m' rfl
    drawArgs rfl K u hru ⟨K, constRng 0, l, 0, 4⟩ rfl 2
    fr ls nls ho (fun k => ⟨K, constRng k, l, 0, 4⟩) (fun _ => rfl) (fun _ => .number 5) (fun _ => 5) (fun _ => rfl) r ls' hrun i c (by omega) (by simpa [drawArgs] using hcn)
    (by intro k; unfold numberFor; split <;> rfl) 2 (hl i hi) (by norm_num) 0 (by rw [hcols]; simp) ⟨0, by omega, 0, by rw [e0]; rfl, by norm_num⟩
  simp only [hcols, List.getElem_cons_zero, hu3, Finset.sum_range_succ, Finset.sum_range_zero, e0, e1, e2, w1, w2] at this
  have e3 : (1 : ℝ) / (0 + 1 + 1 + 0) = 1 / 2 := by norm_num
  rw [e3] at this
  refine this.trans ?_
  norm_num

end Cheval
