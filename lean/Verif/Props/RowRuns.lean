import Verif.Props.RoundedRuns
import Verif.Props.Draws

/-!
# Whole calls, row by row, in any arithmetic

What a call of run_stochastic or run_discrete returns, in terms of the calculation for one row of utilities. No law of arithmetic is used,
so that it also applies to NaN and to overflows.
-/
namespace Cheval
open FOps Spec
variable {U Q V F : Type} [FOps F]

open Classical in
/-- the calculation for one row (core.py:123-160 or 163-242, by the depth of the tree: model.py:604-608, 423-427) -/
noncomputable def rowCalc (ops : List (TreeOp F)) (scaled check : Bool) (us : List F) : Except Err (List F × F × List F) :=
  if 1 < (expected ops).depth then nested us (flatUpto (expected ops) (expected ops).live.length) scaled check else multinomial us check

theorem rowCalc_flat {ops : List (TreeOp F)} (hd : (expected ops).depth ≤ 1) (scaled check : Bool) (us : List F) :
    rowCalc ops scaled check us = multinomial us check := by unfold rowCalc; rw [if_neg (by omega)]

theorem rowCalc_nested {ops : List (TreeOp F)} (hd : 1 < (expected ops).depth) (scaled check : Bool) (us : List F) :
    rowCalc ops scaled check us = nested us (flatUpto (expected ops) (expected ops).live.length) scaled check := by
  unfold rowCalc; rw [if_pos hd]

/-- the row of utilities of unit `i` -/
def unitRow (u : Tab F) (i : Nat) : List F := (List.range u.cols).map fun j => u.val i j

theorem toRows_get (u : Tab F) (i : Nat) (h : i < u.toRows.length) : u.toRows[i] = unitRow u i := by simp [Tab.toRows, unitRow]

/-- the position drawn from a row of probabilities (core.py:83-89 for one draw, 42-78 and 104-119 for several) -/
def drawnPos (g : Rng F) (n : Nat) (seed : Int) (i c : Nat) (p : List F) : Option Int :=
  if n ≤ 1 then some (sampleOnce p (numberFor g n seed i c)) else (logSearch (numberFor g n seed i c) (nbfCumsum p)).map fun (k : Nat) => (k : Int)

theorem mapM_ok {α β : Type} (f : α → Except Err β) : ∀ (l : List α) (out : List β), l.mapM f = .ok out →
    out.length = l.length ∧ ∀ c (h : c < l.length) (h' : c < out.length), f l[c] = .ok out[c] := by
  intro l
  induction l with
  | nil =>
    intro out h
    simp only [List.mapM_nil, pure, Except.pure, Except.ok.injEq] at h
    subst h
    simp
  | cons a l ih =>
    intro out h
    rw [List.mapM_cons] at h
    cases ha : f a with
    | error e => rw [ha] at h; cases h
    | ok b =>
      rw [ha] at h
      simp only [bind, Except.bind] at h
      cases hl : l.mapM f with
      | error e => rw [hl] at h; cases h
      | ok bs =>
        rw [hl] at h
        simp only [pure, Except.pure, Except.ok.injEq] at h
        subst h
        obtain ⟨h1, h2⟩ := ih bs hl
        refine ⟨by simp [h1], ?_⟩
        intro c hc hc'
        cases c with
        | zero => simpa using ha
        | succ c => simpa using h2 c (by simpa using hc) (by simpa using hc')

theorem sampleMulti_ok {g : Rng F} {p : List F} {n : Nat} {s : Int} {ks : List Nat} (h : sampleMulti g p n s (some n) = .ok ks) :
    ks.length = n ∧ ∀ c (hc : c < ks.length), logSearch (g.uniform s c) (nbfCumsum p) = some ks[c] := by
  unfold sampleMulti at h
  simp only [Option.getD_some, ne_eq, not_true_eq_false, if_false] at h
  obtain ⟨h1, h2⟩ := mapM_ok _ _ _ h
  refine ⟨by simpa using h1, fun c hc => ?_⟩
  have := h2 c (by omega) hc
  simp only [List.getElem_range] at this
  cases hl : logSearch (g.uniform s c) (nbfCumsum p) with
  | none => rw [hl] at this; cases this
  | some k => rw [hl] at this; simp only [Except.ok.injEq] at this; rw [this]

/-- the cell of a converted result -/
theorem convertResult_cell {ch : List (List Name)} {rows n : Nat} {pos : Nat → Nat → Int} {t : AsType V} {squeeze : Bool} {r : ResObj V}
    (h : convertResult ch rows n pos t squeeze = .ok r) {i c : Nat} (hi : i < rows) (hcn : c < n) {k : Nat} (hk : pos i c = (k : Int))
    {l : List Name} (hl : ch[k]? = some l) : CellFor ch t (r.cell i c) l := by
  have hkl : k < ch.length := (List.getElem?_eq_some_iff.mp hl).1
  have hgd : ch.getD k [] = l := by rw [List.getD_eq_getElem?_getD, hl]; rfl
  have key : ∀ (f : Nat → Nat → ResCell V), (if (squeeze && decide (n = 1)) = true then ResObj.series fun i => f i 0
      else .frame (List.range n) f) = r → r.cell i c = f i c := by
    intro f e
    subst e
    split
    · rename_i hsq
      simp only [Bool.and_eq_true, decide_eq_true_eq] at hsq
      obtain rfl : c = 0 := by omega
      rfl
    · rfl
  unfold convertResult at h
  cases t with
  | index =>
    simp only [Except.ok.injEq] at h
    exact ⟨k, hl, by rw [key (fun i c => .pos (pos i c)) h, hk]⟩
  | category =>
    simp only at h
    split at h
    · cases h
    · simp only [Except.ok.injEq] at h
      show r.cell i c = .label l
      rw [key (fun i c => ResCell.label (ch.getD ((takeAt ch.length (pos i c)).getD 0) [])) h, hk, takeAt_nat hkl, Option.getD_some, hgd]
  | dtype conv =>
    simp only at h
    cases hf : conv ch with
    | error e => rw [hf] at h; cases h
    | ok f =>
      rw [hf] at h
      simp only at h
      split at h
      · cases h
      · simp only [Except.ok.injEq] at h
        refine ⟨f, hf, k, hl, ?_⟩
        rw [key (fun i c => ResCell.conv (f ((takeAt ch.length (pos i c)).getD 0))) h, hk, takeAt_nat hkl, Option.getD_some]

variable {ops : List (TreeOp F)} (hc : CleanRun Choices.empty ops)
include hc

/-- a call of run_stochastic that returns: the calculation succeeded for every row, and the logsums are its logsums; without nests, the
columns are the choices and hold its probabilities -/
theorem stochastic_calc {s : Setting F Q} {m m' : CModel U F} (hm : m.tree = after ops) {group : Option Nat} {threads : Int}
    {clear scaled check : Bool} {u : Tab F} (hu : m.runUtilities s.K group clear = (m', .ok u)) {fr : Frame F} {ls : Nat → F}
    {nls : Frame F} (h : RunStochastic s m group threads clear scaled check (m', .ok (fr, ls, nls))) :
    u.cols = (expected ops).live.length ∧ ∃ mem : Mem F, ∀ i < u.rows, ∃ p t, rowCalc ops scaled check (unitRow u i) = .ok (p, ls i, t) ∧
      (∀ j (hj : j < p.length), readNum mem (aRes, i, j) = p[j]) ∧
      ((expected ops).depth ≤ 1 → choices m.tree = .ok fr.cols ∧ fr.cols.length = u.cols ∧ ∀ j, fr.val i j = readNum mem (aRes, i, j)) := by
  unfold RunStochastic at h
  rw [hu] at h
  obtain ⟨hv, _, ht, _, -, labels, hl1, hl2⟩ := runUtilities_ok hu
  simp only at h
  split at h
  · cases h
  obtain ⟨res, hst, he⟩ := h
  obtain ⟨-, rfl⟩ := Prod.mk.inj he
  have hvt := validateTree_of_validate hv
  rw [hm] at hvt hl1
  have hr := rel_after ops hc
  have hne := live_ne_of_valid hr hvt
  have hch := choices_eq hr hvt
  have hcols : u.cols = (expected ops).live.length := by
    rw [hch] at hl1
    cases hl1; simpa using hl2
  refine ⟨hcols, ?_⟩
  rw [ht, hm] at hst
  unfold StochasticStage at hst
  rw [hr.depth_eq hne] at hst
  rcases Nat.lt_or_ge 1 (expected ops).depth with hd | hd
  · simp only [if_pos hd] at hst
    rw [hr.flatten_eq hd] at hst
    obtain ⟨res, hw, hout⟩ := hst
    rcases C12_nested_probabilities _ _ _ _ _ hw with ⟨mem, rfl, hrow⟩ | ⟨_, _, _, _, rfl⟩
    swap
    · rw [elemental_eq hr hvt, hch] at hout; cases hout
    rw [elemental_eq hr hvt, hch] at hout
    simp only [Except.ok.injEq, Prod.mk.injEq] at hout
    obtain ⟨rfl, rfl, -⟩ := hout
    refine ⟨mem, fun i hi => ?_⟩
    have hir : i < u.toRows.length := by unfold Tab.toRows; simpa using hi
    obtain ⟨p, lsv, terms, hmn, h1, h2, -⟩ := hrow i hir
    rw [toRows_get] at hmn
    refine ⟨p, terms, ?_, ?_, fun hd' => absurd hd (not_lt.mpr hd')⟩
    · rw [rowCalc_nested hd]
      show _ = Except.ok (p, readNum mem (aLs, i, 0), terms)
      rw [readNum_eq h2]; exact hmn
    · intro j hj
      have := h1 j (by simpa using hj)
      rw [List.getElem_map] at this
      exact readNum_eq this
  · simp only [if_neg (not_lt.mpr hd)] at hst
    obtain ⟨res, hw, hout⟩ := hst
    rcases C12_multinomial_probabilities _ _ _ hw with ⟨mem, rfl, hrow⟩ | ⟨_, _, _, _, rfl⟩
    swap
    · rw [hch] at hout; cases hout
    rw [hch] at hout
    simp only [Except.ok.injEq, Prod.mk.injEq] at hout
    obtain ⟨rfl, rfl, -⟩ := hout
    refine ⟨mem, fun i hi => ?_⟩
    have hir : i < u.toRows.length := by unfold Tab.toRows; simpa using hi
    obtain ⟨p, lsv, terms, hmn, h1, h2, -⟩ := hrow i hir
    rw [toRows_get] at hmn
    refine ⟨p, terms, ?_, ?_, fun _ => ⟨by rw [hm]; exact hch, by simp [hcols], fun j => rfl⟩⟩
    · rw [rowCalc_flat hd]
      show _ = Except.ok (p, readNum mem (aLs, i, 0), terms)
      rw [readNum_eq h2]; exact hmn
    · intro j hj
      have := h1 j (by simpa using hj)
      rw [List.getElem_map] at this
      exact readNum_eq this

/-- a call of run_discrete that returns: the calculation succeeded for every row, the logsums are its logsums, and each draw comes from its
probabilities -/
theorem discrete_calc {s : Setting F Q} {m m' : CModel U F} (hm : m.tree = after ops) {a : DiscreteArgs Q V} {seed' : SeedArg Q} {r : ResObj V}
    {ls : Nat → F} (h : RunDiscrete s m a (m', seed', .ok (r, ls))) : ∃ u seed ch, m.runUtilities s.K none a.clear = (m', .ok u) ∧
      resolveSeed s.legacy s.fresh a.seed = (seed', .ok seed) ∧ 1 ≤ a.nDraws ∧ choices m.tree = .ok ch ∧ ch.length = u.cols ∧
      u.cols = (expected ops).live.length ∧
      ∃ pos : Nat → Nat → Int, convertResult ch u.rows a.nDraws.toNat pos a.astype a.squeeze = .ok r ∧
        ∀ i < u.rows, ∃ p t, rowCalc ops a.scale true (unitRow u i) = .ok (p, ls i, t) ∧
          ∀ c < a.nDraws.toNat, drawnPos s.rng a.nDraws.toNat seed i c p = some (pos i c) := by
  obtain ⟨seed, u, d, ch, hseed, hn, hu, -, -, hst, hch, hcv, rfl⟩ := runDiscrete_ok h
  obtain ⟨hv, _, ht, _, -, labels, hl1, hl2⟩ := runUtilities_ok hu
  have hvt := validateTree_of_validate hv
  rw [ht] at hch
  rw [hch] at hl1
  cases hl1
  have hch0 := hch
  rw [hm] at hvt hch
  have hr := rel_after ops hc
  have hne := live_ne_of_valid hr hvt
  have hch' := choices_eq hr hvt
  have hlen : ch.length = (expected ops).live.length := by
    rw [hch'] at hch; cases hch; simp
  have hcols : u.cols = (expected ops).live.length := by rw [hl2, hlen]
  rw [ht, hm] at hst
  have hnd : d.nDraws = a.nDraws.toNat := discreteStage_draws hst
  rw [hnd] at hcv
  refine ⟨u, seed, ch, hu, hseed, hn, hch0, by rw [hlen, hcols], hcols, d.pos, hcv, ?_⟩
  unfold DiscreteStage at hst
  simp only at hst
  rw [hr.depth_eq hne] at hst
  have core : ∀ (f : List F → Except Err (List F × F × List F)) (one' : List F → F → Except Err (Int × F))
      (multi : List F → Int → Except Err (List Nat × F)) (n : Nat), 1 ≤ n →
      (∀ u r, one' u r = (f u).map fun o => (sampleOnce o.1 r, o.2.1)) →
      (∀ u t, multi u t = (f u).bind fun o => (sampleMulti s.rng o.1 n t (some n)).map fun ks => (ks, o.2.1)) →
      ∀ mem, SampleOutcome one' multi s.rng u.toRows n seed (.ok mem) → ∀ i < u.rows, ∃ p t, f (unitRow u i) = .ok (p, readNum mem (aLs, i, 0), t) ∧
        ∀ c < n, drawnPos s.rng n seed i c p = some (readIdx mem (aRes, i, c)) := by
    intro f one' multi n hn h1 h2 mem hout i hi
    have hir : i < u.toRows.length := by unfold Tab.toRows; simpa using hi
    rcases hout with ⟨mem', he, hrow⟩ | ⟨_, _, _, he, _⟩
    swap
    · cases he
    cases he
    obtain ⟨ha, hb⟩ := hrow i hir
    rcases Nat.lt_or_ge 1 n with hn1 | hn1
    · obtain ⟨ks, lv, hk, hrr, hl⟩ := hb hn1
      rw [toRows_get, h2] at hk
      cases hf : f (unitRow u i) with
      | error e => rw [hf] at hk; cases hk
      | ok o =>
        obtain ⟨p, lo, t⟩ := o
        rw [hf] at hk
        simp only [Except.bind] at hk
        cases hs : sampleMulti s.rng p n (s.rng.randint seed i) (some n) with
        | error e => rw [hs] at hk; cases hk
        | ok ks' =>
          rw [hs] at hk
          simp only [Except.map, Except.ok.injEq, Prod.mk.injEq] at hk
          obtain ⟨rfl, rfl⟩ := hk
          obtain ⟨hkl, hkv⟩ := sampleMulti_ok hs
          refine ⟨p, t, by rw [readNum_eq hl], fun c hcn => ?_⟩
          have hcl : c < ks'.length := by omega
          have := hrr c (by simpa using hcl)
          rw [List.getElem_map] at this
          unfold drawnPos
          rw [if_neg (not_le.mpr hn1)]
          simp only [numberFor, if_neg (not_le.mpr hn1), hkv c hcl, readIdx, this, Option.map_some]
    · obtain ⟨k, lv, hk, hrr, hl⟩ := ha hn1
      rw [toRows_get, h1] at hk
      cases hf : f (unitRow u i) with
      | error e => rw [hf] at hk; cases hk
      | ok o =>
        obtain ⟨p, lo, t⟩ := o
        rw [hf] at hk
        simp only [Except.map, Except.ok.injEq, Prod.mk.injEq] at hk
        obtain ⟨rfl, rfl⟩ := hk
        refine ⟨p, t, by rw [readNum_eq hl], fun c hcn => ?_⟩
        have : c = 0 := by omega
        subst this
        unfold drawnPos
        rw [if_pos hn1]
        simp only [numberFor, if_pos hn1, readIdx, hrr]
  rcases Nat.lt_or_ge 1 (expected ops).depth with hd | hd
  · simp only [if_pos hd] at hst
    rw [hr.flatten_eq hd] at hst
    obtain ⟨res, hw, hout⟩ := hst
    rw [hch'] at hout
    cases res with
    | error e => cases hout
    | ok mem =>
      simp only [Except.ok.injEq] at hout
      subst hout
      have := core (fun u => nested u (flatUpto (expected ops) (expected ops).live.length) a.scale true) _ _ a.nDraws.toNat (by omega)
        (by intro u r; unfold nestedSample; cases nested u _ a.scale true <;> rfl)
        (by
          intro u t; unfold nestedMultisample
          cases nested u _ a.scale true with
          | error e => rfl
          | ok o => simp only [bind, Except.bind]; cases sampleMulti s.rng o.1 a.nDraws.toNat t (some a.nDraws.toNat) <;> rfl)
        mem (C12_nested_sample _ _ _ _ _ _ _ hw)
      intro i hi
      rw [rowCalc_nested hd]
      exact this i hi
  · simp only [if_neg (not_lt.mpr hd)] at hst
    obtain ⟨res, hw, hout⟩ := hst
    rw [hch'] at hout
    cases res with
    | error e => cases hout
    | ok mem =>
      simp only [Except.ok.injEq] at hout
      subst hout
      have := core (fun u => multinomial u true) _ _ a.nDraws.toNat (by omega)
        (by intro u r; unfold multinomialSample; cases multinomial u true <;> rfl)
        (by
          intro u t; unfold multinomialMultisample
          cases multinomial u true with
          | error e => rfl
          | ok o => simp only [bind, Except.bind]; cases sampleMulti s.rng o.1 a.nDraws.toNat t (some a.nDraws.toNat) <;> rfl)
        mem (C12_multinomial_sample _ _ _ _ _ hw)
      intro i hi
      rw [rowCalc_flat hd]
      exact this i hi

end Cheval
