import Verif.Core.RunCalls
import Verif.Core.ModelHistory
import Verif.Props.Parallel
import Verif.Props.ExampleModel

/-!
# C53: `run_discrete` is reproducible and checks its arguments
-/
namespace Cheval
open FOps Spec
variable {U F R V : Type} [FOps F]

/-- two calls ended alike: with equal results, or both with an exception -/
def Alike {α : Type} (a b : Except Err α) : Prop := (∃ x, a = .ok x ∧ b = .ok x) ∨ (∃ e e', a = .error e ∧ b = .error e')

theorem Alike.refl {α : Type} (a : Except Err α) : Alike a a := by
  cases a with
  | error e => exact .inr ⟨e, e, rfl, rfl⟩
  | ok x => exact .inl ⟨x, rfl, rfl⟩

theorem ParLoop.alike {n : Nat} {body : Nat → Except Err (List (Write F))} {init : Mem F} {o o' : Except Err (Mem F)}
    (hrow : ∀ i < n, ∀ ws, body i = .ok ws → ∀ w ∈ ws, w.1.2.1 = i) (h : ParLoop n body init o) (h' : ParLoop n body init o') :
    Alike o o' := by
  rcases h.not_ok with ⟨m, rfl, ha⟩ | ⟨i, hi, e, he, rfl⟩ <;> rcases h'.not_ok with ⟨m', rfl, ha'⟩ | ⟨i', hi', e', he', rfl⟩
  · exact .inl ⟨m, rfl, by rw [ParLoop.det hrow h h']⟩
  · obtain ⟨ws, hw⟩ := ha i' hi'; rw [hw] at he'; cases he'
  · obtain ⟨ws, hw⟩ := ha' i hi; rw [hw] at he; cases he
  · exact .inr ⟨e, e', rfl, rfl⟩

theorem mnlSample_alike {g : Rng F} {rows : List (List F)} {n : Nat} {seed : Int} {o o' : Except Err (Mem F)}
    (h : WorkerMnlSample g rows n seed o) (h' : WorkerMnlSample g rows n seed o') : Alike o o' := by
  unfold WorkerMnlSample at h h'
  split at h
  · rename_i hn; rw [if_pos hn] at h'
    exact ParLoop.alike (fun i _ ws hws => sampleBody_row _ _ _ i ws hws) h h'
  · rename_i hn; rw [if_neg hn] at h'
    exact ParLoop.alike (fun i _ ws hws => multiBody_row _ _ _ i ws hws) h h'

theorem nestedSample_alike {g : Rng F} {rows : List (List F)} {t : Flat F} {n : Nat} {seed : Int} {sc : Bool} {o o' : Except Err (Mem F)}
    (h : WorkerNestedSample g rows t n seed sc o) (h' : WorkerNestedSample g rows t n seed sc o') : Alike o o' := by
  unfold WorkerNestedSample at h h'
  split at h
  · rename_i hn; rw [if_pos hn] at h'
    exact ParLoop.alike (fun i _ ws hws => sampleBody_row _ _ _ i ws hws) h h'
  · rename_i hn; rw [if_neg hn] at h'
    exact ParLoop.alike (fun i _ ws hws => multiBody_row _ _ _ i ws hws) h h'

theorem discreteStage_alike {g : Rng F} {st : TreeSt F} {rows : List (List F)} {n : Nat} {seed : Int} {sc : Bool}
    {o o' : Except Err (Discrete F)} (h : DiscreteStage g st rows n seed sc o) (h' : DiscreteStage g st rows n seed sc o') :
    Alike o o' := by
  unfold DiscreteStage at h h'
  simp only at h h'
  have fin : ∀ {r r' : Except Err (Mem F)}, Alike r r' →
      (match r, choices st with
        | .error e, _ => o = .error e
        | .ok _, .error e => o = .error e
        | .ok m, .ok ch => o = .ok ⟨n, fun i c => readIdx m (aRes, i, c), fun i c => takeLabel ch (readIdx m (aRes, i, c)),
          fun i => readNum m (aLs, i, 0)⟩) →
      (match r', choices st with
        | .error e, _ => o' = .error e
        | .ok _, .error e => o' = .error e
        | .ok m, .ok ch => o' = .ok ⟨n, fun i c => readIdx m (aRes, i, c), fun i c => takeLabel ch (readIdx m (aRes, i, c)),
          fun i => readNum m (aLs, i, 0)⟩) → Alike o o' := by
    rintro r r' (⟨x, rfl, rfl⟩ | ⟨e, e', rfl, rfl⟩) h1 h2
    · cases hch : choices st with
      | error e => rw [hch] at h1 h2; simp only at h1 h2; subst h1; subst h2; exact .refl _
      | ok ch => rw [hch] at h1 h2; simp only at h1 h2; subst h1; subst h2; exact .refl _
    · simp only at h1 h2; subst h1; subst h2; exact .inr ⟨_, _, rfl, rfl⟩
  cases hd : depth st with
  | error e => rw [hd] at h h'; simp only at h h'; subst h; subst h'; exact .refl _
  | ok d =>
    rw [hd] at h h'
    simp only at h h'
    split at h
    · rename_i h1; rw [if_pos h1] at h'
      cases hf : flatten st with
      | error e => rw [hf] at h h'; simp only at h h'; subst h; subst h'; exact .refl _
      | ok fl =>
        rw [hf] at h h'
        obtain ⟨r, hr, hfin⟩ := h
        obtain ⟨r', hr', hfin'⟩ := h'
        exact fin (nestedSample_alike hr hr') hfin hfin'
    · rename_i h1; rw [if_neg h1] at h'
      obtain ⟨r, hr, hfin⟩ := h
      obtain ⟨r', hr', hfin'⟩ := h'
      exact fin (mnlSample_alike hr hr') hfin hfin'

theorem discreteStage_draws {g : Rng F} {st : TreeSt F} {rows : List (List F)} {n : Nat} {seed : Int} {sc : Bool} {d : Discrete F}
    (h : DiscreteStage g st rows n seed sc (.ok d)) : d.nDraws = n := by
  unfold DiscreteStage at h
  simp only at h
  have fin : ∀ {r : Except Err (Mem F)},
      (match r, choices st with
        | .error e, _ => (Except.ok d : Except Err (Discrete F)) = .error e
        | .ok _, .error e => (Except.ok d : Except Err (Discrete F)) = .error e
        | .ok m, .ok ch => (Except.ok d : Except Err (Discrete F)) = .ok (⟨n, fun i c => readIdx m (aRes, i, c), fun i c => takeLabel ch (readIdx m (aRes, i, c)),
          fun i => readNum m (aLs, i, 0)⟩ : Discrete F)) → d.nDraws = n := by
    intro r h
    split at h
    · cases h
    · cases h
    · cases h; rfl
  split at h
  · cases h
  · split at h
    · split at h
      · cases h
      · obtain ⟨r, _, h⟩ := h; exact fin h
    · obtain ⟨r, _, h⟩ := h; exact fin h

/-- **C53 (reproducible)** Two calls of `run_discrete` on models in the same state, with the same arguments (a RandomState given as
seed being in the same state) and any schedules of the threads, leave the same model and the same seed argument, and either return
the same choices and logsums or both raise. -/
theorem C53_reproducible (s : Setting F R) (m : CModel U F) (a : DiscreteArgs R V)
    (out out' : CModel U F × SeedArg R × Except Err (ResObj V × (Nat → F))) (h : RunDiscrete s m a out) (h' : RunDiscrete s m a out') :
    out.1 = out'.1 ∧ out.2.1 = out'.2.1 ∧ Alike out.2.2 out'.2.2 := by
  unfold RunDiscrete at h h'
  cases hv : m.validate true true true true none with
  | error e => rw [hv] at h h'; simp only at h h'; subst h; subst h'; exact ⟨rfl, rfl, .refl _⟩
  | ok _ =>
    rw [hv] at h h'
    simp only at h h'
    rcases hs : resolveSeed s.legacy s.fresh a.seed with ⟨seed', r⟩
    rw [hs] at h h'
    cases r with
    | error e => simp only at h h'; subst h; subst h'; exact ⟨rfl, rfl, .refl _⟩
    | ok k =>
      simp only at h h'
      split at h
      · rename_i hn; rw [if_pos hn] at h'; subst h; subst h'; exact ⟨rfl, rfl, .refl _⟩
      · rename_i hn; rw [if_neg hn] at h'
        rcases hu : m.runUtilities s.K none a.clear with ⟨m', ru⟩
        rw [hu] at h h'
        cases ru with
        | error e => simp only at h h'; subst h; subst h'; exact ⟨rfl, rfl, .refl _⟩
        | ok u =>
          simp only at h h'
          split at h
          · rename_i ht; rw [if_pos ht] at h'; subst h; subst h'; exact ⟨rfl, rfl, .refl _⟩
          · rename_i ht; rw [if_neg ht] at h'
            obtain ⟨res, hd, ho⟩ := h
            obtain ⟨res', hd', ho'⟩ := h'
            rcases discreteStage_alike hd hd' with ⟨x, rfl, rfl⟩ | ⟨e, e', rfl, rfl⟩
            · cases hch : choices m'.tree with
              | error e => rw [hch] at ho ho'; simp only at ho ho'; subst ho; subst ho'; exact ⟨rfl, rfl, .refl _⟩
              | ok ch => rw [hch] at ho ho'; simp only at ho ho'; subst ho; subst ho'; exact ⟨rfl, rfl, .refl _⟩
            · simp only at ho ho'; subst ho; subst ho'; exact ⟨rfl, rfl, .inr ⟨_, _, rfl, rfl⟩⟩

/-- **C53 (number of draws)** A call with fewer than one draw is rejected with a ValueError if the model is ready and the seed is a
number or RandomState, and leaves the model as it is. -/
theorem C53_rejected (s : Setting F R) (m : CModel U F) (a : DiscreteArgs R V)
    (out : CModel U F × SeedArg R × Except Err (ResObj V × (Nat → F))) (h : RunDiscrete s m a out) (hn : a.nDraws < 1) :
    out.1 = m ∧ (∃ e, out.2.2 = .error e) ∧
    (m.validate true true true true none = .ok () → (∀ e, a.seed ≠ .bad e) → out.2.2 = .error .value) := by
  unfold RunDiscrete at h
  cases hv : m.validate true true true true none with
  | error e => rw [hv] at h; simp only at h; subst h; exact ⟨rfl, ⟨_, rfl⟩, fun h => by cases h⟩
  | ok _ =>
    rw [hv] at h
    simp only [if_pos hn] at h
    cases hs : a.seed with
    | bad e => simp only [resolveSeed, hs] at h; subst h; exact ⟨rfl, ⟨_, rfl⟩, fun _ h => absurd rfl (h e)⟩
    | none => simp only [resolveSeed, hs] at h; subst h; exact ⟨rfl, ⟨_, rfl⟩, fun _ _ => rfl⟩
    | state r => simp only [resolveSeed, hs] at h; subst h; exact ⟨rfl, ⟨_, rfl⟩, fun _ _ => rfl⟩
    | number k => simp only [resolveSeed, hs] at h; subst h; exact ⟨rfl, ⟨_, rfl⟩, fun _ _ => rfl⟩

/-- a successful call, taken apart -/
theorem runDiscrete_ok {s : Setting F R} {m m' : CModel U F} {a : DiscreteArgs R V} {seed' : SeedArg R} {r : ResObj V} {ls : Nat → F}
    (h : RunDiscrete s m a (m', seed', .ok (r, ls))) :
    ∃ k u d ch, resolveSeed s.legacy s.fresh a.seed = (seed', .ok k) ∧ 1 ≤ a.nDraws ∧ m.runUtilities s.K none a.clear = (m', .ok u) ∧
      1 ≤ a.nThreads ∧ a.nThreads ≤ s.maxThreads ∧
      DiscreteStage s.rng m'.tree u.toRows a.nDraws.toNat k a.scale (.ok d) ∧ choices m'.tree = .ok ch ∧
      convertResult ch u.rows d.nDraws d.pos a.astype a.squeeze = .ok r ∧ ls = d.logsum := by
  unfold RunDiscrete at h
  cases hv : m.validate true true true true none with
  | error e => rw [hv] at h; simp at h
  | ok _ =>
    rw [hv] at h
    simp only at h
    rcases hs : resolveSeed s.legacy s.fresh a.seed with ⟨seed2, rs⟩
    rw [hs] at h
    cases rs with
    | error e => simp at h
    | ok k =>
      simp only at h
      split at h
      · simp at h
      · rename_i hn
        rcases hu : m.runUtilities s.K none a.clear with ⟨m2, ru⟩
        rw [hu] at h
        cases ru with
        | error e => simp at h
        | ok u =>
          simp only at h
          split at h
          · simp at h
          · rename_i ht
            obtain ⟨res, hd, ho⟩ := h
            cases res with
            | error e => simp at ho
            | ok d =>
              cases hch : choices m2.tree with
              | error e => rw [hch] at ho; simp at ho
              | ok ch =>
                rw [hch] at ho
                simp only [Prod.mk.injEq] at ho
                obtain ⟨rfl, rfl, ho⟩ := ho
                cases hcv : convertResult ch u.rows d.nDraws d.pos a.astype a.squeeze with
                | error e => rw [hcv] at ho; cases ho
                | ok r2 =>
                  rw [hcv] at ho
                  simp only [Except.map, Except.ok.injEq, Prod.mk.injEq] at ho
                  obtain ⟨rfl, rfl⟩ := ho
                  simp only [not_or, not_lt] at ht
                  exact ⟨k, u, d, ch, rfl, by omega, rfl, ht.1, ht.2, hd, hch, hcv, rfl⟩

/-- **C53 (number of draws)** A call that returns has at least one draw, and gives a DataFrame with exactly one column per draw; for one
draw and `squeeze` it gives a Series instead. -/
theorem C53_draws (s : Setting F R) (m m' : CModel U F) (a : DiscreteArgs R V) (seed' : SeedArg R) (r : ResObj V) (ls : Nat → F)
    (h : RunDiscrete s m a (m', seed', .ok (r, ls))) :
    1 ≤ a.nDraws ∧
    ((a.squeeze = true ∧ a.nDraws = 1 ∧ ∃ val, r = .series val) ∨
     (¬ (a.squeeze = true ∧ a.nDraws = 1) ∧ ∃ val, r = .frame (List.range a.nDraws.toNat) val)) := by
  obtain ⟨k, u, d, ch, _, hn, _, _, _, hd, _, hcv, _⟩ := runDiscrete_ok h
  rw [discreteStage_draws hd] at hcv
  refine ⟨hn, ?_⟩
  have key : ∀ (f : Nat → Nat → ResCell V) (x : ResObj V), (if (a.squeeze && decide (a.nDraws.toNat = 1)) = true then ResObj.series fun i => f i 0
      else .frame (List.range a.nDraws.toNat) f) = x →
      ((a.squeeze = true ∧ a.nDraws = 1 ∧ ∃ val, x = .series val) ∨
       (¬ (a.squeeze = true ∧ a.nDraws = 1) ∧ ∃ val, x = .frame (List.range a.nDraws.toNat) val)) := by
    intro f x hx
    split at hx
    · rename_i hc
      simp only [Bool.and_eq_true, decide_eq_true_eq] at hc
      exact .inl ⟨hc.1, by omega, _, hx.symm⟩
    · rename_i hc
      simp only [Bool.and_eq_true, decide_eq_true_eq] at hc
      exact .inr ⟨fun h => hc ⟨h.1, by omega⟩, _, hx.symm⟩
  unfold convertResult at hcv
  cases hast : a.astype with
  | index => rw [hast] at hcv; exact key _ _ (Except.ok.inj hcv)
  | category =>
    rw [hast] at hcv
    simp only at hcv
    split at hcv
    · cases hcv
    · exact key _ _ (Except.ok.inj hcv)
  | dtype conv =>
    rw [hast] at hcv
    simp only at hcv
    split at hcv
    · cases hcv
    · split at hcv
      · cases hcv
      · exact key _ _ (Except.ok.inj hcv)

/-- **C53 (seeds)** A call without a seed or with a RandomState behaves as with some number from 1 to 9999 as seed; for a RandomState the
number depends on its state only, and the object has moved on afterwards. -/
theorem C53_seeds (s : Setting F R) (m : CModel U F) (a : DiscreteArgs R V) (r : R)
    (hv : m.validate true true true true none = .ok ()) :
    (∃ k : Int, 1 ≤ k ∧ k < 10000 ∧ ∀ m' x res, RunDiscrete s m { a with seed := .none } (m', x, res) ↔
      x = .none ∧ RunDiscrete s m { a with seed := .number k } (m', .number k, res)) ∧
    (∃ k : Int, 1 ≤ k ∧ k < 10000 ∧ (s.legacy.next r).2 = k ∧ ∀ m' x res, RunDiscrete s m { a with seed := .state r } (m', x, res) ↔
      x = .state (s.legacy.next r).1 ∧ RunDiscrete s m { a with seed := .number k } (m', .number k, res)) := by
  have gen : ∀ (arg arg' : SeedArg R) (k : Int), resolveSeed s.legacy s.fresh arg = (arg', .ok k) → ∀ m' x res,
      RunDiscrete s m { a with seed := arg } (m', x, res) ↔
        x = arg' ∧ RunDiscrete s m { a with seed := .number k } (m', .number k, res) := by
    intro arg arg' k hr m' x res
    have hr2 : resolveSeed s.legacy s.fresh (.number k) = (.number k, .ok k) := rfl
    unfold RunDiscrete
    simp only [hv, hr, hr2]
    split
    · simp only [Prod.mk.injEq]; tauto
    · split
      · simp only [Prod.mk.injEq]; tauto
      · split
        · simp only [Prod.mk.injEq]; tauto
        · constructor
          · rintro ⟨q, h1, h2⟩
            split at h2
            all_goals
              simp only [Prod.mk.injEq] at h2
              refine ⟨h2.2.1, ?_⟩
            · exact ⟨_, h1, by simp [h2.1, h2.2.2]⟩
            · rename_i hch; exact ⟨_, h1, by simp [h2.1, h2.2.2, hch]⟩
            · rename_i hch; exact ⟨_, h1, by simp [h2.1, h2.2.2, hch]⟩
          · rintro ⟨rfl, q, h1, h2⟩
            refine ⟨q, h1, ?_⟩
            split at h2
            all_goals
              simp only [Prod.mk.injEq] at h2
              simp [h2.1, h2.2.2, *]
  exact ⟨⟨_, (s.legacy.range _).1, (s.legacy.range _).2, gen _ _ _ rfl⟩, ⟨_, (s.legacy.range _).1, (s.legacy.range _).2, rfl, gen _ _ _ rfl⟩⟩

/-- **C53 (precision)** The setter accepts exactly 4 and 8; a rejected value raises ValueError and keeps everything. -/
theorem C53_precision (m : CModel U F) (i : Nat) :
    (i = 4 ∨ i = 8 → (m.setPrecision i).2 = .ok () ∧ (m.setPrecision i).1 = { m with precision := i }) ∧
    (¬ (i = 4 ∨ i = 8) → (m.setPrecision i).2 = .error .value ∧ (m.setPrecision i).1 = m) := by
  unfold CModel.setPrecision
  constructor <;> intro h <;> simp [h]

/-- **C53 (precision)** So the precision is 4 or 8 after every history of a model that could be created. -/
theorem C53_precision_always [DecidableEq U] (K : Kernel F) (env : PyEnv) (py : PyParser) (i : Nat) (m : CModel U F)
    (hm : CModel.new i = .ok m) (ops : List (ModelOp U F)) :
    (modelRun K env py m ops).precision = 4 ∨ (modelRun K env py m ops).precision = 8 := by
  have h0 : m.precision = 4 ∨ m.precision = 8 := by
    unfold CModel.new at hm
    split at hm
    · rename_i h; cases hm; exact h
    · cases hm
  clear hm
  unfold modelRun
  induction ops generalizing m with
  | nil => exact h0
  | cons op ops ih =>
    refine ih _ ?_
    cases op with
    | setUnits u => exact h0
    | declare n s => simp only [modelStep, CModel.declare]; split <;> exact h0
    | assign n d =>
      simp only [modelStep, CModel.assign]
      split
      · exact h0
      · split <;> exact h0
    | clearScope => exact h0
    | expr op => exact h0
    | addChoice n s => exact h0
    | addNested a n s => exact h0
    | addChoices ns ss => exact h0
    | setScale a v => exact h0
    | setExpressions ts => exact h0
    | setExpressionsText t => exact h0
    | addPartial tb rr rc out => obtain ⟨c, hc⟩ := addPartialStep_keeps K env py m tb rr rc out; rw [hc]; exact h0
    | setPrecision i => simp only [modelStep, CModel.setPrecision]; split <;> assumption
    | run g c =>
      simp only [modelStep]
      obtain ⟨t, ht | ht⟩ := runUtilities_keeps K m g c <;> rw [ht] <;> exact h0
    | preval k d c =>
      simp only [modelStep]
      obtain ⟨t, sc, ex, ht, _, hx⟩ := preval_keeps K m k d c
      rw [ht]; exact h0
    | copy a b c d e =>
      simp only [modelStep]
      cases hc : m.copy a b c d e with
      | error er => exact h0
      | ok m' =>
        obtain ⟨sc, _, rfl⟩ := copy_ok hc
        exact h0
    | copySubset ix mask =>
      simp only [modelStep]
      cases hc : m.copySubset ix mask with
      | error er => exact h0
      | ok m' =>
        obtain ⟨_, _, sc, ca, _, _, rfl⟩ := copySubset_ok hc
        exact h0

theorem runUtilities_cached {K : Kernel F} {m m' : CModel U F} {g : Option Nat} {clear : Bool} {u : Tab F}
    (h : m.runUtilities K g clear = (m', .ok u)) : ∃ ix, m'.cached = some (ix, u) := by
  unfold CModel.runUtilities at h
  split at h
  · cases h
  · cases h
  · rename_i c _ _
    rcases he : m.evaluate K c with ⟨m2, r⟩
    rw [he] at h
    cases r with
    | error e => cases h
    | ok u2 =>
      simp only [Prod.mk.injEq, Except.ok.injEq] at h
      obtain ⟨rfl, rfl⟩ := h
      suffices hs : ∃ ix, m2.cached = some (ix, u2) by
        obtain ⟨ix, hs⟩ := hs; exact ⟨ix, by cases clear <;> exact hs⟩
      unfold CModel.evaluate at he
      split at he
      · cases he
      · cases he
      · split at he
        · cases he
        · split at he
          · cases he
          · split at he
            · cases he
            · simp only at he
              split at he
              · cases he
              · split at he
                · cases he
                · cases he; exact ⟨_, rfl⟩

/-- **C53 (threads)** The number of threads is only checked after the utilities were added: a rejected number raises ValueError but
leaves the utilities in the model, so that a repeated call does not start where the first one did. -/
theorem C53_threads_checked_late (s : Setting F R) (m m' : CModel U F) (a : DiscreteArgs R V) (u : Tab F) (k : Int) (seed' : SeedArg R)
    (hv : m.validate true true true true none = .ok ())
    (hs : resolveSeed s.legacy s.fresh a.seed = (seed', .ok k)) (hn : 1 ≤ a.nDraws)
    (hu : m.runUtilities s.K none a.clear = (m', .ok u)) (ht : a.nThreads < 1 ∨ s.maxThreads < a.nThreads)
    (out : CModel U F × SeedArg R × Except Err (ResObj V × (Nat → F))) (h : RunDiscrete s m a out) :
    out = (m', seed', .error .value) ∧ ∃ ix, m'.cached = some (ix, u) := by
  refine ⟨?_, runUtilities_cached hu⟩
  unfold RunDiscrete at h
  simp only [hv, hs, hu, if_neg (not_lt.mpr hn), if_pos ht] at h
  exact h

/-- **C53 (threads)** The same holds for run_stochastic: the numbers of threads from 1 to the number Numba was started with are accepted, all
others raise ValueError, after the utilities were added. -/
theorem C53_threads_stochastic (s : Setting F R) (m m' : CModel U F) (group : Option Nat) (threads : Int) (clear scale check : Bool) (u : Tab F)
    (hu : m.runUtilities s.K group clear = (m', .ok u)) (out : CModel U F × Except Err (Frame F × (Nat → F) × Frame F))
    (h : RunStochastic s m group threads clear scale check out) :
    ((threads < 1 ∨ s.maxThreads < threads) → out = (m', .error .value)) ∧
    (1 ≤ threads → threads ≤ s.maxThreads → ∃ res, StochasticStage m'.tree u.toRows scale check res ∧ out = (m', res)) ∧
    ∃ ix, m'.cached = some (ix, u) := by
  refine ⟨fun ht => ?_, fun h1 h2 => ?_, runUtilities_cached hu⟩
  · unfold RunStochastic at h
    simp only [hu, if_pos ht] at h
    exact h
  · unfold RunStochastic at h
    simp only [hu] at h
    rw [if_neg (by omega)] at h
    exact h

end Cheval
