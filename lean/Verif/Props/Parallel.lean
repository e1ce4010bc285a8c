import Verif.Core.Parallel
import Verif.Core.SamplingLemmas
import Verif.Props.Multinomial

/-!
# Schedule independence of the parallel workers (C12) and of `add_partial_utilities` (C13)
-/
namespace Cheval
open FOps
set_option linter.unusedSectionVars false

/-! ## Interleavings -/

/-- running the iterations one after the other is one of the schedules -/
theorem interleaving_sequential {α : Type} (ts : List (List α)) : Interleaving ts ts.flatten := by
  suffices h : ∀ (n : Nat) (ts : List (List α)), ts.flatten.length = n → Interleaving ts ts.flatten from h _ ts rfl
  intro n
  induction n with
  | zero =>
    intro ts h
    have h0 : ts.flatten = [] := List.length_eq_zero_iff.mp h
    rw [h0]
    exact .nil ts (fun t ht => by
      have := List.flatten_eq_nil_iff.mp h0
      exact this t ht)
  | succ n ih =>
    intro ts h
    -- first non-empty iteration
    have key : ∀ (ts : List (List α)) (a : α) (s : List α), ts.flatten = a :: s →
        ∃ i rest, ts[i]? = some (a :: rest) ∧ (ts.set i rest).flatten = s := by
      intro ts
      induction ts with
      | nil => intro a s h; simp at h
      | cons t ts iht =>
        intro a s h
        cases t with
        | nil =>
          obtain ⟨i, rest, h1, h2⟩ := iht a s (by simpa using h)
          exact ⟨i + 1, rest, by simpa using h1, by simpa using h2⟩
        | cons b t =>
          simp only [List.flatten_cons, List.cons_append, List.cons.injEq] at h
          obtain ⟨rfl, h⟩ := h
          exact ⟨0, t, by simp, by simpa using h⟩
    cases hf : ts.flatten with
    | nil => rw [hf] at h; simp at h
    | cons a s =>
      obtain ⟨i, rest, h1, h2⟩ := key ts a s hf
      refine .step ts i a rest s h1 ?_
      have hl : (ts.set i rest).flatten.length = n := by
        rw [h2]; rw [hf] at h; simpa using h
      have := ih _ hl
      rwa [h2] at this

/-- the operations satisfying `P` of an interleaving are those of iteration `i`, in order, when no other iteration has
any -/
theorem Interleaving.filter_eq {α : Type} (P : α → Bool) (i : Nat) :
    ∀ {ts : List (List α)} {s : List α}, Interleaving ts s →
      (∀ j t, j ≠ i → ts[j]? = some t → ∀ a ∈ t, P a = false) →
      s.filter P = (ts[i]?.getD []).filter P := by
  intro ts s h
  induction h with
  | nil ts h =>
    intro _
    cases hi : ts[i]? with
    | none => simp
    | some t => rw [h t (List.mem_of_getElem? hi)]; simp
  | step ts k a rest s hk _ ih =>
    intro hP
    have hklt : k < ts.length := by
      by_contra hc
      rw [List.getElem?_eq_none (by omega)] at hk
      simp at hk
    have ih' := ih (by
      intro j t hj ht a' ha'
      by_cases hjk : k = j
      · subst hjk
        rw [List.getElem?_set_self hklt] at ht
        obtain rfl : rest = t := by simpa using ht
        exact hP k (a :: rest) hj hk a' (by simp [ha'])
      · rw [List.getElem?_set_ne hjk] at ht
        exact hP j t hj ht a' ha')
    by_cases hki : k = i
    · subst hki
      rw [List.getElem?_set_self hklt] at ih'
      rw [hk, List.filter_cons, ih']
      simp [List.filter_cons]
    · rw [List.getElem?_set_ne hki] at ih'
      have := hP k (a :: rest) hki hk a (by simp)
      rw [List.filter_cons, this, ih']
      simp

/-! ## Store-only iterations -/
section stores
variable {F : Type}

theorem foldl_doWrite_filter (l : Loc) (s : List (Write F)) (m m' : Mem F) (h : m l = m' l) :
    (s.foldl doWrite m) l = ((s.filter (fun w => decide (w.1 = l))).foldl doWrite m') l := by
  induction s generalizing m m' with
  | nil => simpa using h
  | cons w s ih =>
    by_cases hw : w.1 = l
    · simp only [List.foldl_cons, List.filter_cons, hw, decide_true, if_true]
      exact ih _ _ (by simp [doWrite, hw])
    · simp only [List.foldl_cons, List.filter_cons, hw, decide_false, Bool.false_eq_true, if_false]
      exact ih _ _ (by simp only [doWrite]; rw [if_neg (fun hc => hw hc.symm), h])

/-- every schedule of a parallel loop whose iteration `i` only stores into row `i`: a cell of row `i` holds what
iteration `i` alone would have left there -/
theorem ParLoop.cell {n : Nat} {bodies : Nat → List (Write F)} {s : List (Write F)} {init : Mem F}
    (hrow : ∀ i < n, ∀ w ∈ bodies i, w.1.2.1 = i)
    (hs : Interleaving ((List.range n).map bodies) s) (l : Loc) (hl : l.2.1 < n) :
    (s.foldl doWrite init) l = ((bodies l.2.1).foldl doWrite init) l := by
  rw [foldl_doWrite_filter l s init init rfl, foldl_doWrite_filter l (bodies l.2.1) init init rfl,
    hs.filter_eq _ l.2.1]
  · simp [hl]
  · intro j t hj ht a ha
    have hjn : j < n := by
      by_contra hc
      rw [List.getElem?_eq_none (by simpa using hc)] at ht
      simp at ht
    simp only [List.getElem?_map, List.getElem?_range hjn, Option.map_some, Option.some.injEq] at ht
    subst ht
    have := hrow j hjn a ha
    simp only [decide_eq_false_iff_not]
    intro hc
    rw [hc] at this
    exact hj this.symm

theorem ParLoop.cell_untouched {n : Nat} {bodies : Nat → List (Write F)} {s : List (Write F)} {init : Mem F}
    (hrow : ∀ i < n, ∀ w ∈ bodies i, w.1.2.1 = i)
    (hs : Interleaving ((List.range n).map bodies) s) (l : Loc) (hl : ¬ l.2.1 < n) :
    (s.foldl doWrite init) l = init l := by
  rw [foldl_doWrite_filter l s init init rfl, hs.filter_eq _ l.2.1]
  · simp [hl]
  · intro j t hj ht a ha
    have hjn : j < n := by
      by_contra hc
      rw [List.getElem?_eq_none (by simpa using hc)] at ht
      simp at ht
    simp only [List.getElem?_map, List.getElem?_range hjn, Option.map_some, Option.some.injEq] at ht
    subst ht
    have := hrow j hjn a ha
    simp only [decide_eq_false_iff_not]
    intro hc
    rw [hc] at this
    exact hj this.symm

/-- any two completed runs of the same loop leave the same memory -/
theorem ParLoop.det {n : Nat} {body : Nat → Except Err (List (Write F))} {init : Mem F} {m m' : Mem F}
    (hrow : ∀ i < n, ∀ ws, body i = .ok ws → ∀ w ∈ ws, w.1.2.1 = i)
    (h : ParLoop n body init (.ok m)) (h' : ParLoop n body init (.ok m')) : m = m' := by
  rcases h with ⟨b, s, hb, hs, e⟩ | ⟨i, _, e, _, he⟩
  swap; · cases he
  rcases h' with ⟨b', s', hb', hs', e'⟩ | ⟨i, _, e, _, he⟩
  swap; · cases he
  obtain rfl := Except.ok.inj e
  obtain rfl := Except.ok.inj e'
  have hr : ∀ i < n, ∀ w ∈ b i, w.1.2.1 = i := fun i hi w hw => hrow i hi _ (hb i hi) w hw
  have hr' : ∀ i < n, ∀ w ∈ b' i, w.1.2.1 = i := fun i hi w hw => hrow i hi _ (hb' i hi) w hw
  funext l
  by_cases hl : l.2.1 < n
  · rw [ParLoop.cell hr hs l hl, ParLoop.cell hr' hs' l hl]
    have := (hb _ hl).symm.trans (hb' _ hl)
    rw [Except.ok.inj this]
  · rw [ParLoop.cell_untouched hr hs l hl, ParLoop.cell_untouched hr' hs' l hl]

/-- a loop none of whose iterations raises completes, and some schedule exists -/
theorem ParLoop.exists_ok {n : Nat} {body : Nat → Except Err (List (Write F))} {init : Mem F}
    (h : ∀ i < n, ∃ ws, body i = .ok ws) : ∃ m, ParLoop n body init (.ok m) := by
  classical
  let b : Nat → List (Write F) := fun i => if hi : i < n then (h i hi).choose else []
  refine ⟨_, Or.inl ⟨b, _, fun i hi => ?_, interleaving_sequential _, rfl⟩⟩
  simp only [b, hi, dif_pos]
  exact (h i hi).choose_spec

theorem rowWrites_row {α : Type} (array i : Nat) (f : α → Cell F) (vs : List α) :
    ∀ w ∈ rowWrites array i f vs, w.1.2.1 = i ∧ w.1.1 = array := by
  intro w hw
  simp only [rowWrites, List.mem_mapIdx] at hw
  obtain ⟨j, _, rfl⟩ := hw
  simp

theorem foldl_doWrite_other (l : Loc) (ws : List (Write F)) (m : Mem F) (h : ∀ w ∈ ws, w.1 ≠ l) :
    (ws.foldl doWrite m) l = m l := by
  induction ws generalizing m with
  | nil => rfl
  | cons w ws ih =>
    rw [List.foldl_cons, ih _ (fun w' hw' => h w' (by simp [hw']))]
    simp only [doWrite]
    rw [if_neg (fun hc => h w (by simp) hc.symm)]

theorem foldl_rowWrites {α : Type} (array i : Nat) (f : α → Cell F) (vs : List α) (m : Mem F) (j : Nat)
    (hj : j < vs.length) : ((rowWrites array i f vs).foldl doWrite m) (array, i, j) = f vs[j] := by
  induction vs using List.reverseRecOn with
  | nil => simp at hj
  | append_singleton vs v ih =>
    simp only [rowWrites, List.mapIdx_concat, List.foldl_concat] at ih ⊢
    simp only [doWrite]
    by_cases hjl : j = vs.length
    · subst hjl; simp
    · rw [if_neg (by simp [hjl])]
      have hj' : j < vs.length := by simp at hj; omega
      rw [ih hj']
      simp [List.getElem_append_left hj']

end stores

/-! ## C12 -/
section C12
variable {F : Type} [FOps F]

/-- row `i` of array `a` holds `vs` -/
def HoldsRow (m : Mem F) (a i : Nat) (vs : List (Cell F)) : Prop := ∀ j (h : j < vs.length), m (a, i, j) = vs[j]

theorem probBody_row (f : List F → Except Err (List F × F × List F)) (rows : List (List F)) (i : Nat)
    (ws : List (Write F)) (h : probBody f rows i = .ok ws) : ∀ w ∈ ws, w.1.2.1 = i := by
  unfold probBody at h
  cases hf : f (rows.getD i []) with
  | error e => rw [hf] at h; cases h
  | ok r =>
    obtain ⟨p, ls, terms⟩ := r
    rw [hf] at h
    obtain rfl := Except.ok.inj h
    intro w hw
    simp only [List.mem_append, List.mem_singleton] at hw
    rcases hw with (hw | rfl) | hw
    · exact (rowWrites_row _ _ _ _ w hw).1
    · rfl
    · exact (rowWrites_row _ _ _ _ w hw).1

theorem probBody_cells {f : List F → Except Err (List F × F × List F)} {rows : List (List F)} {i : Nat}
    {p terms : List F} {ls : F} (h : f (rows.getD i []) = .ok (p, ls, terms)) :
    ∃ ws, probBody f rows i = .ok ws ∧ ∀ m : Mem F,
      HoldsRow (ws.foldl doWrite m) aRes i (p.map .num) ∧ (ws.foldl doWrite m) (aLs, i, 0) = .num ls ∧
      HoldsRow (ws.foldl doWrite m) aTerms i (terms.map .num) := by
  refine ⟨rowWrites aRes i .num p ++ [((aLs, i, 0), .num ls)] ++ rowWrites aTerms i .num terms, ?_, fun m => ⟨?_, ?_, ?_⟩⟩
  · unfold probBody; rw [h]; rfl
  · intro j hj
    simp only [List.length_map] at hj
    rw [List.foldl_append, List.foldl_append, foldl_doWrite_other, List.foldl_cons, List.foldl_nil]
    · simp only [doWrite]
      rw [if_neg (by simp [aRes, aLs]), foldl_rowWrites _ _ _ _ _ _ hj]
      simp
    · intro w hw hc
      have := (rowWrites_row _ _ _ _ w hw).2
      rw [hc] at this
      simp [aRes, aTerms] at this
  · rw [List.foldl_append, List.foldl_append, foldl_doWrite_other, List.foldl_cons, List.foldl_nil]
    · simp [doWrite]
    · intro w hw hc
      have := (rowWrites_row _ _ _ _ w hw).2
      rw [hc] at this
      simp [aLs, aTerms] at this
  · intro j hj
    simp only [List.length_map] at hj
    rw [List.foldl_append, foldl_rowWrites _ _ _ _ _ _ hj]
    simp

theorem sampleBody_row (f : List F → F → Except Err (Int × F)) (rows : List (List F)) (draws : List F) (i : Nat)
    (ws : List (Write F)) (h : sampleBody f rows draws i = .ok ws) : ∀ w ∈ ws, w.1.2.1 = i := by
  unfold sampleBody at h
  cases hf : f (rows.getD i []) (draws.getD i zero) with
  | error e => rw [hf] at h; cases h
  | ok r =>
    rw [hf] at h
    obtain rfl := Except.ok.inj h
    intro w hw
    simp only [List.mem_cons, List.not_mem_nil, or_false] at hw
    rcases hw with rfl | rfl <;> rfl

theorem multiBody_row (f : List F → Int → Except Err (List Nat × F)) (rows : List (List F)) (seeds : List Int) (i : Nat)
    (ws : List (Write F)) (h : multiBody f rows seeds i = .ok ws) : ∀ w ∈ ws, w.1.2.1 = i := by
  unfold multiBody at h
  cases hf : f (rows.getD i []) (seeds.getD i 0) with
  | error e => rw [hf] at h; cases h
  | ok r =>
    rw [hf] at h
    obtain rfl := Except.ok.inj h
    intro w hw
    simp only [List.mem_append, List.mem_singleton] at hw
    rcases hw with hw | rfl
    · exact (rowWrites_row _ _ _ _ w hw).1
    · rfl

/-- what a completed run leaves in row `i` is what iteration `i` alone leaves there -/
theorem ParLoop.ok_cell {n : Nat} {body : Nat → Except Err (List (Write F))} {init : Mem F} {m : Mem F}
    (hrow : ∀ i < n, ∀ ws, body i = .ok ws → ∀ w ∈ ws, w.1.2.1 = i) (h : ParLoop n body init (.ok m))
    {i : Nat} (hi : i < n) {ws : List (Write F)} (hws : body i = .ok ws) (a j : Nat) :
    m (a, i, j) = (ws.foldl doWrite init) (a, i, j) := by
  rcases h with ⟨b, s, hb, hs, e⟩ | ⟨i, _, e, _, he⟩
  swap; · cases he
  obtain rfl := Except.ok.inj e
  have hr : ∀ i < n, ∀ w ∈ b i, w.1.2.1 = i := fun i hi w hw => hrow i hi _ (hb i hi) w hw
  rw [ParLoop.cell hr hs (a, i, j) hi]
  have := (hb _ hi).symm.trans hws
  rw [Except.ok.inj this]

theorem ParLoop.not_ok {n : Nat} {body : Nat → Except Err (List (Write F))} {init : Mem F} {out : Except Err (Mem F)}
    (h : ParLoop n body init out) :
    (∃ m, out = .ok m ∧ ∀ i < n, ∃ ws, body i = .ok ws) ∨ (∃ i < n, ∃ e, body i = .error e ∧ out = .error e) := by
  rcases h with ⟨b, s, hb, _, e⟩ | h
  · exact .inl ⟨_, e, fun i hi => ⟨_, hb i hi⟩⟩
  · exact .inr h

/-- what every run of a probability worker may return, row function `f` -/
def ProbOutcome (f : List F → Except Err (List F × F × List F)) (rows : List (List F)) (out : Except Err (Mem F)) : Prop :=
  (∃ m, out = .ok m ∧ ∀ i (hi : i < rows.length), ∃ p ls terms, f rows[i] = .ok (p, ls, terms) ∧
      HoldsRow m aRes i (p.map .num) ∧ m (aLs, i, 0) = .num ls ∧ HoldsRow m aTerms i (terms.map .num)) ∨
  (∃ u ∈ rows, ∃ e, f u = .error e ∧ out = .error e)

theorem probLoop_outcome (f : List F → Except Err (List F × F × List F)) (rows : List (List F))
    (out : Except Err (Mem F)) (h : ParLoop rows.length (probBody f rows) zeroMem out) : ProbOutcome f rows out := by
  have hrow : ∀ i < rows.length, ∀ ws, probBody f rows i = .ok ws → ∀ w ∈ ws, w.1.2.1 = i :=
    fun i _ ws hws => probBody_row f rows i ws hws
  rcases h.not_ok with ⟨m, rfl, hall⟩ | ⟨i, hi, e, he, rfl⟩
  · refine .inl ⟨m, rfl, fun i hi => ?_⟩
    obtain ⟨ws, hws⟩ := hall i hi
    have hg : rows.getD i [] = rows[i] := by simp [hi]
    cases hf : f rows[i] with
    | error e => unfold probBody at hws; rw [hg, hf] at hws; cases hws
    | ok r =>
      obtain ⟨p, ls, terms⟩ := r
      obtain ⟨ws', hws', hc⟩ := probBody_cells (f := f) (rows := rows) (i := i) (hg ▸ hf)
      obtain ⟨h1, h2, h3⟩ := hc zeroMem
      refine ⟨p, ls, terms, rfl, ?_, ?_, ?_⟩
      · intro j hj; rw [ParLoop.ok_cell hrow h hi hws' aRes j, h1 j hj]
      · rw [ParLoop.ok_cell hrow h hi hws' aLs 0, h2]
      · intro j hj; rw [ParLoop.ok_cell hrow h hi hws' aTerms j, h3 j hj]
  · refine .inr ⟨rows[i], List.getElem_mem hi, e, ?_, rfl⟩
    have hg : rows.getD i [] = rows[i] := by simp [hi]
    unfold probBody at he
    rw [hg] at he
    cases hf : f rows[i] with
    | error e' => rw [hf] at he; cases he; rfl
    | ok r => rw [hf] at he; cases he

/-- C12: whatever the schedule, row `i` of the multinomial probabilities is the result of row `i` alone; an exception is
one raised by some row. -/
theorem C12_multinomial_probabilities (rows : List (List F)) (check : Bool) (out : Except Err (Mem F))
    (h : WorkerMnlProb rows check out) : ProbOutcome (fun u => multinomial u check) rows out :=
  probLoop_outcome _ rows out h

/-- C12: the same for nested models. -/
theorem C12_nested_probabilities (rows : List (List F)) (t : Flat F) (scaleU check : Bool) (out : Except Err (Mem F))
    (h : WorkerNestedProb rows t scaleU check out) : ProbOutcome (fun u => nested u t scaleU check) rows out :=
  probLoop_outcome _ rows out h

/-- what every run of a sampling worker may return: row `i` only depends on utility row `i` and on the `i`-th number of
the random stream -/
def SampleOutcome (one : List F → F → Except Err (Int × F)) (multi : List F → Int → Except Err (List Nat × F))
    (g : Rng F) (rows : List (List F)) (n : Nat) (seed : Int) (out : Except Err (Mem F)) : Prop :=
  (∃ m, out = .ok m ∧ ∀ i (hi : i < rows.length),
    (n ≤ 1 → ∃ k ls, one rows[i] (g.uniform seed i) = .ok (k, ls) ∧ m (aRes, i, 0) = .idx k ∧ m (aLs, i, 0) = .num ls) ∧
    (1 < n → ∃ ks ls, multi rows[i] (g.randint seed i) = .ok (ks, ls) ∧
      HoldsRow m aRes i (ks.map fun (k : Nat) => .idx k) ∧ m (aLs, i, 0) = .num ls)) ∨
  (∃ i, ∃ hi : i < rows.length, ∃ e, out = .error e ∧
    ((n ≤ 1 ∧ one rows[i] (g.uniform seed i) = .error e) ∨ (1 < n ∧ multi rows[i] (g.randint seed i) = .error e)))

theorem sampleLoop_outcome (one : List F → F → Except Err (Int × F)) (multi : List F → Int → Except Err (List Nat × F))
    (g : Rng F) (rows : List (List F)) (n : Nat) (seed : Int) (out : Except Err (Mem F))
    (h : if n ≤ 1 then ParLoop rows.length (sampleBody one rows (genFloats g seed rows.length)) zeroMem out
      else ParLoop rows.length (multiBody multi rows (genInts g seed rows.length)) zeroMem out) :
    SampleOutcome one multi g rows n seed out := by
  by_cases hn : n ≤ 1
  · rw [if_pos hn] at h
    have hrow : ∀ i < rows.length, ∀ ws, sampleBody one rows (genFloats g seed rows.length) i = .ok ws →
      ∀ w ∈ ws, w.1.2.1 = i := fun i _ ws hws => sampleBody_row _ _ _ i ws hws
    have hb : ∀ i (hi : i < rows.length), sampleBody one rows (genFloats g seed rows.length) i =
        (do let (k, ls) ← one rows[i] (g.uniform seed i)
            return [((aRes, i, 0), .idx k), ((aLs, i, 0), .num ls)]) := by
      intro i hi; unfold sampleBody; simp [hi, genFloats]
    rcases h.not_ok with ⟨m, rfl, hall⟩ | ⟨i, hi, e, he, rfl⟩
    · refine .inl ⟨m, rfl, fun i hi => ⟨fun _ => ?_, fun hc => absurd hc (by omega)⟩⟩
      obtain ⟨ws, hws⟩ := hall i hi
      have hc := ParLoop.ok_cell hrow h hi hws
      rw [hb i hi] at hws
      cases hf : one rows[i] (g.uniform seed i) with
      | error e => rw [hf] at hws; cases hws
      | ok r =>
        obtain ⟨k, ls⟩ := r
        rw [hf] at hws
        obtain rfl := Except.ok.inj hws
        exact ⟨k, ls, rfl, by rw [hc]; simp [doWrite, aRes, aLs], by rw [hc]; simp [doWrite]⟩
    · refine .inr ⟨i, hi, e, rfl, .inl ⟨hn, ?_⟩⟩
      rw [hb i hi] at he
      cases hf : one rows[i] (g.uniform seed i) with
      | error e' => rw [hf] at he; cases he; rfl
      | ok r => rw [hf] at he; cases he
  · rw [if_neg hn] at h
    have hrow : ∀ i < rows.length, ∀ ws, multiBody multi rows (genInts g seed rows.length) i = .ok ws →
      ∀ w ∈ ws, w.1.2.1 = i := fun i _ ws hws => multiBody_row _ _ _ i ws hws
    have hb : ∀ i (hi : i < rows.length), multiBody multi rows (genInts g seed rows.length) i =
        (do let (ks, ls) ← multi rows[i] (g.randint seed i)
            return rowWrites aRes i (fun (k : Nat) => .idx (k : Int)) ks ++ [((aLs, i, 0), .num ls)]) := by
      intro i hi; unfold multiBody; simp [hi, genInts]
    rcases h.not_ok with ⟨m, rfl, hall⟩ | ⟨i, hi, e, he, rfl⟩
    · refine .inl ⟨m, rfl, fun i hi => ⟨fun hc => absurd hc hn, fun _ => ?_⟩⟩
      obtain ⟨ws, hws⟩ := hall i hi
      have hc := ParLoop.ok_cell hrow h hi hws
      rw [hb i hi] at hws
      cases hf : multi rows[i] (g.randint seed i) with
      | error e => rw [hf] at hws; cases hws
      | ok r =>
        obtain ⟨ks, ls⟩ := r
        rw [hf] at hws
        obtain rfl := Except.ok.inj hws
        refine ⟨ks, ls, rfl, ?_, ?_⟩
        · intro j hj
          simp only [List.length_map] at hj
          rw [hc, List.foldl_append, List.foldl_cons, List.foldl_nil]
          simp only [doWrite]
          rw [if_neg (by simp [aRes, aLs]), foldl_rowWrites _ _ _ _ _ _ hj]
          simp
        · rw [hc, List.foldl_append, List.foldl_cons, List.foldl_nil]; simp [doWrite]
    · refine .inr ⟨i, hi, e, rfl, .inr ⟨by omega, ?_⟩⟩
      rw [hb i hi] at he
      cases hf : multi rows[i] (g.randint seed i) with
      | error e' => rw [hf] at he; cases he; rfl
      | ok r => rw [hf] at he; cases he

/-- C12: multinomial sampling, every schedule -/
theorem C12_multinomial_sample (g : Rng F) (rows : List (List F)) (n : Nat) (seed : Int) (out : Except Err (Mem F))
    (h : WorkerMnlSample g rows n seed out) :
    SampleOutcome multinomialSample (fun u s => multinomialMultisample g u n s (some n)) g rows n seed out :=
  sampleLoop_outcome _ _ g rows n seed out h

/-- C12: nested sampling, every schedule -/
theorem C12_nested_sample (g : Rng F) (rows : List (List F)) (t : Flat F) (n : Nat) (seed : Int) (scaleU : Bool)
    (out : Except Err (Mem F)) (h : WorkerNestedSample g rows t n seed scaleU out) :
    SampleOutcome (fun u r => nestedSample u r t scaleU) (fun u s => nestedMultisample g u t n s scaleU (some n))
      g rows n seed out :=
  sampleLoop_outcome _ _ g rows n seed out h

/-- C12: two completed runs, with any two schedules, return the same arrays (all four workers). -/
theorem C12_deterministic (g : Rng F) (rows : List (List F)) (t : Flat F) (n : Nat) (seed : Int) (scaleU check : Bool)
    (m m' : Mem F) :
    (WorkerMnlProb rows check (.ok m) → WorkerMnlProb rows check (.ok m') → m = m') ∧
    (WorkerNestedProb rows t scaleU check (.ok m) → WorkerNestedProb rows t scaleU check (.ok m') → m = m') ∧
    (WorkerMnlSample g rows n seed (.ok m) → WorkerMnlSample g rows n seed (.ok m') → m = m') ∧
    (WorkerNestedSample g rows t n seed scaleU (.ok m) → WorkerNestedSample g rows t n seed scaleU (.ok m') → m = m') := by
  refine ⟨fun h h' => ParLoop.det (fun i _ ws hws => probBody_row _ _ i ws hws) h h',
    fun h h' => ParLoop.det (fun i _ ws hws => probBody_row _ _ i ws hws) h h', fun h h' => ?_, fun h h' => ?_⟩
  · unfold WorkerMnlSample at h h'
    split at h
    · rename_i hn; rw [if_pos hn] at h'
      exact ParLoop.det (fun i _ ws hws => sampleBody_row _ _ _ i ws hws) h h'
    · rename_i hn; rw [if_neg hn] at h'
      exact ParLoop.det (fun i _ ws hws => multiBody_row _ _ _ i ws hws) h h'
  · unfold WorkerNestedSample at h h'
    split at h
    · rename_i hn; rw [if_pos hn] at h'
      exact ParLoop.det (fun i _ ws hws => sampleBody_row _ _ _ i ws hws) h h'
    · rename_i hn; rw [if_neg hn] at h'
      exact ParLoop.det (fun i _ ws hws => multiBody_row _ _ _ i ws hws) h h'

/-- C12: when every row is feasible, the multinomial probability worker does complete (some schedule exists, and by
`C12_multinomial_probabilities` no schedule raises) and it raises under every schedule otherwise. -/
theorem C12_completes (rows : List (List F)) (check : Bool) :
    ((∀ u ∈ rows, ∃ r, multinomial u check = .ok r) →
      (∃ m, WorkerMnlProb rows check (.ok m)) ∧ ∀ out, WorkerMnlProb rows check out → ∃ m, out = .ok m) ∧
    ((∃ u ∈ rows, ∃ e, multinomial u check = .error e) →
      ∀ out, WorkerMnlProb rows check out → out = .error .utilityBounds) := by
  have herr : ∀ u e, multinomial (F := F) u check = .error e → e = .utilityBounds := by
    intro u e h
    unfold multinomial at h
    split at h <;> try split at h <;> try split at h
    all_goals (cases h; try rfl)
  constructor
  · intro hall
    constructor
    · apply ParLoop.exists_ok
      intro i hi
      obtain ⟨r, hr⟩ := hall rows[i] (List.getElem_mem hi)
      obtain ⟨p, ls, terms⟩ := r
      obtain ⟨ws, hws, _⟩ := probBody_cells (f := fun u => multinomial u check) (rows := rows) (i := i)
        (p := p) (ls := ls) (terms := terms) (by simpa [hi] using hr)
      exact ⟨ws, hws⟩
    · intro out h
      rcases C12_multinomial_probabilities rows check out h with ⟨m, hm, _⟩ | ⟨u, hu, e, he, _⟩
      · exact ⟨m, hm⟩
      · obtain ⟨r, hr⟩ := hall u hu
        simp only [hr] at he; cases he
  · rintro ⟨u, hu, e, he⟩ out h
    rcases C12_multinomial_probabilities rows check out h with ⟨m, _, hall⟩ | ⟨u', _, e', he', rfl⟩
    · obtain ⟨i, hi, rfl⟩ := List.mem_iff_getElem.mp hu
      obtain ⟨p, ls, terms, hok, _⟩ := hall i hi
      simp only at hok
      rw [he] at hok; cases hok
    · rw [herr u' e' he']

/-- C12 (weights): `worker_weighted_sample` with three or more draws per row raises under every schedule as soon as there
is a row; with one draw, row `i` is the single draw of row `i` by the `i`-th random number, whatever threads these numbers came from. -/
theorem C12_weighted_sample (g : Rng F) (otherU : Nat → Nat → F) (otherI : Nat → Nat → Int) (rows : List (List F)) (n : Nat) (seed : Int)
    (out : Except Err (Mem F)) (h : WorkerWeighted g otherU otherI rows n seed out) :
    (n ≤ 1 → ∃ m rs, out = .ok m ∧ ParRandom (g.uniform seed) otherU rows.length rs ∧ ∀ i (hi : i < rows.length),
      m (aRes, i, 0) = .idx (simpleSample rows[i] (rs.getD i zero))) ∧
    (3 ≤ n → rows ≠ [] → ∃ e, out = .error e) := by
  unfold WorkerWeighted at h
  constructor
  · intro hn
    rw [if_pos hn] at h
    obtain ⟨rs, hrs, h⟩ := h
    rcases h.not_ok with ⟨m, rfl, _⟩ | ⟨i, _, e, he, _⟩
    swap; · cases he
    refine ⟨m, rs, rfl, hrs, fun i hi => ?_⟩
    have hc := ParLoop.ok_cell (fun i _ ws hws w hw => by
      obtain rfl := Except.ok.inj hws
      simp only [List.mem_singleton] at hw
      rw [hw]) h hi rfl aRes 0
    rw [hc]
    simp [doWrite, hi]
  · intro hn hne
    rw [if_neg (by omega)] at h
    obtain ⟨seeds, -, h⟩ := h
    rcases h.not_ok with ⟨m, _, hall⟩ | ⟨i, _, e, _, he⟩
    · obtain ⟨ws, hws⟩ := hall 0 (List.length_pos_iff.mpr hne)
      unfold weightedMultiBody at hws
      cases hm : simpleMultisample g (rows.getD 0 []) n (seeds.getD 0 0) (some n) with
      | error e => rw [hm] at hws; cases hws
      | ok ks =>
        rw [hm] at hws
        simp only [bind, Except.bind] at hws
        rw [if_neg (by omega)] at hws
        cases hws
    · exact ⟨e, he⟩

/-- C12 (weights, several threads): whatever threads compute the elements, the ones a thread computes are, in order, the first numbers of the
stream of this thread, and only the calling thread has the seeded stream. -/
theorem C12_weighted_streams {α : Type} {seeded : Nat → α} {others : Nat → Nat → α} {n : Nat} {out : List α} (h : ParRandom seeded others n out) :
    ∃ th : Nat → Nat, ∀ t, ∃ c, ((List.range n).filter fun i => th i = t).map (out[·]?) =
      (List.range c).map fun k => some (if t = 0 then seeded k else others t k) := by
  obtain ⟨th, rfl⟩ := h
  refine ⟨th, fun t => ⟨((List.range n).filter fun i => th i = t).length, ?_⟩⟩
  have key : ∀ m ≤ n, ((List.range m).filter fun i => th i = t).map
      (((List.range n).map fun i => let k := ((List.range i).filter fun j => th j = th i).length
        if th i = 0 then seeded k else others (th i) k)[·]?) =
      (List.range ((List.range m).filter fun i => th i = t).length).map fun k => some (if t = 0 then seeded k else others t k) := by
    intro m
    induction m with
    | zero => intro _; rfl
    | succ m ih =>
      intro hm
      rw [List.range_succ, List.filter_append]
      by_cases ht : th m = t
      · rw [show [m].filter (fun i => decide (th i = t)) = [m] by simp [ht], List.map_append, ih (by omega), List.length_append,
          List.length_singleton, List.range_succ, List.map_append]
        congr 1
        simp [List.getElem?_range (show m < n by omega), ht]
      · rw [show [m].filter (fun i => decide (th i = t)) = [] by simp [ht], List.append_nil]
        exact ih (by omega)
  exact key n le_rfl

/-- C12 (weights, one thread): if the calling thread does all the work, the random numbers are the seeded stream -/
theorem C12_weighted_one_thread {α : Type} (seeded : Nat → α) (n : Nat) : ParRandom seeded (fun _ => seeded) n ((List.range n).map seeded) := by
  refine ⟨fun _ => 0, List.map_congr_left fun i _ => ?_⟩
  simp

end C12

/-- **C12 (weights: the seed does not determine the draws)** `worker_weighted_sample` draws its random numbers inside the parallel region:
for every seed there are two runs of the same call on one row with the weights 1, 1 that draw different choices, one in which the calling
thread draws the number 1/4 and one in which another thread draws 3/4. (The model does not use this worker.) -/
theorem C12_weighted_unseeded (seed : Int) : ∃ (g : Rng XR) (otherU : Nat → Nat → XR), g.uniform seed 0 = .fin (1 / 4) ∧ otherU 1 0 = .fin (3 / 4) ∧
    ∃ m m' : Mem XR, WorkerWeighted g otherU (fun _ _ => 0) [[.fin 1, .fin 1]] 1 seed (.ok m) ∧
      WorkerWeighted g otherU (fun _ _ => 0) [[.fin 1, .fin 1]] 1 seed (.ok m') ∧ m (aRes, 0, 0) = .idx 0 ∧ m' (aRes, 0, 0) = .idx 1 := by
  have hw : simpleProbabilities [XR.fin 1, XR.fin 1] = [XR.fin (1 / 2), XR.fin (1 / 2)] := by
    have h2 : XR.div (.fin 1) (.fin 2) = .fin (1 / 2) := XR.div_fin 1 2 two_ne_zero
    have e : sumF [XR.fin 1, XR.fin 1] = XR.fin 2 := by
      show XR.add (XR.add (.fin 0) (.fin 1)) (.fin 1) = _
      simp only [XR.add]; norm_num
    simp only [simpleProbabilities, e, List.map_cons, List.map_nil]
    show [XR.div (.fin 1) (.fin 2), XR.div (.fin 1) (.fin 2)] = _
    rw [h2]
  have hs : ∀ r : ℝ, (1 / 4 : ℝ) ≤ r → r ≤ 1 → simpleSample [XR.fin 1, XR.fin 1] (.fin r) = if r ≤ 1 / 2 then 0 else 1 := by
    intro r h0 h1
    have ht : XR.tinyR ≤ 1 / 4 := by
      have e : XR.tinyR = (1 / 2 : ℝ) ^ 1020 * (1 / 4) := by unfold XR.tinyR; rw [show (1022 : ℕ) = 1020 + 2 from rfl, pow_add]; norm_num
      have h : ((1 / 2 : ℝ)) ^ 1020 ≤ 1 := pow_le_one₀ (by norm_num) (by norm_num)
      rw [e]
      generalize ((1 / 2 : ℝ)) ^ 1020 = x at *
      linarith
    have hm : pyMax (XR.fin r) (FOps.tiny : XR) = .fin r := by
      unfold pyMax
      rw [XR.tiny_def, if_pos]
      simpa [FOps.le, XR.le] using ht.trans h0
    have e1 : (FOps.add (FOps.zero : XR) (.fin (1 / 2))) = .fin (1 / 2) := by
      show XR.add (.fin 0) (.fin (1 / 2)) = _
      simp [XR.add]
    have e2 : (FOps.add (XR.fin (1 / 2)) (.fin (1 / 2))) = XR.fin 1 := by
      show XR.add (.fin (1 / 2)) (.fin (1 / 2)) = _
      simp only [XR.add]; norm_num
    unfold simpleSample
    rw [hw]
    unfold sampleOnce
    rw [hm]
    simp only [sampleLoop, e1, e2]
    by_cases h : r ≤ 1 / 2
    · have hl : (FOps.le (XR.fin r) (XR.fin (1 / 2))) = true := by simpa [FOps.le, XR.le] using h
      rw [if_pos hl, if_pos h]; rfl
    · have hl : (FOps.le (XR.fin r) (XR.fin (1 / 2))) = false := by simpa [FOps.le, XR.le] using h
      have hl1 : (FOps.le (XR.fin r) (XR.fin 1)) = true := by simpa [FOps.le, XR.le] using h1
      rw [if_neg (by rw [hl]; decide), if_pos hl1, if_neg h]; rfl
  refine ⟨⟨fun _ _ => .fin (1 / 4), fun _ _ => 0⟩, fun _ _ => .fin (3 / 4), rfl, rfl, ?_⟩
  have key : ∀ (th : Nat → Nat) (r : ℝ), r = (if th 0 = 0 then 1 / 4 else 3 / 4) → ∃ m : Mem XR,
      WorkerWeighted ⟨fun _ _ => .fin (1 / 4), fun _ _ => 0⟩ (fun _ _ => .fin (3 / 4)) (fun _ _ => 0) [[.fin 1, .fin 1]] 1 seed (.ok m) ∧
      m (aRes, 0, 0) = .idx (simpleSample [XR.fin 1, XR.fin 1] (.fin r)) := by
    intro th r hr
    obtain ⟨m, hm⟩ := ParLoop.exists_ok (n := 1) (init := (zeroMem : Mem XR)) (body := fun (i : Nat) => Except.ok [((aRes, i, 0),
      Cell.idx (simpleSample ([[XR.fin 1, XR.fin 1]].getD i []) ([XR.fin r].getD i FOps.zero)))]) (fun i _ => ⟨_, rfl⟩)
    refine ⟨m, ?_, ?_⟩
    · unfold WorkerWeighted
      rw [if_pos le_rfl]
      refine ⟨[XR.fin r], ⟨th, ?_⟩, hm⟩
      subst hr
      by_cases h : th 0 = 0 <;> simp [h]
    · have hc := ParLoop.ok_cell (fun i _ ws hws w hw => by
        obtain rfl := Except.ok.inj hws
        simp only [List.mem_singleton] at hw
        rw [hw]) hm Nat.zero_lt_one rfl aRes 0
      rw [hc]
      simp [doWrite]
  obtain ⟨m, h1, h2⟩ := key (fun _ => 0) (1 / 4) (by simp)
  obtain ⟨m', h1', h2'⟩ := key (fun _ => 1) (3 / 4) (by simp)
  refine ⟨m, m', h1, h1', ?_, ?_⟩
  · rw [h2, hs _ (by norm_num) (by norm_num), if_pos (by norm_num)]
  · rw [h2', hs _ (by norm_num) (by norm_num), if_neg (by norm_num)]

/-- concrete case: three decision units, one with an unavailable choice: the worker completes -/
example : ∃ m, WorkerMnlProb [[XR.fin 0, XR.fin 1], [XR.fin 2, XR.ninf], [XR.fin (-1), XR.fin 5]] true (.ok m) := by
  refine ((C12_completes _ true).1 ?_).1
  intro u hu
  simp only [List.mem_cons, List.not_mem_nil, or_false] at hu
  rcases hu with rfl | rfl | rfl
  · exact ⟨_, C05_formula [some 0, some 1] true ⟨some 0, by simp, by simp⟩⟩
  · exact ⟨_, C05_formula [some 2, none] true ⟨some 2, by simp, by simp⟩⟩
  · exact ⟨_, C05_formula [some (-1), some 5] true ⟨some (-1), by simp, by simp⟩⟩

end Cheval
