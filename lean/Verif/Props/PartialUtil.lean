import Verif.Props.Parallel

/-!
# C13: `add_partial_utilities` under every schedule
-/
namespace Cheval
open FOps
variable {F : Type} [FOps F]
set_option linter.unusedSectionVars false

/-- the iteration an operation belongs to -/
def AddOp.off : AddOp → Nat
  | .load o => o
  | .store o => o

theorem add_foldl_filter (loc : Nat → Nat × Nat) (a : Nat → F) (N o : Nat)
    (hinj : ∀ o', o' < N → loc o' = loc o → o' = o) (s : List AddOp) (hs : ∀ x ∈ s, x.off < N)
    (st st' : AddSt F) (h1 : st.mem (loc o) = st'.mem (loc o)) (h2 : st.reg o = st'.reg o) :
    (s.foldl (addStep loc a) st).mem (loc o) =
      ((s.filter (fun x => decide (x.off = o))).foldl (addStep loc a) st').mem (loc o) := by
  induction s generalizing st st' with
  | nil => simpa using h1
  | cons x s ih =>
    have hs' : ∀ y ∈ s, y.off < N := fun y hy => hs y (by simp [hy])
    by_cases hx : x.off = o
    · simp only [List.foldl_cons, List.filter_cons, hx, decide_true, if_true]
      cases x with
      | load o' =>
        simp only [AddOp.off] at hx; subst hx
        exact ih hs' _ _ (by simpa [addStep] using h1) (by simp [addStep, upd, h1])
      | store o' =>
        simp only [AddOp.off] at hx; subst hx
        exact ih hs' _ _ (by simp [addStep, h2]) (by simpa [addStep] using h2)
    · simp only [List.foldl_cons, List.filter_cons, hx, decide_false, Bool.false_eq_true, if_false]
      cases x with
      | load o' =>
        simp only [AddOp.off] at hx
        exact ih hs' _ _ (by simpa [addStep] using h1) (by simp [addStep, upd, Ne.symm hx, h2])
      | store o' =>
        simp only [AddOp.off] at hx
        refine ih hs' _ _ ?_ (by simpa [addStep] using h2)
        have hlt := hs (.store o') (by simp)
        simp only [addStep]
        rw [if_neg (fun hc => hx (hinj o' hlt hc.symm)), h1]

theorem Interleaving.mem {α : Type} {ts : List (List α)} {s : List α} (h : Interleaving ts s) :
    ∀ x ∈ s, ∃ t ∈ ts, x ∈ t := by
  induction h with
  | nil => simp
  | step ts k a rest s hk _ ih =>
    intro x hx
    have hkm := List.mem_of_getElem? hk
    rcases List.mem_cons.mp hx with rfl | hx
    · exact ⟨_, hkm, by simp⟩
    · obtain ⟨t, ht, hxt⟩ := ih x hx
      rcases List.mem_or_eq_of_mem_set ht with ht | rfl
      · exact ⟨t, ht, hxt⟩
      · exact ⟨_, hkm, by simp [hxt]⟩

/-- distinct targets: every cell gets its addend exactly once, whatever the schedule -/
theorem addLoop_cell (N : Nat) (loc : Nat → Nat × Nat) (a : Nat → F) (mem out : Nat × Nat → F)
    (h : AddLoop N loc a mem out) (hinj : ∀ o o', o < N → o' < N → loc o = loc o' → o = o') :
    (∀ o < N, out (loc o) = add (mem (loc o)) (a o)) ∧ (∀ l, (∀ o < N, loc o ≠ l) → out l = mem l) := by
  obtain ⟨s, hs, rfl⟩ := h
  have hoff : ∀ x ∈ s, x.off < N := by
    intro x hx
    obtain ⟨t, ht, hxt⟩ := hs.mem x hx
    obtain ⟨o, ho, rfl⟩ := List.mem_map.mp ht
    simp only [List.mem_cons, List.not_mem_nil, or_false] at hxt
    rcases hxt with rfl | rfl <;> simpa [AddOp.off] using ho
  constructor
  · intro o ho
    rw [add_foldl_filter loc a N o (fun o' ho' he => hinj o' o ho' ho he) s hoff _ ⟨mem, fun _ => zero⟩ rfl rfl,
      hs.filter_eq _ o]
    · simp [ho, AddOp.off, addStep, upd]
    · intro j t hj ht x hx
      have hjn : j < N := by
        by_contra hc
        rw [List.getElem?_eq_none (by simpa using hc)] at ht
        simp at ht
      simp only [List.getElem?_map, List.getElem?_range hjn, Option.map_some, Option.some.injEq] at ht
      subst ht
      simp only [List.mem_cons, List.not_mem_nil, or_false] at hx
      rcases hx with rfl | rfl <;> simp [AddOp.off, hj]
  · intro l hl
    have : ∀ (s : List AddOp) (st : AddSt F), (∀ x ∈ s, x.off < N) → (s.foldl (addStep loc a) st).mem l = st.mem l := by
      intro s
      induction s with
      | nil => intro st _; rfl
      | cons x s ih =>
        intro st hx
        rw [List.foldl_cons, ih _ (fun y hy => hx y (by simp [hy]))]
        have hlt := hx x (by simp)
        cases x with
        | load o => rfl
        | store o => simp only [addStep]; rw [if_neg (fun hc => hl o hlt hc.symm)]
    exact this s _ hoff

/-- some schedule exists -/
theorem addLoop_exists (N : Nat) (loc : Nat → Nat × Nat) (a : Nat → F) (mem : Nat × Nat → F) :
    ∃ out, AddLoop N loc a mem out := ⟨_, _, interleaving_sequential _, rfl⟩

/-! ## labels -/
section labels
variable {L : Type} [DecidableEq L]

theorem checkIndex_getIndexer (index other : List L) (hne : other ≠ []) (h : ∀ l ∈ other, l ∈ index) :
    checkIndex (some (getIndexer index other)) other.length index.length = .ok () := by
  unfold checkIndex
  have h1 : (getIndexer index other).length = other.length := by simp [getIndexer]
  have h2 : (getIndexer index other).isEmpty = false := by
    cases other with
    | nil => exact absurd rfl hne
    | cons a l => simp [getIndexer]
  have h3 : (getIndexer index other).all (fun k => 0 ≤ k ∧ k < (index.length : Int)) = true := by
    rw [List.all_eq_true]
    intro k hk
    obtain ⟨l, hl, rfl⟩ := List.mem_map.mp hk
    simp [h l hl, List.idxOf_lt_length_iff.mpr (h l hl)]
  simp only [h1, ne_eq, not_true_eq_false, if_false, h2, Bool.false_eq_true, h3, if_true]

theorem checkIndex_unknown (index other : List L) (l : L) (hl : l ∈ other) (hn : l ∉ index) :
    checkIndex (some (getIndexer index other)) other.length index.length = .error .assertion := by
  unfold checkIndex
  have h1 : (getIndexer index other).length = other.length := by simp [getIndexer]
  have h2 : (getIndexer index other).isEmpty = false := by
    cases other with
    | nil => simp at hl
    | cons a l => simp [getIndexer]
  have h3 : ¬ (getIndexer index other).all (fun k => 0 ≤ k ∧ k < (index.length : Int)) = true := by
    rw [List.all_eq_true]
    intro hc
    have := hc (-1) (List.mem_map.mpr ⟨l, hl, by simp [hn]⟩)
    simp at this
  simp only [h1, ne_eq, not_true_eq_false, if_false, h2, Bool.false_eq_true, h3]

/-- position in `index` of the `k`-th label of `other`, in the three ways the code computes it -/
theorem target_label (index other : List L) (k : Nat) (hk : k < other.length) (h : other[k] ∈ index)
    (hnd : index.Nodup) :
    target (if index = other then none else some (getIndexer index other)) k = index.idxOf other[k] := by
  split
  · rename_i he
    subst he
    simp [target, hnd.idxOf_getElem]
  · simp [target, getIndexer, hk, h]

end labels

section main
variable {L C : Type} [DecidableEq L] [DecidableEq C]

/-- **C13** Distinct labels, all known: whatever the schedule, the addend found under the labels of a cell is added to
this cell exactly once, all other cells keep their value. -/
theorem C13_added_once (units : List L) (choices : List C) (tb : Table L C F) (reindexRows reindexCols : Bool)
    (mem : Nat × Nat → F) (out : Except Err (Nat × Nat → F))
    (hU : units.Nodup) (hC : choices.Nodup) (hR : tb.rows.Nodup) (hK : tb.cols.Nodup)
    (hRne : tb.rows ≠ []) (hKne : tb.cols ≠ [])
    (hRu : ∀ l ∈ tb.rows, l ∈ units) (hKc : ∀ c ∈ tb.cols, c ∈ choices)
    (hflagR : tb.rows = units ∨ reindexRows = true) (hflagC : tb.cols = choices ∨ reindexCols = true)
    (h : AddPartial units choices tb reindexRows reindexCols mem out) :
    ∃ m, out = .ok m ∧ ∀ i j (hi : i < units.length) (hj : j < choices.length),
      m (i, j) = if units[i] ∈ tb.rows ∧ choices[j] ∈ tb.cols
        then add (mem (i, j)) (tb.val (tb.rows.idxOf units[i]) (tb.cols.idxOf choices[j])) else mem (i, j) := by
  unfold AddPartial at h
  rw [if_neg (by rintro ⟨h1, h2⟩; rcases hflagR with h' | h' <;> simp_all),
    if_neg (by rintro ⟨h1, h2⟩; rcases hflagC with h' | h' <;> simp_all)] at h
  unfold FastIndexedAdd at h
  have c1 : checkIndex (if units = tb.rows then none else some (getIndexer units tb.rows)) tb.rows.length units.length
      = .ok () := by
    split
    · rename_i he; simp [checkIndex, he]
    · exact checkIndex_getIndexer _ _ hRne hRu
  have c2 : checkIndex (if choices = tb.cols then none else some (getIndexer choices tb.cols)) tb.cols.length
      choices.length = .ok () := by
    split
    · rename_i he; simp [checkIndex, he]
    · exact checkIndex_getIndexer _ _ hKne hKc
  simp only [c1, c2] at h
  obtain ⟨m, rfl, hl⟩ := h
  refine ⟨m, rfl, fun i j hi hj => ?_⟩
  set nr := tb.rows.length with hnr
  set nc := tb.cols.length with hnc
  have hncpos : 0 < nc := List.length_pos_iff.mpr hKne
  have hrow : ∀ o < nr * nc, o / nc < nr := fun o ho => (Nat.div_lt_iff_lt_mul hncpos).mpr ho
  have hcol : ∀ o, o % nc < nc := fun o => Nat.mod_lt _ hncpos
  have ht1 : ∀ o (ho : o < nr * nc), target (if units = tb.rows then none else some (getIndexer units tb.rows)) (o / nc)
      = units.idxOf (tb.rows[o / nc]'(hrow o ho)) :=
    fun o ho => target_label units tb.rows _ (hrow o ho) (hRu _ (List.getElem_mem _)) hU
  have ht2 : ∀ o, target (if choices = tb.cols then none else some (getIndexer choices tb.cols)) (o % nc)
      = choices.idxOf (tb.cols[o % nc]'(hcol o)) :=
    fun o => target_label choices tb.cols _ (hcol o) (hKc _ (List.getElem_mem _)) hC
  obtain ⟨hin, hout⟩ := addLoop_cell _ _ _ _ _ hl (by
    intro o o' ho ho' he
    simp only [ht1 o ho, ht1 o' ho', ht2, Prod.mk.injEq] at he
    have e1 := (List.idxOf_inj (hRu _ (List.getElem_mem _))).mp he.1
    have e2 := (List.idxOf_inj (hKc _ (List.getElem_mem _))).mp he.2
    have e1' := (List.Nodup.getElem_inj_iff hR).mp e1
    have e2' := (List.Nodup.getElem_inj_iff hK).mp e2
    rw [← Nat.div_add_mod o nc, ← Nat.div_add_mod o' nc, e1', e2'])
  by_cases hc : units[i] ∈ tb.rows ∧ choices[j] ∈ tb.cols
  · rw [if_pos hc]
    have hi' := List.idxOf_lt_length_iff.mpr hc.1
    have hj' := List.idxOf_lt_length_iff.mpr hc.2
    have ho : tb.rows.idxOf units[i] * nc + tb.cols.idxOf choices[j] < nr * nc := by
      calc _ < tb.rows.idxOf units[i] * nc + nc := by omega
        _ = (tb.rows.idxOf units[i] + 1) * nc := by ring
        _ ≤ nr * nc := Nat.mul_le_mul_right _ hi'
    have hd : (tb.rows.idxOf units[i] * nc + tb.cols.idxOf choices[j]) / nc = tb.rows.idxOf units[i] := by
      rw [mul_comm, Nat.mul_add_div hncpos, Nat.div_eq_of_lt hj', Nat.add_zero]
    have hm : (tb.rows.idxOf units[i] * nc + tb.cols.idxOf choices[j]) % nc = tb.cols.idxOf choices[j] := by
      rw [mul_comm, Nat.mul_add_mod, Nat.mod_eq_of_lt hj']
    have := hin _ ho
    simp only [ht1 _ ho, ht2] at this
    simp only [hd, hm, List.getElem_idxOf, hU.idxOf_getElem, hC.idxOf_getElem] at this
    exact this
  · rw [if_neg hc]
    apply hout
    intro o ho he
    simp only [ht1 o ho, ht2, Prod.mk.injEq] at he
    apply hc
    have hri := List.idxOf_lt_length_iff.mpr (hRu _ (List.getElem_mem (hrow o ho)))
    have hci := List.idxOf_lt_length_iff.mpr (hKc _ (List.getElem_mem (hcol o)))
    obtain ⟨rfl, rfl⟩ := he
    simp only [List.getElem_idxOf]
    exact ⟨List.getElem_mem _, List.getElem_mem _⟩

/-- **C13 (rejection)** A table with a label the model does not know is rejected under every schedule and before any
addition (the outcome is the exception); so is a table whose labels differ while reindexing is switched off. -/
theorem C13_rejected (units : List L) (choices : List C) (tb : Table L C F) (reindexRows reindexCols : Bool)
    (mem : Nat × Nat → F) (out : Except Err (Nat × Nat → F))
    (h : AddPartial units choices tb reindexRows reindexCols mem out) :
    ((∃ l ∈ tb.rows, l ∉ units) → ∃ e, out = .error e) ∧
    ((∃ c ∈ tb.cols, c ∉ choices) → ∃ e, out = .error e) ∧
    (tb.rows ≠ units → reindexRows = false → out = .error .key) := by
  have hok : ∀ e, FastIndexedAdd units.length choices.length tb.rows.length tb.cols.length tb.val
      (if units = tb.rows then none else some (getIndexer units tb.rows))
      (if choices = tb.cols then none else some (getIndexer choices tb.cols)) mem out →
      (checkIndex (if units = tb.rows then none else some (getIndexer units tb.rows)) tb.rows.length units.length = .error e
       ∨ checkIndex (if choices = tb.cols then none else some (getIndexer choices tb.cols)) tb.cols.length
          choices.length = .error e) → ∃ e, out = .error e := by
    intro e hf hc
    unfold FastIndexedAdd at hf
    split at hf
    · exact ⟨_, hf⟩
    · exact ⟨_, hf⟩
    · rename_i h1 h2
      rw [h1, h2] at hc
      rcases hc with hc | hc <;> cases hc
  unfold AddPartial at h
  split at h
  · exact ⟨fun _ => ⟨_, h⟩, fun _ => ⟨_, h⟩, fun _ _ => h⟩
  · rename_i hrr
    split at h
    · refine ⟨fun _ => ⟨_, h⟩, fun _ => ⟨_, h⟩, fun h1 h2 => absurd ⟨Ne.symm h1, h2⟩ hrr⟩
    · refine ⟨fun ⟨l, hl, hn⟩ => ?_, fun ⟨c, hc, hn⟩ => ?_, fun h1 h2 => absurd ⟨Ne.symm h1, h2⟩ hrr⟩
      · refine hok .assertion h (.inl ?_)
        rw [if_neg (by rintro rfl; exact hn hl)]
        exact checkIndex_unknown _ _ l hl hn
      · refine hok .assertion h (.inr ?_)
        rw [if_neg (by rintro rfl; exact hn hc)]
        exact checkIndex_unknown _ _ c hc hn

end main

/-- **C13 refuted for repeated labels.** A one-choice model with decision units `a`, `b`; the table has two rows labelled
`a` (addends 1 and 1). Two schedules of the same call end with 1 and with 2 in the cell of `a`: the first loses an
addition. -/
theorem C13_duplicate_labels_refuted :
    let units := ["a", "b"]; let choices := ["x"]
    let tb : Table String String XR := ⟨["a", "a"], ["x"], fun _ _ => .fin 1⟩
    (∃ m, AddPartial units choices tb true true (fun _ => .fin 0) (.ok m) ∧ m (0, 0) = .fin 1) ∧
    (∃ m, AddPartial units choices tb true true (fun _ => .fin 0) (.ok m) ∧ m (0, 0) = .fin 2) := by
  have hch : ∀ m, AddLoop 2 (fun _ => (0, 0)) (fun _ => XR.fin 1) (fun _ => .fin 0) m →
      AddPartial ["a", "b"] ["x"] (⟨["a", "a"], ["x"], fun _ _ => .fin 1⟩ : Table String String XR) true true
        (fun _ => .fin 0) (.ok m) := by
    intro m hm
    unfold AddPartial FastIndexedAdd
    simp only [checkIndex, getIndexer]
    refine ⟨m, rfl, ?_⟩
    obtain ⟨s, hs, rfl⟩ := hm
    refine ⟨s, hs, ?_⟩
    have hoff : ∀ x ∈ s, x.off < 2 := by
      intro x hx
      obtain ⟨t, ht, hxt⟩ := hs.mem x hx
      obtain ⟨o, ho, rfl⟩ := List.mem_map.mp ht
      simp only [List.mem_cons, List.not_mem_nil, or_false] at hxt
      rcases hxt with rfl | rfl <;> simpa [AddOp.off] using ho
    clear hs
    generalize (⟨fun _ => XR.fin 0, fun _ => zero⟩ : AddSt XR) = st
    induction s generalizing st with
    | nil => rfl
    | cons x s ih =>
      rw [List.foldl_cons, List.foldl_cons, ih (fun y hy => hoff y (by simp [hy]))]
      have hx := hoff x (by simp)
      congr 2
      cases x with
      | load o | store o =>
        simp only [AddOp.off] at hx
        have : o = 0 ∨ o = 1 := by omega
        rcases this with rfl | rfl <;> rfl
  refine ⟨⟨_, hch _ ⟨[.load 0, .load 1, .store 0, .store 1], ?_, rfl⟩, ?_⟩,
    ⟨_, hch _ ⟨[.load 0, .store 0, .load 1, .store 1], ?_, rfl⟩, ?_⟩⟩
  · refine .step _ 0 _ [.store 0] _ rfl (.step _ 1 _ [.store 1] _ rfl (.step _ 0 _ [] _ rfl (.step _ 1 _ [] _ rfl (.nil _ ?_))))
    intro t ht
    change t ∈ [[], []] at ht
    simpa using ht
  · simp [addStep, upd, FOps.add, XR.add]
  · refine .step _ 0 _ [.store 0] _ rfl (.step _ 0 _ [] _ rfl (.step _ 1 _ [.store 1] _ rfl (.step _ 1 _ [] _ rfl (.nil _ ?_))))
    intro t ht
    change t ∈ [[], []] at ht
    simpa using ht
  · simp [addStep, upd, FOps.add, XR.add]; norm_num

/-- concrete case for `C13_added_once`: a reordered one-row table; the outcome exists and is the expected one -/
example : ∃ m, AddPartial ["a", "b"] ["x", "y"] (⟨["b"], ["y", "x"], fun _ j => .fin j⟩ : Table String String XR) true true
    (fun _ => .fin 5) (.ok m) ∧ m (1, 0) = .fin 6 ∧ m (0, 0) = .fin 5 := by
  have : ∃ out, AddPartial ["a", "b"] ["x", "y"] (⟨["b"], ["y", "x"], fun _ j => .fin j⟩ : Table String String XR)
      true true (fun _ => .fin 5) out := by
    obtain ⟨m, hm⟩ := addLoop_exists (1 * 2)
      (fun o => (target (some (getIndexer ["a", "b"] ["b"])) (o / 2), target (some (getIndexer ["x", "y"] ["y", "x"])) (o % 2)))
      (fun o => XR.fin ((o % 2 : Nat) : ℝ)) (fun _ => .fin 5)
    refine ⟨.ok m, ?_⟩
    unfold AddPartial FastIndexedAdd
    simp only [checkIndex, getIndexer]
    exact ⟨m, rfl, hm⟩
  obtain ⟨out, h⟩ := this
  obtain ⟨m, rfl, hm⟩ := C13_added_once _ _ _ _ _ _ _ (by simp) (by simp) (by simp) (by simp) (by simp) (by simp)
    (by simp) (by simp) (by simp) (by simp) h
  refine ⟨m, h, ?_, ?_⟩
  · rw [hm 1 0 (by simp) (by simp)]; simp [FOps.add, XR.add]; norm_num
  · rw [hm 0 0 (by simp) (by simp)]; simp

end Cheval
