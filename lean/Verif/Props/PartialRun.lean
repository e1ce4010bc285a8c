import Verif.Core.PartialCall
import Verif.Props.PartialUtil
import Verif.Props.ExampleModel

/-!
# C13: `add_partial_utilities` on a model, and the runs after it
-/
namespace Cheval
open FOps Spec
variable {U F : Type} [DecidableEq U] [FOps F]

omit [DecidableEq U] in
theorem Spec.Labelled.labels_nodup {paths : List (List Name)} {depth : Nat} {labels : List (List Name)} (h : Labelled paths depth labels) : labels.Nodup := by
  rw [h.labels]
  refine (List.nodup_map_iff_inj_on h.nodup).mpr fun p hp q hq e => ?_
  exact pad_inj (fun n hn => ((h.names p hp).2 n hn).1) (fun n hn => ((h.names q hq).2 n hn).1) e (h.depth.1 p hp) (h.depth.1 q hq)

omit [DecidableEq U] in
/-- the table a call starts from -/
theorem partialUtilities_start {m : CModel U F} {paths : List (List Name)} {depth : Nat} {units : List U} (hm : Consistent m paths depth units)
    (hvt : validateTree m.tree = .ok ()) : ∃ ix u, m.partialUtilities = ({ m with cached := some (ix, u) }, .ok (ix, u)) ∧
      u.rows = units.length ∧ u.cols = paths.length ∧ ∀ i j, u.val i j = startAt m i j := by
  obtain ⟨labels, hl, hL⟩ := hm.choices
  have hlen : labels.length = paths.length := by rw [hL.labels]; simp
  have hv0 : m.validate true true false false none = .ok () := by
    simp [CModel.validate, bind, Except.bind, hvt, CModel.decisionUnits, hm.unitsEq]
  unfold CModel.partialUtilities
  simp only [hv0, CModel.decisionUnits, hm.unitsEq, hl]
  cases hca : m.cached with
  | none => exact ⟨_, _, rfl, rfl, hlen, fun i j => by simp [startAt, hca]⟩
  | some p =>
    obtain ⟨ix, u⟩ := p
    refine ⟨ix, u, ?_, (hm.cached ix u hca).1, (hm.cached ix u hca).2, fun i j => by simp [startAt, hca]⟩
    have hu := hm.unitsEq
    cases m; simp_all

omit [DecidableEq U] in
theorem idxOf_label {L : Type} [DecidableEq L] {l : List L} (h : l.Nodup) {k : Nat} (hk : k < l.length) {x : L} (hx : l[k] = x) : l.idxOf x = k := by
  rw [← hx]; exact h.idxOf_getElem k hk

/-- `new` is `old` with the value the table has for a decision unit and a choice added to their cell, and `old` in all other cells -/
def Increased (tb : Table U (List Name) F) (units : List U) (paths : List (List Name)) (depth : Nat) (old new : Nat → Nat → F) : Prop :=
  ∀ i j (hi : i < units.length) (hj : j < paths.length),
    (∀ k l, tb.rows[k]? = some units[i] → tb.cols[l]? = some (pad depth paths[j]) → new i j = add (old i j) (tb.val k l)) ∧
    (units[i] ∉ tb.rows ∨ pad depth paths[j] ∉ tb.cols → new i j = old i j)

/-- **C13 (the model)** On a model with a valid tree and decision units, a table with distinct labels, all of them known to the model (or equal to its
own, where reindexing is switched off): under every schedule the call succeeds, and the utilities the model goes on from are increased, at the decision
unit and choice of each label pair of the table, by the value the table has for these labels, and are the same elsewhere. Nothing else in the model
changes. -/
theorem C13_model {m m' : CModel U F} {r : Except Err Unit} {paths : List (List Name)} {depth : Nat} {units : List U}
    (hm : Consistent m paths depth units) (hvt : validateTree m.tree = .ok ()) (hU : units.Nodup) (tb : Table U (List Name) F)
    (hR : tb.rows.Nodup) (hK : tb.cols.Nodup) (hRne : tb.rows ≠ []) (hKne : tb.cols ≠ [])
    (hRu : ∀ l ∈ tb.rows, l ∈ units) (hKc : ∀ c ∈ tb.cols, c ∈ paths.map (pad depth)) {rr rc : Bool}
    (hflagR : tb.rows = units ∨ rr = true) (hflagC : tb.cols = paths.map (pad depth) ∨ rc = true)
    (h : m.AddPartial tb rr rc (m', r)) :
    r = .ok () ∧ m' = { m with cached := m'.cached } ∧ Consistent m' paths depth units ∧
    Increased tb units paths depth (startAt m) (startAt m') := by
  obtain ⟨labels, hl, hL⟩ := hm.choices
  have hlb := hL.labels
  have hlen : labels.length = paths.length := by rw [hlb]; simp
  have hv0 : m.validate true true false false none = .ok () := by
    simp [CModel.validate, bind, Except.bind, hvt, CModel.decisionUnits, hm.unitsEq]
  obtain ⟨ix, u, hp, h1, h2, h3⟩ := partialUtilities_start hm hvt
  rw [← hlb] at hKc hflagC
  unfold CModel.AddPartial at h
  have hDU : m.decisionUnits = .ok units := by simp [CModel.decisionUnits, hm.unitsEq]
  simp only [hv0, hDU, hl, hp] at h
  rw [if_neg (by rintro ⟨q, q2⟩; rcases hflagR with h' | h' <;> simp_all), if_neg (by rintro ⟨q, q2⟩; rcases hflagC with h' | h' <;> simp_all)] at h
  obtain ⟨res, hf, ho⟩ := h
  have hap : Cheval.AddPartial units labels tb true true (fun p => u.val p.1 p.2) res := by
    unfold Cheval.AddPartial
    rw [if_neg (by simp), if_neg (by simp)]
    rw [h1, h2, ← hlen] at hf
    exact hf
  obtain ⟨mem, rfl, hmem⟩ := C13_added_once units labels tb true true _ res hU hL.labels_nodup hR hK hRne hKne hRu hKc (.inr rfl) (.inr rfl) hap
  simp only [Prod.mk.injEq] at ho
  obtain ⟨rfl, rfl⟩ := ho
  refine ⟨rfl, rfl, ⟨hm.unitsEq, ⟨labels, hl, hL⟩, hm.fits, ?_⟩, ?_⟩
  · intro ix' u' he
    simp only [Option.some.injEq, Prod.mk.injEq] at he
    rw [← he.2]; exact ⟨h1, h2⟩
  · intro i j hi hj
    have := hmem i j hi (hlen ▸ hj)
    have hlj : labels[j]'(hlen ▸ hj) = pad depth paths[j] := by simp [hlb]
    rw [hlj] at this
    simp only [h3] at this
    constructor
    · intro k l hk hl2
      rw [if_pos ⟨List.mem_of_getElem? hk, List.mem_of_getElem? hl2⟩] at this
      obtain ⟨hk1, hk2⟩ := List.getElem?_eq_some_iff.mp hk
      obtain ⟨hl1, hl3⟩ := List.getElem?_eq_some_iff.mp hl2
      have e1 : tb.rows.idxOf units[i] = k := by rw [← hk2]; exact hR.idxOf_getElem k hk1
      rw [e1] at this
      rw [show startAt { m with cached := some (ix, ⟨u.rows, u.cols, fun i j => mem (i, j)⟩) } i j = mem (i, j) from rfl, this]
      congr 2
      exact idxOf_label hK hl1 hl3
    · intro hno
      rw [if_neg (by rintro ⟨q1, q2⟩; rcases hno with q | q <;> contradiction)] at this
      exact this

/-- **C13 (rejection, the model)** A table with a label the model does not know, or whose labels differ while reindexing is switched off, is rejected
under every schedule, and the model goes on from the same utilities as before; nothing in it changes (a table of zeros may have been created). -/
theorem C13_model_rejected {m m' : CModel U F} {r : Except Err Unit} {paths : List (List Name)} {depth : Nat} {units : List U}
    (hm : Consistent m paths depth units) (hvt : validateTree m.tree = .ok ()) (tb : Table U (List Name) F) {rr rc : Bool}
    (hbad : (∃ l ∈ tb.rows, l ∉ units) ∨ (∃ c ∈ tb.cols, c ∉ paths.map (pad depth)) ∨ (tb.rows ≠ units ∧ rr = false) ∨
      (tb.cols ≠ paths.map (pad depth) ∧ rc = false))
    (h : m.AddPartial tb rr rc (m', r)) :
    (∃ e, r = .error e) ∧ m' = { m with cached := m'.cached } ∧ ∀ i j, startAt m' i j = startAt m i j := by
  obtain ⟨labels, hl, hL⟩ := hm.choices
  have hlb := hL.labels
  have hlen : labels.length = paths.length := by rw [hlb]; simp
  have hv0 : m.validate true true false false none = .ok () := by
    simp [CModel.validate, bind, Except.bind, hvt, CModel.decisionUnits, hm.unitsEq]
  obtain ⟨ix, u, hp, h1, h2, h3⟩ := partialUtilities_start hm hvt
  rw [← hlb] at hbad
  have hself : m = { m with cached := m.cached } := rfl
  unfold CModel.AddPartial at h
  have hDU : m.decisionUnits = .ok units := by simp [CModel.decisionUnits, hm.unitsEq]
  simp only [hv0, hDU, hl, hp] at h
  by_cases c1 : units ≠ tb.rows ∧ rr = false
  · rw [if_pos c1] at h
    simp only [Prod.mk.injEq] at h
    obtain ⟨rfl, rfl⟩ := h
    exact ⟨⟨_, rfl⟩, rfl, fun _ _ => rfl⟩
  rw [if_neg c1] at h
  by_cases c2 : labels ≠ tb.cols ∧ rc = false
  · rw [if_pos c2] at h
    simp only [Prod.mk.injEq] at h
    obtain ⟨rfl, rfl⟩ := h
    exact ⟨⟨_, rfl⟩, rfl, fun _ _ => rfl⟩
  rw [if_neg c2] at h
  obtain ⟨res, hf, ho⟩ := h
  have hap : Cheval.AddPartial units labels tb true true (fun p => u.val p.1 p.2) res := by
    unfold Cheval.AddPartial
    rw [if_neg (by simp), if_neg (by simp)]
    rw [h1, h2, ← hlen] at hf
    exact hf
  have hrej := C13_rejected units labels tb true true _ res hap
  have herr : ∃ e, res = .error e := by
    rcases hbad with hb | hb | hb | hb
    · exact hrej.1 hb
    · exact hrej.2.1 hb
    · exact absurd ⟨Ne.symm hb.1, hb.2⟩ c1
    · exact absurd ⟨Ne.symm hb.1, hb.2⟩ c2
  obtain ⟨e, rfl⟩ := herr
  simp only [Prod.mk.injEq] at ho
  obtain ⟨rfl, rfl⟩ := ho
  refine ⟨⟨e, rfl⟩, rfl, fun i j => ?_⟩
  simp [startAt, h3]

open Classical in
/-- **C13 (runs)** After such a call a run computes, for each decision unit and choice, what the expressions add to the utilities so far plus the
table's value for the labels of the cell (`start`). -/
theorem C13_run (K : Kernel F) {env : PyEnv} {py : PyParser} {m m' : CModel U F} {r : Except Err Unit} {paths : List (List Name)} {depth : Nat}
    {units : List U} (hm : Consistent m paths depth units) (hU : units.Nodup) (tb : Table U (List Name) F)
    (hR : tb.rows.Nodup) (hK : tb.cols.Nodup) (hRne : tb.rows ≠ []) (hKne : tb.cols ≠ [])
    (hRu : ∀ l ∈ tb.rows, l ∈ units) (hKc : ∀ c ∈ tb.cols, c ∈ paths.map (pad depth)) {rr rc : Bool}
    (hflagR : tb.rows = units ∨ rr = true) (hflagC : tb.cols = paths.map (pad depth) ∨ rc = true)
    (h : m.AddPartial tb rr rc (m', r))
    (hheld : Held env py m.exprs) {g : Option Nat} {c : Container} (hc : m.container g = .ok c)
    (hv : m.validate true true true true g = .ok ()) {srcs : List Source}
    (hready : List.Forall₂ (Ready env m.scope paths depth) srcs c.exprs)
    (htab : ∀ y ∈ c.simple, ∀ o ma al t, dictGet m.scope y ≠ some (.table o ma al t))
    {start : Nat → Nat → F}
    (hstart : Increased tb units paths depth (startAt m) start)
    (hval : ∀ i j (_ : i < units.length) (hj : j < paths.length), (cellTotal K m.scope paths[j] i j srcs (start i j)).isSome) (clear : Bool) :
    ∃ u : Tab F, u.rows = units.length ∧ u.cols = paths.length ∧
      (∀ i j (_ : i < units.length) (hj : j < paths.length), some (u.val i j) = cellTotal K m.scope paths[j] i j srcs (start i j)) ∧
      (m'.runUtilities K g clear).2 = (if ∃ i j, i < units.length ∧ j < paths.length ∧ isNan (u.val i j) = true
        then .error .utilityBounds else .ok u) := by
  obtain ⟨hvt, _, _⟩ := validate_parts hc hv
  obtain ⟨-, hm', hcons, hs⟩ := C13_model hm hvt hU tb hR hK hRne hKne hRu hKc hflagR hflagC h
  have e1 : m'.scope = m.scope := by rw [hm']
  have e2 : m'.exprs = m.exprs := by rw [hm']
  have e3 : m'.tree = m.tree := by rw [hm']
  have e4 : m'.units = m.units := by rw [hm']
  have hc' : m'.container g = .ok c := by rw [← hc]; simp only [CModel.container, e2]
  have hv' : m'.validate true true true true g = .ok () := by
    rw [← hv]; simp only [CModel.validate, CModel.container, CModel.decisionUnits, e1, e2, e3, e4]
  have hst : ∀ i j (_ : i < units.length) (_ : j < paths.length), startAt m' i j = start i j := by
    intro i j hi hj
    by_cases hmem : units[i] ∈ tb.rows ∧ pad depth paths[j] ∈ tb.cols
    · obtain ⟨k, hk⟩ := List.getElem?_of_mem hmem.1
      obtain ⟨l, hl⟩ := List.getElem?_of_mem hmem.2
      rw [(hs i j hi hj).1 k l hk hl, (hstart i j hi hj).1 k l hk hl]
    · have : units[i] ∉ tb.rows ∨ pad depth paths[j] ∉ tb.cols := by by_contra hh; push Not at hh; exact hmem hh
      rw [(hs i j hi hj).2 this, (hstart i j hi hj).2 this]
  obtain ⟨u, q1, q2, q3, q4, -⟩ := C35_sum K hcons (e2 ▸ hheld) hc' hv' (e1 ▸ hready) (by rw [e1]; exact htab)
    (by intro i j hi hj; rw [hst i j hi hj, e1]; exact hval i j hi hj) clear
  refine ⟨u, q1, q2, fun i j hi hj => ?_, q4⟩
  rw [q3 i j hi hj, hst i j hi hj, e1]

/-- every call has an outcome -/
theorem C13_total (m : CModel U F) (tb : Table U (List Name) F) (rr rc : Bool) : ∃ out, m.AddPartial tb rr rc out := by
  unfold CModel.AddPartial
  split
  · exact ⟨_, rfl⟩
  · exact ⟨_, rfl⟩
  · split
    · exact ⟨_, rfl⟩
    · split
      · exact ⟨_, rfl⟩
      · split
        · exact ⟨_, rfl⟩
        · split
          · exact ⟨_, rfl⟩
          · rename_i ix u hp
            suffices h : ∃ r, FastIndexedAdd u.rows u.cols tb.rows.length tb.cols.length tb.val _ _ (fun p => u.val p.1 p.2) r by
              obtain ⟨r, hr⟩ := h
              exact ⟨_, r, hr, rfl⟩
            unfold FastIndexedAdd
            split
            · exact ⟨_, rfl⟩
            · exact ⟨_, rfl⟩
            · obtain ⟨o, ho⟩ := addLoop_exists (tb.rows.length * tb.cols.length) _ _ (fun p : Nat × Nat => u.val p.1 p.2)
              exact ⟨_, o, rfl, ho⟩

/-! ## a concrete case -/

/-- a table with the values 5 for unit 8 and choice `A.x`, 6 for unit 8 and choice `B` -/
noncomputable def ptTable : Table Nat (List Name) XR := ⟨[8], [[['A'], ['x']], [['B'], ['.']]], fun _ l => if l = 0 then .fin 5 else .fin 6⟩

/-- added to the example model before a run: unit 8 gets 200 + 2 + 5 for `A.x`, 200 + 6 for `B` and 200 for the other choices; unit 7 gets what it got
without the table -/
example (env : PyEnv) (M : Arith XR) : ∃ m' u, (emModel env).AddPartial ptTable true true (m', .ok ()) ∧
    (m'.runUtilities (emKernel M) none false).2 = .ok u ∧ u.val 1 2 = .fin 207 ∧ u.val 1 0 = .fin 206 ∧ u.val 1 1 = .fin 200 ∧ u.val 0 2 = .fin 102 := by
  obtain ⟨⟨m', r⟩, h⟩ := C13_total (emModel env) ptTable true true
  have hR : ptTable.rows.Nodup := by decide
  have hK : ptTable.cols.Nodup := by decide
  have hRu : ∀ l ∈ ptTable.rows, l ∈ [7, 8] := by decide
  have hKc : ∀ c ∈ ptTable.cols, c ∈ emPaths.map (pad 2) := by decide
  obtain ⟨rfl, -⟩ := C13_model (em_consistent env) exampleOps_valid (by decide) ptTable hR hK (by simp [ptTable]) (by simp [ptTable]) hRu hKc (.inr rfl) (.inr rfl) h
  have hinc : Increased ptTable [7, 8] emPaths 2 (startAt (emModel env)) (fun i j => .fin (if i = 1 then (if j = 2 then 5 else if j = 0 then 6 else 0) else 0)) := by
    intro i j hi hj
    have hi2 : i = 0 ∨ i = 1 := by simp at hi; omega
    have hj2 : j = 0 ∨ j = 1 ∨ j = 2 ∨ j = 3 := by simp [emPaths] at hj; omega
    have hst : startAt (emModel env) i j = .fin 0 := rfl
    rw [hst]
    constructor
    · intro k l hk hl
      have hk2 : k = 0 := by have := (List.getElem?_eq_some_iff.mp hk).1; simp [ptTable] at this; omega
      have hl2 : l = 0 ∨ l = 1 := by have := (List.getElem?_eq_some_iff.mp hl).1; simp [ptTable] at this; omega
      subst hk2
      rcases hi2 with rfl | rfl
      · simp [ptTable] at hk
      · rcases hl2 with rfl | rfl <;> rcases hj2 with rfl | rfl | rfl | rfl <;> simp [ptTable, emPaths, pad] at hl <;> simp [ptTable, FOps.add, XR.add]
    · intro hno
      rcases hi2 with rfl | rfl
      · simp
      · rcases hj2 with rfl | rfl | rfl | rfl <;> simp [ptTable, emPaths, pad] at hno <;> simp
  obtain ⟨u, h1, h2, h3, h4⟩ := C13_run (emKernel M) (em_consistent env) (by decide) ptTable hR hK (by simp [ptTable]) (by simp [ptTable]) hRu hKc (.inr rfl) (.inr rfl) h
    (em_held env) (em_container env) (em_valid env) (srcs := emSrcs) (.cons (em_ready1 env) (.cons (em_ready2 env) .nil)) (em_noTable env) hinc
    (by intro i j _ hj; exact Option.isSome_iff_exists.mpr ⟨_, em_total M i j hj _⟩) false
  have hv : ∀ i j, i < 2 → j < 4 → u.val i j = .fin ((if i = 1 then (if j = 2 then 5 else if j = 0 then 6 else 0) else 0) + 100 * (i + 1) + if j = 2 then 2 else 0) := by
    intro i j hi hj
    have := h3 i j hi hj
    have hs : (emModel env).scope = emScope := rfl
    rw [hs, em_total M i j hj _] at this
    exact Option.some.inj this
  refine ⟨m', u, h, ?_, ?_, ?_, ?_, ?_⟩
  · rw [h4, if_neg]
    rintro ⟨i, j, hi, hj, h⟩
    rw [hv i j hi hj] at h
    simp at h
  all_goals rw [hv _ _ (by decide) (by decide)]; norm_num

end Cheval
