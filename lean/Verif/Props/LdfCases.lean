import Verif.Props.LdfLookups
import Verif.Props.LdfFlag
import Verif.Props.LdfLinkTo
import Verif.Props.LdfAggregates
import Verif.Props.LdfSlices
import Verif.Props.LdfFinalize
import Verif.Props.LdfDisplaced
import Verif.Props.LdfRefresh
import Verif.Props.LdfFills
import Verif.Props.LdfInfo
import Mathlib.Tactic.IntervalCases

/-!
# Concrete cases of the theorems about linked frames

Each theorem is applied to the persons, households and zones of `LdfExample`, so that its hypotheses are met there.
-/
namespace Cheval
open Spec

theorem lx_passable : Passable lxW 2 [lxHh, lxZone] := by
  intro l hl
  have : l.other = 1 := by
    have h : (lxW.link? 2 lxHh).map (·.other) = some 1 := by decide
    rw [hl] at h; simpa using h
  rw [this]
  refine ⟨fun h => absurd h (by decide), fun l' hl' => ?_⟩
  have : l'.other = 0 := by
    have h : (lxW.link? 1 lxZone).map (·.other) = some 0 := by decide
    rw [hl'] at h; simpa using h
  rw [this]
  exact ⟨fun h => absurd h (by decide), trivial⟩

/-- C43_chain: the persons' zone areas over two links -/
example : ∃ w' out, lxE.lookup lxW 2 [lxHh, lxZone] lxA = (w', .ok ⟨.int, out⟩) ∧ out.length = lxW.rows 2 ∧
    (∀ j, Reaches lxW 2 [lxHh, lxZone] 1 0 j → out[1]? = [100, 200, 300][j]?) ∧
    ((∀ j, ¬ Reaches lxW 2 [lxHh, lxZone] 0 0 j) → out[0]? = some (-5)) := by
  obtain ⟨h, -⟩ := C43_chain lxEv_keeps lx_safe rfl (r := 2) (path := [lxHh, lxZone]) (l := _) (hist := _) rfl rfl
    (g := _) rfl (col := lxA) (c := ⟨.int, [100, 200, 300]⟩) (by decide) (v := -5) (by decide)
  obtain ⟨w', out, h1, h2, h3⟩ := h lx_passable
  exact ⟨w', out, h1, h2, (h3 1 (by decide)).1, (h3 0 (by decide)).2.1⟩

/-- and row 0 of the zones is reached from the second person -/
example : Reaches lxW 2 [lxHh, lxZone] 1 0 0 :=
  .hop (l := _) (k := [10]) (m := 0) rfl (by decide) (by decide) (.hop (l := _) (k := [1]) (m := 0) rfl (by decide) (by decide) (.here _ _))

/-- C43_compose: the zone areas of the persons and of their households -/
example : ∃ w1 w2 out1 out2, lxE.lookup lxW 2 [lxHh, lxZone] lxA = (w1, .ok ⟨.int, out1⟩) ∧ lxE.lookup lxW 1 [lxZone] lxA = (w2, .ok ⟨.int, out2⟩) ∧
    out1[1]? = out2[0]? := by
  obtain ⟨w1, w2, o1, o2, h1, h2, h3⟩ := C43_compose lxEv_keeps lx_safe rfl (r := 2) (n := lxHh) (ns := [lxZone]) (by decide) (l1 := _) (l := _)
    (hist := _) rfl rfl rfl (g := _) rfl (col := lxA) (c := ⟨.int, [100, 200, 300]⟩) (by decide) (v := -5) (by decide) lx_passable
  exact ⟨w1, w2, o1, o2, h1, h2, (h3 1 [10] (by decide) (by decide)).1 0 (by decide)⟩

/-- C44_rejected: persons to persons by household -/
example : (lxE.linkTo lxId lxW 2 2 lxP { on := some [lxH] }).1 = lxW := C44_rejected lxW 2 2 lxP _ .runtime (by decide)

/-- C44_many_to_many: neither side has unique keys -/
example : ∃ e, (lxE.linkTo lxId lxW 2 2 lxP { on := some [lxH] }).2 = .error e := by
  have hu : ∀ f, lxW.frames[2]? = some f → ¬ UniqueKeys f ⟨some [lxH], false⟩ := by
    intro f hf h
    have : f.keyAt ⟨some [lxH], false⟩ 1 = some [10] ∧ f.keyAt ⟨some [lxH], false⟩ 2 = some [10] := by
      have : (lxW.frames[2]?).map (fun f => (f.keyAt ⟨some [lxH], false⟩ 1, f.keyAt ⟨some [lxH], false⟩ 2)) = some (some [10], some [10]) := by decide
      rw [hf] at this; simpa using this
    exact absurd (h 1 2 [10] this.1 this.2) (by decide)
  exact (C44_many_to_many lxEv_keeps lx_safe rfl (r := 2) (o := 2) (f := _) (g := _) rfl rfl (ss := ⟨some [lxH], false⟩) (os := ⟨some [lxH], false⟩)
    (by decide) (hu _ rfl) (hu _ rfl)).1

/-- C44_accepted: persons to households under a second name -/
example : ∃ l, (lxE.linkTo lxId lxW 2 1 lxP { onSelf := some [lxH] }).1.link? 2 lxP = some l ∧ l.other = 1 ∧ l.agg = false ∧
    (lxE.linkTo lxId lxW 2 1 lxP { onSelf := some [lxH] }).1.link? 2 lxHh = lxW.link? 2 lxHh := by
  obtain ⟨ss, os, l, -, h1, -, h2, -, -, h3, h4, -⟩ := C44_accepted (E := lxE) (isid := lxId) lxW 2 1 lxP { onSelf := some [lxH] } false (by decide)
  exact ⟨l, h1, h2, h3, h4 2 lxHh (by decide)⟩

/-- C61_accepts: the accepted link satisfies the specification -/
example (f g : LFrame Int) (hf : lxW.frames[2]? = some f) (hg : lxW.frames[1]? = some g) :
    f.linked = true ∧ ∃ ss os, Readable f ss ∧ Readable g os ∧ parts f ss = parts g os ∧ (UniqueKeys f ss ∨ UniqueKeys g os) := by
  obtain ⟨h1, ss, os, -, -, h2, h3, h4, h5⟩ := (C61_accepts lxEv_keeps lx_safe rfl hf hg lxP { onSelf := some [lxH] }).mp ⟨false, by decide⟩
  exact ⟨h1, ss, os, h2, h3, h4, h5⟩

/-- C45_column_partial: the sum of the persons' household numbers, -3 for the household without persons -/
example : ∃ w' out, lxE.aggregate (orColumn lxEv) lxW 1 [lxP] "sum".toList (.name lxH) (-3) = (w', .ok ⟨.int, out⟩) ∧ out.length = lxW.rows 1 ∧
    out[0]? = some 20 ∧ out[2]? = some (-3) := by
  obtain ⟨w', out, h1, h2, h3⟩ := C45_column_partial lxEv_keeps lx_safe rfl (r := 1) (n := lxP) (l := _) rfl rfl rfl (g := _) rfl (by decide)
    (func := "sum".toList) (col := lxH) (c := ⟨.int, [20, 10, 10, 77]⟩) (by decide) (by decide) (by unfold Admitted; decide)
    (fun j k h => by
      have hg : LGood lxE lxW := good_run lxEv_keeps LGood.start lx_safe
      obtain ⟨-, h2⟩ := keys_ok (hg.wf _ (List.mem_of_getElem? (i := 2) rfl)) (s := ⟨some [lxH], false⟩) (ks := [[20], [10], [10], [77]]) (by decide)
      have := List.mem_of_getElem? ((h2 j).trans h)
      revert this
      exact (by decide : ∀ k ∈ [[20], [10], [10], [(77 : Int)]], lxE.naKey k = false) k)
    (fun vs hv => by simp [lxE]) (intFill := -3) (v := -3) (by decide)
  exact ⟨w', out, h1, h2, (h3 0 [10] (by decide) (by decide)).trans (by rw [matching_dec]; decide), (h3 2 [30] (by decide) (by decide)).trans (by rw [matching_dec]; decide)⟩

theorem lx_eager : EagerRun lxE lxId lxEv lxE.start lxOps := by
  unfold lxOps lxNew lxLinks
  refine ⟨?_, ?_, ?_, ⟨rfl, ?_⟩, ⟨rfl, ?_⟩, ⟨rfl, ?_⟩, trivial, ?_, trivial, trivial, trivial⟩
  · simp only [EagerOp]; decide
  · simp only [EagerOp]; decide
  · simp only [EagerOp]; decide
  all_goals (intro f hf; cases hf)
  · decide
  · decide
  · decide
  · unfold InRange; decide

/-- C46_slice and C46_twice: rows 3 and 1, then the second of these -/
example : ∃ w1 r1 w2 r2, lstep lxE lxId lxEv lxW (.select 2 [3, 1] (fun _ => []) fun _ _ => 0) = (w1, .ok (.frame r1)) ∧
    lstep lxE lxId lxEv w1 (.select r1 [1] (fun _ => []) fun _ _ => 0) = (w2, .ok (.frame r2)) ∧
    ∃ out, (lxE.lookup w2 r2 [lxHh] lxInc).2 = .ok ⟨.int, out⟩ ∧ out.length = 1 ∧ out[0]? = some 5 := by
  obtain ⟨w1, r1, w2, r2, h1, h2, out, h3, h4, h5⟩ := C46_twice lxEv_keeps lx_eager rfl (r := 2) (f := _) rfl (ix := [3, 1]) (jx := [1])
    (by unfold InRange; decide) (by unfold InRange; decide) (fun _ => []) (fun _ => []) (fun _ _ => 0) (fun _ _ => 0)
    (path := [lxHh]) (col := lxInc) (c := ⟨.int, [6, 5, 5, -1]⟩) (by decide)
  exact ⟨w1, r1, w2, r2, h1, h2, out, h3, h4, (h5 0 1 1 rfl rfl).trans rfl⟩

/-- C46_group: the group of the persons of household 10 -/
example : ∃ out, (lxE.lookup (lstep lxE lxId lxEv lxW (.grouped 2 [1, 2])).1 4 [lxHh] lxInc).2 = .ok ⟨.int, out⟩ ∧
    SelectedRows out [6, 5, 5, -1] [1, 2] :=
  C46_group lxEv_keeps lx_eager (reads := []) (by simp) rfl rfl (r := 2) (f := _) rfl (ix := [1, 2]) (by decide) rfl
    (path := [lxHh]) (col := lxInc) (c := ⟨.int, [6, 5, 5, -1]⟩) (by decide)

theorem lxEv_push : EvPush lxE lxEv := fun _ _ _ _ _ _ => rfl

theorem lx_eager' : EagerRun lxE lxId (orColumn lxEv) lxE.start lxOps := by
  unfold lxOps lxNew lxLinks
  refine ⟨?_, ?_, ?_, ⟨rfl, ?_⟩, ⟨rfl, ?_⟩, ⟨rfl, ?_⟩, trivial, ?_, trivial, trivial, trivial⟩
  · simp only [EagerOp]; decide
  · simp only [EagerOp]; decide
  · simp only [EagerOp]; decide
  all_goals (intro f hf; cases hf)
  · decide
  · decide
  · decide
  · unfold InRange; decide

/-- C46_aggregate: the persons of the last two households -/
example : ∃ w2 r', lstep lxE lxId (orColumn lxEv) (lrun lxE lxId (orColumn lxEv) lxE.start lxOps) (.select 1 [2, 1] (fun _ => []) fun _ _ => 0) =
      (w2, .ok (.frame r')) ∧
    ∃ out, (lxE.aggregate (orColumn lxEv) w2 r' [lxP] "sum".toList (.name lxH) (-3)).2 = .ok ⟨.int, out⟩ ∧ SelectedRows out [20, 20, -3] [2, 1] :=
  C46_aggregate (orColumn_keeps lxEv_keeps) (orColumn_push lxEv_push) lx_eager' rfl (r := 1) (f := _) rfl (ix := [2, 1])
    (by unfold InRange; decide) (fun _ => []) (fun _ _ => 0)
    (path := [lxP]) (func := "sum".toList) (arg := .name lxH) (intFill := -3) (c := ⟨.int, [20, 20, -3]⟩) (by decide)

/-- C47_columns_partial: a column is added by an operation that only calls the finalizer -/
example : ∃ w1 r', lstep lxE lxId lxEv lxW (.finalized 2 [some lxP] [[0], [1], [2], [3]]
      [(lxH, ⟨.int, [20, 10, 10, 77]⟩), (lxA, ⟨.int, [1, 2, 3, 4]⟩)]) = (w1, .ok (.frame r')) ∧
    (lxE.lookup w1 r' [lxHh] lxInc).2 = .ok ⟨.int, [6, 5, 5, -1]⟩ := by
  obtain ⟨f, hf⟩ : ∃ f, lxW.frames[2]? = some f := ⟨_, rfl⟩
  have h1 : (lxW.frames[2]?).map (fun f => (f.levels, f.index)) = some ([some lxP], [[0], [1], [2], [3]]) := by decide
  have h2 : (lxW.frames[2]?).map (fun f => f.links.map (·.2.owner)) = some [2] := by decide
  rw [hf] at h1 h2
  simp only [Option.map_some, Option.some.injEq, Prod.mk.injEq] at h1 h2
  obtain ⟨w1, r', _, h, -, -, -, -, h'⟩ := C47_columns_partial lxEv_keeps lx_safe (w := lxW) rfl (r := 2) hf
    (by intro e he; have : e.2.owner ∈ f.links.map (·.2.owner) := List.mem_map_of_mem he; rw [h2] at this; simpa using this)
    [(lxH, ⟨.int, [20, 10, 10, 77]⟩), (lxA, ⟨.int, [1, 2, 3, 4]⟩)]
  rw [h1.1, h1.2] at h
  exact ⟨w1, r', h, h' [lxHh] lxInc _ (by decide)⟩

/-- C49_refresh_partial: a person moves, the indexers are refreshed -/
example : ∃ w1 w2, lstep lxE lxId lxEv (lrun lxE lxId lxEv lxE.start lxFresh) lxMove = (w1, .ok .unit) ∧
    lstep lxE lxId lxEv w1 (.computeIndexers 2 true) = (w2, .ok .unit) ∧ w2.frames[1]? = (lrun lxE lxId lxEv lxE.start lxFresh).frames[1]? := by
  obtain ⟨w1, w2, h1, h2, -, h3, -⟩ := C49_refresh_partial lxEv_keeps (E := lxE) (isid := lxId) (ops := lxFresh) (safeRunCheck_ok (by decide)) rfl
    (r := 2) (f := _) rfl rfl (col := lxH) (c := ⟨.int, [10, 77, 30, 20]⟩) (by decide) (by decide) (by decide)
    (fun q x hx => by
      have : ∀ q, q < 3 → ∀ x, (lrun lxE lxId lxEv lxE.start lxFresh).frames[q]? = some x → ∀ e ∈ x.links, (e.2.other = 2 → lxH ∉ e.2.otherSpec.columns) ∧
          (q ≠ 2 → e.2.owner = 2 → lxH ∉ e.2.selfSpec.columns) := by
        intro q hq x hx
        interval_cases q <;> (cases hx; decide)
      exact this q (List.getElem?_eq_some_iff.mp hx).1 x hx)
  exact ⟨w1, w2, h1, h2, h3 1 (by decide)⟩

theorem lxEv_fill : ∀ w o a, FillSame w (lxEv w o a).1 := fun w _ _ => .refl w

theorem lx_named (v : Int) : namedFills .int [(['I', 'N', 'T', '_', 'N', 'A', 'M', 'E'], v)] = [v] := by
  classical
  unfold namedFills
  rw [List.takeWhile_cons_of_pos (by rw [decide_eq_true_iff]; exact ⟨DKind.int, rfl⟩), List.takeWhile_nil, List.filterMap_cons_some (b := v), List.filterMap_nil]
  exact if_pos rfl

/-- C50_lookup: the households (frame 1) are made by the second operation; their later default 41 fills the last person's income -/
example : ∃ w' out, lxE.lookup (lrun lxE lxId lxEv lxE.start lxFills) 2 [lxHh] lxInc = (w', .ok ⟨.int, out⟩) ∧ out.length = 4 ∧
    ∃ k, (lrun lxE lxId lxEv lxE.start lxFills).keyAt 2 ⟨some [lxH], false⟩ 3 = some k ∧
      ((∀ j, (lrun lxE lxId lxEv lxE.start lxFills).keyAt 1 ⟨none, true⟩ j ≠ some k) → out[3]? = some 41) := by
  obtain ⟨w', out, h1, h2, h3⟩ := C50_lookup lxEv_keeps lxEv_fill (pre := lxNew.take 1) (op := lxNew[1]) (post := lxFills.drop 2) (E := lxE) (isid := lxId)
    (safeRunCheck_ok (by decide)) (o := 1) (w0 := (lstep lxE lxId lxEv (lrun lxE lxId lxEv lxE.start (lxNew.take 1)) lxNew[1]).1) rfl
    (w := lrun lxE lxId lxEv lxE.start lxFills) rfl (by simp [lxFills, lxFresh0, lxNew, KwOk]) (r := 2) (name := lxHh) (l := _) rfl rfl rfl (g := _) rfl rfl
    (col := lxInc) (c := ⟨.int, [5, 6, 7]⟩) (by decide) (v := 41)
    (by
      rw [show lastColumnFill 1 lxInc _ = none from by decide, show lastRequest lxE (some 1) .int (lxFills.drop 2) = some 41 from by
        simp [lastRequest, lxFills, lxFresh0, lxNew, fillRequests, lx_named]]
      rfl) (by decide)
  exact ⟨w', out, h1, h2, h3 3 (by decide)⟩

/-- C50_plain: the zones are a plain DataFrame; the class default -5 fills the area of household 20 -/
example : ∃ w' out, lxE.lookup lxW 1 [lxZone] lxA = (w', .ok ⟨.int, out⟩) ∧ out.length = 3 ∧
    ∃ k, lxW.keyAt 1 ⟨some [lxZ], false⟩ 1 = some k ∧ ((∀ j, lxW.keyAt 0 ⟨none, true⟩ j ≠ some k) → out[1]? = some (-5)) := by
  obtain ⟨w', out, h1, h2, h3⟩ := C50_plain lxEv_keeps lxEv_fill lx_safe rfl (by simp [lxOps, lxLinks, lxNew, KwOk]) (r := 1) (name := lxZone) (l := _) rfl rfl
    (g := _) rfl rfl (col := lxA) (c := ⟨.int, [100, 200, 300]⟩) (by decide) (v := -5)
    (by
      rw [show lastRequest lxE none .int lxOps = some (-5) from by simp [lastRequest, lxOps, lxLinks, lxNew, fillRequests, lx_named]]
      rfl) (by decide)
  exact ⟨w', out, h1, h2, h3 1 (by decide)⟩

/-- C50_temporary: a temporary default on the households -/
example : (lstep lxE lxId lxEv lxW (.tempFill (some 1) [("INT_NAME".toList, 8)])).1.classFill = lxW.classFill :=
  (C50_temporary lxEv_fill lxW (some 1) (by simp)).1

/-- C64: the links of the slice of the persons -/
example : lxW.linkSummary 3 = .ok [⟨lxHh, (3, 2), ⟨some [lxH], false⟩, ⟨none, true⟩, true, false, true⟩] := by
  unfold lxW
  rw [(C64_summary lxEv_quiet lxOps 3).1]
  decide

example : (lstep lxE lxId lxEv lxW (.setFill none [])).1.preindexed 1 lxZone = true :=
  C64_indexed_stays lxEv_quiet lxOps _ 1 lxZone (by simp) (by decide)

example : (lxE.lookup lxW 2 [lxHh] lxInc).1.preindexed 2 lxHh = true :=
  (C64_indexed_set lxEv_quiet lxOps 2).2.2 lxHh [] lxInc ⟨.int, [6, 5, 5, -1]⟩ (by decide)

example : (lstep lxE lxId lxEv lxW (.copy 2)).1.preindexed 4 lxHh = true :=
  (C64_indexed_derived lxW (.copy 2) 2 4 lxHh (.inr (.inr (.inl rfl))) rfl).trans (by decide)

end Cheval
