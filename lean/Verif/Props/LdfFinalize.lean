import Verif.Props.LdfLazy

/-!
# C47: operations that only pass through `__finalize__`
-/
namespace Cheval
variable {V : Type} [DecidableEq V] {E : LEnv V} {isid : Str → Bool}
  {ev : LWorld V → Nat → PExpr → LWorld V × Except Err (LCol V)}

/-- C47 fails for operations that move rows: the persons in reverse order (`sort_values`, `sample`, `take`: frame 4) are linked to the
households of the persons in the original order. -/
theorem C47_moved_refuted :
    let w := (lstep lxE lxId lxEv lxW (.finalized 2 [some lxP] [[3], [2], [1], [0]] [(lxH, ⟨.int, [77, 10, 10, 20]⟩)])).1
    lxVals (lxE.lookup lxW 2 [lxHh] lxInc) = .ok [6, 5, 5, -1] ∧
    lxVals (lxE.lookup w 4 [lxHh] lxInc) = .ok [6, 5, 5, -1] := by decide

/-- C47 fails for operations that drop rows (`drop`, `dropna`, `drop_duplicates`, `query`): the link is kept, and every lookup over it raises
ValueError. -/
theorem C47_dropped_refuted :
    let w := (lstep lxE lxId lxEv lxW (.finalized 2 [some lxP] [[1], [2]] [(lxH, ⟨.int, [10, 10]⟩)])).1
    (w.link? 4 lxHh).isSome = true ∧ (lxE.lookup w 4 [lxHh] lxInc).2 = .error .value := by decide

/-- C47 fails for `reindex` to labels that are not in the frame: the new row 9 has no household (NaN), but is linked to the household
of the last row. -/
theorem C47_reindex_refuted :
    let w := (lstep lxE lxId lxEv (lrun lxE lxId lxEv lxE.start (lxNew ++ [.linkTo 2 1 lxHh { onSelf := some [lxH] }]))
      (.select 2 [0, 1, 2] (fun _ => []) fun _ _ => 0)).1
    let w1 := (lstep lxE lxId lxEv w (.select 3 [0, -1] (fun _ => [9]) fun _ _ => -99)).1
    (w1.frames[4]?.map fun f => (f.index, f.cols.map fun c => c.2.vals)) = some ([[0], [9]], [[20, -99]]) ∧
    lxVals (lxE.lookup w1 4 [lxHh] lxInc) = .ok [6, 5] := by decide

/-- C47 fails for selecting columns of a slice: of persons 3 and 1 (frame 3), the frame with all its columns (frame 4) looks up
the first two persons' households, or raises. -/
theorem C47_slice_refuted :
    let w := (lstep lxE lxId lxEv lxW (.finalized 3 [some lxP] [[3], [1]] [(lxH, ⟨.int, [77, 10]⟩)])).1
    lxVals (lxE.lookup lxW 3 [lxHh] lxInc) = .ok [-1, 5] ∧ (lxE.lookup w 4 [lxHh] lxInc).2 = .error .value := by decide

end Cheval
