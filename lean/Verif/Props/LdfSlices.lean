import Verif.Core.LdfEager
import Verif.Props.LdfExample

/-!
# C46: slicing commutes with lookups
-/
namespace Cheval
variable {V : Type} [DecidableEq V] {E : LEnv V} {isid : Str → Bool}
  {ev : LWorld V → Nat → PExpr → LWorld V × Except Err (LCol V)}

/-- `out` is the selection of the rows `ix` of `vals` -/
def SelectedRows (out vals : List V) (ix : List Int) : Prop :=
  out.length = ix.length ∧ ∀ (i : Nat) (k : Int), ix[i]? = some k → out[i]? = vals[k.toNat]?

theorem pick_selected {vals : List V} {ix : List Int} (h : InRange vals.length ix) : SelectedRows (pick vals ix) vals ix :=
  ⟨pick_length h, fun i k hk => by rw [pick_get h, hk]; rfl⟩

theorem lookup_length {w : LWorld V} {r : Nat} {path : List Str} {col : Str} {c : LCol V} {f : LFrame V} (hf : w.frames[r]? = some f)
    (hc : (E.lookup w r path col).2 = .ok c) : c.vals.length = f.rows := by
  have key : ∀ (A : Type) (k : DKind) (x : A × Except Err (List V)), (asSeries (w.frames[r]?.elim 0 LFrame.rows) k x).2 = .ok c → c.vals.length = f.rows := by
    rintro A k ⟨a, e | out⟩ hx
    · simp [asSeries] at hx
    · simp only [asSeries, hf, Option.elim_some] at hx
      split at hx
      · rename_i hl
        simp only [Except.ok.injEq] at hx
        rw [← hx, ← hl]
      · simp at hx
  unfold LEnv.lookup at hc
  split at hc
  · simp at hc
  · split at hc
    · simp at hc
    · split at hc
      · simp at hc
      · split at hc
        · simp at hc
        · exact key _ _ _ hc
      · split at hc
        · simp at hc
        · split at hc
          · simp at hc
          · exact key _ _ _ hc

theorem aggregate_length (hev : EvKeeps E ev) {w : LWorld V} (h : LGood E w) {r : Nat} {path : List Str} {func : Str} {arg : PExpr} {intFill : V} {c : LCol V}
    {f : LFrame V} (hf : w.frames[r]? = some f) (hc : (E.aggregate ev w r path func arg intFill).2 = .ok c) : c.vals.length = f.rows := by
  have key : ∀ (A : Type) (w1 : LWorld V) (k : DKind) (x : A × Except Err (List V)), CacheOnly w w1 →
      (asSeries (w1.frames[r]?.elim 0 LFrame.rows) k x).2 = .ok c → c.vals.length = f.rows := by
    rintro A w1 k ⟨a, e | out⟩ hco hx
    · simp [asSeries] at hx
    · rw [hco.rows] at hx
      simp only [asSeries, hf, Option.elim_some] at hx
      split at hx
      · rename_i hl
        simp only [Except.ok.injEq] at hx
        rw [← hx, ← hl]
      · simp at hx
  unfold LEnv.aggregate at hc
  split at hc
  · simp at hc
  · rename_i l hist hwk
    split at hc
    · simp at hc
    · rename_i g hg
      split at hc
      · simp at hc
      · simp at hc
      · split at hc
        · simp at hc
        · have hk := (hev w l.other arg h).1
          rcases hea : ev w l.other arg with ⟨w1, e | cc⟩
          · rw [hea] at hc; simp at hc
          · rw [hea] at hc hk
            simp only at hc hk
            split at hc
            · simp at hc
            · split at hc
              · simp at hc
              · split at hc
                · simp at hc
                · split at hc
                  · simp at hc
                  · exact key _ _ _ _ hk.1 hc

/-- a program step that only reads -/
inductive ReadOp : LOp V → Prop
  | lookup (r : Nat) (path : List Str) (col : Str) : ReadOp (.lookup r path col)
  | aggregate (py : Bool) (r : Nat) (path : List Str) (func : Str) (arg : PExpr) (intFill : V) : ReadOp (.aggregate py r path func arg intFill)

theorem reads_keep (hev : EvKeeps E ev) : ∀ {ops : List (LOp V)} {w : LWorld V}, LGood E w → (∀ op ∈ ops, ReadOp op) → Keeps E w (lrun E isid ev w ops)
  | [], _, h, _ => Keeps.refl h
  | op :: ops, w, h, hr => by
    have h1 : Keeps E w (lstep E isid ev w op).1 := by
      cases hr op List.mem_cons_self with
      | lookup r path col => exact lookup_keeps h r path col
      | aggregate py r path func arg intFill => exact aggregate_keeps (called_keeps hev py) h r path func arg intFill
    exact h1.trans (reads_keep hev h1.2.1 fun o ho => hr o (List.mem_cons_of_mem _ ho))

/-- C46: after any history with precomputed links, for every frame (itself possibly a slice), every selection of existing rows by
mask, list or slice, and any lookups performed in between: the selection succeeds, and looking a column up over any chain of
links on the selected frame gives the selected rows of the lookup on the frame. -/
theorem C46_slice (hev : EvKeeps E ev) {ops reads : List (LOp V)} (hs : EagerRun E isid ev E.start ops) (hr : ∀ op ∈ reads, ReadOp op)
    {w w1 : LWorld V} (hw : w = lrun E isid ev E.start ops) (hw1 : w1 = lrun E isid ev w reads)
    {r : Nat} {f : LFrame V} (hf : w.frames[r]? = some f) {ix : List Int} (hix : InRange f.rows ix) (pk : Nat → List V) (pc : Str → Nat → V)
    {path : List Str} {col : Str} {c : LCol V} (hc : (E.lookup w r path col).2 = .ok c) :
    ∃ w2 r', lstep E isid ev w1 (.select r ix pk pc) = (w2, .ok (.frame r')) ∧
      ∃ out, (E.lookup w2 r' path col).2 = .ok ⟨c.kind, out⟩ ∧ SelectedRows out c.vals ix := by
  obtain ⟨h, ha⟩ : LGood E w ∧ AllEager w := by rw [hw]; exact hs.good hev
  have hk : Keeps E w w1 := by rw [hw1]; exact reads_keep hev h hr
  obtain ⟨f1, hf1, hsf⟩ := hk.1.frame hf
  have hrow : f1.rows = f.rows := by unfold LFrame.rows; rw [hsf.1]
  have hix1 : InRange f1.rows ix := by rw [hrow]; exact hix
  obtain ⟨f', hf'⟩ := select_total hk.2.1 hf1 hix1 pk pc
  refine ⟨w1.push f', w1.frames.length, ?_, pick c.vals ix, ?_, pick_selected (by rw [lookup_length hf hc]; exact hix)⟩
  · simp [lstep, LWorld.derive, hf1, hf']
  · have hsl : SliceOf w1 r f1 f' ix :=
      let hro := select_rowsOf (hk.2.1.wf f1 (List.mem_of_getElem? hf1)) hix1 hf'
      ⟨hf1, hix1, ha.keeps hk f1 (List.mem_of_getElem? hf1), hro.1, hro.2⟩
    exact hsl.lookup hk.2.1 (by rw [← lookup_cache hk.1 h hk.2.1]; exact hc)

/-- C46 for the groups of a `groupby`, when the frame's row labels are unique. -/
theorem C46_group (hev : EvKeeps E ev) {ops reads : List (LOp V)} (hs : EagerRun E isid ev E.start ops) (hr : ∀ op ∈ reads, ReadOp op)
    {w w1 : LWorld V} (hw : w = lrun E isid ev E.start ops) (hw1 : w1 = lrun E isid ev w reads)
    {r : Nat} {f : LFrame V} (hf : w.frames[r]? = some f) {ix : List Nat} (hix : ∀ i ∈ ix, i < f.rows)
    {w2 : LWorld V} {r' : Nat} (hst : lstep E isid ev w1 (.grouped r ix) = (w2, .ok (.frame r')))
    {path : List Str} {col : Str} {c : LCol V} (hc : (E.lookup w r path col).2 = .ok c) :
    ∃ out, (E.lookup w2 r' path col).2 = .ok ⟨c.kind, out⟩ ∧ SelectedRows out c.vals (ix.map fun (i : Nat) => (i : Int)) := by
  obtain ⟨h, ha⟩ : LGood E w ∧ AllEager w := by rw [hw]; exact hs.good hev
  have hk : Keeps E w w1 := by rw [hw1]; exact reads_keep hev h hr
  obtain ⟨f1, hf1, hsf⟩ := hk.1.frame hf
  have hrow : f1.rows = f.rows := by unfold LFrame.rows; rw [hsf.1]
  have hix1 : ∀ i ∈ ix, i < f1.rows := by rw [hrow]; exact hix
  have hir := natPos_inRange hix
  simp only [lstep, LWorld.derive, hf1] at hst
  cases hg : E.grouped f1 ix with
  | error e => rw [hg] at hst; simp at hst
  | ok f' =>
    rw [hg] at hst
    simp only [Prod.mk.injEq, Except.ok.injEq, LOut.frame.injEq] at hst
    obtain ⟨rfl, rfl⟩ := hst
    refine ⟨pick c.vals (ix.map fun (i : Nat) => (i : Int)), ?_, pick_selected (by rw [lookup_length hf hc]; exact hir)⟩
    have hsl : SliceOf w1 r f1 f' (ix.map fun (i : Nat) => (i : Int)) :=
      let hro := grouped_rowsOf (hk.2.1.wf f1 (List.mem_of_getElem? hf1)) hix1 hg
      ⟨hf1, natPos_inRange hix1, ha.keeps hk f1 (List.mem_of_getElem? hf1), hro.1, hro.2⟩
    exact hsl.lookup hk.2.1 (by rw [← lookup_cache hk.1 h hk.2.1]; exact hc)

/-- C46 for aggregated lookups, whatever the reduction and whatever the keys. -/
theorem C46_aggregate (hev : EvKeeps E ev) (hep : EvPush E ev) {ops : List (LOp V)} (hs : EagerRun E isid ev E.start ops)
    {w : LWorld V} (hw : w = lrun E isid ev E.start ops)
    {r : Nat} {f : LFrame V} (hf : w.frames[r]? = some f) {ix : List Int} (hix : InRange f.rows ix) (pk : Nat → List V) (pc : Str → Nat → V)
    {path : List Str} {func : Str} {arg : PExpr} {intFill : V} {c : LCol V} (hc : (E.aggregate ev w r path func arg intFill).2 = .ok c) :
    ∃ w2 r', lstep E isid ev w (.select r ix pk pc) = (w2, .ok (.frame r')) ∧
      ∃ out, (E.aggregate ev w2 r' path func arg intFill).2 = .ok ⟨c.kind, out⟩ ∧ SelectedRows out c.vals ix := by
  obtain ⟨h, ha⟩ : LGood E w ∧ AllEager w := by rw [hw]; exact hs.good hev
  obtain ⟨f', hf'⟩ := select_total h hf hix pk pc
  refine ⟨w.push f', w.frames.length, ?_, pick c.vals ix, ?_, pick_selected (by rw [aggregate_length hev h hf hc]; exact hix)⟩
  · simp [lstep, LWorld.derive, hf, hf']
  · have hsl : SliceOf w r f f' ix :=
      let hro := select_rowsOf (h.wf f (List.mem_of_getElem? hf)) hix hf'
      ⟨hf, hix, ha f (List.mem_of_getElem? hf), hro.1, hro.2⟩
    exact hsl.aggregate hev hep h hc

/-- C46 repeated: a selection of a selection. -/
theorem C46_twice (hev : EvKeeps E ev) {ops : List (LOp V)} (hs : EagerRun E isid ev E.start ops)
    {w : LWorld V} (hw : w = lrun E isid ev E.start ops)
    {r : Nat} {f : LFrame V} (hf : w.frames[r]? = some f) {ix jx : List Int} (hix : InRange f.rows ix) (hjx : InRange ix.length jx)
    (pk pk' : Nat → List V) (pc pc' : Str → Nat → V)
    {path : List Str} {col : Str} {c : LCol V} (hc : (E.lookup w r path col).2 = .ok c) :
    ∃ w1 r1 w2 r2, lstep E isid ev w (.select r ix pk pc) = (w1, .ok (.frame r1)) ∧
      lstep E isid ev w1 (.select r1 jx pk' pc') = (w2, .ok (.frame r2)) ∧
      ∃ out, (E.lookup w2 r2 path col).2 = .ok ⟨c.kind, out⟩ ∧ out.length = jx.length ∧
        ∀ (i : Nat) (j k : Int), jx[i]? = some j → ix[j.toNat]? = some k → out[i]? = c.vals[k.toNat]? := by
  obtain ⟨w1, r1, h1, out1, h2, h3⟩ := C46_slice hev hs (reads := []) (by simp) hw rfl hf hix pk pc hc
  simp only [lrun, List.foldl_nil] at h1
  have hrun : w1 = lrun E isid ev E.start (ops ++ [.select r ix pk pc]) := by
    simp only [lrun, List.foldl_append, List.foldl_cons, List.foldl_nil]
    rw [hw] at h1
    simp only [lrun] at h1
    rw [h1]
  have heag : EagerRun E isid ev E.start (ops ++ [.select r ix pk pc]) := by
    have key : ∀ (os : List (LOp V)) (v : LWorld V) (op : LOp V), EagerRun E isid ev v os → EagerOp (lrun E isid ev v os) op →
        EagerRun E isid ev v (os ++ [op]) := by
      intro os
      induction os with
      | nil => intro v op _ ho; exact ⟨ho, trivial⟩
      | cons o os ih => intro v op he ho; exact ⟨he.1, ih _ op he.2 ho⟩
    refine key ops _ _ hs ?_
    rw [← hw]
    intro f0 hf0
    rw [hf] at hf0
    cases hf0
    exact hix
  have hf1 : ∃ f1, w1.frames[r1]? = some f1 ∧ f1.rows = ix.length := by
    simp only [lstep, LWorld.derive, hf] at h1
    cases hsel : E.select f ix pk pc with
    | error e => rw [hsel] at h1; simp at h1
    | ok f' =>
      rw [hsel] at h1
      simp only [Prod.mk.injEq, Except.ok.injEq, LOut.frame.injEq] at h1
      obtain ⟨rfl, rfl⟩ := h1
      have hgood : LGood E w := by rw [hw]; exact (hs.good hev).1
      exact ⟨f', push_new _ _, (select_rowsOf (hgood.wf f (List.mem_of_getElem? hf)) hix hsel).1.rows hix⟩
  obtain ⟨f1, hf1, hr1⟩ := hf1
  obtain ⟨w2, r2, h4, out2, h5, h6⟩ := C46_slice hev heag (reads := []) (by simp) hrun rfl hf1 (by rw [hr1]; exact hjx) pk' pc' h2
  simp only [lrun, List.foldl_nil] at h4
  exact ⟨w1, r1, w2, r2, h1, h4, out2, h5, h6.1, fun i j k hj hk => by rw [h6.2 i j hj, h3.2 _ k hk]⟩

/-- a case of C46: persons 3 and 1, after a lookup on all persons had cached the person without a household -/
example : ∃ f, lxW.frames[2]? = some f ∧ InRange f.rows [3, 1] ∧ lxVals (lxE.lookup lxW 2 [lxHh] lxInc) = .ok [6, 5, 5, -1] ∧
    lxVals (lxE.lookup (lstep lxE lxId lxEv lxW (.select 2 [3, 1] (fun _ => []) fun _ _ => 0)).1 4 [lxHh] lxInc) = .ok [-1, 5] := by
  refine ⟨_, rfl, ?_, by decide, by decide⟩
  intro k hk
  simp only [List.mem_cons, List.not_mem_nil, or_false] at hk
  rcases hk with rfl | rfl <;> decide

/-! ## links that are not computed before slicing -/

/-- persons linked lazily, and sliced to rows 3 and 1 before any lookup -/
def lxLazyOps : List (LOp Int) := lxNew ++ [
  .linkTo 2 1 lxHh { onSelf := some [lxH], precompute := false },
  .select 2 [3, 1] (fun _ => []) (fun _ _ => 0)]

/-- C46 fails for `link_to(precompute=False)`: a slice taken before the first lookup looks keys up in the frame the link was made on,
so a slice of another size raises ValueError, and a permutation gets the values of other rows. -/
theorem C46_lazy_refuted :
    (lxE.lookup (lrun lxE lxId lxEv lxE.start lxLazyOps) 3 [lxHh] lxInc).2 = .error .value ∧
    lxVals (lxE.lookup (lrun lxE lxId lxEv lxE.start lxLazyOps) 2 [lxHh] lxInc) = .ok [6, 5, 5, 0] ∧
    (let w := lrun lxE lxId lxEv lxE.start (lxLazyOps ++ [.select 2 [3, 2, 1, 0] (fun _ => []) (fun _ _ => 0)])
     lxVals (lxE.lookup w 4 [lxHh] lxInc) = .ok [6, 5, 5, 0]) := by decide

end Cheval
