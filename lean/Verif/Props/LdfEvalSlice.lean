import Verif.Props.LdfEvaluate
import Verif.Props.LdfTables

/-!
# C46 for `evaluate`: evaluating on some rows of a frame is evaluating on the frame and taking these rows
-/
namespace Cheval
open Spec
variable {V F : Type}

/-- a local value for the rows `ix` of a frame: arrays with one element per row lose the other rows -/
def LocalVal.rowsAt (ix : List Int) : LocalVal F → LocalVal F
  | .scalar v => .scalar v
  | .array a => if a.length = 1 then .array a else .array (pick a ix)

/-- `x'` serves row `i` of the selection as `x` serves the row selected -/
def RelVal (n : Nat) (ix : List Int) (x x' : LocalVal F) : Prop :=
  ∀ (i : Nat) (k : Int), ix[i]? = some k → ∀ v, x.at n k.toNat = some v → x'.at ix.length i = some v

theorem relVal_array {n : Nat} {ix : List Int} (h : InRange n ix) {a : List (Val F)} (ha : a.length = n) : RelVal n ix (.array a) (.array (pick a ix)) := by
  intro i k hk v hv
  have hr := h k (List.mem_of_getElem? hk)
  rw [local_at_array ha hr.2] at hv
  have hr' : InRange a.length ix := by rw [ha]; exact h
  rw [local_at_array (pick_length hr') (List.getElem?_eq_some_iff.mp hk).1, pick_get hr', hk]
  exact hv

theorem relVal_rowsAt {n : Nat} {ix : List Int} (h : InRange n ix) (x : LocalVal F) : RelVal n ix x (x.rowsAt ix) := by
  cases x with
  | scalar v => exact fun i k hk u hu => hu
  | array a =>
    unfold LocalVal.rowsAt
    simp only
    split
    · rename_i h1
      intro i k hk v hv
      unfold LocalVal.at at hv ⊢
      simpa [h1] using hv
    · rename_i h1
      by_cases ha : a.length = n
      · exact relVal_array h ha
      · intro i k hk v hv
        unfold LocalVal.at at hv
        simp [h1, ha] at hv

/-- the local names of the selection serve its rows as those of the frame serve the rows selected -/
def RelLocals (n : Nat) (ix : List Int) (ld ld' : List (Str × LocalVal F)) : Prop :=
  ∀ id x, dictGet ld id = some x → ∃ x', dictGet ld' id = some x' ∧ RelVal n ix x x'

theorem RelLocals.set {n : Nat} {ix : List Int} {ld ld' : List (Str × LocalVal F)} (h : RelLocals n ix ld ld') (id : Str) {x x' : LocalVal F}
    (hx : RelVal n ix x x') : RelLocals n ix (dictSet ld id x) (dictSet ld' id x') := by
  intro k y hy
  rw [dictGet_dictSet] at hy ⊢
  split at hy
  · rename_i hk
    rw [if_pos hk]
    simp only [Option.some.injEq] at hy
    subst hy
    exact ⟨x', rfl, hx⟩
  · rename_i hk
    rw [if_neg hk]
    exact h k y hy

theorem relLocals_rowsAt {n : Nat} {ix : List Int} (h : InRange n ix) (ls : List (Str × LocalVal F)) :
    RelLocals n ix ls (ls.map fun e => (e.1, e.2.rowsAt ix)) := by
  intro id x hx
  refine ⟨x.rowsAt ix, ?_, relVal_rowsAt h x⟩
  induction ls with
  | nil => simp [dictGet] at hx
  | cons e ls ih =>
    rw [dictGet_cons] at hx
    rw [List.map_cons, dictGet_cons]
    simp only
    split at hx
    · rename_i he
      rw [if_pos he]
      simp only [Option.some.injEq] at hx
      rw [hx]
    · rename_i he
      rw [if_neg he]
      exact ih hx

theorem scalar_rel {n : Nat} {ix : List Int} (v : Val F) : RelVal n ix (.scalar v) (.scalar v) := fun _ _ _ _ hu => hu

variable [DecidableEq V] {E : LEnv V} {K : EvEnv V F} {isid : Str → Bool}

theorem bindSymbols_slice (hrw : K.Rowwise) (hK : K.Ok) {f f' : LFrame V} (hf : f.Wf) {ix : List Int} (hix : InRange f.rows ix) (hro : RowsOf f f' ix) :
    ∀ {ids : List Str} {ld ld' ld1 : List (Str × LocalVal F)}, RelLocals f.rows ix ld ld' → K.bindSymbols f ids ld = .ok ld1 →
      ∃ ld1', K.bindSymbols f' ids ld' = .ok ld1' ∧ RelLocals f.rows ix ld1 ld1'
  | [], ld, ld', ld1, h, hb => by
    simp only [EvEnv.bindSymbols, Except.ok.injEq] at hb
    subst hb
    exact ⟨ld', rfl, h⟩
  | id :: ids, ld, ld', ld1, h, hb => by
    rw [EvEnv.bindSymbols] at hb ⊢
    rw [hro.names]
    split at hb
    · cases hb
    · rename_i hl
      rw [if_neg hl]
      have hd : dictGet f'.cols id = (dictGet f.cols id).map fun c => ⟨c.kind, pick c.vals ix⟩ := by
        rw [hro.cols]
        exact dictGet_mapCols f.cols (fun _ c => (⟨c.kind, pick c.vals ix⟩ : LCol V)) id
      rw [hd]
      cases hc : dictGet f.cols id with
      | none =>
        rw [hc] at hb
        simp only [Option.map_none] at hb ⊢
        split at hb
        · rename_i hm
          obtain ⟨x, hx⟩ := Option.isSome_iff_exists.mp ((dictGet_isSome_iff ld id).mpr hm)
          obtain ⟨x', hx', -⟩ := h id x hx
          have hm' : id ∈ ld'.map (·.1) := (dictGet_isSome_iff ld' id).mp (by rw [hx']; rfl)
          rw [if_pos hm']
          exact bindSymbols_slice hrw hK hf hix hro h hb
        · cases hb
      | some c =>
        rw [hc] at hb
        simp only [Option.map_some] at hb ⊢
        cases ha : K.conv c with
        | error e => rw [ha] at hb; simp at hb
        | ok a =>
          rw [ha] at hb
          simp only at hb
          have hlen : c.vals.length = f.rows := hf.cols _ (dictGet_mem hc)
          have ha' := hrw c a ix ha (by rw [hlen]; exact hix)
          rw [ha']
          simp only
          exact bindSymbols_slice hrw hK hf hix hro (h.set id (relVal_array hix ((hK.conv c a ha).trans hlen))) hb

theorem chain_slice (hK : K.Ok) {w : LWorld V} (hg : LGood E w) {r : Nat} {f f' : LFrame V} {ix : List Int} (hs : SliceOf w r f f' ix)
    {root : Str} {ch : Chain} {c : LCol V} (hc : (K.chain E (K.argEval E) w r root ch).2 = .ok c) :
    (K.chain E (K.argEval E) (w.push f') w.frames.length root ch).2 = .ok ⟨c.kind, pick c.vals ix⟩ := by
  unfold EvEnv.chain at hc ⊢
  split at hc
  · exact hs.aggregate (argEval_keeps hK) (argEval_push hK) hg hc
  · exact hs.lookup hg hc
  · simp at hc

theorem bindChains_slice (hrw : K.Rowwise) (hK : K.Ok) {w : LWorld V} (hg : LGood E w) {r : Nat} {f f' : LFrame V} {ix : List Int}
    (hs : SliceOf w r f f' ix) (hg' : LGood E (w.push f')) :
    ∀ {cs : List (Str × Str × Chain)} {wa wb w1 : LWorld V} {ld ld' ld1 : List (Str × LocalVal F)}, Calm E w wa → Calm E (w.push f') wb →
      RelLocals f.rows ix ld ld' → K.bindChains E (K.argEval E) r wa cs ld = (w1, .ok ld1) →
      ∃ w1' ld1', K.bindChains E (K.argEval E) w.frames.length wb cs ld' = (w1', .ok ld1') ∧ RelLocals f.rows ix ld1 ld1'
  | [], wa, wb, w1, ld, ld', ld1, ha, hb, h, hx => by
    simp only [EvEnv.bindChains, Prod.mk.injEq, Except.ok.injEq] at hx
    obtain ⟨-, rfl⟩ := hx
    exact ⟨wb, ld', rfl, h⟩
  | (sub, root, ch) :: rest, wa, wb, w1, ld, ld', ld1, ha, hb, h, hx => by
    rw [EvEnv.bindChains] at hx ⊢
    have hcalm := chain_calm (K := K) (argEval_calm hK) ha.1.2.1 r root ch
    have hcalm' := chain_calm (K := K) (argEval_calm hK) hb.1.2.1 w.frames.length root ch
    have hcache := chain_cache (K := K) (argEval_calm hK) (argEval_cache hK) ⟨ha.1.1, ha.2, hg, ha.1.2.1⟩ r root ch
    have hcache' := chain_cache (K := K) (argEval_calm hK) (argEval_cache hK) ⟨hb.1.1, hb.2, hg', hb.1.2.1⟩ w.frames.length root ch
    cases hl : wa.link? r root with
    | none => rw [hl] at hx; simp at hx
    | some l =>
      rw [hl] at hx
      simp only at hx
      rcases hch : K.chain E (K.argEval E) wa r root ch with ⟨wa1, e | c⟩
      · rw [hch] at hx; simp at hx
      rw [hch] at hx hcalm hcache
      simp only at hx hcalm hcache
      cases hcv : K.conv c with
      | error e => rw [hcv] at hx; simp at hx
      | ok a =>
        rw [hcv] at hx
        simp only at hx
        have h1 := chain_slice hK hg hs hcache
        rw [h1] at hcache'
        obtain ⟨l', hl'⟩ := chain_link hcache'.symm
        rw [hl']
        simp only
        rcases hch' : K.chain E (K.argEval E) wb w.frames.length root ch with ⟨wb1, y⟩
        rw [hch'] at hcalm' hcache'
        simp only at hcalm' hcache'
        subst hcache'
        simp only
        have hlen : c.vals.length = f.rows := by
          have := chain_rows (argEval_keeps hK) hg hcache
          simpa [LWorld.rows, hs.frame] using this
        rw [hrw c a ix hcv (by rw [hlen]; exact hs.range)]
        simp only
        exact bindChains_slice hrw hK hg hs hg' (ha.trans hcalm) (hb.trans hcalm')
          (h.set sub (relVal_array hs.range ((hK.conv c a hcv).trans hlen))) hx

theorem rows_slice {n : Nat} {ix : List Int} (hix : InRange n ix) {ld ld' : List (Str × LocalVal F)} (h : RelLocals n ix ld ld') {e : PExpr} {c : LCol V}
    (hr : K.rows n ld e = .ok c) : ∃ vals, vals.length = n ∧ c = K.back vals ∧ K.rows ix.length ld' e = .ok (K.back (pick vals ix)) := by
  unfold EvEnv.rows at hr ⊢
  simp only at hr ⊢
  split at hr
  · rename_i hall
    simp only [Except.ok.injEq] at hr
    have hlen : ((List.range n).filterMap fun i => ne K.arith (fun id => (dictGet ld id).bind (LocalVal.at n i)) e).length = n := by
      rw [filterMap_length hall, List.length_range]
    refine ⟨_, hlen, hr.symm, ?_⟩
    have hrow : ∀ (i : Nat) (k : Int), ix[i]? = some k → ∃ v, ne K.arith (fun id => (dictGet ld id).bind (LocalVal.at n k.toNat)) e = some v ∧
        ne K.arith (fun id => (dictGet ld' id).bind (LocalVal.at ix.length i)) e = some v := by
      intro i k hk
      have hkr := (hix k (List.mem_of_getElem? hk)).2
      obtain ⟨v, hv⟩ := Option.isSome_iff_exists.mp (List.all_eq_true.mp hall k.toNat (List.mem_range.mpr hkr))
      refine ⟨v, hv, ne_mono K.arith _ _ (fun id u hu => ?_) e v hv⟩
      obtain ⟨x, hx, hxu⟩ := Option.bind_eq_some_iff.mp hu
      obtain ⟨x', hx', hrel⟩ := h id x hx
      rw [hx']
      exact hrel i k hk u hxu
    have hall' : ((List.range ix.length).all fun i => (ne K.arith (fun id => (dictGet ld' id).bind (LocalVal.at ix.length i)) e).isSome) = true := by
      rw [List.all_eq_true]
      intro i hi
      have hi := List.mem_range.mp hi
      obtain ⟨v, -, hv⟩ := hrow i ix[i] (List.getElem?_eq_getElem hi)
      rw [hv]; rfl
    rw [if_pos hall']
    congr 2
    refine List.ext_getElem? fun i => ?_
    rw [pick_get (by rw [hlen]; exact hix)]
    by_cases hi : i < ix.length
    · obtain ⟨v, h1, h2⟩ := hrow i ix[i] (List.getElem?_eq_getElem hi)
      rw [filterMap_get hall' hi, h2, List.getElem?_eq_getElem hi]
      simp only [Option.bind_some]
      rw [filterMap_get hall (hix _ (List.getElem_mem hi)).2, h1]
    · rw [List.getElem?_eq_none (by rw [filterMap_length hall', List.length_range]; omega), List.getElem?_eq_none (by omega)]
      rfl
  · cases hr

/-- **C46 (evaluate)** After any history with precomputed links: if `frame.evaluate(expr, local_dict)` succeeds, then so does the same
evaluation on any selection of rows of the frame (arrays among the locals cut down to these rows), and its result is these rows of the
result on the frame. Conversion to NumExpr's arrays and back must work row by row. -/
theorem C46_evaluate (hK : K.Ok) (hrw : K.Rowwise) (hback : ∀ a ix, InRange a.length ix → (K.back (pick a ix)).vals = pick (K.back a).vals ix)
    {ops : List (LOp V)} (hs : EagerRun E isid (K.argEval E) E.start ops) {w : LWorld V} (hw : w = lrun E isid (K.argEval E) E.start ops)
    {r : Nat} {f : LFrame V} (hf : w.frames[r]? = some f) {ix : List Int} (hix : InRange f.rows ix) (pk : Nat → List V) (pc : Str → Nat → V)
    {e : PExpr} {ls : List (Str × LocalVal F)} {c : LCol V} (hc : (K.evaluate E w r e ls).2 = .ok c) :
    ∃ w2 r' c', lstep E isid (K.argEval E) w (.select r ix pk pc) = (w2, .ok (.frame r')) ∧
      (K.evaluate E w2 r' e (ls.map fun x => (x.1, x.2.rowsAt ix))).2 = .ok c' ∧ SelectedRows c'.vals c.vals ix := by
  obtain ⟨h, ha⟩ : LGood E w ∧ AllEager w := by rw [hw]; exact hs.good (argEval_keeps hK)
  have hwf := h.wf f (List.mem_of_getElem? hf)
  obtain ⟨f', hf'⟩ := select_total h hf hix pk pc
  have hro := select_rowsOf hwf hix hf'
  have hsl : SliceOf w r f f' ix := ⟨hf, hix, ha f (List.mem_of_getElem? hf), hro.1, hro.2⟩
  have hstep : lstep E isid (K.argEval E) w (.select r ix pk pc) = (w.push f', .ok (.frame w.frames.length)) := by
    simp [lstep, LWorld.derive, hf, hf']
  have hg' : LGood E (w.push f') := by
    have := good_step (isid := isid) (argEval_keeps hK) h (op := .select r ix pk pc)
      (EagerOp.safe ha (show EagerOp w (.select r ix pk pc) from fun f0 hf0 => by rw [hf] at hf0; cases hf0; exact hix))
    rw [hstep] at this
    exact this
  obtain ⟨f0, s, e', ld, w1, ld1, hf0, hlk, hv, hb, hch, hr, -⟩ := evaluate_run hK h hc
  rw [hf] at hf0
  cases hf0
  have hstart : RelLocals f.rows ix (K.start ls) (K.start (ls.map fun x => (x.1, x.2.rowsAt ix))) := by
    unfold EvEnv.start
    exact ((relLocals_rowsAt hix ls).set _ (scalar_rel _)).set _ (scalar_rel _)
  obtain ⟨ld', hb', hrel⟩ := bindSymbols_slice hrw hK hwf hix hro.1 hstart hb
  obtain ⟨w1', ld1', hch', hrel'⟩ := bindChains_slice hrw hK h hsl hg' (Calm.refl h) (Calm.refl hg') hrel hch
  obtain ⟨vals, hlen, rfl, hrows⟩ := rows_slice hix hrel' hr
  refine ⟨_, _, K.back (pick vals ix), hstep, ?_, ?_⟩
  · unfold EvEnv.evaluate EvEnv.evalWith
    have hnew : (w.push f').frames[w.frames.length]? = some f' := push_new _ _
    have hl' : f'.linked = true := by rw [hro.1.linked]; exact hlk
    simp only [hnew, hl', Bool.not_true, Bool.false_eq_true, if_false]
    have hv' : visit { K.py with mode := .dataframe } e (freshParser [] []) = (s, .ok e') := hv
    rw [hv']
    simp only [hb', hch', hro.1.rows hix]
    exact hrows
  · rw [hback vals ix (by rw [hlen]; exact hix)]
    refine pick_selected ?_
    rw [hK.back, hlen]
    exact hix

/-! ## a case: the households of `LdfExample`, rows 2, 0 and 2 again -/

theorem map_pick {A B : Type} (g : A → B) (a : List A) (ix : List Int) : (pick a ix).map g = pick (a.map g) ix := by
  simp only [pick, List.map_filterMap]
  congr 1
  funext i
  simp

theorem lxK_rowwise : lxK.Rowwise := by
  intro c a ix h _
  simp only [lxK, Except.ok.injEq] at h ⊢
  subst h
  exact map_pick _ _ _

theorem lxK_back (a : List (Val Int)) (ix : List Int) : (lxK.back (pick a ix)).vals = pick (lxK.back a).vals ix := map_pick _ _ _

theorem lxK_eager : EagerRun lxE lxId (lxK.argEval lxE) lxE.start lxOps := by
  simp only [EagerRun, EagerOp, lxOps, lxNew, lxLinks, List.cons_append, List.nil_append, and_true]
  refine ⟨by decide, by decide, by decide, by decide, by decide, by decide, trivial, ?_⟩
  intro f hf k hk
  have : f.rows = 4 := by
    cases hf
    rfl
  rw [this]
  simp only [List.mem_cons, List.not_mem_nil, or_false] at hk
  rcases hk with rfl | rfl <;> decide

/-- `inc + zone.a + k` with an array `k` -/
def lxExpr2 : PExpr := .bin .add (.bin .add (.name lxInc) (.attr (.name lxZone) lxA)) (.name ['k'])

example : ∃ f, (lrun lxE lxId (lxK.argEval lxE) lxE.start lxOps).frames[1]? = some f ∧ InRange f.rows [2, 0, 2] ∧
    (lxK.evaluate lxE (lrun lxE lxId (lxK.argEval lxE) lxE.start lxOps) 1 lxExpr2 [(['k'], .array [.num 1, .num 2, .num 3])]).2 =
      .ok ⟨.int, [106, 3, 310]⟩ ∧
    ∃ w2 c', lstep lxE lxId (lxK.argEval lxE) (lrun lxE lxId (lxK.argEval lxE) lxE.start lxOps) (.select 1 [2, 0, 2] (fun _ => []) fun _ _ => 0) =
      (w2, .ok (.frame 4)) ∧ (lxK.evaluate lxE w2 4 lxExpr2 [(['k'], .array [.num 3, .num 1, .num 3])]).2 = .ok c' ∧ c'.vals = [310, 106, 310] := by
  have hr : InRange 3 [2, 0, 2] := by
    intro k hk
    simp only [List.mem_cons, List.not_mem_nil, or_false] at hk
    rcases hk with rfl | rfl | rfl <;> decide
  refine ⟨_, rfl, hr, by with_unfolding_all rfl, ?_⟩
  obtain ⟨w2, r', c', h1, h2, h3⟩ := C46_evaluate lxK_ok lxK_rowwise (fun a ix _ => lxK_back a ix) lxK_eager rfl (r := 1) rfl (ix := [2, 0, 2]) hr
    (fun _ => []) (fun _ _ => 0) (e := lxExpr2) (ls := [(['k'], .array [.num 1, .num 2, .num 3])]) (c := ⟨.int, [106, 3, 310]⟩) (by with_unfolding_all rfl)
  have h4 : r' = 4 := by
    have := congrArg (fun x => x.2) h1
    simp only [lstep, LWorld.derive] at this
    have h5 : (Except.ok (LOut.frame 4) : Except Err (LOut Int)) = .ok (.frame r') := this
    simpa using h5.symm
  subst h4
  refine ⟨w2, c', h1, h2, ?_⟩
  refine List.ext_getElem? fun i => ?_
  match i with
  | 0 => exact h3.2 0 2 rfl
  | 1 => exact h3.2 1 0 rfl
  | 2 => exact h3.2 2 2 rfl
  | i + 3 => rw [List.getElem?_eq_none (by rw [h3.1]; simp), List.getElem?_eq_none (by simp)]

end Cheval
