import Verif.Core.LdfOut
import Verif.Props.LdfEvaluate

/-!
# C81: evaluate(expr, out=series)
-/
namespace Cheval
open Spec
variable {V F : Type} [DecidableEq V] {K : EvEnv V F} {E : LEnv V} {isid : Str → Bool} {S : StoreIn V}

/-- what the values of `evaluate` become in `out`: they are converted and written, or refused and nothing is written -/
def stored (S : StoreIn V) (allow : Bool) (old : LCol V) : Except Err (LCol V) → Except Err (LCol V) × Option (LCol V)
  | .error er => (.error er, none)
  | .ok c => match S allow c old with
    | .error er => (.error er, none)
    | .ok vs => (.ok ⟨old.kind, vs⟩, some ⟨old.kind, vs⟩)

/-- **C81** With a Series `out` of as many rows as the frame, `evaluate` does what it does without `out`; if it returns, `out` holds its values
converted to the type of `out`, and the result has the same values. If it raises, or NumPy refuses the conversion, `out` stays as it was. -/
theorem C81_out (hS : S.Ok) (w : LWorld V) (r : Nat) (e : PExpr) (ls : List (Str × LocalVal F)) (allow : Bool) (old : LCol V)
    (hlen : old.vals.length = w.rows r) :
    K.evaluateOut E S w r e ls allow old = ((K.evaluate E w r e ls).1, stored S allow old (K.evaluate E w r e ls).2) := by
  unfold EvEnv.evaluateOut EvEnv.evaluate EvEnv.evalWith
  cases hf : w.frames[r]? with
  | none => rfl
  | some f =>
    have hr : old.vals.length = f.rows := by rw [hlen]; simp [LWorld.rows, hf]
    simp only
    split
    · rfl
    · rcases visit { K.py with mode := .dataframe } e (freshParser [] []) with ⟨s, er | e'⟩
      · rfl
      · simp only
        cases K.bindSymbols f s.visited (K.start ls) with
        | error er => rfl
        | ok ld =>
          simp only
          rcases K.bindChains E (K.argEval E) r w (subs s) ld with ⟨w1, er | ld1⟩
          · rfl
          · simp only
            rw [hr]
            cases K.rows f.rows ld1 e' with
            | error er => rfl
            | ok c =>
              simp only [stored]
              cases hs : S allow c old with
              | error er => rfl
              | ok vs =>
                simp only
                rw [if_pos ((hS _ _ _ _ hs).trans hr)]

/-- **C81** With a Series of another length, `evaluate` raises, whatever the expression. -/
theorem C81_length (hS : S.Ok) (w : LWorld V) (r : Nat) (e : PExpr) (ls : List (Str × LocalVal F)) (allow : Bool) (old : LCol V)
    (hlen : old.vals.length ≠ w.rows r) : ∃ er, (K.evaluateOut E S w r e ls allow old).2.1 = .error er := by
  unfold EvEnv.evaluateOut
  cases hf : w.frames[r]? with
  | none => exact ⟨_, rfl⟩
  | some f =>
    have hr : old.vals.length ≠ f.rows := by simpa [LWorld.rows, hf] using hlen
    simp only
    split
    · exact ⟨_, rfl⟩
    · rcases visit { K.py with mode := .dataframe } e (freshParser [] []) with ⟨s, er | e'⟩
      · exact ⟨_, rfl⟩
      · simp only
        cases K.bindSymbols f s.visited (K.start ls) with
        | error er => exact ⟨_, rfl⟩
        | ok ld =>
          simp only
          rcases K.bindChains E (K.argEval E) r w (subs s) ld with ⟨w1, er | ld1⟩
          · exact ⟨_, rfl⟩
          · simp only
            cases K.rows old.vals.length ld1 e' with
            | error er => exact ⟨_, rfl⟩
            | ok c =>
              simp only
              cases hs : S allow c old with
              | error er => exact ⟨_, rfl⟩
              | ok vs =>
                simp only
                rw [if_neg (by rw [hS _ _ _ _ hs]; exact hr)]
                exact ⟨_, rfl⟩

/-- **C81** (part) If the expression reads a column of a frame that has not exactly one row, a Series of another length is left as it was. Missing:
expressions of constants and local scalars, and frames with one row (`C81_local_refuted`, `C81_one_row_refuted`). -/
theorem C81_length_partial (hK : K.Ok) (hS : S.Ok) {ops : List (LOp V)} (hs : SafeRun E isid (K.argEval E) E.start ops) {r : Nat} {f : LFrame V}
    {e : PExpr} {ls : List (Str × LocalVal F)} (hclash : NoDigitClash (tableNames e)) (hint : NoInternalNames (simpleNames e)) (allow : Bool)
    (old : LCol V) :
    let w := lrun E isid (K.argEval E) E.start ops
    w.frames[r]? = some f → f.rows ≠ 1 → old.vals.length ≠ f.rows → ∀ x ∈ operandNames e, ∀ c, dictGet f.cols x = some c →
      (K.evaluateOut E S w r e ls allow old).2.2.getD old = old := by
  intro w hf hone hne x hx c hc
  have hg : LGood E w := good_run (argEval_keeps hK) LGood.start hs
  unfold EvEnv.evaluateOut
  simp only [hf]
  split
  · rfl
  · rcases hv : visit { K.py with mode := .dataframe } e (freshParser [] []) with ⟨s, er | e'⟩
    · rfl
    · simp only
      have hpar : ParsedExpr K.env e s e' := ⟨hv, hclash, hint⟩
      cases hb : K.bindSymbols f s.visited (K.start ls) with
      | error er => rfl
      | ok ld =>
        simp only
        rcases hch : K.bindChains E (K.argEval E) r w (subs s) ld with ⟨w1, er | ld1⟩
        · rfl
        · simp only
          have hsn := operandNames_sub e x hx
          obtain ⟨-, hcase⟩ := (bindSymbols_get hb x).1 ((hpar.visited x).mpr hsn)
          obtain ⟨a, ha, hld⟩ : ∃ a, K.conv c = .ok a ∧ dictGet ld x = some (.array a) := by
            rcases hcase with ⟨c', a, h1, h2, h3⟩ | ⟨h1, -⟩
            · rw [hc] at h1; cases h1; exact ⟨a, h2, h3⟩
            · rw [hc] at h1; cases h1
          have hcs := (bindChains_get (argEval_calm hK) (argEval_cache hK) hg r (Calm.refl hg) hpar.unique hch).2 x (hpar.not_sub (hint x hsn).1)
          have hal : a.length = f.rows := by
            rw [hK.conv c a ha]
            exact (hg.wf f (List.mem_of_getElem? hf)).2 _ (dictGet_mem hc)
          cases hm : K.rows old.vals.length ld1 e' with
          | error er => rfl
          | ok c' =>
            simp only
            by_cases h0 : old.vals.length = 0
            · cases hst : S allow c' old with
              | error er => rfl
              | ok vs =>
                have h1 := hS _ _ _ _ hst
                rw [h0] at h1
                rw [List.length_eq_zero_iff.mp h1]
                rcases old with ⟨k, v⟩
                have h0' : v = [] := List.length_eq_zero_iff.mp h0
                rw [h0']
                rfl
            · exfalso
              unfold EvEnv.rows at hm
              simp only at hm
              split at hm
              · rename_i hall
                obtain ⟨v, hv0⟩ := Option.isSome_iff_exists.mp (List.all_eq_true.mp hall 0 (List.mem_range.mpr (Nat.pos_of_ne_zero h0)))
                have hn := visit_needs K.arith K.env _ e _ _ _ v hv hv0 x hx
                rw [hcs, hld, Option.bind_some] at hn
                unfold LocalVal.at at hn
                simp only at hn
                rw [if_neg (by rw [hal]; exact hone), if_neg (by rw [hal]; exact fun h => hne h.symm)] at hn
                simp at hn
              · cases hm

/-- **C81** (column) With `out=frame[col]`, a column of a frame with as many rows, the call leaves all frames as evaluating and then assigning
`frame[col] = ` the converted values leaves them, if it returns; if it raises, as evaluating alone does. -/
theorem C81_column (hK : K.Ok) (hS : S.Ok) {ops : List (LOp V)} (hs : SafeRun E isid (K.argEval E) E.start ops) (r : Nat) (e : PExpr)
    (ls : List (Str × LocalVal F)) (allow : Bool) (q : Nat) (col : Str) {g : LFrame V} {old : LCol V} :
    let w := lrun E isid (K.argEval E) E.start ops
    w.frames[q]? = some g → col ∉ g.links.map (·.1) → dictGet g.cols col = some old → g.rows = w.rows r →
    (∀ er, (stored S allow old (K.evaluate E w r e ls).2).1 = .error er →
      K.evaluateInto E S w r e ls allow q col = ((K.evaluate E w r e ls).1, .error er)) ∧
    (∀ c, (stored S allow old (K.evaluate E w r e ls).2).1 = .ok c → (K.evaluateInto E S w r e ls allow q col).2 = .ok c ∧
      lstep E isid (K.argEval E) (K.evaluate E w r e ls).1 (.setColumn q col c) = ((K.evaluateInto E S w r e ls allow q col).1, .ok .unit)) := by
  intro w hq hl hc hrows
  have hg : LGood E w := good_run (argEval_keeps hK) LGood.start hs
  have hlen : old.vals.length = g.rows := (hg.wf g (List.mem_of_getElem? hq)).cols _ (dictGet_mem hc)
  obtain ⟨g', hq', hsame⟩ := ((evaluate_calm hK hg r e ls).1.1).frame hq
  have hix : g'.rows = g.rows := by rw [hsame.1]; rfl
  have hinto : K.evaluateInto E S w r e ls allow q col =
      (match (stored S allow old (K.evaluate E w r e ls).2).2 with
        | none => (K.evaluate E w r e ls).1
        | some new => (K.evaluate E w r e ls).1.setFrame q fun g => { g with cols := dictSet g.cols col new },
        (stored S allow old (K.evaluate E w r e ls).2).1) := by
    unfold EvEnv.evaluateInto
    simp only [hq, if_neg hl, hc]
    rw [C81_out hS w r e ls allow old (hlen.trans hrows)]
    rcases stored S allow old (K.evaluate E w r e ls).2 with ⟨x, _ | new⟩ <;> rfl
  rw [hinto]
  constructor
  · intro er h
    have hold : (stored S allow old (K.evaluate E w r e ls).2).2 = none := by
      revert h
      cases (K.evaluate E w r e ls).2 with
      | error er => exact fun _ => rfl
      | ok c =>
        simp only [stored]
        cases S allow c old with
        | error er => exact fun _ => rfl
        | ok vs => intro h; cases h
    rw [h, hold]
  · intro c h
    obtain ⟨hnew, hcl⟩ : (stored S allow old (K.evaluate E w r e ls).2).2 = some c ∧ c.vals.length = g.rows := by
      revert h
      cases (K.evaluate E w r e ls).2 with
      | error er => intro h; cases h
      | ok c' =>
        simp only [stored]
        cases hst : S allow c' old with
        | error er => intro h; cases h
        | ok vs =>
          intro h
          simp only [Except.ok.injEq] at h
          subst h
          exact ⟨rfl, (hS _ _ _ _ hst).trans hlen⟩
    refine ⟨h, ?_⟩
    rw [hnew]
    unfold lstep LWorld.setColumn
    simp only [hq', hix, hcl, if_true]
    rfl

/-- the rows of a name that has the same value in each -/
theorem rows_name {n : Nat} {ld : List (Str × LocalVal F)} {id : Str} {v : Val F}
    (h : ∀ i, i < n → (dictGet ld id).bind (LocalVal.at n i) = some v) :
    K.rows n ld (.name id) = .ok (K.back (List.replicate n v)) := by
  unfold EvEnv.rows
  have hg : ∀ i ∈ List.range n, ne K.arith (fun id => (dictGet ld id).bind (LocalVal.at n i)) (.name id) = some v := by
    intro i hi
    simp only [ne]
    exact h i (List.mem_range.mp hi)
  simp only
  rw [if_pos (List.all_eq_true.mpr fun i hi => by rw [hg i hi]; rfl), filterMap_map hg]
  simp

/-- **C81 (violated for local scalars)** `frame.evaluate('k', local_dict={'k': v}, out=series)` with a Series of another length raises, and has
filled the Series with `v` before. -/
theorem C81_local_refuted (hS : S.Ok) (w : LWorld V) (r : Nat) {f : LFrame V} (hf : w.frames[r]? = some f) (hl : f.linked = true) {k : Str}
    (hk : isNanName k = false) (hinf : k ≠ negInfStr) (hlk : k ∉ f.links.map (·.1)) (hc : dictGet f.cols k = none) (v : Val F) (allow : Bool)
    (old : LCol V) {vs : List V} (hlen : old.vals.length ≠ f.rows) (hst : S allow (K.back (List.replicate old.vals.length v)) old = .ok vs) :
    K.evaluateOut E S w r (.name k) [(k, .scalar v)] allow old = (w, .error .value, some ⟨old.kind, vs⟩) := by
  have hnan := nan_not_name hk
  have hv : visit { K.py with mode := .dataframe } (.name k) (freshParser [] []) = ({ freshParser [] [] with simple := [k], visited := [k] }, .ok (.name k)) := by
    simp [visit, visitName, setAdd, hk, freshParser]
  have hst' : dictGet (K.start [(k, .scalar v)]) k = some (.scalar v) := by
    rw [start_other hnan, if_neg hinf]; simp [dictGet]
  have hmem : k ∈ (K.start [(k, .scalar v)]).map (·.1) := List.mem_map.mpr ⟨_, dictGet_mem hst', rfl⟩
  unfold EvEnv.evaluateOut
  simp only [hf, hl, hv, Bool.not_true, Bool.false_eq_true, if_false, EvEnv.bindSymbols, if_neg hlk, hc, if_pos hmem]
  have hsub : subs ({ freshParser [] [] with simple := [k], visited := [k] } : PSt) = [] := rfl
  rw [hsub]
  simp only [EvEnv.bindChains]
  rw [rows_name (v := v) (fun i _ => by rw [hst']; rfl)]
  simp only [hst]
  rw [if_neg (by rw [hS _ _ _ _ hst]; exact hlen)]

/-- **C81 (violated for one row)** On a frame with one row, `frame.evaluate('x', out=series)` with a Series of another length raises, and has filled
the Series with the value of column `x` before. -/
theorem C81_one_row_refuted (hS : S.Ok) (w : LWorld V) (r : Nat) {f : LFrame V} (hf : w.frames[r]? = some f) (hl : f.linked = true)
    (hone : f.rows = 1) {x : Str} (hx : isNanName x = false) (hlk : x ∉ f.links.map (·.1)) {c : LCol V} (hc : dictGet f.cols x = some c) {v : Val F}
    (ha : K.conv c = .ok [v]) (allow : Bool) (old : LCol V) {vs : List V} (hlen : old.vals.length ≠ 1)
    (hst : S allow (K.back (List.replicate old.vals.length v)) old = .ok vs) :
    K.evaluateOut E S w r (.name x) [] allow old = (w, .error .value, some ⟨old.kind, vs⟩) := by
  have hv : visit { K.py with mode := .dataframe } (.name x) (freshParser [] []) = ({ freshParser [] [] with simple := [x], visited := [x] }, .ok (.name x)) := by
    simp [visit, visitName, setAdd, hx, freshParser]
  unfold EvEnv.evaluateOut
  simp only [hf, hl, hv, Bool.not_true, Bool.false_eq_true, if_false, EvEnv.bindSymbols, if_neg hlk, hc, ha]
  have hsub : subs ({ freshParser [] [] with simple := [x], visited := [x] } : PSt) = [] := rfl
  rw [hsub]
  simp only [EvEnv.bindChains]
  rw [rows_name (v := v) (fun i _ => by rw [dictGet_dictSet, if_pos rfl]; rfl)]
  simp only [hst]
  rw [if_neg (by rw [hS _ _ _ _ hst, hone]; exact hlen)]

/-! ## a concrete frame -/

/-- numbers go into numbers of the same or a larger kind; float to int is refused unless casting is allowed -/
def lxS : StoreIn Int := fun allow c old =>
  if c.vals.length = old.vals.length ∧ (c.kind = old.kind ∨ allow = true) then .ok c.vals else .error .type

theorem lxS_ok : lxS.Ok := by
  intro allow c old vs h
  unfold lxS at h
  split at h
  · rename_i hh; cases h; exact hh.1
  · cases h

/-- `households.evaluate('inc + zone.a + p.sum(h) + k', out=households['inc'])` is `households['inc'] = households.evaluate(…)` -/
example :
    let w := lrun lxE lxId (lxK.argEval lxE) lxE.start lxOps
    lxVals (lxK.evaluateInto lxE lxS w 1 lxExpr [(['k'], .scalar (.num 3))] false 1 lxInc) = .ok [128, 24, 309] ∧
    ((lxK.evaluateInto lxE lxS w 1 lxExpr [(['k'], .scalar (.num 3))] false 1 lxInc).1.frames[1]?.bind fun f => dictGet f.cols lxInc) =
      some ⟨.int, [128, 24, 309]⟩ := by
  decide +kernel

/-- **C81 (no column)** `out=frame[col]` where `col` is a link of the frame, also one called like a column, or nothing at all: an error before anything is
evaluated, and nothing changes. -/
theorem C81_no_column (w : LWorld V) (r : Nat) (e : PExpr) (ls : List (Str × LocalVal F)) (allow : Bool) (q : Nat) (col : Str) {g : LFrame V}
    (hg : w.frames[q]? = some g) :
    (col ∈ g.links.map (·.1) → K.evaluateInto E S w r e ls allow q col = (w, .error .attribute)) ∧
    (col ∉ g.links.map (·.1) → col ∉ g.cols.map (·.1) → K.evaluateInto E S w r e ls allow q col = (w, .error .key)) := by
  constructor
  · intro h
    simp only [EvEnv.evaluateInto, hg, if_pos h]
  · intro h h2
    simp only [EvEnv.evaluateInto, hg, if_neg h, dictGet_eq_none.mpr h2]

/-- `out=households['zone']`: a link -/
example : lxK.evaluateInto lxE lxS (lrun lxE lxId (lxK.argEval lxE) lxE.start lxOps) 1 lxExpr [] false 1 ['z', 'o', 'n', 'e'] =
    (lrun lxE lxId (lxK.argEval lxE) lxE.start lxOps, .error .attribute) := by
  obtain ⟨f, hf, hlk⟩ : ∃ f, (lrun lxE lxId (lxK.argEval lxE) lxE.start lxOps).frames[1]? = some f ∧ (['z', 'o', 'n', 'e'] : Str) ∈ f.links.map (·.1) :=
    ⟨_, rfl, by decide⟩
  exact (C81_no_column _ 1 lxExpr [] false 1 _ hf).1 hlk

/-- a case of C81_column's hypotheses -/
example : ∃ g, (lrun lxE lxId (lxK.argEval lxE) lxE.start lxOps).frames[1]? = some g ∧ lxInc ∉ g.links.map (·.1) ∧
    dictGet g.cols lxInc = some ⟨.int, [5, 6, 7]⟩ ∧ g.rows = (lrun lxE lxId (lxK.argEval lxE) lxE.start lxOps).rows 1 := ⟨_, rfl, by decide, rfl, rfl⟩

/-- a Series of two rows for three households: left alone when the expression reads a column, overwritten when it is a local number -/
example : lxK.evaluateOut lxE lxS (lrun lxE lxId (lxK.argEval lxE) lxE.start lxOps) 1 (.name ['k']) [(['k'], .scalar (.num 3))] false ⟨.int, [8, 9]⟩ =
    (lrun lxE lxId (lxK.argEval lxE) lxE.start lxOps, .error .value, some ⟨.int, [3, 3]⟩) := by
  obtain ⟨f, hf, hl, hr, hlk, hc⟩ : ∃ f, (lrun lxE lxId (lxK.argEval lxE) lxE.start lxOps).frames[1]? = some f ∧ f.linked = true ∧ f.rows = 3 ∧
    (['k'] : Str) ∉ f.links.map (·.1) ∧ dictGet f.cols ['k'] = none := ⟨_, rfl, rfl, rfl, by decide, rfl⟩
  exact C81_local_refuted lxS_ok _ 1 hf hl (by decide) (by decide) hlk hc (.num 3) false ⟨.int, [8, 9]⟩ (by rw [hr]; decide) rfl

example : (lxK.evaluateOut lxE lxS (lrun lxE lxId (lxK.argEval lxE) lxE.start lxOps) 1 (.name lxInc) [] false ⟨.int, [8, 9]⟩).2.2.getD ⟨.int, [8, 9]⟩ =
    ⟨.int, [8, 9]⟩ := by
  obtain ⟨f, hf, hr, hc⟩ : ∃ f, (lrun lxE lxId (lxK.argEval lxE) lxE.start lxOps).frames[1]? = some f ∧ f.rows = 3 ∧
    dictGet f.cols lxInc = some ⟨.int, [5, 6, 7]⟩ := ⟨_, rfl, rfl, rfl⟩
  refine C81_length_partial lxK_ok lxS_ok lxK_safe (by intro a ha; simp [tableNames] at ha) ?_ false _ hf (by omega) (by rw [hr]; decide) lxInc
    (by simp [operandNames, isNanName, lower, lxInc]) _ hc
  intro id hid
  have : id = lxInc := by simpa [simpleNames, lxInc, isNanName, lower] using hid
  subst this
  decide

/-- a zone table of one row, and a Series of two rows -/
example : lxK.evaluateOut lxE lxS (lrun lxE lxId (lxK.argEval lxE) lxE.start [.new true [some lxZ] [[1]] [(lxA, ⟨.int, [100]⟩)]]) 0 (.name lxA) [] false
      ⟨.int, [8, 9]⟩ =
    (lrun lxE lxId (lxK.argEval lxE) lxE.start [.new true [some lxZ] [[1]] [(lxA, ⟨.int, [100]⟩)]], .error .value, some ⟨.int, [100, 100]⟩) := by
  exact C81_one_row_refuted lxS_ok _ 0 rfl rfl rfl (by decide) (by decide) rfl (v := .num 100) rfl false ⟨.int, [8, 9]⟩ (by decide) rfl

end Cheval
