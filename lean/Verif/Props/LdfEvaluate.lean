import Verif.Core.LdfEvalSound
import Verif.Core.ExprNeeds
import Verif.Props.Grammar
import Verif.Props.LdfFills
import Verif.Props.LdfSlices

/-!
# C51: `evaluate` on a linked frame
-/
namespace Cheval
open Spec
variable {V F : Type} [DecidableEq V] {E : LEnv V} {K : EvEnv V F} {isid : Str → Bool}

/-- the interpreter as `evaluate` uses it -/
abbrev EvEnv.env (K : EvEnv V F) : PyEnv := { K.py with mode := .dataframe }

theorem filterMap_map {A : Type} {g : Nat → Option A} {v : Nat → A} : ∀ {l : List Nat}, (∀ i ∈ l, g i = some (v i)) → l.filterMap g = l.map v
  | [], _ => rfl
  | x :: l, h => by
    rw [List.filterMap_cons, h x List.mem_cons_self, List.map_cons, filterMap_map fun i hi => h i (List.mem_cons_of_mem _ hi)]

theorem filterMap_get {A : Type} {g : Nat → Option A} {n : Nat} (h : ((List.range n).all fun i => (g i).isSome) = true) {i : Nat} (hi : i < n) :
    ((List.range n).filterMap g)[i]? = g i := by
  obtain ⟨v, hv⟩ : ∃ v : Nat → Option A, v = g := ⟨g, rfl⟩
  have hx : ∀ j, j < n → ∃ a, g j = some a := by
    intro j hj
    exact Option.isSome_iff_exists.mp (List.all_eq_true.mp h j (List.mem_range.mpr hj))
  obtain ⟨a0, -⟩ := hx i hi
  rw [filterMap_map (v := fun j => (g j).getD a0)]
  · rw [List.getElem?_map, List.getElem?_range hi]
    obtain ⟨a, ha⟩ := hx i hi
    simp [ha]
  · intro j hj
    obtain ⟨a, ha⟩ := hx j (List.mem_range.mp hj)
    simp [ha]

theorem evaluate_run (hK : K.Ok) {w : LWorld V} (hg : LGood E w) {r : Nat} {e : PExpr} {ls : List (Str × LocalVal F)} {c : LCol V}
    (h : (K.evaluate E w r e ls).2 = .ok c) : ∃ f s e' ld w1 ld1, w.frames[r]? = some f ∧ f.linked = true ∧
      visit K.env e (freshParser [] []) = (s, .ok e') ∧ K.bindSymbols f s.visited (K.start ls) = .ok ld ∧
      K.bindChains E (K.argEval E) r w (subs s) ld = (w1, .ok ld1) ∧ K.rows f.rows ld1 e' = .ok c ∧ (K.evaluate E w r e ls).1 = w1 := by
  unfold EvEnv.evaluate EvEnv.evalWith at h ⊢
  cases hf : w.frames[r]? with
  | none => rw [hf] at h; simp at h
  | some f =>
    rw [hf] at h
    simp only at h ⊢
    split at h
    · simp at h
    · rename_i hl
      rcases hv : visit { K.py with mode := .dataframe } e (freshParser [] []) with ⟨s, er | e'⟩
      · rw [hv] at h; simp at h
      · rw [hv] at h
        simp only at h
        cases hb : K.bindSymbols f s.visited (K.start ls) with
        | error er => rw [hb] at h; simp at h
        | ok ld =>
          rw [hb] at h
          simp only at h
          rcases hc : K.bindChains E (K.argEval E) r w (subs s) ld with ⟨w1, er | ld1⟩
          · rw [hc] at h; simp at h
          · rw [hc] at h
            simp only at h
            refine ⟨f, s, e', ld, w1, ld1, rfl, by simpa using hl, rfl, hb, hc, h, ?_⟩
            rw [if_neg hl]
            simp only [hb, hc]

/-- `evaluate` changes caches only -/
theorem evaluate_calm (hK : K.Ok) {w : LWorld V} (hg : LGood E w) (r : Nat) (e : PExpr) (ls : List (Str × LocalVal F)) :
    Calm E w (K.evaluate E w r e ls).1 := (evalWith_calm hK (argEval_calm hK) hg r e ls).1

/-- **C51 (partial: unary minus on numbers only, no clashing names)** After any history of calls on linked frames (without the operations of C47 and
C49), the rows of a result of `evaluate` are what the expression, read row by row, stands for, wherever it has a value; there is one
element per row, and the call changes nothing but caches. -/
theorem C51_sound_partial (hK : K.Ok) {ops : List (LOp V)} (hs : SafeRun E isid (K.argEval E) E.start ops) {r : Nat} {e : PExpr}
    {ls : List (Str × LocalVal F)} {c : LCol V} (hp : Plain K.env e) (hclash : NoDigitClash (tableNames e)) (hint : NoInternalNames (simpleNames e)) :
    let w := lrun E isid (K.argEval E) E.start ops
    CacheOnly w (K.evaluate E w r e ls).1 ∧ ((K.evaluate E w r e ls).2 = .ok c →
      ∃ vals, c = K.back vals ∧ vals.length = w.rows r ∧
        ∀ i v, i < w.rows r → den K.arith (K.cell E w r ls i) e = some v → vals[i]? = some v) := by
  intro w
  have hg : LGood E w := good_run (argEval_keeps hK) LGood.start hs
  refine ⟨(evaluate_calm hK hg r e ls).1.1, fun h => ?_⟩
  obtain ⟨f, s, e', ld, w1, ld1, hf, -, hv, hb, hc, hr, -⟩ := evaluate_run hK hg h
  have hrows : w.rows r = f.rows := by simp [LWorld.rows, hf]
  unfold EvEnv.rows at hr
  simp only at hr
  split at hr
  · rename_i ha
    simp only [Except.ok.injEq] at hr
    refine ⟨_, hr.symm, ?_, ?_⟩
    · rw [filterMap_length ha, List.length_range, hrows]
    · intro i v hi hd
      rw [hrows] at hi
      rw [filterMap_get ha hi]
      exact visit_serves_fresh K.arith (K.cell E w r ls i) K.env (rowNames f.rows ld1 i) (PInv.fresh _ _) hp hv hd
        (evaluate_serves hK hg hf ⟨hv, hclash, hint⟩ hb hc hi)
  · cases hr

/-- **C51 (partial: as above, for a frame with rows)** If the expression's syntax is supported and it has a value in every row, `evaluate`
returns these values. -/
theorem C51_evaluate_partial (hK : K.Ok) {ops : List (LOp V)} (hs : SafeRun E isid (K.argEval E) E.start ops) {r : Nat} {f : LFrame V} {e : PExpr}
    {ls : List (Str × LocalVal F)} (hsup : Supported K.env e) (hown : ∀ x ∈ simpleNames e, x ∉ tableNames e)
    (hp : Plain K.env e) (hclash : NoDigitClash (tableNames e)) (hint : NoInternalNames (simpleNames e)) (v : Nat → Val F) :
    let w := lrun E isid (K.argEval E) E.start ops
    w.frames[r]? = some f → f.linked = true → f.rows ≠ 0 → (∀ i, i < f.rows → den K.arith (K.cell E w r ls i) e = some (v i)) →
    (K.evaluate E w r e ls).2 = .ok (K.back ((List.range f.rows).map v)) ∧ CacheOnly w (K.evaluate E w r e ls).1 := by
  intro w hf hlk hne hd
  have hg : LGood E w := good_run (argEval_keeps hK) LGood.start hs
  refine ⟨?_, (evaluate_calm hK hg r e ls).1.1⟩
  obtain ⟨s, e', hv⟩ := (C25_exact K.env e [] [] (by simp)).mpr ⟨hsup, by simpa [Conflict] using hown⟩
  have hpar : ParsedExpr K.env e s e' := ⟨hv, hclash, hint⟩
  have h0 : 0 < f.rows := Nat.pos_of_ne_zero hne
  have hserved := den_served K.arith (K.cell E w r ls 0) e _ (hd 0 h0)
  obtain ⟨ld, hb⟩ : ∃ ld, K.bindSymbols f s.visited (K.start ls) = .ok ld := by
    refine bindSymbols_ok fun id hid => ?_
    have hid' := (hpar.visited id).mp hid
    have h1 := hserved.1 id hid'
    have hnn := nan_not_name (simpleNames_notNan e id hid')
    simp only [EvEnv.cell, hf, Option.bind_some] at h1
    by_cases hl : id ∈ f.links.map (·.1)
    · rw [if_pos hl] at h1; simp at h1
    · rw [if_neg hl] at h1
      refine ⟨hl, ?_⟩
      cases hc : dictGet f.cols id with
      | some c =>
        rw [hc] at h1
        simp only at h1
        obtain ⟨x, hx⟩ := Option.isSome_iff_exists.mp h1
        obtain ⟨c', a, h2, h3, -⟩ := elem_ok hx
        cases h2
        exact .inl ⟨c, a, rfl, h3⟩
      | none =>
        rw [hc] at h1
        simp only at h1
        refine .inr ⟨rfl, ?_⟩
        unfold EvEnv.start
        rw [dictSet_keys, dictSet_keys]
        by_cases hni : id = negInfStr
        · exact .inr (.inl hni)
        · rw [if_neg hni] at h1
          cases hls : dictGet ls id with
          | none => rw [hls] at h1; simp at h1
          | some x => exact .inr (.inr (List.mem_map.mpr ⟨_, dictGet_mem hls, rfl⟩))
  obtain ⟨w1, ld1, hc⟩ : ∃ w1 ld1, K.bindChains E (K.argEval E) r w (subs s) ld = (w1, .ok ld1) := by
    refine bindChains_ok (argEval_calm hK) (argEval_cache hK) hg r (Calm.refl hg) fun x hx => ?_
    rcases visit_chains K.env e _ _ _ hv x hx with h1 | h1
    · rw [subs_fresh] at h1; cases h1
    · obtain ⟨y, hy⟩ := Option.isSome_iff_exists.mp (hserved.2 x.2 h1)
      obtain ⟨c, a, h2, h3, -⟩ := elem_ok (cell_lookup w r ls 0 x.2.1 x.2.2 hy)
      exact ⟨c, a, h2, h3⟩
  have hrow : ∀ i ∈ List.range f.rows, ne K.arith (fun id => (dictGet ld1 id).bind (LocalVal.at f.rows i)) e' = some (v i) := by
    intro i hi
    have hi := List.mem_range.mp hi
    exact visit_serves_fresh K.arith (K.cell E w r ls i) K.env (rowNames f.rows ld1 i) (PInv.fresh _ _) hp hv (hd i hi)
      (evaluate_serves hK hg hf hpar hb hc hi)
  unfold EvEnv.evaluate EvEnv.evalWith
  simp only [hf, hlk, hv, hb, hc, Bool.not_true, Bool.false_eq_true, if_false]
  unfold EvEnv.rows
  simp only
  rw [if_pos, filterMap_map hrow]
  · rw [List.all_eq_true]
    intro i hi
    rw [hrow i hi]; rfl

/-- **C51 (names)** When `evaluate` returns, on a frame with rows, every symbol among the operands of the expression was a column, `NEG_INF`, or a
local value that fits the rows: a scalar, or an array with one element or with one for each row. No such symbol is the name of a link. -/
theorem C51_names (hK : K.Ok) {ops : List (LOp V)} (hs : SafeRun E isid (K.argEval E) E.start ops) {r : Nat} {f : LFrame V} {e : PExpr}
    {ls : List (Str × LocalVal F)} {c : LCol V} (hclash : NoDigitClash (tableNames e)) (hint : NoInternalNames (simpleNames e)) :
    let w := lrun E isid (K.argEval E) E.start ops
    w.frames[r]? = some f → f.rows ≠ 0 → (K.evaluate E w r e ls).2 = .ok c → ∀ id ∈ operandNames e, id ∉ f.links.map (·.1) ∧
      ((∃ col, dictGet f.cols id = some col) ∨ id = negInfStr ∨ (∃ v, dictGet ls id = some (.scalar v)) ∨
        ∃ a, dictGet ls id = some (.array a) ∧ (a.length = 1 ∨ a.length = f.rows)) := by
  intro w hf0 hne h id hid
  have hg : LGood E w := good_run (argEval_keeps hK) LGood.start hs
  obtain ⟨f', s, e', ld, w1, ld1, hf, -, hv, hb, hc, hr, -⟩ := evaluate_run hK hg h
  have hff : f' = f := Option.some.inj (hf.symm.trans hf0)
  subst hff
  have hpar : ParsedExpr K.env e s e' := ⟨hv, hclash, hint⟩
  have hsn := operandNames_sub e id hid
  obtain ⟨hl, hcase⟩ := (bindSymbols_get hb id).1 ((hpar.visited id).mpr hsn)
  refine ⟨hl, ?_⟩
  rcases hcase with ⟨col, -, hcol, -⟩ | ⟨-, hld⟩
  · exact .inl ⟨col, hcol⟩
  · refine .inr ?_
    by_cases hni : id = negInfStr
    · exact .inl hni
    refine .inr ?_
    unfold EvEnv.rows at hr
    simp only at hr
    split at hr
    · rename_i ha
      obtain ⟨v, hv0⟩ := Option.isSome_iff_exists.mp (List.all_eq_true.mp ha 0 (List.mem_range.mpr (Nat.pos_of_ne_zero hne)))
      have hn := visit_needs K.arith K.env _ e _ _ _ v hv hv0 id hid
      have hcs := (bindChains_get (argEval_calm hK) (argEval_cache hK) hg r (Calm.refl hg) hpar.unique hc).2 id (hpar.not_sub (hint id hsn).1)
      have hnn := nan_not_name (simpleNames_notNan e id hsn)
      rw [hcs, hld, EvEnv.start, dictGet_dictSet, if_neg hnn, dictGet_dictSet, if_neg hni] at hn
      cases hls : dictGet ls id with
      | none => rw [hls] at hn; simp at hn
      | some x =>
        rw [hls, Option.bind_some] at hn
        cases x with
        | scalar v => exact .inl ⟨v, rfl⟩
        | array a =>
          refine .inr ⟨a, rfl, ?_⟩
          unfold LocalVal.at at hn
          by_cases h1 : a.length = 1
          · exact .inl h1
          · by_cases h2 : a.length = f'.rows
            · exact .inr h2
            · simp [h1, h2] at hn
    · cases hr

/-! ## evaluations in histories -/

theorem chain_reads (ev : Evaluator V) (w : LWorld V) (r : Nat) (root : Str) (ch : Chain) :
    ∃ reads, (∀ op ∈ reads, ReadOp op) ∧ (K.chain E ev w r root ch).1 = lrun E isid ev w reads := by
  unfold EvEnv.chain
  split
  · exact ⟨[.aggregate false r _ _ _ _], by simp [ReadOp.aggregate], rfl⟩
  · exact ⟨[.lookup r _ _], by simp [ReadOp.lookup], rfl⟩
  · exact ⟨[], by simp, rfl⟩

theorem bindChains_reads (ev : Evaluator V) (r : Nat) : ∀ (cs : List (Str × Str × Chain)) (w : LWorld V) (ld : List (Str × LocalVal F)),
    ∃ reads, (∀ op ∈ reads, ReadOp op) ∧ (K.bindChains E ev r w cs ld).1 = lrun E isid ev w reads
  | [], w, ld => ⟨[], by simp, rfl⟩
  | (sub, root, ch) :: rest, w, ld => by
    rw [EvEnv.bindChains]
    cases w.link? r root with
    | none => exact ⟨[], by simp, rfl⟩
    | some l =>
      simp only
      obtain ⟨rd, h1, h2⟩ := chain_reads (K := K) (E := E) (isid := isid) ev w r root ch
      rcases hx : K.chain E ev w r root ch with ⟨w1, e | c⟩
      · rw [hx] at h2; exact ⟨rd, h1, h2⟩
      · rw [hx] at h2
        simp only at h2 ⊢
        cases K.conv c with
        | error e => exact ⟨rd, h1, h2⟩
        | ok a =>
          obtain ⟨rd', h3, h4⟩ := bindChains_reads ev r rest w1 (dictSet ld sub (.array a))
          refine ⟨rd ++ rd', fun op ho => (List.mem_append.mp ho).elim (h1 op) (h3 op), ?_⟩
          simp only
          rw [h4, h2]
          simp [lrun, List.foldl_append]

/-- **C51 (histories)** An evaluation leaves a frame as if its lookups had been written in Python one after the other: what the other
theorems say of histories of calls also holds of histories with evaluations in between. -/
theorem C51_reads (w : LWorld V) (r : Nat) (e : PExpr) (ls : List (Str × LocalVal F)) :
    ∃ reads, (∀ op ∈ reads, ReadOp op) ∧ (K.evaluate E w r e ls).1 = lrun E isid (K.argEval E) w reads := by
  unfold EvEnv.evaluate EvEnv.evalWith
  cases w.frames[r]? with
  | none => exact ⟨[], by simp, rfl⟩
  | some f =>
    simp only
    split
    · exact ⟨[], by simp, rfl⟩
    · rcases visit { K.py with mode := .dataframe } e (freshParser [] []) with ⟨s, er | e'⟩
      · exact ⟨[], by simp, rfl⟩
      · simp only
        cases K.bindSymbols f s.visited (K.start ls) with
        | error er => exact ⟨[], by simp, rfl⟩
        | ok ld =>
          simp only
          obtain ⟨rd, h1, h2⟩ := bindChains_reads (K := K) (E := E) (isid := isid) (K.argEval E) r (subs s) w ld
          rcases hx : K.bindChains E (K.argEval E) r w (subs s) ld with ⟨w1, er | ld1⟩ <;> rw [hx] at h2 <;> exact ⟨rd, h1, h2⟩

/-! ## arguments of aggregations -/

theorem bindChains_fill {ev : Evaluator V} (hev : ∀ w o a, FillSame w (ev w o a).1) (r : Nat) : ∀ (cs : List (Str × Str × Chain)) (w : LWorld V)
    (ld : List (Str × LocalVal F)), FillSame w (K.bindChains E ev r w cs ld).1
  | [], w, ld => .refl w
  | (sub, root, ch) :: rest, w, ld => by
    rw [EvEnv.bindChains]
    have hk : FillSame w (K.chain E ev w r root ch).1 := by
      unfold EvEnv.chain
      split
      · exact aggregate_fill hev _ _ _ _ _ _
      · exact lookup_fill _ _ _ _
      · exact .refl w
    cases w.link? r root with
    | none => exact .refl w
    | some l =>
      simp only
      rcases hx : K.chain E ev w r root ch with ⟨w1, e | c⟩
      · rw [hx] at hk; exact hk
      · rw [hx] at hk
        simp only
        cases K.conv c with
        | error e => exact hk
        | ok a => exact hk.trans (bindChains_fill hev r rest _ _)

theorem evalWith_fill {ev : Evaluator V} (hev : ∀ w o a, FillSame w (ev w o a).1) (w : LWorld V) (r : Nat) (e : PExpr) (ls : List (Str × LocalVal F)) :
    FillSame w (K.evalWith E ev w r e ls).1 := by
  unfold EvEnv.evalWith
  cases w.frames[r]? with
  | none => exact .refl w
  | some f =>
    simp only
    split
    · exact .refl w
    · rcases visit { K.py with mode := .dataframe } e (freshParser [] []) with ⟨s, er | e'⟩
      · exact .refl w
      · simp only
        cases K.bindSymbols f s.visited (K.start ls) with
        | error er => exact .refl w
        | ok ld =>
          simp only
          have := bindChains_fill (K := K) (E := E) hev r (subs s) w ld
          rcases hx : K.bindChains E ev r w (subs s) ld with ⟨w1, er | ld1⟩ <;> rw [hx] at this <;> exact this

theorem evalN_fill : ∀ (k : Nat) (w : LWorld V) (r : Nat) (e : PExpr), FillSame w (K.evalN E k w r e).1
  | 0, w, r, e => .refl w
  | k + 1, w, r, e => by
    rw [EvEnv.evalN]
    have := evalWith_fill (K := K) (E := E) (evalN_fill k) w r e []
    simp only
    unfold EvEnv.orPandas
    split
    · rename_i w1 hx
      rw [hx] at this
      split <;> exact this
    · exact this

/-- evaluating the argument of an aggregation changes no fill value -/
theorem argEval_fill (w : LWorld V) (r : Nat) (e : PExpr) : FillSame w (K.argEval E w r e).1 := evalN_fill _ w r e

/-- **C51 (arguments of aggregations)** The argument of an aggregation that is not the name of a column is evaluated by `evaluate` on the
linked frame, without local names, aggregations nested in it likewise; if that raises AttributeError (in particular for a plain
DataFrame), by pandas. This evaluator meets the assumptions that the theorems about lookups make. -/
theorem C51_arguments (hK : K.Ok) :
    (∀ (w : LWorld V) (r : Nat) (e : PExpr),
      ((K.evaluate E w r e []).2 ≠ .error .attribute → K.argEval E w r e = K.evaluate E w r e []) ∧
      (∀ f, (K.evaluate E w r e []).2 = .error .attribute → (K.evaluate E w r e []).1.frames[r]? = some f →
        (K.argEval E w r e).2 = K.pandasEval f.levels f.index f.cols e)) ∧
    EvKeeps E (K.argEval E) ∧ EvPush E (K.argEval E) ∧ ∀ w o a, FillSame w (K.argEval E w o a).1 := by
  refine ⟨fun w r e => ⟨fun h => ?_, fun f h hf => ?_⟩, argEval_keeps hK, argEval_push hK, argEval_fill⟩
  · rw [argEval_eq]
    rcases hx : K.evaluate E w r e [] with ⟨w1, er | c⟩
    · rw [hx] at h
      unfold EvEnv.orPandas
      split
      · rename_i heq
        simp only [Prod.mk.injEq, Except.error.injEq] at heq
        rw [heq.2] at h
        exact absurd rfl h
      · rfl
    · rfl
  · rw [argEval_eq]
    rcases hx : K.evaluate E w r e [] with ⟨w1, y⟩
    rw [hx] at h hf
    simp only at h hf
    subst h
    unfold EvEnv.orPandas
    simp only [hf]

/-- **C51 (violated under unary minus)** `-x` raises for a column `x`, although the expression stands for a value in every row. -/
theorem C51_minus_refuted (w : LWorld V) (r : Nat) {f : LFrame V} (hf : w.frames[r]? = some f) (hl : f.linked = true) (hn : f.rows ≠ 0)
    {x : Str} (hx : isNanName x = false) (hres : x ≠ negInfStr) {c : LCol V} {a : List (Val F)} (hlk : x ∉ f.links.map (·.1))
    (hc : dictGet f.cols x = some c) (ha : K.conv c = .ok a) (hneg : ∀ v ∈ a, (K.arith.neg v).isSome = true) (hlen : a.length = f.rows) :
    (∀ i, i < f.rows → (den K.arith (K.cell E w r [] i) (.unary .neg (.name x))).isSome = true) ∧
    (K.evaluate E w r (.unary .neg (.name x)) []).2 = .error .runtime := by
  constructor
  · intro i hi
    have hv : i < a.length := by omega
    simp only [den, hx, EvEnv.cell, hf, Option.bind_some, if_neg hlk, hc, EvEnv.elem, ha]
    simp only [List.getElem?_eq_getElem hv, Bool.false_eq_true, if_false, Option.bind_some]
    exact hneg _ (List.getElem_mem _)
  · have hnan := nan_not_name hx
    have hv : visit { K.py with mode := .dataframe } (.unary .neg (.name x)) (freshParser [] []) = (freshParser [] [], .ok (.unary .neg (.name x))) := by
      rw [visit]
    unfold EvEnv.evaluate EvEnv.evalWith
    simp only [hf, hl, hv, Bool.not_true, Bool.false_eq_true, if_false]
    have hs : (freshParser [] []).visited = [] := rfl
    rw [hs, subs_fresh]
    simp only [EvEnv.bindSymbols, EvEnv.bindChains, EvEnv.rows]
    rw [if_neg]
    intro hall
    have := List.all_eq_true.mp hall 0 (List.mem_range.mpr (Nat.pos_of_ne_zero hn))
    simp only [ne, start_other hnan, if_neg hres] at this
    simp [dictGet] at this


/-! ## a concrete frame -/

/-- integers; addition and negation -/
def lxK : EvEnv Int Int where
  arith := { lit := fun q => q.num, nan := -99, neg := fun v => match v with | .num a => some (.num (-a)) | _ => none, bin := fun op a b => match op, a, b with | .add, .num a, .num b => some (.num (a + b)) | _, _, _ => none, inv := fun _ => none, cmp := fun _ _ _ => none, fn := fun _ _ => none }
  py := { strNodes := true, isFunction := fun _ => false, f32 := id, mode := .cheval }
  conv c := .ok (c.vals.map .num)
  back a := ⟨.int, a.map fun v => match v with | .num x => x | _ => 0⟩
  negInf := -1000
  intFill := -1
  pandasEval _ ix _ _ := .ok ⟨.int, ix.map fun _ => 0⟩

theorem lxK_ok : lxK.Ok where
  conv c a h := by simp only [lxK, Except.ok.injEq] at h; rw [← h]; simp
  back a := by simp [lxK]
  pandasEval lv ix cols e c h := by simp only [lxK, Except.ok.injEq] at h; rw [← h]; simp

theorem lxK_safe : SafeRun lxE lxId (lxK.argEval lxE) lxE.start lxOps := safeRunCheck_ok (by decide)

/-- `inc + zone.a + p.sum(h) + k` -/
def lxExpr : PExpr := .bin .add (.bin .add (.bin .add (.name lxInc) (.attr (.name lxZone) lxA))
  (.call (.attr (.name lxP) "sum".toList) (.cons (.name lxH) .nil) .nil)) (.name ['k'])

/-- the households: incomes 5, 6, 7; areas 100, none (filled with -5), 300; sums over persons 20, 20, none; `k` is 3 -/
example : (lxK.evaluate lxE (lrun lxE lxId (lxK.argEval lxE) lxE.start lxOps) 1 lxExpr [(['k'], .scalar (.num 3))]).2 =
    .ok (lxK.back [.num 128, .num 24, .num 309]) := by
  obtain ⟨f, hf, hl, hr⟩ : ∃ f, (lrun lxE lxId (lxK.argEval lxE) lxE.start lxOps).frames[1]? = some f ∧ f.linked = true ∧ f.rows = 3 := ⟨_, rfl, rfl, rfl⟩
  have h := (C51_evaluate_partial (e := lxExpr) (ls := [(['k'], .scalar (.num 3))]) lxK_ok lxK_safe ?_ ?_ ?_ ?_ ?_
    (fun i => if i = 0 then .num 128 else if i = 1 then .num 24 else .num 309) hf hl (by omega) ?_).1
  · rw [hr] at h; exact h
  · simp [lxExpr, Supported, dotted, aggregationNames]
  · decide
  · simp [lxExpr, Plain, PlainOver]
  · intro a ha d hd _ hm
    simp only [lxExpr, tableNames, rootName, lxZone, lxP, Option.toList_some, List.nil_append, List.append_nil, List.singleton_append, List.mem_cons,
      List.not_mem_nil, or_false] at ha hm
    rcases ha with rfl | rfl <;> rcases hm with hm | hm <;> simp at hm <;> exact hd hm
  · intro id hid
    have : id = lxInc ∨ id = ['k'] := by simpa [lxExpr, simpleNames, lxInc, isNanName, lower] using hid
    rcases this with rfl | rfl <;> decide
  · intro i hi
    rw [hr] at hi
    have : i = 0 ∨ i = 1 ∨ i = 2 := by omega
    rcases this with rfl | rfl | rfl <;> rfl

/-- `-inc` raises on the households -/
example : (lxK.evaluate lxE (lrun lxE lxId (lxK.argEval lxE) lxE.start lxOps) 1 (.unary .neg (.name lxInc)) []).2 = .error .runtime := by
  obtain ⟨f, hf, hl, hr, hlk, hc⟩ : ∃ f, (lrun lxE lxId (lxK.argEval lxE) lxE.start lxOps).frames[1]? = some f ∧ f.linked = true ∧ f.rows = 3 ∧
    lxInc ∉ f.links.map (·.1) ∧ dictGet f.cols lxInc = some ⟨.int, [5, 6, 7]⟩ := ⟨_, rfl, rfl, rfl, by decide, rfl⟩
  exact (C51_minus_refuted _ 1 hf hl (by omega) (by decide) (by decide) hlk hc rfl (by simp [lxK]) (by simp [hr])).2

/-- a case of C51_names: a local array of two elements does not fit the three households -/
example : ∀ c, (lxK.evaluate lxE (lrun lxE lxId (lxK.argEval lxE) lxE.start lxOps) 1 (.bin .add (.name lxInc) (.name ['k'])) [(['k'], .array [.num 1, .num 2])]).2 ≠
    .ok c := by
  intro c h
  obtain ⟨f, hf, hr, hc⟩ : ∃ f, (lrun lxE lxId (lxK.argEval lxE) lxE.start lxOps).frames[1]? = some f ∧ f.rows = 3 ∧ dictGet f.cols ['k'] = none := ⟨_, rfl, rfl, rfl⟩
  obtain ⟨-, ⟨col, h1⟩ | h1 | ⟨v, h1⟩ | ⟨a, h1, h2⟩⟩ := C51_names lxK_ok lxK_safe (by intro a ha; simp [tableNames] at ha) (by
    intro id hid
    have : id = lxInc ∨ id = ['k'] := by simpa [simpleNames, lxInc, isNanName, lower] using hid
    rcases this with rfl | rfl <;> decide) hf (by omega) h ['k'] (by simp [operandNames, isNanName, lower])
  · rw [hc] at h1; cases h1
  · exact absurd h1 (by decide)
  · simp [dictGet] at h1
  · have : a = [.num 1, .num 2] := by simpa [dictGet] using h1.symm
    subst this
    rw [hr] at h2
    simp at h2

end Cheval
