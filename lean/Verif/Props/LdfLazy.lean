import Verif.Props.LdfSlices

/-!
# C48: links computed lazily
-/
namespace Cheval
variable {V : Type} [DecidableEq V] {E : LEnv V} {isid : Str → Bool}
  {ev : LWorld V → Nat → PExpr → LWorld V × Except Err (LCol V)}

theorem createLink_lazy {r o : Nat} {f g : LFrame V} {ss os : KeySpec} :
    (∃ e, E.createLink r o f g ss os true = .error e ∧ E.createLink r o f g ss os false = .error e) ∨
    ∃ l1 l0, E.createLink r o f g ss os true = .ok l1 ∧ E.createLink r o f g ss os false = .ok l0 ∧ l1.copyMeta = l0.copyMeta := by
  unfold LEnv.createLink
  split
  · exact .inl ⟨_, rfl, rfl⟩
  · cases f.keys ss with
    | error e => exact .inl ⟨_, rfl, rfl⟩
    | ok ks =>
      simp only
      cases g.keys os with
      | error e => exact .inl ⟨_, rfl, rfl⟩
      | ok ko =>
        simp only
        cases hfl : aggFlag ks ko with
        | error e => exact .inl ⟨_, rfl, rfl⟩
        | ok flag =>
          refine .inr ?_
          simp only [if_true, Bool.false_eq_true, if_false]
          unfold LEnv.makeIndexer
          cases flag with
          | true => exact ⟨_, _, rfl, rfl, rfl⟩
          | false =>
            simp only [Bool.false_eq_true, if_false]
            split
            · exact ⟨_, _, rfl, rfl, rfl⟩
            · rw [if_pos (aggFlag_false hfl)]
              exact ⟨_, _, rfl, rfl, rfl⟩

theorem dictSet_twice {K A : Type} [DecidableEq K] (d : List (K × A)) (k : K) (a b : A) : dictSet (dictSet d k a) k b = dictSet d k b := by
  have hm : k ∈ (dictSet d k a).map (·.1) := (dictSet_keys d k a k).mpr (.inl rfl)
  conv_lhs => rw [dictSet]
  rw [if_pos hm]
  unfold dictSet
  split
  · rw [List.map_map]
    apply List.map_congr_left
    intro e _
    simp only [Function.comp]
    split <;> simp_all
  · rename_i hk
    rw [List.map_append]
    congr 1
    · conv_rhs => rw [← List.map_id d]
      apply List.map_congr_left
      intro e he
      rw [if_neg]
      · rfl
      · rintro rfl
        exact hk (List.mem_map_of_mem he)
    · simp

/-- the two ways of making a link differ in caches only -/
theorem linkTo_lazy {w : LWorld V} (h : LGood E w) {r o : Nat} {name : Str} (hn : ∀ f, w.frames[r]? = some f → name ∉ f.cols.map (·.1)) (a : LinkArgs) :
    (E.linkTo isid w r o name { a with precompute := false }).2 = (E.linkTo isid w r o name { a with precompute := true }).2 ∧
    CacheOnly (E.linkTo isid w r o name { a with precompute := false }).1 (E.linkTo isid w r o name { a with precompute := true }).1 ∧
    LGood E (E.linkTo isid w r o name { a with precompute := false }).1 ∧ LGood E (E.linkTo isid w r o name { a with precompute := true }).1 := by
  unfold LEnv.linkTo
  have hs0 : LinkArgs.specs { a with precompute := false } = a.specs := rfl
  have hs1 : LinkArgs.specs { a with precompute := true } = a.specs := rfl
  rw [hs0, hs1]
  cases a.specs with
  | error e => exact ⟨rfl, CacheOnly.refl w, h, h⟩
  | ok p =>
    obtain ⟨ss, os⟩ := p
    simp only
    cases hf : w.frames[r]? with
    | none => exact ⟨rfl, CacheOnly.refl w, h, h⟩
    | some f =>
      cases hg : w.frames[o]? with
      | none => exact ⟨rfl, CacheOnly.refl w, h, h⟩
      | some g =>
        simp only
        split
        · exact ⟨rfl, CacheOnly.refl w, h, h⟩
        · rename_i hlin
          rcases createLink_lazy (E := E) (r := r) (o := o) (f := f) (g := g) (ss := ss) (os := os) with ⟨e, h1, h2⟩ | ⟨l1, l0, h1, h2, h3⟩
          · rw [h1, h2]; exact ⟨rfl, CacheOnly.refl w, h, h⟩
          · rw [h1, h2]
            simp only
            have hg0 := h.addLink hf hg (by simpa using hlin) h2 (hn f hf)
              (fun f => if isid name && decide (name ∉ f.identified) then f.identified ++ [name] else f.identified)
            have hg1 := h.addLink hf hg (by simpa using hlin) h1 (hn f hf)
              (fun f => if isid name && decide (name ∉ f.identified) then f.identified ++ [name] else f.identified)
            have hagg : l0.agg = l1.agg := (congrArg (fun x : Link => x.agg) h3).symm
            refine ⟨by rw [hagg], ?_, hg0, hg1⟩
            have hfind : (w.setFrame r fun f => { f with links := dictSet f.links name l0, identified := if isid name && decide (name ∉ f.identified) then f.identified ++ [name] else f.identified }).link? r name = some l0 := by
              unfold LWorld.link?
              rw [setFrame_self hf]
              simp [dictGet_dictSet]
            have hco := setLink_cacheOnly hfind h3 hg0.nodup
            refine cast (congrArg _ ?_) hco
            unfold LWorld.setLink LWorld.setFrame
            simp only [List.modify_modify_eq]
            congr 2
            funext x
            simp [dictSet_twice]

/-- C48, for lookups: `link_to(precompute=False)` accepts and rejects the same calls, and after it any lookups give the same results
as after `link_to(precompute=True)`, whatever was looked up before in either program. (Missing: aggregated lookups, which fail
on a lazily made link.) -/
theorem C48_lazy_partial (hev : EvKeeps E ev) {ops : List (LOp V)} (hs : SafeRun E isid ev E.start ops) {w w0 w1 : LWorld V}
    (hw : w = lrun E isid ev E.start ops) {r o : Nat} {name : Str} (hn : ∀ f, w.frames[r]? = some f → name ∉ f.cols.map (·.1)) {a : LinkArgs}
    {x0 x1 : Except Err Bool}
    (h0 : E.linkTo isid w r o name { a with precompute := false } = (w0, x0)) (h1 : E.linkTo isid w r o name { a with precompute := true } = (w1, x1)) :
    x0 = x1 ∧ ∀ reads0 reads1 : List (LOp V), (∀ op ∈ reads0, ReadOp op) → (∀ op ∈ reads1, ReadOp op) → ∀ q path col,
      (E.lookup (lrun E isid ev w0 reads0) q path col).2 = (E.lookup (lrun E isid ev w1 reads1) q path col).2 := by
  have h : LGood E w := by rw [hw]; exact good_run hev LGood.start hs
  obtain ⟨e1, e2, e3, e4⟩ := linkTo_lazy (isid := isid) (o := o) h hn a
  rw [h0, h1] at e1 e2
  rw [h0] at e3
  rw [h1] at e4
  refine ⟨e1, fun reads0 reads1 hr0 hr1 q path col => ?_⟩
  have k0 := reads_keep (isid := isid) hev e3 hr0
  have k1 := reads_keep (isid := isid) hev e4 hr1
  exact lookup_cache ((k0.1.symm.trans e2).trans k1.1) k0.2.1 k1.2.1 q path col

/-- a case of C48: the persons' households, looked up eagerly and lazily -/
example : lxVals (lxE.lookup (lrun lxE lxId lxEv lxE.start (lxNew ++ [.linkTo 2 1 lxHh { onSelf := some [lxH], precompute := false }])) 2 [lxHh] lxInc)
      = .ok [6, 5, 5, 0] ∧
    lxVals (lxE.lookup (lrun lxE lxId lxEv lxE.start (lxNew ++ [.linkTo 2 1 lxHh { onSelf := some [lxH], precompute := true }])) 2 [lxHh] lxInc)
      = .ok [6, 5, 5, 0] := by decide

/-- C48 fails for aggregated links: the sum over the persons of each household works on a precomputed link; on a lazily made
one it raises TypeError, and goes on raising however often it is tried. -/
theorem C48_aggregated_refuted :
    let sum : LOp Int := .aggregate true 1 [lxP] ['s', 'u', 'm'] (.name lxH) 0
    let lazy : LOp Int := .linkTo 1 2 lxP { onOther := some [lxH], precompute := false }
    let eager : LOp Int := .linkTo 1 2 lxP { onOther := some [lxH], precompute := true }
    lxVals (lxE.aggregate (orColumn lxEv) (lrun lxE lxId lxEv lxE.start (lxNew ++ [eager])) 1 [lxP] ['s', 'u', 'm'] (.name lxH) 0) = .ok [20, 20, 0] ∧
    ∀ n, (lxE.aggregate (orColumn lxEv) (lrun lxE lxId lxEv lxE.start (lxNew ++ [lazy] ++ List.replicate n sum)) 1 [lxP] ['s', 'u', 'm'] (.name lxH) 0).2 = .error .type := by
  refine ⟨by decide, fun n => ?_⟩
  have hfix : ∀ w : LWorld Int, w = lrun lxE lxId lxEv lxE.start (lxNew ++ [.linkTo 1 2 lxP { onOther := some [lxH], precompute := false }]) →
      (lstep lxE lxId lxEv w (.aggregate true 1 [lxP] ['s', 'u', 'm'] (.name lxH) 0)).1 = w := by
    rintro w rfl
    rfl
  have hrep : ∀ (n : Nat), lrun lxE lxId lxEv lxE.start (lxNew ++ [.linkTo 1 2 lxP { onOther := some [lxH], precompute := false }] ++
      List.replicate n (.aggregate true 1 [lxP] ['s', 'u', 'm'] (.name lxH) 0)) =
      lrun lxE lxId lxEv lxE.start (lxNew ++ [.linkTo 1 2 lxP { onOther := some [lxH], precompute := false }]) := by
    intro n
    induction n with
    | zero => rfl
    | succ n ih =>
      rw [List.replicate_succ', ← List.append_assoc]
      unfold lrun at ih ⊢
      rw [List.foldl_append, ih]
      exact hfix _ rfl
  rw [hrep]
  decide

end Cheval
