import Verif.Core.LdfAgg

/-!
# Whole lookups under the invariant
-/
namespace Cheval
variable {V : Type} [DecidableEq V] {E : LEnv V}

/-- the fill value of a lookup that ends in column `col` (dtype `kind`) of frame `g` -/
def LWorld.fillFor (w : LWorld V) (g : LFrame V) (col : Str) (kind : DKind) : V :=
  if g.linked then g.fillOf col kind else w.classFill kind

theorem lookup_good {w : LWorld V} (h : LGood E w) {r : Nat} {path : List Str} {l : Link} {hist : List (Nat × Str)}
    (hw : w.walk r path [] = .ok (l, hist)) (ha : l.agg = false) {g : LFrame V} (hg : w.frames[l.other]? = some g) {col : Str} {c : LCol V}
    (hc : dictGet g.cols col = some c) {v : V} (hv : E.store c.kind (w.fillFor g col c.kind) = .ok v) :
    ∃ w', CacheOnly w w' ∧ LGood E w' ∧
      (Passable w r path → ∃ out, E.lookup w r path col = (w', .ok ⟨c.kind, out⟩) ∧ out.length = w.rows r ∧
        SeenThrough w r path l.other c.vals v out) ∧
      (¬ Passable w r path → E.lookup w r path col = (w', .error .index)) := by
  obtain ⟨ns, n, q, h', rfl, ht, hl, rfl⟩ := walk_trail hw
  obtain ⟨f, g0, ks, ko, hf, -, hk⟩ := h.linkOk hl
  have hg0 : g0 = g := by rw [hk.target] at hg; exact Option.some.inj hg
  subst hg0
  have hgm := List.mem_of_getElem? hg
  rw [List.append_nil] at hw
  have ht' : Trail w r (ns ++ [n]) l.other ((q, n) :: h') := .snoc ht hl ha
  have hlen : c.vals.length = w.rows l.other := by
    simp [LWorld.rows, hg, (h.wf _ hgm).cols _ (dictGet_mem hc)]
  obtain ⟨w', h1, h2, h3, h4⟩ := resolve_trail hv h ht' hlen
  refine ⟨w', h1, h2, ?_⟩
  have hnl : col ∉ g0.links.map (·.1) := fun hm => (h.wf _ hgm).noClash col hm (by
    have := dictGet_mem hc
    exact List.mem_map_of_mem this)
  have hunf : E.lookup w r (ns ++ [n]) col = asSeries (w.rows r) c.kind
      (E.resolve c.kind (w.fillFor g0 col c.kind) w ((q, n) :: h') c.vals) := by
    unfold LEnv.lookup
    rw [hw]
    simp only [hg]
    unfold LWorld.fillFor
    unfold Link.node
    rw [ha, hk.chained]
    cases hlk : g0.linked with
    | false => simp [hc, LWorld.rows]
    | true => simp only [Bool.false_eq_true, if_false, if_true, if_neg hnl, hc, LWorld.rows]
  constructor
  · intro hp
    obtain ⟨out, ho1, ho2, ho3⟩ := h3 hp
    refine ⟨out, ?_, ho2, ho3⟩
    rw [hunf, ho1]
    simp [asSeries, ho2]
  · intro hp
    rw [hunf, h4 hp]
    rfl

/-- every link that is computed in `w` is computed in `w'` -/
def Grows (w w' : LWorld V) : Prop := ∀ q n l, w.link? q n = some l → l.flat.isSome = true → ∃ l', w'.link? q n = some l' ∧ l'.flat.isSome = true

theorem aggregate_good {w : LWorld V} (h : LGood E w) {ev : LWorld V → Nat → PExpr → LWorld V × Except Err (LCol V)} {r : Nat} {ns : List Str} {n : Str}
    {l : Link} {hist : List (Nat × Str)} (hw : w.walk r (ns ++ [n]) [] = .ok (l, hist)) (ha : l.agg = true) (hcomp : l.flat.isSome = true)
    {g : LFrame V} (hg : w.frames[l.other]? = some g)
    {func : Str} (hfunc : func ∈ numericAggs ++ otherAggs) {arg : PExpr} {w1 : LWorld V} {c : LCol V} (hev : ev w l.other arg = (w1, .ok c))
    (hco : CacheOnly w w1) (hgrow : Grows w w1) (hg1 : LGood E w1) (hcl : c.vals.length = g.rows) (hnum : func ∈ numericAggs → c.kind.numeric = true)
    (hdt : c.kind ≠ .datetime) {ko : List (List V)} (hko : g.keys l.otherSpec = .ok ko) (hna : NoNa E ko)
    (hagg : ∀ vs, vs ≠ [] → (E.agg func c.kind vs).isSome = true) {intFill v : V}
    (hv : E.store (E.aggKind func c.kind) (if c.kind.intLike then intFill else E.nan) = .ok v) :
    ∃ w', CacheOnly w w' ∧ LGood E w' ∧
      (Passable w r (ns ++ [n]) → ∃ out, E.aggregate ev w r (ns ++ [n]) func arg intFill = (w', .ok ⟨E.aggKind func c.kind, out⟩) ∧ out.length = w.rows r ∧
        ∃ q mid, (∃ h', Trail w r ns q h') ∧ w.link? q n = some l ∧ SeenThrough w r ns q mid v out ∧ mid.length = w.rows q ∧ ∀ j k, w.keyAt q l.selfSpec j = some k →
          mid[j]? = if g.matching l.otherSpec k c.vals = [] then some v else E.agg func c.kind (g.matching l.otherSpec k c.vals)) ∧
      (¬ Passable w r (ns ++ [n]) → E.aggregate ev w r (ns ++ [n]) func arg intFill = (w', .error .index)) := by
  obtain ⟨ns', n', q, h', hpe, ht, hl, rfl⟩ := walk_trail hw
  obtain ⟨rfl, hnn⟩ := List.append_inj' hpe rfl
  simp only [List.cons.injEq, and_true] at hnn
  subst hnn
  rw [List.append_nil] at hw
  obtain ⟨f, g0, ks, ko0, hf, -, hk⟩ := h.linkOk hl
  have hg0 : g0 = g := by rw [hk.target] at hg; exact Option.some.inj hg
  subst hg0
  have hko0 : ko0 = ko := by have := hk.oth; rw [hko] at this; simpa using this.symm
  subst hko0
  have hgm := List.mem_of_getElem? hg
  have hgw := h.wf _ hgm
  -- the link in the world after the evaluation of the argument
  obtain ⟨l1, hl1, he1⟩ := hco.link_some hl
  have e1 : l1.other = l.other := congrArg (fun x => x.other) he1
  have e2 : l1.agg = l.agg := congrArg (fun x => x.agg) he1
  have e3 : l1.selfSpec = l.selfSpec := congrArg (fun x => x.selfSpec) he1
  have e4 : l1.otherSpec = l.otherSpec := congrArg (fun x => x.otherSpec) he1
  obtain ⟨f1, g1, ks1, ko1, hf1, -, hk1⟩ := hg1.linkOk hl1
  obtain ⟨f1', hf1', hsf⟩ := hco.frame hf
  obtain ⟨g1', hg1', hsg⟩ := hco.frame hg
  rw [hf1] at hf1'
  obtain rfl := Option.some.inj hf1'
  have hgg : g1 = g1' := by have := hk1.target; rw [e1, hg1'] at this; exact (Option.some.inj this).symm
  subst hgg
  have hks1 : ks1 = ks := by
    have := hk1.self; rw [e3, hsf.keys, hk.self] at this; simpa using this.symm
  have hko1 : ko1 = ko0 := by
    have := hk1.oth; rw [e4, hsg.keys, hk.oth] at this; simpa using this.symm
  subst hks1
  subst hko1
  have hbase : E.base l1 ko1 = E.uniques ko1 := by simp [LEnv.base, e2, ha]
  have hred := reduce_matching hgw hko hna hcl hagg
  obtain ⟨w2, hc2, hg2, hstep⟩ := resolve_step hg1 hl1 hf1 hk1 (a := E.reduce func c.kind (E.codes ko1) c.vals) (by rw [hbase]; exact hred.1) hv h'
  rw [hbase] at hstep
  have hrowsq := hk.rows h hf
  have hgrp : l1.grouper = some (E.codes ko1) := by
    obtain ⟨l1', hl1', hfl⟩ := hgrow q n l hl hcomp
    rw [hl1] at hl1'
    obtain rfl := Option.some.inj hl1'
    obtain ⟨cc, hcc⟩ := Option.isSome_iff_exists.mp (hk1.grouped (e2.trans ha) hfl)
    rw [hcc, hk1.grouper cc hcc]
  have hunf : E.aggregate ev w r (ns ++ [n]) func arg intFill = asSeries (w.rows r) (E.aggKind func c.kind)
      (E.resolve (E.aggKind func c.kind) (if c.kind.intLike then intFill else E.nan) w1 ((q, n) :: h') (E.reduce func c.kind (E.codes ko1) c.vals)) := by
    unfold LEnv.aggregate
    rw [hw]
    simp only [hg]
    have hnode : l.node = .aggr := by simp [Link.node, ha]
    rw [hnode]
    simp only
    rw [if_neg (not_not.mpr hfunc), hev]
    simp only
    rw [if_neg (by rintro ⟨x, y⟩; rw [hnum x] at y; simp at y), if_neg hdt, hl1]
    simp only [Option.bind_some, hgrp]
    have hlc : (E.codes ko1).length = c.vals.length := by
      rw [LEnv.codes, getIndexer_length, (keys_ok hgw hko).1, hcl]
    rw [if_neg (by simp [hlc])]
    have := hco.rows r
    unfold LWorld.rows
    rw [this]
  have ht1 := hco.trail ht
  have hc02 := hco.trans hc2
  have hrow2 : ∀ x, w2.rows x = w.rows x := fun x => hc02.rows x
  obtain ⟨w3, hc3, hg3, hok, herr⟩ := resolve_trail hv hg2 (hc2.trail ht1)
    (b := applyIx (E.reduce func c.kind (E.codes ko1) c.vals) (getIndexer (E.uniques ko1) ks1) v)
    (by rw [applyIx_length, getIndexer_length, hrowsq.1, hrow2])
  have hps := ht.passable_snoc hl
  have hpass := hc02.passable ns r
  have hempty : (E.uniques ko1 = [] ∧ ks1 ≠ []) ↔ ¬ (w.rows l.other = 0 → w.rows q = 0) := by
    rw [uniques_eq_nil hna, ← hrowsq.1, ← hrowsq.2.1]
    simp [List.length_eq_zero_iff]
  by_cases he : E.uniques ko1 = [] ∧ ks1 ≠ []
  · rw [if_pos he] at hstep
    refine ⟨w2, hc02, hg2, ?_, ?_⟩
    · intro hp
      exact absurd (hps.mp hp).2 (hempty.mp he)
    · intro _; rw [hunf, hstep]; rfl
  · rw [if_neg he] at hstep
    have hnb : w.rows l.other = 0 → w.rows q = 0 := by
      by_contra hcon; exact he (hempty.mpr hcon)
    refine ⟨w3, hc02.trans hc3, hg3, ?_, ?_⟩
    · intro hp
      obtain ⟨out, ho1, ho2, ho3⟩ := hok (hpass.mpr (hps.mp hp).1)
      refine ⟨out, ?_, by rw [ho2, hrow2], q, applyIx (E.reduce func c.kind (E.codes ko1) c.vals) (getIndexer (E.uniques ko1) ks1) v, ⟨_, ht⟩, hl, ?_, by rw [applyIx_length, getIndexer_length, hrowsq.1], ?_⟩
      · rw [hunf, hstep, ho1]
        simp [asSeries, ho2, hrow2]
      · intro i x hx
        obtain ⟨hs1, hs2⟩ := ho3 i x hx
        exact ⟨fun j hj => hs1 j (hc02.reaches hj), fun hno => hs2 fun j hj => hno j (hc02.symm.reaches hj)⟩
      · intro j k hj
        have hkj : ks1[j]? = some k := by rw [hrowsq.2.2.1]; exact hj
        have hap := applyIx_get (a := E.reduce func c.kind (E.codes ko1) c.vals) (ko := E.uniques ko1) (v := v) hred.1 hkj
        by_cases hmem : k ∈ ko1
        · have hu : k ∈ E.uniques ko1 := mem_uniques.mpr ⟨hmem, hna k hmem⟩
          have hget : (E.uniques ko1)[posIn (E.uniques ko1) k]? = some k := by
            rw [List.getElem?_eq_getElem (posIn_lt hu), get_posIn hu]
          rw [hap.1 _ (uniques_nodup ko1) hget, hred.2 _ (posIn_lt hu), get_posIn hu, if_neg]
          rw [← ne_eq, matching_ne_nil hcl]
          obtain ⟨m, hm⟩ := List.getElem?_of_mem hmem
          obtain ⟨hx1, hx2⟩ := keys_ok hgw hko
          exact ⟨m, by rw [← hx1]; exact (List.getElem?_eq_some_iff.mp hm).1, by rw [← hx2]; exact hm⟩
        · rw [hap.2 (fun hu => hmem (mem_uniques.mp hu).1), if_pos]
          by_contra hne
          rw [← ne_eq, matching_ne_nil hcl] at hne
          obtain ⟨m, -, hm⟩ := hne
          rw [← (keys_ok hgw hko).2] at hm
          exact hmem (List.mem_of_getElem? hm)
    · intro hp
      rw [hunf, hstep, herr]
      · rfl
      · rw [hpass]
        intro hp1
        exact hp (hps.mpr ⟨hp1, hnb⟩)

end Cheval
