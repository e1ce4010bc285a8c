import Verif.Core.LdfSlice

/-!
# Histories in which links are precomputed, and independence of lookups from caches
-/
namespace Cheval
variable {V : Type} [DecidableEq V] (E : LEnv V) (isid : Str → Bool) (ev : LWorld V → Nat → PExpr → LWorld V × Except Err (LCol V))

/-- Any use of the library except: naming a link like a column; `link_to(..., precompute=False)`; reindexing to new labels;
operations that only pass through `__finalize__`; `compute_indexers(refresh=True)` on a derived frame; changing a key column in
place. -/
def EagerOp (w : LWorld V) : LOp V → Prop
  | .new _ levels index cols => (∀ k ∈ index, k.length = levels.length) ∧ ∀ e ∈ cols, e.2.vals.length = index.length
  | .linkTo r _ name args => args.precompute = true ∧ ∀ f, w.frames[r]? = some f → name ∉ f.cols.map (·.1)
  | .select r ix _ _ => ∀ f, w.frames[r]? = some f → InRange f.rows ix
  | .finalized _ _ _ _ => False
  | .grouped r ix => ∀ f, w.frames[r]? = some f → ∀ i ∈ ix, i < f.rows
  | .computeIndexers r refresh => refresh = true → ∀ n l, w.link? r n = some l → l.owner = r
  | .setColumn r col _ => ¬ KeyColumn w r col ∧ ∀ f, w.frames[r]? = some f → col ∉ f.links.map (·.1)
  | _ => True

def EagerRun : LWorld V → List (LOp V) → Prop
  | _, [] => True
  | w, op :: ops => EagerOp w op ∧ EagerRun (lstep E isid ev w op).1 ops

variable {E isid ev}

theorem dictGet_of_nodup {K A : Type} [DecidableEq K] : ∀ {d : List (K × A)}, (d.map (·.1)).Nodup → ∀ {e : K × A}, e ∈ d → dictGet d e.1 = some e.2
  | [], _, e, he => by simp at he
  | x :: d, hn, e, he => by
    rw [dictGet_cons]
    simp only [List.map_cons, List.nodup_cons] at hn
    rcases List.mem_cons.mp he with rfl | he
    · simp
    · rw [if_neg]
      · exact dictGet_of_nodup hn.2 he
      · intro hx
        exact hn.1 (hx ▸ List.mem_map_of_mem he)

/-- every link is computed -/
def AllEager (w : LWorld V) : Prop := ∀ f ∈ w.frames, AllComputed f

theorem EagerOp.safe {w : LWorld V} (ha : AllEager w) {op : LOp V} (h : EagerOp w op) : SafeOp w op := by
  cases op with
  | linkTo r o name args => exact h.2
  | select r ix pk pc => exact fun f hf => ⟨h f hf, ha f (List.mem_of_getElem? hf)⟩
  | finalized r levels index cols => exact h.elim
  | grouped r ix => exact fun f hf => ⟨h f hf, ha f (List.mem_of_getElem? hf)⟩
  | new linked levels index cols => exact h
  | computeIndexers r refresh => exact h
  | setColumn r col c => exact h
  | _ => trivial

theorem AllEager.keeps {w w' : LWorld V} (ha : AllEager w) (hk : Keeps E w w') : AllEager w' := by
  intro f' hf' e he
  obtain ⟨q, hq⟩ := List.getElem?_of_mem hf'
  have hnd := (hk.2.1.wf f' hf').nodup
  have hl' : w'.link? q e.1 = some e.2 := by
    unfold LWorld.link?
    rw [hq]
    exact dictGet_of_nodup hnd he
  obtain ⟨l, hl, -⟩ := hk.1.link_some' hl'
  have hc : l.flat.isSome = true := by
    unfold LWorld.link? at hl
    cases hf : w.frames[q]? with
    | none => rw [hf] at hl; simp at hl
    | some f =>
      rw [hf] at hl
      exact ha f (List.mem_of_getElem? hf) _ (dictGet_mem hl)
  obtain ⟨l2, hl2, hc2⟩ := hk.2.2 q e.1 l hl hc
  rw [hl'] at hl2
  cases hl2
  exact hc2

theorem AllEager.push {w : LWorld V} (ha : AllEager w) {f : LFrame V} (hf : AllComputed f) : AllEager (w.push f) := by
  intro g hg
  simp only [LWorld.push, List.mem_append, List.mem_singleton] at hg
  rcases hg with hg | rfl
  · exact ha g hg
  · exact hf

theorem AllEager.setFrame {w : LWorld V} (ha : AllEager w) {r : Nat} {g : LFrame V → LFrame V}
    (hg : ∀ f, w.frames[r]? = some f → AllComputed (g f)) : AllEager (w.setFrame r g) := by
  intro f hf
  obtain ⟨q, hq⟩ := List.getElem?_of_mem hf
  by_cases h : q = r
  · subst h
    cases hx : w.frames[q]? with
    | none => rw [setFrame_none hx, hx] at hq; simp at hq
    | some f0 =>
      rw [setFrame_self hx] at hq
      rw [← Option.some.inj hq]
      exact hg f0 hx
  · rw [setFrame_other h] at hq
    exact ha f (List.mem_of_getElem? hq)

theorem copyLinks_computed {ix : List Int} {f : LFrame V} (hf : AllComputed f) {ls : List (Str × Link)} (h : copyLinks (some ix) f.links = .ok ls) :
    ∀ e ∈ ls, e.2.flat.isSome = true := by
  intro e he
  obtain ⟨e0, he0, -, hc⟩ := forall₂_mem_right (copyLinks_ok h) e he
  obtain ⟨fl, hfl⟩ := Option.isSome_iff_exists.mp (hf e0 he0)
  unfold Link.copy at hc
  rw [hfl] at hc
  simp only at hc
  cases ht : takeInts fl ix with
  | error e' => rw [ht] at hc; simp at hc
  | ok fl1 => rw [ht] at hc; simp only [Except.ok.injEq] at hc; rw [← hc]; rfl

theorem AllEager.derive {w : LWorld V} (ha : AllEager w) {r : Nat} {g : LFrame V → Except Err (LFrame V)}
    (hg : ∀ f f', w.frames[r]? = some f → g f = .ok f' → AllComputed f') : AllEager (w.derive r g).1 := by
  unfold LWorld.derive
  cases hf : w.frames[r]? with
  | none => exact ha
  | some f =>
    simp only
    cases hx : g f with
    | error e => exact ha
    | ok f' => exact ha.push (hg f f' hf hx)

theorem AllEager.changeFill {w : LWorld V} (ha : AllEager w) (r : Option Nat) (g : (DKind → V) → (DKind → V) × Except Err Unit) :
    AllEager (w.changeFill r g).1 := by
  cases r with
  | none => exact ha
  | some r =>
    cases hf : w.frames[r]? with
    | none => simp only [LWorld.changeFill, hf]; exact ha
    | some f =>
      simp only [LWorld.changeFill, hf]
      split
      · exact ha
      · exact ha.setFrame fun f0 hf0 => ha f0 (List.mem_of_getElem? hf0)

theorem eager_step (hev : EvKeeps E ev) {w : LWorld V} (h : LGood E w) (ha : AllEager w) {op : LOp V} (hs : EagerOp w op) :
    AllEager (lstep E isid ev w op).1 := by
  cases op with
  | new linked levels index cols => exact ha.push fun e he => by simp [LEnv.newFrame] at he
  | linkTo r o name args =>
    simp only [lstep]
    unfold LEnv.linkTo
    cases args.specs with
    | error e => exact ha
    | ok p =>
      obtain ⟨ss, os⟩ := p
      simp only
      cases hf : w.frames[r]? with
      | none => exact ha
      | some f =>
        cases hg : w.frames[o]? with
        | none => exact ha
        | some g =>
          simp only
          split
          · exact ha
          · cases hc : E.createLink r o f g ss os args.precompute with
            | error e => exact ha
            | ok l =>
              refine ha.setFrame fun f0 hf0 e he => ?_
              rw [hf] at hf0
              cases hf0
              rcases mem_dictSet.mp he with rfl | ⟨he, -⟩
              · obtain ⟨ks, ko, flag, -, -, -, -, -, -, -, -, -, -, hp, -⟩ := createLink_ok hc
                simp [(hp hs.1).1]
              · exact ha f (List.mem_of_getElem? hf) e he
  | lookup r path col => exact ha.keeps (lookup_keeps h r path col)
  | aggregate py r path func arg intFill => exact ha.keeps (aggregate_keeps (called_keeps hev py) h r path func arg intFill)
  | select r ix pk pc =>
    refine ha.derive fun f f' hf hx => ?_
    have hfm := List.mem_of_getElem? hf
    exact copyLinks_computed (ha f hfm) (select_rowsOf (h.wf f hfm) (hs f hf) hx).2
  | finalized r levels index cols => exact hs.elim
  | grouped r ix =>
    refine ha.derive fun f f' hf hx => ?_
    have hfm := List.mem_of_getElem? hf
    exact copyLinks_computed (ha f hfm) (grouped_rowsOf (h.wf f hfm) (hs f hf) hx).2
  | copy r =>
    refine ha.derive fun f f' hf hx => ?_
    unfold LEnv.copyFrame at hx
    rw [copyLinks_none] at hx
    simp only [Except.ok.injEq] at hx
    subst hx
    exact ha f (List.mem_of_getElem? hf)
  | computeIndexers r refresh =>
    simp only [lstep]
    unfold LEnv.computeIndexers
    cases hf : w.frames[r]? with
    | none => exact ha
    | some f =>
      simp only
      split
      · exact ha
      · exact ha.keeps (computeLinks_keeps refresh r _ h hs)
  | setColumn r col c =>
    simp only [lstep]
    unfold LWorld.setColumn
    cases hf : w.frames[r]? with
    | none => exact ha
    | some f =>
      simp only
      split
      · exact ha.setFrame fun f0 hf0 => ha f0 (List.mem_of_getElem? hf0)
      · exact ha
  | setColumnFill r col v =>
    simp only [lstep]
    unfold LWorld.setColumnFill
    cases hf : w.frames[r]? with
    | none => exact ha
    | some f =>
      simp only
      split
      · exact ha
      · split
        · exact ha.setFrame fun f0 hf0 => ha f0 (List.mem_of_getElem? hf0)
        · exact ha
  | setFill r kvs => simp only [lstep]; exact ha.changeFill r _
  | tempFill r kvs => simp only [lstep]; exact ha.changeFill r _
  | resetFill r => simp only [lstep]; exact ha.changeFill r _

theorem eager_run (hev : EvKeeps E ev) : ∀ {ops : List (LOp V)} {w : LWorld V}, LGood E w → AllEager w → EagerRun E isid ev w ops →
    SafeRun E isid ev w ops ∧ AllEager (lrun E isid ev w ops)
  | [], _, _, ha, _ => ⟨trivial, ha⟩
  | op :: ops, w, h, ha, hs => by
    have hsafe := hs.1.safe ha
    obtain ⟨h1, h2⟩ := eager_run hev (good_step (isid := isid) hev h hsafe) (eager_step (isid := isid) hev h ha hs.1) hs.2
    exact ⟨⟨hsafe, h1⟩, h2⟩

theorem AllEager.start : AllEager E.start := fun f hf => by simp [LEnv.start] at hf

/-- what holds after a history with precomputed links -/
theorem EagerRun.good (hev : EvKeeps E ev) {ops : List (LOp V)} (h : EagerRun E isid ev E.start ops) :
    LGood E (lrun E isid ev E.start ops) ∧ AllEager (lrun E isid ev E.start ops) := by
  obtain ⟨h1, h2⟩ := eager_run hev LGood.start AllEager.start h
  exact ⟨good_run hev LGood.start h1, h2⟩

/-! ## caches do not matter -/

theorem indexerMissing_cache {w w' : LWorld V} (hc : CacheOnly w w') (h : LGood E w) (h' : LGood E w') (r : Nat) (n : Str) :
    (E.indexerMissing w r n).2 = (E.indexerMissing w' r n).2 := by
  cases hl : w.link? r n with
  | none =>
    have hl' : w'.link? r n = none := by
      have := hc.link r n
      rw [hl] at this
      simpa using this
    unfold LEnv.indexerMissing
    rw [hl, hl']
  | some l =>
    obtain ⟨l', hl', hcm⟩ := hc.link_some hl
    obtain ⟨f, g, ks, ko, hf, -, hk⟩ := h.linkOk hl
    obtain ⟨f', g', ks', ko', hf', -, hk'⟩ := h'.linkOk hl'
    obtain ⟨f2, hf2, hsf⟩ := hc.frame hf
    rw [hf'] at hf2
    obtain rfl := Option.some.inj hf2
    have e1 : l'.other = l.other := congrArg (fun x => x.other) hcm
    have e2 : l'.agg = l.agg := congrArg (fun x => x.agg) hcm
    have e3 : l'.selfSpec = l.selfSpec := congrArg (fun x => x.selfSpec) hcm
    have e4 : l'.otherSpec = l.otherSpec := congrArg (fun x => x.otherSpec) hcm
    obtain ⟨g2, hg2, hsg⟩ := hc.frame hk.target
    have hgg : g' = g2 := by have := hk'.target; rw [e1, hg2] at this; exact (Option.some.inj this).symm
    subst hgg
    have hks : ks' = ks := by have := hk'.self; rw [e3, hsf.keys, hk.self] at this; simpa using this.symm
    have hko : ko' = ko := by have := hk'.oth; rw [e4, hsg.keys, hk.oth] at this; simpa using this.symm
    subst hks
    subst hko
    obtain ⟨w1, h1, -, -⟩ := indexerMissing_good h hl hf hk
    obtain ⟨w2, h2, -, -⟩ := indexerMissing_good h' hl' hf' hk'
    rw [h1, h2]
    simp [LEnv.base, e2]

theorem resolve_cache (kind : DKind) (fill : V) : ∀ (hist : List (Nat × Str)) {w w' : LWorld V} (_ : CacheOnly w w') (_ : LGood E w) (_ : LGood E w')
    (a : List V), (E.resolve kind fill w hist a).2 = (E.resolve kind fill w' hist a).2
  | [], _, _, _, _, _, _ => rfl
  | p :: hist, w, w', hc, h, h', a => by
    rw [LEnv.resolve, LEnv.resolve]
    have hi := indexerMissing_cache hc h h' p.1 p.2
    have hk := indexerMissing_keeps h p.1 p.2
    have hk' := indexerMissing_keeps h' p.1 p.2
    rcases hx : E.indexerMissing w p.1 p.2 with ⟨w1, x⟩
    rcases hx' : E.indexerMissing w' p.1 p.2 with ⟨w1', x'⟩
    rw [hx] at hi hk
    rw [hx'] at hi hk'
    simp only at hi hk hk'
    subst hi
    rcases x with e | ⟨fl, m⟩
    · rfl
    · simp only
      cases takeInts a fl with
      | error e => rfl
      | ok b =>
        simp only
        cases E.store kind fill with
        | error e => rfl
        | ok v =>
          simp only
          cases putAll b m v with
          | error e => rfl
          | ok c => exact resolve_cache kind fill hist ((hk.1.symm.trans hc).trans hk'.1) hk.2.1 hk'.2.1 c

theorem walk_cache {w w' : LWorld V} (hc : CacheOnly w w') : ∀ (ns : List Str) (r : Nat) (h : List (Nat × Str)),
    (∃ e, w.walk r ns h = .error e ∧ w'.walk r ns h = .error e) ∨
    ∃ l l' hist, w.walk r ns h = .ok (l, hist) ∧ w'.walk r ns h = .ok (l', hist) ∧ l'.copyMeta = l.copyMeta
  | [], _, _ => .inl ⟨_, rfl, rfl⟩
  | n :: ns, r, h => by
    rw [LWorld.walk, LWorld.walk]
    cases hl : w.link? r n with
    | none =>
      have hl' : w'.link? r n = none := by
        have := hc.link r n
        rw [hl] at this
        simpa using this
      rw [hl']
      exact .inl ⟨_, rfl, rfl⟩
    | some l =>
      obtain ⟨l', hl', hcm⟩ := hc.link_some hl
      rw [hl']
      simp only
      have e1 : l'.other = l.other := congrArg (fun x => x.other) hcm
      have e2 : l'.agg = l.agg := congrArg (fun x => x.agg) hcm
      have e3 : l'.chained = l.chained := congrArg (fun x => x.chained) hcm
      have hn : l'.node = l.node := by simp [Link.node, e2, e3]
      cases ns with
      | nil => exact .inr ⟨l, l', _, rfl, rfl, hcm⟩
      | cons m ms =>
        simp only
        rw [hn, e1]
        cases l.node with
        | leaf => exact .inl ⟨_, rfl, rfl⟩
        | aggr => exact .inl ⟨_, rfl, rfl⟩
        | node => exact walk_cache hc (m :: ms) l.other _

theorem asSeries_congr {A A' B : Type} {n n' : Nat} (hn : n = n') (kind : DKind) {x : A × Except Err (List B)} {x' : A' × Except Err (List B)}
    (h : x.2 = x'.2) : (asSeries n kind x).2 = (asSeries n' kind x').2 := by
  subst hn
  obtain ⟨w, x⟩ := x
  obtain ⟨w', x'⟩ := x'
  simp only at h
  subst h
  cases x <;> rfl

/-- lookups depend on the frames and links only, not on what is cached -/
theorem lookup_cache {w w' : LWorld V} (hc : CacheOnly w w') (h : LGood E w) (h' : LGood E w') (r : Nat) (path : List Str) (col : Str) :
    (E.lookup w r path col).2 = (E.lookup w' r path col).2 := by
  unfold LEnv.lookup
  rcases walk_cache hc path r [] with ⟨e, h1, h2⟩ | ⟨l, l', hist, h1, h2, hcm⟩
  · rw [h1, h2]
  · rw [h1, h2]
    simp only
    have e1 : l'.other = l.other := congrArg (fun x => x.other) hcm
    have e2 : l'.agg = l.agg := congrArg (fun x => x.agg) hcm
    have e3 : l'.chained = l.chained := congrArg (fun x => x.chained) hcm
    have hn : l'.node = l.node := by simp [Link.node, e2, e3]
    rw [e1, hn]
    cases hg : w.frames[l.other]? with
    | none => rw [hc.none hg]
    | some g =>
      obtain ⟨g', hg', hsg⟩ := hc.frame hg
      rw [hg']
      simp only
      have c1 : g'.cols = g.cols := by rw [hsg.1]
      have c2 : g'.links.map (·.1) = g.links.map (·.1) := hsg.names
      have c3 : ∀ col k, g'.fillOf col k = g.fillOf col k := by
        intro col k
        unfold LFrame.fillOf
        have c4 : g'.colFills = g.colFills := by rw [hsg.1]
        have c5 : g'.filler = g.filler := by rw [hsg.1]
        rw [c4, c5]
      rw [c1, c2]
      cases l.node with
      | aggr => rfl
      | leaf =>
        simp only
        cases dictGet g.cols col with
        | none => rfl
        | some c => simp only [hc.1]; exact asSeries_congr (hc.rows r).symm _ (resolve_cache _ _ hist hc h h' _)
      | node =>
        simp only
        split
        · rfl
        · cases dictGet g.cols col with
          | none => rfl
          | some c => simp only [c3]; exact asSeries_congr (hc.rows r).symm _ (resolve_cache _ _ hist hc h h' _)

end Cheval
