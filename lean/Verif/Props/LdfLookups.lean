import Verif.Props.LdfExample

/-!
# C42, C43: lookups over links
-/
namespace Cheval
variable {V : Type} [DecidableEq V] {E : LEnv V} {isid : Str → Bool}
  {ev : LWorld V → Nat → PExpr → LWorld V × Except Err (LCol V)}

/-- from a row one reaches at most one row over links that need no aggregation -/
theorem reaches_unique {w : LWorld V} (h : LGood E w) {r : Nat} {ns : List Str} {q : Nat} {hist : List (Nat × Str)} (t : Trail w r ns q hist) :
    ∀ {i j j' : Nat}, Reaches w r ns i q j → Reaches w r ns i q j' → j = j' := by
  induction t with
  | nil => intro i j j' h1 h2; cases h1; cases h2; rfl
  | @snoc ns q hist n l t hl ha ih =>
    intro i j j' h1 h2
    obtain ⟨q1, m1, l1, k1, r1, e1, -, a1, b1⟩ := h1.unsnoc
    obtain ⟨q2, m2, l2, k2, r2, e2, -, a2, b2⟩ := h2.unsnoc
    have hq1 : q1 = q := t.target r1
    have hq2 : q2 = q := t.target r2
    subst hq1 hq2
    rw [hl] at e1 e2
    cases e1
    cases e2
    have hm : m1 = m2 := ih r1 r2
    subst hm
    rw [a1] at a2
    cases a2
    obtain ⟨f, g, ks, ko, hf, -, hk⟩ := h.linkOk hl
    obtain ⟨-, -, -, hko⟩ := hk.rows h hf
    have hu := hk.uniq ha
    rw [← hko] at b1 b2
    exact (List.getElem?_inj (List.getElem?_eq_some_iff.mp b1).1 hu).mp (b1.trans b2.symm)

theorem row_has_key {w : LWorld V} (h : LGood E w) {r : Nat} {n : Str} {l : Link} (hl : w.link? r n = some l) {i : Nat} (hi : i < w.rows r) :
    ∃ k, w.keyAt r l.selfSpec i = some k := by
  obtain ⟨f, g, ks, ko, hf, -, hk⟩ := h.linkOk hl
  obtain ⟨h1, -, h3, -⟩ := hk.rows h hf
  rw [← h3 i]
  exact ⟨_, List.getElem?_eq_getElem (by omega)⟩

theorem lookup_single {w : LWorld V} (h : LGood E w) {r : Nat} {name : Str} {l : Link} (hl : w.link? r name = some l) (ha : l.agg = false)
    {g : LFrame V} (hg : w.frames[l.other]? = some g) {col : Str} {c : LCol V} (hc : dictGet g.cols col = some c)
    {v : V} (hv : E.store c.kind (w.fillFor g col c.kind) = .ok v) :
    (g.rows ≠ 0 ∨ w.rows r = 0 → ∃ w' out, E.lookup w r [name] col = (w', .ok ⟨c.kind, out⟩) ∧ out.length = w.rows r ∧
      ∀ i, i < w.rows r → ∃ k, w.keyAt r l.selfSpec i = some k ∧
        (∀ j, g.keyAt l.otherSpec j = some k → out[i]? = c.vals[j]?) ∧
        ((∀ j, g.keyAt l.otherSpec j ≠ some k) → out[i]? = some v) ∧
        ∀ j j', g.keyAt l.otherSpec j = some k → g.keyAt l.otherSpec j' = some k → j = j') ∧
    (g.rows = 0 → w.rows r ≠ 0 → (E.lookup w r [name] col).2 = .error .index) := by
  have hwalk : w.walk r [name] [] = .ok (l, [(r, name)]) := by simp [LWorld.walk, hl]
  have hrow : w.rows l.other = g.rows := by simp [LWorld.rows, hg]
  have hka : ∀ j, w.keyAt l.other l.otherSpec j = g.keyAt l.otherSpec j := fun j => by simp [LWorld.keyAt, hg]
  have hpass : Passable w r [name] ↔ (g.rows = 0 → w.rows r = 0) := by
    simp only [Passable, hl, Option.some.injEq, forall_eq', and_true, hrow]
  obtain ⟨w', -, -, h3, h4⟩ := lookup_good h hwalk ha hg hc hv
  constructor
  · intro hne
    obtain ⟨out, h5, h6, h7⟩ := h3 (hpass.mpr fun h0 => hne.elim (fun hn => absurd h0 hn) id)
    refine ⟨w', out, h5, h6, fun i hi => ?_⟩
    obtain ⟨k, hk⟩ := row_has_key h hl hi
    have ho : out[i]? = some out[i] := List.getElem?_eq_getElem (by omega)
    obtain ⟨h8, h9⟩ := h7 i _ ho
    have ht : Trail w r ([] ++ [name]) l.other [(r, name)] := .snoc .nil hl ha
    have hre : ∀ j, g.keyAt l.otherSpec j = some k → Reaches w r [name] i l.other j := fun j hj =>
      .hop hl hk ((hka j).trans hj) (.here _ _)
    refine ⟨k, hk, fun j hj => ?_, fun hno => ?_, fun j j' hj hj' => reaches_unique h ht (hre j hj) (hre j' hj')⟩
    · rw [ho, h8 j (hre j hj)]
    · rw [ho, h9 fun j hr => ?_]
      cases hr with
      | hop hl' hk' hm hr' =>
        rw [hl] at hl'
        cases hl'
        cases hr'
        rw [hk] at hk'
        cases hk'
        exact hno j ((hka j).symm.trans hm)
  · intro h0 hr
    rw [h4 fun hp => hr (hpass.mp hp h0)]

/-- C42: after any history of safe operations, `frame.link.column` over a link that needs no aggregation has one value per row
of the calling frame: row `i` has the value of the row of the target with the same key, the fill value when there is no such
row, and no two rows of the target can be meant. If the target has no rows and the frame has some, it raises IndexError. -/
theorem C42_lookup (hev : EvKeeps E ev) {ops : List (LOp V)} (hs : SafeRun E isid ev E.start ops) {w : LWorld V}
    (hw : w = lrun E isid ev E.start ops) {r : Nat} {name : Str} {l : Link} (hl : w.link? r name = some l) (ha : l.agg = false)
    {g : LFrame V} (hg : w.frames[l.other]? = some g) {col : Str} {c : LCol V} (hc : dictGet g.cols col = some c)
    {v : V} (hv : E.store c.kind (w.fillFor g col c.kind) = .ok v) :
    (g.rows ≠ 0 ∨ w.rows r = 0 → ∃ w' out, E.lookup w r [name] col = (w', .ok ⟨c.kind, out⟩) ∧ out.length = w.rows r ∧
      ∀ i, i < w.rows r → ∃ k, w.keyAt r l.selfSpec i = some k ∧
        (∀ j, g.keyAt l.otherSpec j = some k → out[i]? = c.vals[j]?) ∧
        ((∀ j, g.keyAt l.otherSpec j ≠ some k) → out[i]? = some v) ∧
        ∀ j j', g.keyAt l.otherSpec j = some k → g.keyAt l.otherSpec j' = some k → j = j') ∧
    (g.rows = 0 → w.rows r ≠ 0 → (E.lookup w r [name] col).2 = .error .index) :=
  lookup_single (by rw [hw]; exact good_run hev LGood.start hs) hl ha hg hc hv

/-- a case of C42: persons looking up the income of their household, one person has no household -/
example : ∃ l g c, lxW.link? 2 lxHh = some l ∧ l.agg = false ∧ lxW.frames[l.other]? = some g ∧ dictGet g.cols lxInc = some c ∧
    g.rows ≠ 0 ∧ lxVals (lxE.lookup lxW 2 [lxHh] lxInc) = .ok [6, 5, 5, -1] := ⟨_, _, _, rfl, rfl, rfl, rfl, by decide, by decide⟩

/-- C43: after any history of safe operations, `frame.l1...lk.column` over links none of which needs aggregation has one value
per row: the value of the row reached by following matching keys link after link, the fill value of the final column when at
some step no row matches; at most one row can be reached. It raises IndexError exactly when some link leads from a frame
that has rows to a frame without rows. -/
theorem C43_chain (hev : EvKeeps E ev) {ops : List (LOp V)} (hs : SafeRun E isid ev E.start ops) {w : LWorld V}
    (hw : w = lrun E isid ev E.start ops) {r : Nat} {path : List Str} {l : Link} {hist : List (Nat × Str)}
    (hwalk : w.walk r path [] = .ok (l, hist)) (ha : l.agg = false)
    {g : LFrame V} (hg : w.frames[l.other]? = some g) {col : Str} {c : LCol V} (hc : dictGet g.cols col = some c)
    {v : V} (hv : E.store c.kind (w.fillFor g col c.kind) = .ok v) :
    (Passable w r path → ∃ w' out, E.lookup w r path col = (w', .ok ⟨c.kind, out⟩) ∧ out.length = w.rows r ∧
      ∀ i, i < w.rows r →
        (∀ j, Reaches w r path i l.other j → out[i]? = c.vals[j]?) ∧
        ((∀ j, ¬ Reaches w r path i l.other j) → out[i]? = some v) ∧
        ∀ j j', Reaches w r path i l.other j → Reaches w r path i l.other j' → j = j') ∧
    (¬ Passable w r path → (E.lookup w r path col).2 = .error .index) := by
  have h : LGood E w := by rw [hw]; exact good_run hev LGood.start hs
  obtain ⟨w', -, -, h3, h4⟩ := lookup_good h hwalk ha hg hc hv
  obtain ⟨ns, n, q, h', rfl, ht, hl, rfl⟩ := walk_trail hwalk
  refine ⟨fun hp => ?_, fun hp => by rw [h4 hp]⟩
  obtain ⟨out, h5, h6, h7⟩ := h3 hp
  refine ⟨w', out, h5, h6, fun i hi => ?_⟩
  have ho : out[i]? = some out[i] := List.getElem?_eq_getElem (by omega)
  obtain ⟨h8, h9⟩ := h7 i _ ho
  exact ⟨fun j hj => by rw [ho, h8 j hj], fun hno => by rw [ho, h9 hno], fun j j' => reaches_unique h (.snoc ht hl ha)⟩

/-- C43, read from the front: following one link first and looking the rest of the chain up on its target gives the same
values; a row without a match in the first target has the fill value. -/
theorem C43_compose (hev : EvKeeps E ev) {ops : List (LOp V)} (hs : SafeRun E isid ev E.start ops) {w : LWorld V}
    (hw : w = lrun E isid ev E.start ops) {r : Nat} {n : Str} {ns : List Str} (hns : ns ≠ []) {l1 l : Link} {hist : List (Nat × Str)}
    (h1 : w.link? r n = some l1) (hwalk : w.walk r (n :: ns) [] = .ok (l, hist)) (ha : l.agg = false)
    {g : LFrame V} (hg : w.frames[l.other]? = some g) {col : Str} {c : LCol V} (hc : dictGet g.cols col = some c)
    {v : V} (hv : E.store c.kind (w.fillFor g col c.kind) = .ok v) (hp : Passable w r (n :: ns)) :
    ∃ w1 w2 out1 out2, E.lookup w r (n :: ns) col = (w1, .ok ⟨c.kind, out1⟩) ∧ E.lookup w l1.other ns col = (w2, .ok ⟨c.kind, out2⟩) ∧
      ∀ i k, w.keyAt r l1.selfSpec i = some k → i < w.rows r →
        (∀ j, w.keyAt l1.other l1.otherSpec j = some k → out1[i]? = out2[j]?) ∧
        ((∀ j, w.keyAt l1.other l1.otherSpec j ≠ some k) → out1[i]? = some v) := by
  have h : LGood E w := by rw [hw]; exact good_run hev LGood.start hs
  obtain ⟨a1, b1, c1, d1⟩ : ∃ hist', w.walk l1.other ns [] = .ok (l, hist') ∧ l1.agg = false ∧ l1.other = l1.other := by
    cases ns with
    | nil => exact absurd rfl hns
    | cons m ms =>
      rw [LWorld.walk] at hwalk
      rw [h1] at hwalk
      simp only at hwalk
      have hnode : l1.node = .node := by
        cases hn : l1.node <;> rw [hn] at hwalk <;> simp at hwalk
      rw [hnode] at hwalk
      simp only at hwalk
      obtain ⟨ns', n', q, h', he, ht, hl, -⟩ := walk_trail hwalk
      have hag : l1.agg = false := by
        cases hx : l1.agg with
        | false => rfl
        | true => simp [Link.node, hx] at hnode
      have key : ∀ (p : List Str) (x : Nat) (ha hb : List (Nat × Str)) (y : Link × List (Nat × Str)), w.walk x p ha = .ok y →
          ∃ z, w.walk x p hb = .ok (y.1, z) := by
        intro p
        induction p with
        | nil => intro x ha hb y hy; simp [LWorld.walk] at hy
        | cons p ps ih =>
          intro x ha hb y hy
          rw [LWorld.walk] at hy ⊢
          cases hx : w.link? x p with
          | none => rw [hx] at hy; simp at hy
          | some lx =>
            rw [hx] at hy
            simp only at hy ⊢
            cases ps with
            | nil => simp only [Except.ok.injEq] at hy ⊢; subst hy; exact ⟨_, rfl⟩
            | cons p' ps' =>
              simp only at hy ⊢
              cases hnd : lx.node with
              | node => rw [hnd] at hy; simp only at hy ⊢; exact ih _ _ _ _ hy
              | leaf => rw [hnd] at hy; simp at hy
              | aggr => rw [hnd] at hy; simp at hy
      obtain ⟨z, hz⟩ := key _ _ _ [] _ hwalk
      exact ⟨z, hz, hag, rfl⟩
  obtain ⟨w1, -, -, h3, -⟩ := lookup_good h hwalk ha hg hc hv
  obtain ⟨w2, -, -, h3', -⟩ := lookup_good h b1 ha hg hc hv
  obtain ⟨out1, e1, len1, s1⟩ := h3 hp
  obtain ⟨out2, e2, len2, s2⟩ := h3' (hp l1 h1).2
  refine ⟨w1, w2, out1, out2, e1, e2, fun i k hk hi => ?_⟩
  have ho : out1[i]? = some out1[i] := List.getElem?_eq_getElem (by omega)
  obtain ⟨h8, h9⟩ := s1 i _ ho
  obtain ⟨f, g1, ks, ko, hf, -, hkk⟩ := h.linkOk h1
  obtain ⟨-, hkol, -, hko⟩ := hkk.rows h hf
  have hun : ∀ {j j' : Nat}, w.keyAt l1.other l1.otherSpec j = some k → w.keyAt l1.other l1.otherSpec j' = some k → j = j' := by
    intro j j' hj hj'
    rw [← hko] at hj hj'
    exact (List.getElem?_inj (List.getElem?_eq_some_iff.mp hj).1 (hkk.uniq c1)).mp (hj.trans hj'.symm)
  constructor
  · intro j hj
    have hjl : j < w.rows l1.other := by rw [← hkol]; rw [← hko] at hj; exact (List.getElem?_eq_some_iff.mp hj).1
    have hoj : out2[j]? = some out2[j] := List.getElem?_eq_getElem (by omega)
    obtain ⟨h10, h11⟩ := s2 j _ hoj
    by_cases hex : ∃ t, Reaches w l1.other ns j l.other t
    · obtain ⟨t, ht⟩ := hex
      rw [ho, hoj, ← h10 t ht, ← h8 t (.hop h1 hk hj ht)]
    · rw [ho, hoj, h11 fun t ht => hex ⟨t, ht⟩, h9 fun t ht => ?_]
      cases ht with
      | hop hl' hk' hm hr' =>
        rw [h1] at hl'
        cases hl'
        rw [hk] at hk'
        cases hk'
        have := hun hm hj
        subst this
        exact hex ⟨t, hr'⟩
  · intro hno
    rw [ho, h9 fun t ht => ?_]
    cases ht with
    | hop hl' hk' hm hr' =>
      rw [h1] at hl'
      cases hl'
      rw [hk] at hk'
      cases hk'
      exact hno _ hm

/-- a case of C43: persons looking up the area of their household's zone; household 20 is in no zone, one person in no
household -/
example : ∃ l hist, lxW.walk 2 [lxHh, lxZone] [] = .ok (l, hist) ∧ l.agg = false ∧
    lxVals (lxE.lookup lxW 2 [lxHh, lxZone] lxA) = .ok [-5, 100, 100, -5] ∧ lxVals (lxE.lookup lxW 1 [lxZone] lxA) = .ok [100, -5, 300] :=
  ⟨_, _, rfl, rfl, by decide, by decide⟩

end Cheval
