import Verif.Core.LdfGood

/-!
# Lookups under the invariant
-/
namespace Cheval
variable {V : Type}

/-- rows of a frame of the world -/
def LWorld.rows (w : LWorld V) (r : Nat) : Nat := w.frames[r]?.elim 0 LFrame.rows

/-- the links `path` lead, without aggregation, from frame `r` to frame `q`; `hist` lists them, last first -/
inductive Trail (w : LWorld V) (r : Nat) : List Str → Nat → List (Nat × Str) → Prop
  | nil : Trail w r [] r []
  | snoc {ns : List Str} {q : Nat} {hist : List (Nat × Str)} {n : Str} {l : Link} : Trail w r ns q hist →
      w.link? q n = some l → l.agg = false → Trail w r (ns ++ [n]) l.other ((q, n) :: hist)

theorem Trail.nil_path {w : LWorld V} {r q : Nat} {ns : List Str} {h : List (Nat × Str)} (t : Trail w r ns q h) (hn : ns = []) : r = q ∧ h = [] := by
  cases t with
  | nil => exact ⟨rfl, rfl⟩
  | snoc => simp at hn

theorem Trail.nil_hist {w : LWorld V} {r q : Nat} {ns : List Str} {h : List (Nat × Str)} (t : Trail w r ns q h) (hn : h = []) : r = q ∧ ns = [] := by
  cases t with
  | nil => exact ⟨rfl, rfl⟩
  | snoc => simp at hn

theorem Trail.cons {w : LWorld V} {r : Nat} {n : Str} {l : Link} (hl : w.link? r n = some l) (ha : l.agg = false) {ns : List Str} {q : Nat}
    {h : List (Nat × Str)} (t : Trail w l.other ns q h) : Trail w r (n :: ns) q (h ++ [(r, n)]) := by
  induction t with
  | nil => exact .snoc (ns := []) .nil hl ha
  | snoc t hl' ha' ih => exact .snoc (ns := n :: _) ih hl' ha'

/-- `walk` follows a trail and ends with one more link -/
theorem follow_append {w : LWorld V} : ∀ {ns : List Str} {r q : Nat}, w.follow r ns = some q → ∀ ms, w.follow r (ns ++ ms) = w.follow q ms
  | [], r, q, h, ms => by simp only [LWorld.follow, Option.some.injEq] at h; subst h; rfl
  | n :: ns, r, q, h, ms => by
    simp only [LWorld.follow, List.cons_append] at h ⊢
    cases hl : w.link? r n with
    | none => rw [hl] at h; simp at h
    | some l => rw [hl] at h; simp only [Option.bind_some] at h ⊢; exact follow_append h ms

theorem Trail.follow {w : LWorld V} {r q : Nat} {ns : List Str} {h : List (Nat × Str)} (t : Trail w r ns q h) : w.follow r ns = some q := by
  induction t with
  | nil => rfl
  | snoc _ hl _ ih => rw [follow_append ih]; simp [LWorld.follow, hl]

theorem walk_trail {w : LWorld V} : ∀ {path : List Str} {r : Nat} {h0 h : List (Nat × Str)} {l : Link}, w.walk r path h0 = .ok (l, h) →
    ∃ ns n q h', path = ns ++ [n] ∧ Trail w r ns q h' ∧ w.link? q n = some l ∧ h = (q, n) :: (h' ++ h0)
  | [], r, h0, h, l, hw => by simp [LWorld.walk] at hw
  | n :: ns, r, h0, h, l, hw => by
    unfold LWorld.walk at hw
    cases hl : w.link? r n with
    | none => rw [hl] at hw; simp at hw
    | some l1 =>
      rw [hl] at hw
      simp only at hw
      cases ns with
      | nil =>
        simp only [Except.ok.injEq, Prod.mk.injEq] at hw
        obtain ⟨rfl, rfl⟩ := hw
        exact ⟨[], n, r, [], rfl, .nil, hl, rfl⟩
      | cons n' ns' =>
        cases hn : l1.node with
        | leaf => rw [hn] at hw; simp at hw
        | aggr => rw [hn] at hw; simp at hw
        | node =>
          rw [hn] at hw
          simp only at hw
          obtain ⟨ms, m, q, h', h1, h2, h3, h4⟩ := walk_trail hw
          have ha : l1.agg = false := by
            unfold Link.node at hn
            by_contra hcon
            rw [if_pos (by simpa using hcon)] at hn
            simp at hn
          refine ⟨n :: ms, m, q, h' ++ [(r, n)], by rw [h1]; rfl, Trail.cons hl ha h2, h3, ?_⟩
          rw [h4]; simp

theorem CacheOnly.trail {w w' : LWorld V} (hc : CacheOnly w w') {r q : Nat} {ns : List Str} {h : List (Nat × Str)} (t : Trail w r ns q h) :
    Trail w' r ns q h := by
  induction t with
  | nil => exact .nil
  | snoc t hl ha ih =>
    obtain ⟨l', hl', he⟩ := hc.link_some hl
    rename_i l
    have e1 : l'.other = l.other := congrArg (fun x => x.other) he
    have e2 : l'.agg = l.agg := congrArg (fun x => x.agg) he
    rw [← e1]
    exact .snoc ih hl' (e2.trans ha)

theorem Reaches.snoc {w : LWorld V} {r : Nat} {ns : List Str} {i q j : Nat} (h : Reaches w r ns i q j) {n : Str} {l : Link} {k : List V} {m : Nat}
    (hl : w.link? q n = some l) (hk : w.keyAt q l.selfSpec j = some k) (hm : w.keyAt l.other l.otherSpec m = some k) :
    Reaches w r (ns ++ [n]) i l.other m := by
  induction h with
  | here r i => exact .hop hl hk hm (.here _ _)
  | hop hl' hk' hm' _ ih => exact .hop hl' hk' hm' (ih hl hk)

theorem Reaches.unsnoc {w : LWorld V} {n : Str} {t m : Nat} : ∀ {ns : List Str} {r i : Nat}, Reaches w r (ns ++ [n]) i t m →
    ∃ q j l k, Reaches w r ns i q j ∧ w.link? q n = some l ∧ t = l.other ∧ w.keyAt q l.selfSpec j = some k ∧
      w.keyAt l.other l.otherSpec m = some k
  | [], r, i, h => by
    cases h with
    | hop hl hk hm hr =>
      cases hr
      exact ⟨r, i, _, _, .here r i, hl, rfl, hk, hm⟩
  | n' :: ns, r, i, h => by
    cases h with
    | hop hl hk hm hr =>
      obtain ⟨q, j, l, k, h1, h2⟩ := Reaches.unsnoc (ns := ns) hr
      exact ⟨q, j, l, k, .hop hl hk hm h1, h2⟩

theorem Trail.target {w : LWorld V} {r q : Nat} {ns : List Str} {h : List (Nat × Str)} (t : Trail w r ns q h) : ∀ {i q' j : Nat},
    Reaches w r ns i q' j → q' = q := by
  induction t with
  | nil => intro i q' j hr; cases hr; rfl
  | snoc t hl ha ih =>
    intro i q' j hr
    obtain ⟨q2, j2, l2, k2, h1, h2, h3, -⟩ := hr.unsnoc
    have := ih h1
    subst this
    rw [hl] at h2
    rw [h3, Option.some.inj h2]

/-- no link on the way goes from a frame with rows to a frame without -/
def Passable (w : LWorld V) : Nat → List Str → Prop
  | _, [] => True
  | r, n :: ns => ∀ l, w.link? r n = some l → (w.rows l.other = 0 → w.rows r = 0) ∧ Passable w l.other ns

theorem Trail.passable_snoc {w : LWorld V} {r q : Nat} {ns : List Str} {h : List (Nat × Str)} (t : Trail w r ns q h) {n : Str} {l : Link}
    (hl : w.link? q n = some l) : Passable w r (ns ++ [n]) ↔ Passable w r ns ∧ (w.rows l.other = 0 → w.rows q = 0) := by
  have gen : ∀ (ns : List Str) (r : Nat) (h : List (Nat × Str)), Trail w r ns q h →
      (Passable w r (ns ++ [n]) ↔ Passable w r ns ∧ (w.rows l.other = 0 → w.rows q = 0)) := by
    intro ns
    induction ns with
    | nil =>
      intro r h t
      obtain ⟨rfl, -⟩ := t.nil_path rfl
      constructor
      · intro hp
        refine ⟨trivial, ?_⟩
        exact (hp l hl).1
      · rintro ⟨-, h2⟩ l2 hl2
        rw [hl] at hl2
        rw [← Option.some.inj hl2]
        exact ⟨h2, trivial⟩
    | cons n' ns ih =>
      intro r h t
      have : ∃ l1 h1, w.link? r n' = some l1 ∧ Trail w l1.other ns q h1 := by
        have key : ∀ {ms : List Str} {q : Nat} {h : List (Nat × Str)}, Trail w r ms q h → ∀ ns, ms = n' :: ns →
            ∃ l1 h1, w.link? r n' = some l1 ∧ Trail w l1.other ns q h1 := by
          intro ms q h t5
          clear t
          induction t5 with
          | nil => intro ns hn; simp at hn
          | snoc t5 hl ha ih2 =>
            intro ns hn
            rename_i ms' q' h' m' l'
            cases ms' with
            | nil =>
              simp only [List.nil_append, List.cons.injEq] at hn
              obtain ⟨rfl, rfl⟩ := hn
              obtain ⟨rfl, -⟩ := t5.nil_path rfl
              exact ⟨l', [], hl, .nil⟩
            | cons m0 ms0 =>
              simp only [List.cons_append, List.cons.injEq] at hn
              obtain ⟨rfl, rfl⟩ := hn
              obtain ⟨l1, h1, hl1, t1⟩ := ih2 ms0 rfl
              exact ⟨l1, _, hl1, .snoc t1 hl ha⟩
        exact key t ns rfl
      obtain ⟨l1, h1, hl1, t1⟩ := this
      have ih' := ih l1.other h1 t1
      constructor
      · intro hp
        have hp1 := hp l1 hl1
        have hp2 := ih'.mp hp1.2
        refine ⟨?_, hp2.2⟩
        intro l2 hl2
        rw [hl1] at hl2
        rw [← Option.some.inj hl2]
        exact ⟨hp1.1, hp2.1⟩
      · rintro ⟨hp1, hp2⟩ l2 hl2
        have hp3 := hp1 l2 hl2
        rw [hl1] at hl2
        rw [← Option.some.inj hl2] at hp3 ⊢
        exact ⟨hp3.1, ih'.mpr ⟨hp3.2, hp2⟩⟩
  exact gen ns r h t

theorem CacheOnly.passable {w w1 : LWorld V} (hc1 : CacheOnly w w1) : ∀ (ms : List Str) (x : Nat), Passable w1 x ms ↔ Passable w x ms := by
  have hrow : ∀ x, w1.rows x = w.rows x := fun x => hc1.rows x
  intro ms
  induction ms with
  | nil => intro x; rfl
  | cons m ms ih =>
    intro x
    constructor
    · intro hp l0 hl0
      obtain ⟨l1, hl1, he⟩ := hc1.link_some hl0
      have e1 : l1.other = l0.other := congrArg (fun x => x.other) he
      have := hp l1 hl1
      rw [e1, ih, hrow, hrow] at this
      exact this
    · intro hp l1 hl1
      obtain ⟨l0, hl0, he⟩ := hc1.link_some' hl1
      have e1 : l1.other = l0.other := congrArg (fun x => x.other) he
      have := hp l0 hl0
      rw [e1, ih, hrow, hrow]
      exact this

variable [DecidableEq V] {E : LEnv V}

/-- one link of the loop of `_resolve_history` -/
theorem resolve_step {w : LWorld V} (h : LGood E w) {q : Nat} {n : Str} {l : Link} {f g : LFrame V} {ks ko : List (List V)} {a : List V}
    (hl : w.link? q n = some l) (hf : w.frames[q]? = some f) (hk : LinkOk E w f l g ks ko) (ha : a.length = (E.base l ko).length)
    {kind : DKind} {fill v : V} (hv : E.store kind fill = .ok v) (hist : List (Nat × Str)) :
    ∃ w', CacheOnly w w' ∧ LGood E w' ∧
      E.resolve kind fill w ((q, n) :: hist) a =
        if E.base l ko = [] ∧ ks ≠ [] then (w', .error .index)
        else E.resolve kind fill w' hist (applyIx a (getIndexer (E.base l ko) ks) v) := by
  obtain ⟨w', h1, h2, h3⟩ := indexerMissing_good h hl hf hk
  refine ⟨w', h2, h3, ?_⟩
  rw [LEnv.resolve, h1]
  simp only
  by_cases hb : E.base l ko = [] ∧ ks ≠ []
  · rw [if_pos hb]
    have : takeInts a (getIndexer (E.base l ko) ks) = .error .index := by
      have ha0 : a = [] := List.length_eq_zero_iff.mp (by rw [ha, hb.1]; rfl)
      rw [ha0]
      apply takeInts_empty
      obtain ⟨x, xs, hx⟩ := List.exists_cons_of_ne_nil hb.2
      rw [hb.1, hx]
      simp [getIndexer]
    rw [this]
  · rw [if_neg hb]
    obtain ⟨b, hb'⟩ := (takeInts_getIndexer_iff (ks := ks) ha).mpr (by
      by_cases hx : E.base l ko = []
      · right; by_contra hcon; exact hb ⟨hx, hcon⟩
      · left; exact hx)
    rw [hb', hv]
    simp only
    rw [take_put (ha ▸ getIndexer_positions _ _) hb']

theorem LinkOk.rows {w : LWorld V} {q : Nat} {f g : LFrame V} {l : Link} {ks ko : List (List V)} (h : LGood E w) (hf : w.frames[q]? = some f)
    (hk : LinkOk E w f l g ks ko) : ks.length = w.rows q ∧ ko.length = w.rows l.other ∧
      (∀ i : Nat, ks[i]? = w.keyAt q l.selfSpec i) ∧ ∀ j : Nat, ko[j]? = w.keyAt l.other l.otherSpec j := by
  have h1 := keys_ok (h.wf f (List.mem_of_getElem? hf)) hk.self
  have h2 := keys_ok (h.wf g (List.mem_of_getElem? hk.target)) hk.oth
  refine ⟨?_, ?_, ?_, ?_⟩
  · simp [LWorld.rows, hf, h1.1]
  · simp [LWorld.rows, hk.target, h2.1]
  · intro i; simp [LWorld.keyAt, hf, h1.2]
  · intro i; simp [LWorld.keyAt, hk.target, h2.2]

/-- an array over the rows of `q`, carried back along a trail to frame `r` -/
theorem resolve_trail {kind : DKind} {fill v : V} (hv : E.store kind fill = .ok v) : ∀ {hist : List (Nat × Str)} {w : LWorld V} (_ : LGood E w)
    {r q : Nat} {ns : List Str} (_ : Trail w r ns q hist) {b : List V} (_ : b.length = w.rows q),
    ∃ w', CacheOnly w w' ∧ LGood E w' ∧
      ((Passable w r ns → ∃ out, E.resolve kind fill w hist b = (w', .ok out) ∧ out.length = w.rows r ∧ SeenThrough w r ns q b v out) ∧
       (¬ Passable w r ns → E.resolve kind fill w hist b = (w', .error .index)))
  | [], w, hg, r, q, ns, ht, b, hb => by
    refine ⟨w, CacheOnly.refl w, hg, ?_⟩
    obtain ⟨rfl, rfl⟩ := ht.nil_hist rfl
    refine ⟨fun _ => ⟨b, rfl, hb, ?_⟩, fun hn => absurd trivial hn⟩
    intro i x hx
    refine ⟨fun j hj => ?_, fun hno => absurd (Reaches.here r i) (hno i)⟩
    cases hj
    exact hx
  | p :: hist, w, hg, r, q, ns, ht, b, hb => by
    cases ht with
    | snoc t hl ha =>
      rename_i ns q0 n l
      obtain ⟨f, g, ks, ko, hf, -, hk⟩ := hg.linkOk hl
      obtain ⟨hr1, hr2, hr3, hr4⟩ := hk.rows hg hf
      have hbase : E.base l ko = ko := by simp [LEnv.base, ha]
      obtain ⟨w1, hc1, hg1, hres⟩ := resolve_step hg hl hf hk (a := b) (by rw [hbase, hb, hr2]) hv hist
      rw [hbase] at hres
      have hps := t.passable_snoc hl
      have hrow : ∀ x, w1.rows x = w.rows x := fun x => hc1.rows x
      obtain ⟨w2, hc2, hg2, hok, herr⟩ := resolve_trail hv hg1 (hc1.trail t) (b := applyIx b (getIndexer ko ks) v)
        (by rw [applyIx_length, getIndexer_length, hr1, hrow])
      have hpass := hc1.passable ns r
      have hempty : (ko = [] ∧ ks ≠ []) ↔ ¬ (w.rows l.other = 0 → w.rows q0 = 0) := by
        rw [← hr1, ← hr2]
        simp [List.length_eq_zero_iff]
      by_cases he : ko = [] ∧ ks ≠ []
      · rw [if_pos he] at hres
        refine ⟨w1, hc1, hg1, ?_, ?_⟩
        · intro hp
          exact absurd (hps.mp hp).2 (hempty.mp he)
        · intro _; exact hres
      · rw [if_neg he] at hres
        have hnb : w.rows l.other = 0 → w.rows q0 = 0 := by
          by_contra hcon; exact he (hempty.mpr hcon)
        refine ⟨w2, hc1.trans hc2, hg2, ?_, ?_⟩
        · intro hp
          obtain ⟨out, ho1, ho2, ho3⟩ := hok (hpass.mpr (hps.mp hp).1)
          refine ⟨out, by rw [hres, ho1], by rw [ho2, hrow], ?_⟩
          intro i x hx
          obtain ⟨hs1, hs2⟩ := ho3 i x hx
          constructor
          · intro m hm
            obtain ⟨q1, j, l1, k, h1, h2, -, h4, h5⟩ := hm.unsnoc
            have := t.target h1
            subst this
            rw [hl] at h2
            obtain rfl := Option.some.inj h2
            have hj := hs1 j (hc1.reaches h1)
            have hkj : ks[j]? = some k := by rw [hr3]; exact h4
            have hkm : ko[m]? = some k := by rw [hr4]; exact h5
            rw [(applyIx_get (a := b) (v := v) (by rw [hb, hr2]) hkj).1 m (hk.uniq ha) hkm] at hj
            exact hj
          · intro hno
            by_cases hex : ∃ j, Reaches w1 r ns i q0 j
            · obtain ⟨j, hj⟩ := hex
              have hj1 := hs1 j hj
              have hjb : j < ks.length := by
                have := (List.getElem?_eq_some_iff.mp hj1).1
                rw [applyIx_length, getIndexer_length] at this
                exact this
              have hkj : ks[j]? = some ks[j] := List.getElem?_eq_getElem hjb
              have hnot : ks[j] ∉ ko := by
                intro hmem
                obtain ⟨m, hm⟩ := List.getElem?_of_mem hmem
                refine hno m ((hc1.symm.reaches hj).snoc hl (k := ks[j]) ?_ ?_)
                · rw [← hr3]; exact hkj
                · rw [← hr4]; exact hm
              rw [(applyIx_get (a := b) (v := v) (by rw [hb, hr2]) hkj).2 hnot] at hj1
              exact (Option.some.inj hj1).symm
            · exact hs2 (by push Not at hex; exact hex)
        · intro hp
          rw [hres]
          apply herr
          rw [hpass]
          intro hp1
          exact hp (hps.mpr ⟨hp1, hnb⟩)

end Cheval
