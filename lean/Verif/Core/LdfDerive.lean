import Verif.Core.LdfKeeps

/-!
# New and derived frames under the invariant
-/
namespace Cheval
variable {V : Type}

/-- add a frame to the world; its reference is the old number of frames -/
def LWorld.push (w : LWorld V) (f : LFrame V) : LWorld V := { w with frames := w.frames ++ [f] }

theorem push_old {w : LWorld V} {f g : LFrame V} {r : Nat} (h : w.frames[r]? = some g) : (w.push f).frames[r]? = some g := by
  simp only [LWorld.push]
  rw [List.getElem?_append_left (List.getElem?_eq_some_iff.mp h).1]
  exact h

theorem push_new (w : LWorld V) (f : LFrame V) : (w.push f).frames[w.frames.length]? = some f := by
  simp [LWorld.push]

theorem push_keys {w : LWorld V} {f : LFrame V} {r : Nat} {s : KeySpec} {ks : List (List V)} (h : w.keys r s = .ok ks) :
    (w.push f).keys r s = .ok ks := by
  unfold LWorld.keys at h ⊢
  cases hf : w.frames[r]? with
  | none => rw [hf] at h; simp at h
  | some g => rw [push_old hf]; rw [hf] at h; exact h

variable [DecidableEq V] {E : LEnv V}

theorem LinkOk.push {w : LWorld V} {f f0 g : LFrame V} {l : Link} {ks ko : List (List V)} (h : LinkOk E w f l g ks ko) :
    LinkOk E (w.push f0) f l g ks ko :=
  { h with target := push_old h.target, lazy := fun hn => push_keys (h.lazy hn) }

theorem LGood.push {w : LWorld V} (h : LGood E w) {f : LFrame V} (hw : f.Wf) (hl : ∀ e ∈ f.links, ∃ g ks ko, LinkOk E w f e.2 g ks ko) :
    LGood E (w.push f) := by
  constructor
  · intro g hg
    simp only [LWorld.push, List.mem_append, List.mem_singleton] at hg
    rcases hg with hg | rfl
    · exact h.wf g hg
    · exact hw
  · intro g hg e he
    simp only [LWorld.push, List.mem_append, List.mem_singleton] at hg
    rcases hg with hg | rfl
    · obtain ⟨g', ks, ko, hk⟩ := h.links g hg e he
      exact ⟨g', ks, ko, hk.push⟩
    · obtain ⟨g', ks, ko, hk⟩ := hl e he
      exact ⟨g', ks, ko, hk.push⟩

/-! ## selecting rows -/

/-- positions of existing rows -/
def InRange (n : Nat) (ix : List Int) : Prop := ∀ k ∈ ix, 0 ≤ k ∧ k.toNat < n

theorem pickRows_get {A : Type} {a : List A} {ix : List Int} (h : InRange a.length ix) (pad : Nat → A) (i : Nat) :
    (pickRows a ix pad)[i]? = ix[i]?.bind fun k => a[k.toNat]? := by
  unfold pickRows
  rw [List.getElem?_map, List.getElem?_zipIdx]
  cases hk : ix[i]? with
  | none => rfl
  | some k =>
    obtain ⟨h0, h1⟩ := h k (List.mem_of_getElem? hk)
    simp [h0, List.getElem?_eq_getElem h1]

theorem pickRows_length {A : Type} (a : List A) (ix : List Int) (pad : Nat → A) : (pickRows a ix pad).length = ix.length := by
  simp [pickRows]

theorem pickRows_pad {A : Type} {a : List A} {ix : List Int} (h : InRange a.length ix) (p q : Nat → A) : pickRows a ix p = pickRows a ix q := by
  apply List.ext_getElem?
  intro i
  rw [pickRows_get h, pickRows_get h]

/-- rows by position, for lists -/
def pick {A : Type} (a : List A) (ix : List Int) : List A := ix.filterMap fun k => a[k.toNat]?

theorem pick_get {A : Type} {a : List A} {ix : List Int} (h : InRange a.length ix) (i : Nat) : (pick a ix)[i]? = ix[i]?.bind fun k => a[k.toNat]? := by
  have := filterMap_all_some (g := fun k : Int => a[k.toNat]?) (l := ix) fun k hk => by
    rw [List.getElem?_eq_getElem (h k hk).2]; rfl
  exact this.2 i

theorem pick_length {A : Type} {a : List A} {ix : List Int} (h : InRange a.length ix) : (pick a ix).length = ix.length := by
  have := filterMap_all_some (g := fun k : Int => a[k.toNat]?) (l := ix) fun k hk => by
    rw [List.getElem?_eq_getElem (h k hk).2]; rfl
  exact this.1

theorem pickRows_eq_pick {A : Type} {a : List A} {ix : List Int} (h : InRange a.length ix) (p : Nat → A) : pickRows a ix p = pick a ix := by
  apply List.ext_getElem?
  intro i
  rw [pickRows_get h, pick_get h]

theorem collect_pick {g g' : Str → Except Err (List V)} {ix : List Int} : ∀ {ls : List Str} {as : List (List V)},
    (∀ n ∈ ls, ∀ a, g n = .ok a → g' n = .ok (pick a ix)) → collect g ls = .ok as → collect g' ls = .ok (as.map fun a => pick a ix)
  | [], as, _, h => by simp only [collect, Except.ok.injEq] at h; subst h; rfl
  | l :: ls, as, hp, h => by
    unfold collect at h ⊢
    cases hg : g l with
    | error e => rw [hg] at h; simp at h
    | ok a =>
      rw [hg] at h
      rw [hp l List.mem_cons_self a hg]
      simp only at h ⊢
      cases hc : collect g ls with
      | error e => rw [hc] at h; simp at h
      | ok r =>
        rw [hc] at h
        rw [collect_pick (fun n hn => hp n (List.mem_cons_of_mem _ hn)) hc]
        simp only [Except.ok.injEq] at h ⊢
        subst h; rfl

theorem zipKeys_pick {n : Nat} {ix : List Int} (hix : InRange n ix) {as : List (List V)} (ha : ∀ a ∈ as, a.length = n) :
    zipKeys ix.length (as.map fun a => pick a ix) = pick (zipKeys n as) ix := by
  have hzl : (zipKeys n as).length = n := by simp [zipKeys]
  apply List.ext_getElem?
  intro i
  rw [pick_get (by rw [hzl]; exact hix)]
  by_cases hi : i < ix.length
  · have hk : ix[i]? = some ix[i] := List.getElem?_eq_getElem hi
    obtain ⟨h0, h1⟩ := hix ix[i] (List.getElem_mem hi)
    simp only [zipKeys, List.getElem?_map, List.getElem?_range hi, Option.map_some, hk, Option.bind_some, List.getElem?_range h1,
      List.filterMap_map]
    congr 1
    apply List.filterMap_congr
    intro a hm
    simp only [Function.comp]
    rw [pick_get (by rw [ha a hm]; exact hix), hk, Option.bind_some]
  · rw [List.getElem?_eq_none (by simp [zipKeys]; omega), List.getElem?_eq_none (l := ix) (by omega)]
    rfl

/-- the columns of a selection -/
theorem dictGet_mapCols {K A B : Type} [DecidableEq K] (d : List (K × A)) (h : K → A → B) (n : K) :
    dictGet (d.map fun c => (c.1, h c.1 c.2)) n = (dictGet d n).map (h n) := by
  induction d with
  | nil => rfl
  | cons e d ih =>
    rw [List.map_cons, dictGet_cons, dictGet_cons, ih]
    by_cases hn : e.1 = n
    · simp [hn]
    · simp [hn]

/-- a frame whose rows are the rows `ix` of `f` -/
structure RowsOf (f f' : LFrame V) (ix : List Int) : Prop where
  linked : f'.linked = f.linked
  levels : f'.levels = f.levels
  index : f'.index = pick f.index ix
  cols : f'.cols = f.cols.map fun c => (c.1, ⟨c.2.kind, pick c.2.vals ix⟩)
  names : f'.links.map (·.1) = f.links.map (·.1)

theorem RowsOf.rows {f f' : LFrame V} {ix : List Int} (h : RowsOf f f' ix) (hix : InRange f.rows ix) : f'.rows = ix.length := by
  rw [LFrame.rows, h.index, pick_length hix]

theorem RowsOf.wf {f f' : LFrame V} {ix : List Int} (h : RowsOf f f' ix) (hix : InRange f.rows ix) (hw : f.Wf) : f'.Wf := by
  refine ⟨?_, ?_, ?_, ?_, ?_⟩
  · intro k hk
    rw [h.index] at hk
    obtain ⟨i, hi⟩ := List.getElem?_of_mem hk
    rw [pick_get hix] at hi
    obtain ⟨p, -, hp⟩ := Option.bind_eq_some_iff.mp hi
    rw [h.levels]
    exact hw.index k (List.mem_of_getElem? hp)
  · intro e he
    rw [h.cols] at he
    obtain ⟨c, hc, rfl⟩ := List.mem_map.mp he
    rw [h.rows hix]
    simp only
    exact pick_length (by rw [hw.cols c hc]; exact hix)
  · rw [h.names, h.cols]
    intro n hn
    have := hw.noClash n hn
    simpa [List.map_map, Function.comp_def] using this
  · rw [h.names]; exact hw.nodup
  · intro hl
    rw [h.linked] at hl
    have := h.names
    rw [hw.plain hl] at this
    simpa using this

theorem RowsOf.keys {f f' : LFrame V} {ix : List Int} (h : RowsOf f f' ix) (hix : InRange f.rows ix) (hw : f.Wf) {s : KeySpec} {ks : List (List V)}
    (hk : f.keys s = .ok ks) : f'.keys s = .ok (pick ks ix) := by
  unfold LFrame.keys at hk ⊢
  cases hl : s.labels with
  | none =>
    rw [hl] at hk
    simp only [Except.ok.injEq] at hk ⊢
    rw [h.index, hk]
  | some ls =>
    rw [hl] at hk
    simp only [h.levels] at hk ⊢
    split at hk
    · simp at hk
    · rename_i hlv
      rw [if_neg hlv]
      cases hc : collect (if s.fromRows = true then f.level else f.keyColumn) ls with
      | error e => rw [hc] at hk; simp at hk
      | ok as =>
        rw [hc] at hk
        have hlen : ∀ a ∈ as, a.length = f.rows := by
          have hf := collect_ok hc
          have hall : ∀ n a, (if s.fromRows = true then f.level else f.keyColumn) n = .ok a → a.length = f.rows := by
            intro n a hna
            by_cases hr : s.fromRows = true
            · rw [if_pos hr] at hna; exact (level_ok hw hna).1
            · rw [if_neg hr] at hna; exact (keyColumn_ok hw hna).1
          clear hc hk hl hlv
          induction hf with
          | nil => simp
          | cons h1 _ ih =>
            intro a ha
            rcases List.mem_cons.mp ha with rfl | ha
            · exact hall _ _ h1
            · exact ih a ha
        have hpick : collect (if s.fromRows = true then f'.level else f'.keyColumn) ls = .ok (as.map fun a => pick a ix) := by
          refine collect_pick (g := if s.fromRows = true then f.level else f.keyColumn) ?_ hc
          intro n _ a hna
          by_cases hr : s.fromRows = true
          · rw [if_pos hr] at hna ⊢
            have hlo := level_ok hw hna
            unfold LFrame.level at hna ⊢
            rw [h.levels]
            split at hna
            · simp at hna
            · rename_i hcnt
              rw [if_neg hcnt]
              split at hna
              · rename_i hm
                rw [if_pos hm]
                congr 1
                have hp : f.levels.idxOf (some n) < f.levels.length := List.idxOf_lt_length_of_mem hm
                have hfs := filterMap_all_some (g := fun k : List V => k[f.levels.idxOf (some n)]?) (l := f'.index) (by
                  intro k hk'
                  rw [h.index] at hk'
                  obtain ⟨i, hi⟩ := List.getElem?_of_mem hk'
                  rw [pick_get hix] at hi
                  obtain ⟨p, -, hp2⟩ := Option.bind_eq_some_iff.mp hi
                  rw [List.getElem?_eq_getElem (by rw [hw.index k (List.mem_of_getElem? hp2)]; exact hp)]
                  rfl)
                apply List.ext_getElem?
                intro i
                rw [hfs.2 i, pick_get (by rw [hlo.1]; exact hix), h.index, pick_get hix]
                cases ix[i]? with
                | none => rfl
                | some k => simp only [Option.bind_some, hlo.2]
              · simp at hna
          · rw [if_neg hr] at hna ⊢
            unfold LFrame.keyColumn at hna ⊢
            rw [h.cols, dictGet_mapCols f.cols (fun _ c => (⟨c.kind, pick c.vals ix⟩ : LCol V)) n, h.names]
            cases hd : dictGet f.cols n with
            | none => rw [hd] at hna; simp at hna
            | some c =>
              rw [hd] at hna
              simp only [Option.map_some] at hna ⊢
              split at hna
              · simp at hna
              · rename_i hcl
                rw [if_neg hcl]
                simp only [Except.ok.injEq] at hna ⊢
                rw [hna]
        rw [hpick, h.rows hix]
        cases as with
        | nil => simp at hk
        | cons a as =>
          simp only [Except.ok.injEq, List.map_cons] at hk ⊢
          rw [← hk, ← zipKeys_pick hix hlen]
          rfl

theorem getIndexer_pick {L : Type} [DecidableEq L] {base ks : List L} {ix : List Int} (h : InRange ks.length ix) {fl : List Int}
    (ht : takeInts (getIndexer base ks) ix = .ok fl) : fl = getIndexer base (pick ks ix) := by
  obtain ⟨h1, h2⟩ := takeInts_ok ht
  apply List.ext_getElem?
  intro i
  cases hk : ix[i]? with
  | none =>
    have hle : ix.length ≤ i := List.getElem?_eq_none_iff.mp hk
    rw [List.getElem?_eq_none (by omega), List.getElem?_eq_none (by rw [getIndexer_length, pick_length h]; omega)]
  | some k =>
    obtain ⟨h0, h3⟩ := h k (List.mem_of_getElem? hk)
    rw [(h2 i k hk h0).2]
    simp only [getIndexer, List.getElem?_map, pick_get h, hk, Option.bind_some]

/-- a computed link of `f`, sliced, is up to date for the rows `ix` -/
theorem LinkOk.slice {w : LWorld V} {f f' g : LFrame V} {l l' : Link} {ks ko : List (List V)} (h : LinkOk E w f l g ks ko) {ix : List Int}
    (hr : RowsOf f f' ix) (hix : InRange f.rows ix) (hw : f.Wf) (hcomp : l.flat.isSome = true) (hc : l.copy (some ix) = .ok l') :
    LinkOk E w f' l' g (pick ks ix) ko := by
  have hkl := (keys_ok hw h.self).1
  obtain ⟨fl, hfl⟩ := Option.isSome_iff_exists.mp hcomp
  unfold Link.copy at hc
  rw [hfl] at hc
  simp only at hc
  have hfe := h.flat fl hfl
  cases ht : takeInts fl ix with
  | error e => rw [ht] at hc; simp at hc
  | ok fl1 =>
    rw [ht] at hc
    simp only [Except.ok.injEq] at hc
    subst hc
    rw [hfe] at ht
    have he := getIndexer_pick (by rw [hkl]; exact hix) ht
    exact { target := h.target, chained := h.chained, self := hr.keys hix hw h.self, oth := h.oth, uniq := h.uniq,
            flat := fun x hx => by simp only [Option.some.injEq] at hx; rw [← hx, he]; rfl,
            lazy := fun hn => by simp at hn, grouper := h.grouper,
            grouped := fun ha _ => h.grouped ha (by rw [hfl]; rfl),
            missing := fun m hm => by simp at hm }

theorem copyLinks_ok {ix : Option (List Int)} : ∀ {ls ls' : List (Str × Link)}, copyLinks ix ls = .ok ls' →
    List.Forall₂ (fun e e' : Str × Link => e'.1 = e.1 ∧ e.2.copy ix = .ok e'.2) ls ls'
  | [], ls', h => by simp only [copyLinks, Except.ok.injEq] at h; subst h; exact .nil
  | e :: es, ls', h => by
    unfold copyLinks at h
    cases hc : e.2.copy ix with
    | error er => rw [hc] at h; simp at h
    | ok l =>
      rw [hc] at h
      simp only at h
      cases hr : copyLinks ix es with
      | error er => rw [hr] at h; simp at h
      | ok r =>
        rw [hr] at h
        simp only [Except.ok.injEq] at h
        subst h
        exact .cons ⟨rfl, hc⟩ (copyLinks_ok hr)

theorem copyLinks_names {ix : Option (List Int)} : ∀ {ls ls' : List (Str × Link)}, copyLinks ix ls = .ok ls' → ls'.map (·.1) = ls.map (·.1) := by
  intro ls ls' h
  have := copyLinks_ok h
  clear h
  induction this with
  | nil => rfl
  | cons h1 _ ih => simp [h1.1, ih]

theorem forall₂_mem_right {A B : Type} {R : A → B → Prop} : ∀ {a : List A} {b : List B}, List.Forall₂ R a b → ∀ y ∈ b, ∃ x ∈ a, R x y
  | _, _, .nil, y, h => by simp at h
  | _, _, .cons h t, y, hy => by
    rcases List.mem_cons.mp hy with rfl | hy
    · exact ⟨_, List.mem_cons_self, h⟩
    · obtain ⟨x, hx, hr⟩ := forall₂_mem_right t y hy
      exact ⟨x, List.mem_cons_of_mem _ hx, hr⟩

theorem pickCols {f : LFrame V} (hw : f.Wf) {ix : List Int} (hix : InRange f.rows ix) (pad : Str → Nat → V) :
    (f.cols.map fun c => (c.1, (⟨c.2.kind, pickRows c.2.vals ix (pad c.1)⟩ : LCol V))) = f.cols.map fun c => (c.1, ⟨c.2.kind, pick c.2.vals ix⟩) := by
  apply List.map_congr_left
  intro c hc
  rw [pickRows_eq_pick (by rw [hw.cols c hc]; exact hix)]

/-- every link of a frame is computed -/
def AllComputed (f : LFrame V) : Prop := ∀ e ∈ f.links, e.2.flat.isSome = true

theorem LGood.sliced {w : LWorld V} (h : LGood E w) {f f' : LFrame V} (hf : f ∈ w.frames) {ix : List Int} (hix : InRange f.rows ix)
    (hcomp : AllComputed f) (hr : RowsOf f f' ix) (hl : copyLinks (some ix) f.links = .ok f'.links) : LGood E (w.push f') := by
  refine h.push (hr.wf hix (h.wf f hf)) ?_
  intro e he
  obtain ⟨e0, he0, -, hc⟩ := forall₂_mem_right (copyLinks_ok hl) e he
  obtain ⟨g, ks, ko, hk⟩ := h.links f hf e0 he0
  exact ⟨g, _, ko, hk.slice hr hix (h.wf f hf) (hcomp e0 he0) hc⟩

theorem select_rowsOf {f f' : LFrame V} (hw : f.Wf) {ix : List Int} (hix : InRange f.rows ix) {pk : Nat → List V} {pc : Str → Nat → V}
    (h : E.select f ix pk pc = .ok f') : RowsOf f f' ix ∧ copyLinks (some ix) f.links = .ok f'.links := by
  unfold LEnv.select at h
  cases hl : copyLinks (some ix) f.links with
  | error e => rw [hl] at h; simp at h
  | ok ls =>
    rw [hl] at h
    simp only [Except.ok.injEq] at h
    subst h
    exact ⟨⟨rfl, rfl, pickRows_eq_pick hix _, pickCols hw hix pc, copyLinks_names hl⟩, rfl⟩

theorem LGood.select {w : LWorld V} (h : LGood E w) {r : Nat} {f f' : LFrame V} (hf : w.frames[r]? = some f) {ix : List Int} (hix : InRange f.rows ix)
    (hcomp : AllComputed f) {pk : Nat → List V} {pc : Str → Nat → V} (hs : E.select f ix pk pc = .ok f') : LGood E (w.push f') := by
  have hm := List.mem_of_getElem? hf
  obtain ⟨h1, h2⟩ := select_rowsOf (h.wf f hm) hix hs
  exact h.sliced hm hix hcomp h1 h2

/-- the slicing of an up-to-date frame never fails -/
theorem select_total {w : LWorld V} (h : LGood E w) {r : Nat} {f : LFrame V} (hf : w.frames[r]? = some f) {ix : List Int} (hix : InRange f.rows ix)
    (pk : Nat → List V) (pc : Str → Nat → V) : ∃ f', E.select f ix pk pc = .ok f' := by
  have hm := List.mem_of_getElem? hf
  have key : ∀ ls : List (Str × Link), (∀ e ∈ ls, ∃ l', e.2.copy (some ix) = .ok l') → ∃ ls', copyLinks (some ix) ls = .ok ls' := by
    intro ls
    induction ls with
    | nil => intro _; exact ⟨[], rfl⟩
    | cons e ls ih =>
      intro hall
      obtain ⟨l', hl'⟩ := hall e List.mem_cons_self
      obtain ⟨ls', hls'⟩ := ih fun x hx => hall x (List.mem_cons_of_mem _ hx)
      exact ⟨(e.1, l') :: ls', by simp only [copyLinks, hl', hls']⟩
  obtain ⟨ls', hls'⟩ := key f.links (by
    intro e he
    obtain ⟨g, ks, ko, hk⟩ := h.links f hm e he
    unfold Link.copy
    cases hfl : e.2.flat with
    | none => exact ⟨_, rfl⟩
    | some fl =>
      have hlen : fl.length = f.rows := by rw [hk.flat fl hfl, getIndexer_length, (keys_ok (h.wf f hm) hk.self).1]
      obtain ⟨b, hb⟩ := takeInts_total (a := fl) (ix := ix) (fun k hk' => Or.inr (by rw [hlen]; exact hix k hk'))
        (Or.inr fun hneg => by have := (hix _ hneg).1; omega)
      simp only [hb]
      exact ⟨_, rfl⟩)
  exact ⟨_, by unfold LEnv.select; rw [hls']⟩

theorem natPos_inRange {n : Nat} {ix : List Nat} (h : ∀ i ∈ ix, i < n) : InRange n (ix.map fun (i : Nat) => (i : Int)) := by
  intro k hk
  obtain ⟨i, hi, rfl⟩ := List.mem_map.mp hk
  exact ⟨Int.natCast_nonneg i, by simpa using h i hi⟩

theorem grouped_rowsOf {f f' : LFrame V} (hw : f.Wf) {ix : List Nat} (hix : ∀ i ∈ ix, i < f.rows)
    (h : E.grouped f ix = .ok f') : RowsOf f f' (ix.map fun (i : Nat) => (i : Int)) ∧
      copyLinks (some (ix.map fun (i : Nat) => (i : Int))) f.links = .ok f'.links := by
  have hir := natPos_inRange hix
  unfold LEnv.grouped at h
  simp only at h
  split at h
  · rename_i hnd
    have hgi : getIndexer f.index (pickRows f.index (ix.map fun (i : Nat) => (i : Int)) fun _ => []) = ix.map fun (i : Nat) => (i : Int) := by
      rw [pickRows_eq_pick hir]
      apply List.ext_getElem?
      intro i
      simp only [getIndexer, List.getElem?_map, pick_get hir]
      cases hk : ix[i]? with
      | none => rfl
      | some k =>
        have hlt := hix k (List.mem_of_getElem? hk)
        have hg : f.index[((k : Int)).toNat]? = some (f.index[k]'hlt) := by simp [List.getElem?_eq_getElem hlt]
        have hpos := posIn_get hnd hlt
        unfold posIn at hpos
        simp only [Option.map_some, Option.bind_some, hg]
        rw [if_pos (List.getElem_mem hlt), hpos]
    rw [hgi] at h
    cases hl : copyLinks (some (ix.map fun (i : Nat) => (i : Int))) f.links with
    | error e => rw [hl] at h; simp at h
    | ok ls =>
      rw [hl] at h
      simp only [Except.ok.injEq] at h
      subst h
      exact ⟨⟨rfl, rfl, pickRows_eq_pick hir (fun _ => []), pickCols hw hir fun _ _ => E.nan, copyLinks_names hl⟩, rfl⟩
  · simp at h

theorem LGood.grouped {w : LWorld V} (h : LGood E w) {r : Nat} {f f' : LFrame V} (hf : w.frames[r]? = some f) {ix : List Nat}
    (hix : ∀ i ∈ ix, i < f.rows) (hcomp : AllComputed f) (hs : E.grouped f ix = .ok f') : LGood E (w.push f') := by
  have hm := List.mem_of_getElem? hf
  obtain ⟨h1, h2⟩ := grouped_rowsOf (h.wf f hm) hix hs
  exact h.sliced hm (natPos_inRange hix) hcomp h1 h2

/-! ## copies and column selections -/

theorem copyLinks_none : ∀ (ls : List (Str × Link)), copyLinks none ls = .ok ls
  | [] => rfl
  | e :: es => by simp only [copyLinks, Link.copy, copyLinks_none es]

theorem LGood.copy {w : LWorld V} (h : LGood E w) {r : Nat} {f f' : LFrame V} (hf : w.frames[r]? = some f) (hs : E.copyFrame f = .ok f') :
    LGood E (w.push f') := by
  have hm := List.mem_of_getElem? hf
  unfold LEnv.copyFrame at hs
  rw [copyLinks_none] at hs
  simp only [Except.ok.injEq] at hs
  subst hs
  have hw := h.wf f hm
  refine h.push ⟨hw.index, hw.cols, hw.noClash, hw.nodup, hw.plain⟩ ?_
  intro e he
  obtain ⟨g, ks, ko, hk⟩ := h.links f hm e he
  exact ⟨g, ks, ko, hk.transfer hk.target rfl rfl (keys_congr rfl rfl fun _ _ _ _ _ => rfl) fun _ => rfl⟩

/-- the key columns of a specification -/
def KeySpec.columns (s : KeySpec) : List Str := if s.fromRows then [] else s.labels.getD []

theorem keys_of_columns {f f' : LFrame V} {s : KeySpec} (hlv : f'.levels = f.levels) (hix : f'.index = f.index)
    (hc : ∀ n ∈ s.columns, dictGet f'.cols n = dictGet f.cols n ∧ (n ∈ f'.links.map (·.1) ↔ n ∈ f.links.map (·.1))) : f'.keys s = f.keys s := by
  refine keys_congr hlv hix ?_
  intro ls hl hr n hn
  obtain ⟨h1, h2⟩ := hc n (by simp [KeySpec.columns, hl, hr, hn])
  unfold LFrame.keyColumn
  rw [h1]
  simp only [h2]

theorem LGood.finalized {w : LWorld V} (h : LGood E w) {r : Nat} {f : LFrame V} (hf : w.frames[r]? = some f) {cols : List (Str × LCol V)}
    (hown : ∀ e ∈ f.links, e.2.owner = r) (hcl : ∀ e ∈ cols, e.2.vals.length = f.rows)
    (hcl2 : ∀ n ∈ f.links.map (·.1), n ∉ cols.map (·.1))
    (hkc : ∀ e ∈ f.links, ∀ n ∈ e.2.selfSpec.columns, dictGet cols n = dictGet f.cols n) :
    LGood E (w.push (E.finalized f f.levels f.index cols)) := by
  have hm := List.mem_of_getElem? hf
  have hw := h.wf f hm
  have hnm : (E.finalized f f.levels f.index cols).links.map (·.1) = f.links.map (·.1) := by
    simp [LEnv.finalized, List.map_map, Function.comp_def]
  refine h.push ⟨hw.index, hcl, ?_, ?_, ?_⟩ ?_
  · rw [hnm]; exact hcl2
  · rw [hnm]; exact hw.nodup
  · intro hl
    have : f.links = [] := hw.plain hl
    simp [LEnv.finalized, this]
  · intro e he
    simp only [LEnv.finalized, List.mem_map] at he
    obtain ⟨e0, he0, rfl⟩ := he
    obtain ⟨g, ks, ko, hk⟩ := h.links f hm e0 he0
    have hks : (E.finalized f f.levels f.index cols).keys e0.2.selfSpec = f.keys e0.2.selfSpec := by
      refine keys_of_columns (f := f) (f' := E.finalized f f.levels f.index cols) rfl rfl ?_
      intro n hn
      exact ⟨hkc e0 he0 n hn, by rw [hnm]⟩
    refine ⟨g, ks, ko, ?_⟩
    exact { target := hk.target, chained := hk.chained, self := hks.trans hk.self, oth := hk.oth, uniq := hk.uniq,
            flat := fun x hx => by simp [Link.copyMeta] at hx,
            lazy := fun _ => by
              show w.keys e0.2.owner e0.2.selfSpec = _
              rw [hown e0 he0]; unfold LWorld.keys; rw [hf]; exact hk.self
            grouper := fun x hx => by simp [Link.copyMeta] at hx,
            grouped := fun _ hx => by simp [Link.copyMeta] at hx,
            missing := fun x hx => by simp [Link.copyMeta] at hx }

end Cheval
