import Verif.Spec.Snapshot
import Verif.Core.GroupHistory

/-!
# Lemmas about shared memory
-/
namespace Cheval
open FOps Spec

section store
variable {U F : Type}

/-- different objects have different buffers, all of which exist -/
structure Store.Inv (st : Store U F) : Prop where
  nodup : st.objs.Nodup
  lt : ∀ b ∈ st.objs, b < st.bufs.length

theorem Store.Inv.empty : (Store.empty : Store U F).Inv := ⟨by simp [Store.empty], by simp [Store.empty]⟩

theorem Store.Inv.create {st : Store U F} (h : st.Inv) (d : Data U F) (x : Bool) : (st.create d x).Inv := by
  constructor
  · simp only [Store.create, List.nodup_append]
    refine ⟨h.nodup, by simp, fun a ha b hb => ?_⟩
    simp only [List.mem_singleton] at hb
    have := h.lt a ha
    omega
  · intro b hb
    simp only [Store.create, List.mem_append, List.mem_singleton, List.length_append, List.length_singleton] at hb ⊢
    rcases hb with hb | rfl
    · have := h.lt b hb; omega
    · omega

theorem Store.Inv.write {st : Store U F} (h : st.Inv) (o : Nat) (d : Data U F) : (st.write o d).Inv :=
  ⟨h.nodup, by simpa [Store.write] using h.lt⟩

theorem Store.Inv.rework {st : Store U F} (h : st.Inv) (o : Nat) (d : Data U F) (x : Bool) : (st.rework o d x).Inv := by
  constructor
  · refine List.Nodup.set h.nodup fun hb => ?_
    exact absurd (h.lt _ hb) (by omega)
  · intro b hb
    simp only [Store.rework, List.length_append, List.length_singleton] at hb ⊢
    rcases List.mem_or_eq_of_mem_set hb with hb | rfl
    · have := h.lt b hb; omega
    · omega

/-- what the operations do to the store -/
def Store.step (st : Store U F) : AOp U F → Store U F
  | .create d x => st.create d x
  | .write o d => st.write o d
  | .rework o d x => st.rework o d x
  | _ => st

theorem Store.Inv.step {st : Store U F} (h : st.Inv) (op : AOp U F) : (st.step op).Inv := by
  cases op with
  | create d x => exact h.create d x
  | write o d => exact h.write o d
  | rework o d x => exact h.rework o d x
  | _ => exact h

theorem Store.bufOf_eq {st : Store U F} {o b : Nat} (h : st.objs[o]? = some b) : st.bufOf o = b := by
  simp [Store.bufOf, List.getD_eq_getElem?_getD, h]

theorem Store.buf_eq {st : Store U F} {b : Nat} (h : b < st.bufs.length) : st.buf b = st.bufs[b] := by
  simp [Store.buf, List.getD_eq_getElem?_getD, List.getElem?_eq_getElem h]

theorem Store.exists_of_bufOf {st : Store U F} (h : st.Inv) {o : Nat} (ho : o < st.objs.length) :
    ∃ b, st.objs[o]? = some b ∧ b < st.bufs.length :=
  ⟨st.objs[o], List.getElem?_eq_getElem ho, h.lt _ (List.getElem_mem ho)⟩

theorem Store.write_buf {st : Store U F} {o b : Nat} (hb : b < st.bufs.length) (d : Data U F) :
    ((st.write o d).buf b).data = if st.bufOf o = b then (st.buf b).data.write d else (st.buf b).data := by
  have hb' : b < (st.write o d).bufs.length := by simpa [Store.write] using hb
  rw [Store.buf_eq hb', Store.buf_eq hb]
  simp only [Store.write, List.getElem_modify]
  split <;> rfl

/-- memory no object uses stays as it is -/
theorem Store.free_memory : ∀ (ops : List (AOp U F)) {st : Store U F}, st.Inv → ∀ {b : Nat}, b < st.bufs.length → b ∉ st.objs →
    ((ops.foldl Store.step st).buf b).data = (st.buf b).data
  | [], _, _, _, _, _ => rfl
  | op :: ops, st, h, b, hlt, hb => by
    rw [List.foldl_cons]
    cases op with
    | create d x =>
      have h1 : b < (st.create d x).bufs.length := by simp [Store.create]; omega
      have h2 : (st.create d x).buf b = st.buf b := by
        rw [Store.buf_eq h1, Store.buf_eq hlt]
        simp [Store.create, List.getElem_append_left hlt]
      rw [Store.step, Store.free_memory ops (h.create d x) h1 (by
        simp only [Store.create, List.mem_append, List.mem_singleton, not_or]
        exact ⟨hb, by omega⟩), h2]
    | write x d =>
      rw [Store.step, Store.free_memory ops (h.write x d) (by simpa [Store.write] using hlt) (by simpa [Store.write] using hb),
        Store.write_buf hlt, if_neg]
      intro hx
      unfold Store.bufOf at hx
      rw [List.getD_eq_getElem?_getD] at hx
      cases hq : st.objs[x]? with
      | none => rw [hq] at hx; simp at hx; omega
      | some c =>
        rw [hq] at hx
        simp only [Option.getD_some] at hx
        exact hb (hx ▸ List.mem_of_getElem? hq)
    | rework x d y =>
      have h1 : b < (st.rework x d y).bufs.length := by simp [Store.rework]; omega
      have h2 : (st.rework x d y).buf b = st.buf b := by
        rw [Store.buf_eq h1, Store.buf_eq hlt]
        simp [Store.rework, List.getElem_append_left hlt]
      rw [Store.step, Store.free_memory ops (h.rework x d y) h1 (by
        simp only [Store.rework]
        intro hm
        rcases List.mem_or_eq_of_mem_set hm with hm | hm
        · exact hb hm
        · omega), h2]
    | _ => exact Store.free_memory ops h hlt hb

/-- the memory an existing object had -/
theorem Store.old_memory : ∀ (ops : List (AOp U F)) {st : Store U F}, st.Inv → ∀ {o b : Nat}, st.objs[o]? = some b →
    ((ops.foldl Store.step st).buf b).data = oldMemory o (st.buf b).data ops
  | [], st, _, o, b, _ => rfl
  | op :: ops, st, h, o, b, hb => by
    have hlt : b < st.bufs.length := h.lt b (List.mem_of_getElem? hb)
    rw [List.foldl_cons]
    cases op with
    | create d x =>
      have h1 : (st.create d x).objs[o]? = some b := by
        simp only [Store.create]
        rw [List.getElem?_append_left (List.getElem?_eq_some_iff.mp hb).1]; exact hb
      have h2 : (st.create d x).buf b = st.buf b := by
        have : b < (st.create d x).bufs.length := by simp [Store.create]; omega
        rw [Store.buf_eq this, Store.buf_eq hlt]
        simp [Store.create, List.getElem_append_left hlt]
      rw [Store.step, Store.old_memory ops (h.create d x) h1, h2]; rfl
    | write x d =>
      rw [Store.step, Store.old_memory ops (h.write x d) (o := o) (by simpa [Store.write] using hb), oldMemory, Store.write_buf hlt]
      have : st.bufOf x = b ↔ x = o := by
        constructor
        · intro hx
          unfold Store.bufOf at hx
          rw [List.getD_eq_getElem?_getD] at hx
          cases hq : st.objs[x]? with
          | none => rw [hq] at hx; simp at hx; omega
          | some c =>
            rw [hq] at hx
            simp only [Option.getD_some] at hx
            subst hx
            exact (List.getElem?_inj (List.getElem?_eq_some_iff.mp hq).1 h.nodup).mp (hq.trans hb.symm)
        · rintro rfl; exact Store.bufOf_eq hb
      simp only [this]
    | rework x d y =>
      have h2 : (st.rework x d y).buf b = st.buf b := by
        have : b < (st.rework x d y).bufs.length := by simp [Store.rework]; omega
        rw [Store.buf_eq this, Store.buf_eq hlt]
        simp [Store.rework, List.getElem_append_left hlt]
      rw [Store.step, oldMemory]
      by_cases hx : x = o
      · subst hx
        rw [if_pos rfl, ← h2]
        have hfree : b ∉ (st.rework x d y).objs := by
          intro hm
          simp only [Store.rework] at hm
          obtain ⟨i, hi, hm⟩ := List.getElem_of_mem hm
          rw [List.getElem_set] at hm
          split at hm
          · omega
          · rename_i hne
            have hi' : i < st.objs.length := by simpa using hi
            have : st.objs[i]? = some b := by rw [List.getElem?_eq_getElem hi', hm]
            exact hne ((List.getElem?_inj hi' h.nodup).mp (this.trans hb.symm)).symm
        exact Store.free_memory ops (h.rework x d y) (by simp [Store.rework]; omega) hfree
      · rw [if_neg hx, ← h2, Store.old_memory ops (h.rework x d y)]
        simp only [Store.rework]
        rw [List.getElem?_set_ne hx]; exact hb
    | _ => exact Store.old_memory ops h hb

end store

/-! ## the object itself -/

section store2
variable {U F : Type}

theorem Store.bufOf_inj {st : Store U F} (h : st.Inv) {o b x : Nat} (hb : st.objs[o]? = some b) : st.bufOf x = b ↔ x = o := by
  have hlt : b < st.bufs.length := h.lt b (List.mem_of_getElem? hb)
  constructor
  · intro hx
    unfold Store.bufOf at hx
    rw [List.getD_eq_getElem?_getD] at hx
    cases hq : st.objs[x]? with
    | none => rw [hq] at hx; simp at hx; omega
    | some c =>
      rw [hq] at hx
      simp only [Option.getD_some] at hx
      subst hx
      exact (List.getElem?_inj (List.getElem?_eq_some_iff.mp hq).1 h.nodup).mp (hq.trans hb.symm)
  · rintro rfl; exact Store.bufOf_eq hb

theorem Store.create_keeps {st : Store U F} (h : st.Inv) {o b : Nat} (hb : st.objs[o]? = some b) (d : Data U F) (x : Bool) :
    (st.create d x).objs[o]? = some b ∧ (st.create d x).buf b = st.buf b := by
  have hlt : b < st.bufs.length := h.lt b (List.mem_of_getElem? hb)
  constructor
  · simp only [Store.create]
    rw [List.getElem?_append_left (List.getElem?_eq_some_iff.mp hb).1]; exact hb
  · have : b < (st.create d x).bufs.length := by simp [Store.create]; omega
    rw [Store.buf_eq this, Store.buf_eq hlt]
    simp [Store.create, List.getElem_append_left hlt]

theorem Store.rework_keeps {st : Store U F} (h : st.Inv) {o b x : Nat} (hb : st.objs[o]? = some b) (hx : x ≠ o) (d : Data U F)
    (y : Bool) : (st.rework x d y).objs[o]? = some b ∧ (st.rework x d y).buf b = st.buf b := by
  have hlt : b < st.bufs.length := h.lt b (List.mem_of_getElem? hb)
  constructor
  · simp only [Store.rework]
    rw [List.getElem?_set_ne hx]; exact hb
  · have : b < (st.rework x d y).bufs.length := by simp [Store.rework]; omega
    rw [Store.buf_eq this, Store.buf_eq hlt]
    simp [Store.rework, List.getElem_append_left hlt]

theorem Store.write_keeps {st : Store U F} (h : st.Inv) {o b x : Nat} (hb : st.objs[o]? = some b) (hx : x ≠ o) (d : Data U F) :
    (st.write x d).objs[o]? = some b ∧ (st.write x d).buf b = st.buf b := by
  have hlt : b < st.bufs.length := h.lt b (List.mem_of_getElem? hb)
  refine ⟨hb, ?_⟩
  have : b < (st.write x d).bufs.length := by simpa [Store.write] using hlt
  rw [Store.buf_eq this, Store.buf_eq hlt]
  simp only [Store.write, List.getElem_modify]
  rw [if_neg fun hq => hx ((Store.bufOf_inj h hb).mp hq)]

theorem Store.object_now : ∀ (ops : List (AOp U F)) {st : Store U F}, st.Inv → ∀ {o b : Nat}, st.objs[o]? = some b →
    ((ops.foldl Store.step st).content o).data = objectNow o (st.content o).data ops
  | [], _, _, _, _, _ => rfl
  | op :: ops, st, h, o, b, hb => by
    have hlt : b < st.bufs.length := h.lt b (List.mem_of_getElem? hb)
    have hc : st.content o = st.buf b := by rw [Store.content, Store.bufOf_eq hb]
    rw [List.foldl_cons]
    cases op with
    | create d x =>
      obtain ⟨h1, h2⟩ := Store.create_keeps h hb d x
      have := Store.object_now ops (h.create d x) h1
      rw [Store.step, this, Store.content, Store.bufOf_eq h1, h2, hc]; rfl
    | write x d =>
      have h1 : (st.write x d).objs[o]? = some b := hb
      have := Store.object_now ops (h.write x d) h1
      rw [Store.step, this, Store.content, Store.bufOf_eq h1, Store.write_buf hlt, hc, objectNow]
      simp only [Store.bufOf_inj h hb]
    | rework x d y =>
      by_cases hx : x = o
      · subst hx
        have h1 : (st.rework x d y).objs[x]? = some st.bufs.length := by
          simp only [Store.rework]
          rw [List.getElem?_set_self (List.getElem?_eq_some_iff.mp hb).1]
        have := Store.object_now ops (h.rework x d y) h1
        rw [Store.step, this, Store.content, Store.bufOf_eq h1, objectNow, if_pos rfl]
        simp [Store.rework, Store.buf]
      · obtain ⟨h1, h2⟩ := Store.rework_keeps h hb hx d y
        have := Store.object_now ops (h.rework x d y) h1
        rw [Store.step, this, Store.content, Store.bufOf_eq h1, h2, objectNow, if_neg hx, hc]
    | _ => exact Store.object_now ops h hb

/-- data of the same form and labels -/
inductive Like : Data U F → Data U F → Prop
  | refl (d) : Like d d
  | series (ix f f') : Like (.series ix (.ok f)) (.series ix (.ok f'))
  | array1 (n f f') : Like (.array1 n f) (.array1 n f')
  | frame (ix cols v v' cast t t') : Like (.frame ix cols v cast t) (.frame ix cols v' cast t')

theorem Like.trans {a b c : Data U F} (h : Like a b) (h' : Like b c) : Like a c := by
  cases h <;> cases h' <;> constructor

theorem like_write (d e : Data U F) : Like d (d.write e) := by
  unfold Data.write
  split <;> constructor

theorem like_oldMemory (o : Nat) : ∀ (ops : List (AOp U F)) (d : Data U F), Like d (oldMemory o d ops)
  | [], d => .refl d
  | op :: ops, d => by
    cases op with
    | write x e =>
      rw [oldMemory]
      split
      · exact (like_write d e).trans (like_oldMemory o ops _)
      · exact like_oldMemory o ops d
    | rework x e y =>
      rw [oldMemory]
      split
      · exact .refl d
      · exact like_oldMemory o ops d
    | _ => exact like_oldMemory o ops d

theorem oldMemory_alone (o : Nat) : ∀ (ops : List (AOp U F)) (d : Data U F), (∀ op ∈ ops, LeavesAlone o op) → oldMemory o d ops = d
  | [], _, _ => rfl
  | op :: ops, d, h => by
    have hr := oldMemory_alone o ops d fun p hp => h p (List.mem_cons_of_mem _ hp)
    have h1 := h op List.mem_cons_self
    cases op with
    | write x e => rw [oldMemory, if_neg h1, hr]
    | rework x e y => rw [oldMemory, if_neg h1, hr]
    | _ => exact hr

theorem objectNow_alone (o : Nat) : ∀ (ops : List (AOp U F)) (d : Data U F), (∀ op ∈ ops, LeavesAlone o op) → objectNow o d ops = d
  | [], _, _ => rfl
  | op :: ops, d, h => by
    have hr := objectNow_alone o ops d fun p hp => h p (List.mem_cons_of_mem _ hp)
    have h1 := h op List.mem_cons_self
    cases op with
    | write x e => rw [objectNow, if_neg h1, hr]
    | rework x e y => rw [objectNow, if_neg h1, hr]
    | _ => exact hr

end store2

/-! ## symbols -/

section sym
variable {U F : Type} [DecidableEq U]

/-- a symbol over shared memory is the symbol that the data now in memory would give -/
theorem resolve_shared {m : CModel U F} {s s' : Sym F} {buf : Buf U F} {o b : Nat} {st : Store U F}
    (hs : s.assign m buf.data = .ok s') (hsh : SharesMemory m s buf) (hl : Like buf.data (st.buf b).data) :
    s.assign m (st.buf b).data = .ok (st.resolve (holds m o b buf s')) := by
  obtain ⟨d, direct⟩ := buf
  generalize he : (st.buf b).data = d' at hl ⊢
  simp only at hl hs
  cases s with
  | number v => simp [SharesMemory] at hsh
  | table => simp [SharesMemory] at hsh
  | vector byC v =>
    simp only [Sym.assign] at hs ⊢
    cases hlab : m.labels byC with
    | error e => rw [hlab] at hs; simp [bind, Except.bind] at hs
    | ok l =>
      rw [hlab] at hs
      simp only [bind, Except.bind] at hs ⊢
      cases d with
      | series ix val =>
        simp only [SharesMemory] at hsh
        subst hsh
        simp only at hs
        split at hs
        · cases hs
        · rename_i hix
          cases val with
          | error e => cases hs
          | ok f =>
            simp only [Except.map] at hs
            injection hs with hs; subst hs
            cases hl <;> simp [hix, Except.map, holds, Store.resolve, he] <;> cases byC <;> simp [shapeVector]
      | array1 n f =>
        simp only at hs
        split at hs
        · cases hs
        · rename_i hix
          injection hs with hs; subst hs
          cases hl <;> simp [hix, holds, Store.resolve, he] <;> cases byC <;> simp [shapeVector]
      | _ => simp at hs
  | matrix tr rc rr fill v =>
    cases d with
    | frame index columns val cast t =>
      simp only [SharesMemory] at hsh
      obtain ⟨rfl, h1, h2⟩ := hsh
      simp only [Sym.assign] at hs ⊢
      cases hu : m.decisionUnits with
      | error e => simp [CModel.labels, hu, Except.map] at h1
      | ok units =>
        cases hc : choices m.tree with
        | error e => simp [CModel.labels, hc, Except.map] at h2
        | ok cols =>
          rw [hu, hc] at hs
          simp only [bind, Except.bind] at hs ⊢
          have h1' := h1
          have h2' := h2
          simp only [CModel.labels, hu, hc, Except.map, Bool.false_eq_true, if_false, if_true, Except.ok.injEq] at h1' h2'
          cases tr <;> simp only [Bool.false_eq_true, if_false, if_true] at h1 h2 h1' h2' hs <;>
            simp only [assignMatrix, h1', h2', and_self, if_true, Except.map] at hs <;>
            injection hs with hs <;> subst hs <;>
            cases hl <;> simp [assignMatrix, h1', h2', h1, h2, Except.map, holds, Store.resolve, he]
    | _ => simp [SharesMemory] at hsh

/-- a symbol over memory of its own stays -/
theorem resolve_own {m : CModel U F} {s s' : Sym F} {buf : Buf U F} {o b : Nat} {st : Store U F}
    (hs : s.assign m buf.data = .ok s') (hsh : ¬ SharesMemory m s buf) (ht : ∀ byC ma al v, s ≠ .table byC ma al v) :
    st.resolve (holds m o b buf s') = s' := by
  obtain ⟨d, direct⟩ := buf
  simp only at hs
  cases s with
  | number v =>
    cases d <;> simp [Sym.assign] at hs
    subst hs; rfl
  | table byC ma al v => exact absurd rfl (ht byC ma al v)
  | vector byC v =>
    simp only [Sym.assign] at hs
    cases hlab : m.labels byC with
    | error e => rw [hlab] at hs; simp [bind, Except.bind] at hs
    | ok l =>
      rw [hlab] at hs
      simp only [bind, Except.bind] at hs
      cases d with
      | series ix val =>
        simp only [SharesMemory, Bool.not_eq_true] at hsh
        subst hsh
        simp only at hs
        split at hs
        · cases hs
        · cases val with
          | error e => cases hs
          | ok f =>
            simp only [Except.map] at hs
            injection hs with hs; subst hs
            simp [holds, Store.resolve]
      | array1 n f => exact absurd trivial hsh
      | _ => simp at hs
  | matrix tr rc rr fill v =>
    simp only [Sym.assign] at hs
    cases hu : m.decisionUnits with
    | error e => rw [hu] at hs; simp [bind, Except.bind] at hs
    | ok units =>
      cases hc : choices m.tree with
      | error e => rw [hu, hc] at hs; simp [bind, Except.bind] at hs
      | ok cols =>
        rw [hu, hc] at hs
        simp only [bind, Except.bind] at hs
        cases d with
        | frame index columns val cast t =>
          simp only [SharesMemory] at hsh
          have : ∃ a, s' = .matrix tr rc rr fill (some a) := by
            cases tr <;> simp only [Bool.false_eq_true, if_false, if_true] at hs
            · cases hq : assignMatrix units cols rc rr fill index columns val cast with
              | error e => rw [hq] at hs; cases hs
              | ok a => rw [hq] at hs; injection hs with hs; exact ⟨a, hs.symm⟩
            · cases hq : assignMatrix units cols rc rr fill columns index (fun i j => val j i) cast with
              | error e => rw [hq] at hs; cases hs
              | ok a => rw [hq] at hs; injection hs with hs; exact ⟨a, hs.symm⟩
          obtain ⟨a, rfl⟩ := this
          simp only [holds]
          rw [if_neg hsh]; rfl
        | _ => simp at hs

/-- the table part of a DataFrame -/
theorem resolve_table {m : CModel U F} {s' : Sym F} {buf : Buf U F} {o b : Nat} {st : Store U F} {byC al : Bool} {ma : List Str}
    {v : Option (TableData F)} (hs : (Sym.table byC ma al v).assign m buf.data = .ok s') :
    st.resolve (holds m o b buf s') = .table byC ma al (tableNow (st.content o).data) ∧ s' = .table byC ma al (tableNow buf.data) := by
  obtain ⟨d, direct⟩ := buf
  cases d with
  | frame ix cols val cast t =>
    simp only [Sym.assign, bind, Except.bind] at hs
    split at hs
    · cases hs
    · split at hs
      · cases hs
      · split at hs
        · cases hs
        · split at hs
          · cases hs
          · injection hs with hs; subst hs
            refine ⟨?_, rfl⟩
            simp only [holds, Store.resolve]
            cases (st.content o).data <;> rfl
  | _ => simp [Sym.assign] at hs

end sym
end Cheval
