import Verif.Spec.Expr
import Mathlib.Tactic.Basic
import Mathlib.Data.List.Basic
import Mathlib.Data.List.Nodup

/-! # Lemmas about the expression transformer -/
namespace Cheval
open Spec

/-! ## decimal numbers -/

def decVal (l : Str) : Nat := l.foldl (fun a ch => 10 * a + (ch.toNat - 48)) 0

theorem ofNat_toNat_small (n : Nat) (h : n < 1000) : (Char.ofNat n).toNat = n := by
  have hv : n.isValidChar := .inl (by omega)
  unfold Char.ofNat
  rw [dif_pos hv]
  show (Char.ofNatAux n hv).val.toNat = n
  unfold Char.ofNatAux
  simp

theorem decVal_decimal (n : Nat) : decVal (decimal n) = n := by
  induction n using Nat.strongRecOn with
  | _ n ih =>
    unfold decimal
    split
    · rename_i h
      simp [decVal, ofNat_toNat_small (48 + n) (by omega)]
    · rename_i h
      have := ih (n / 10) (by omega)
      unfold decVal at *
      rw [List.foldl_append, this]
      simp only [List.foldl_cons, List.foldl_nil]
      rw [ofNat_toNat_small _ (by omega)]
      omega

theorem decimal_inj {m n : Nat} (h : decimal m = decimal n) : m = n := by
  rw [← decVal_decimal m, h, decVal_decimal]

theorem digit_isDigit (n : Nat) (h : n < 10) : (Char.ofNat (48 + n)).isDigit = true := by
  have : n = 0 ∨ n = 1 ∨ n = 2 ∨ n = 3 ∨ n = 4 ∨ n = 5 ∨ n = 6 ∨ n = 7 ∨ n = 8 ∨ n = 9 := by omega
  rcases this with rfl | rfl | rfl | rfl | rfl | rfl | rfl | rfl | rfl | rfl <;> rfl

theorem decimal_digits (n : Nat) : ∀ ch ∈ decimal n, ch.isDigit = true := by
  induction n using Nat.strongRecOn with
  | _ n ih =>
    unfold decimal
    split
    · rename_i h
      intro ch hc
      simp only [List.mem_singleton] at hc
      subst hc
      exact digit_isDigit n h
    · rename_i h
      intro ch hc
      rcases List.mem_append.mp hc with hc | hc
      · exact ih _ (by omega) ch hc
      · simp only [List.mem_singleton] at hc
        subst hc
        exact digit_isDigit _ (by omega)

/-- the name substituted for lookup `k` on table `r` -/
def subName (r : Str) (k : Nat) : Str := subPrefix ++ r ++ decimal k
def dictName (k : Nat) : Str := dictPrefix ++ decimal k

theorem subName_inj {tables : List Str} (h : NoDigitClash tables) {r r' : Str} {k k' : Nat} (hr : r ∈ tables) (hr' : r' ∈ tables)
    (e : subName r k = subName r' k') : r = r' ∧ k = k' := by
  unfold subName at e
  rw [List.append_assoc, List.append_assoc, List.append_cancel_left_eq] at e
  rcases List.append_eq_append_iff.mp e with ⟨t, h1, h2⟩ | ⟨t, h1, h2⟩
  · by_cases ht : t = []
    · subst ht
      simp only [List.append_nil] at h1
      simp only [List.nil_append] at h2
      exact ⟨h1.symm, decimal_inj h2⟩
    · exfalso
      refine h r hr t ht ?_ (h1 ▸ hr')
      intro ch hc
      exact decimal_digits k ch (by rw [h2]; exact List.mem_append_left _ hc)
  · by_cases ht : t = []
    · subst ht
      simp only [List.append_nil] at h1
      simp only [List.nil_append] at h2
      exact ⟨h1, decimal_inj h2.symm⟩
    · exfalso
      refine h r' hr' t ht ?_ (h1 ▸ hr)
      intro ch hc
      exact decimal_digits k' ch (by rw [h2]; exact List.mem_append_left _ hc)

theorem subName_inj' {r : Str} {k k' : Nat} (e : subName r k = subName r k') : k = k' := by
  unfold subName at e
  exact decimal_inj (List.append_cancel_left e)

theorem dictName_inj {k k' : Nat} (e : dictName k = dictName k') : k = k' := decimal_inj (List.append_cancel_left e)

theorem sub_prefix (r : Str) (k : Nat) : subPrefix <+: subName r k := by
  unfold subName; rw [List.append_assoc]; exact List.prefix_append _ _

theorem dict_prefix (k : Nat) : dictPrefix <+: dictName k := List.prefix_append _ _

theorem sub_ne_dict (r : Str) (k k' : Nat) : subName r k ≠ dictName k' := by
  intro h
  simp [subName, dictName, subPrefix, dictPrefix] at h

theorem sub_ne_nan (r : Str) (k : Nat) : subName r k ≠ nanStr := by
  intro h; simp [subName, subPrefix, nanStr] at h

theorem dict_ne_nan (k : Nat) : dictName k ≠ nanStr := by
  intro h; simp [dictName, dictPrefix, nanStr] at h

/-! ## control flow -/

theorem andThen_eq {α β : Type} {x : PSt × Except Err α} {f : α → PSt → PSt × Except Err β} {s' : PSt} {r : Except Err β}
    (h : andThen x f = (s', r)) :
    (∃ e, x = (s', .error e) ∧ r = .error e) ∨ (∃ a s1, x = (s1, .ok a) ∧ f a s1 = (s', r)) := by
  obtain ⟨s, x⟩ := x
  cases x with
  | error e => simp only [andThen, Prod.mk.injEq] at h; exact .inl ⟨e, by rw [h.1], h.2.symm⟩
  | ok a => exact .inr ⟨a, s, rfl, h⟩

theorem andThen_ok {α β : Type} {x : PSt × Except Err α} {f : α → PSt → PSt × Except Err β} {s' : PSt} {b : β}
    (h : andThen x f = (s', .ok b)) : ∃ a s1, x = (s1, .ok a) ∧ f a s1 = (s', .ok b) := by
  rcases andThen_eq h with ⟨e, _, h2⟩ | h
  · cases h2
  · exact h

/-! ## invariants of the parser state -/

/-- the tables of the substitutions are named systematically -/
structure PInv (s : PSt) : Prop where
  keys : (s.chains.map (·.1)).Nodup
  names : ∀ e ∈ s.chains, e.2.map (·.1) = (List.range e.2.length).map (subName e.1)
  dicts : s.dicts.map (·.1) = (List.range s.dicts.length).map dictName
  visited : ∀ x ∈ s.visited, x ∈ s.simple
  tables : ∀ e ∈ s.chains, e.1 ∈ s.chainedAll
  used : ∀ e ∈ s.chains, e.2 ≠ []

theorem PInv.fresh (simple chained : List Str) : PInv (freshParser simple chained) :=
  ⟨by simp [freshParser], by simp [freshParser], by simp [freshParser], by simp [freshParser], by simp [freshParser],
   by simp [freshParser]⟩

/-- later parser states only add entries -/
structure Ext (s s' : PSt) : Prop where
  subs : ∀ x ∈ subs s, x ∈ subs s'
  dicts : ∀ x ∈ s.dicts, x ∈ s'.dicts
  visited : ∀ x ∈ s.visited, x ∈ s'.visited
  simple : ∀ x ∈ s.simple, x ∈ s'.simple
  chained : ∀ x ∈ s.chainedAll, x ∈ s'.chainedAll
  keys : ∀ x ∈ s.chains.map (·.1), x ∈ s'.chains.map (·.1)
  newSimple : ∀ x ∈ s'.simple, x ∈ s.simple ∨ x ∈ s'.visited
  newChained : ∀ x ∈ s'.chainedAll, x ∈ s.chainedAll ∨ x ∈ s'.chains.map (·.1)
  disj : (∀ x ∈ s.simple, x ∉ s.chainedAll) → ∀ x ∈ s'.simple, x ∉ s'.chainedAll

theorem Ext.refl (s : PSt) : Ext s s := ⟨fun _ h => h, fun _ h => h, fun _ h => h, fun _ h => h, fun _ h => h, fun _ h => h,
  fun _ h => .inl h, fun _ h => .inl h, fun h => h⟩

theorem Ext.trans {a b c : PSt} (h : Ext a b) (h' : Ext b c) : Ext a c :=
  ⟨fun x hx => h'.subs x (h.subs x hx), fun x hx => h'.dicts x (h.dicts x hx), fun x hx => h'.visited x (h.visited x hx),
   fun x hx => h'.simple x (h.simple x hx), fun x hx => h'.chained x (h.chained x hx), fun x hx => h'.keys x (h.keys x hx),
   fun x hx => (h'.newSimple x hx).elim (fun hx => (h.newSimple x hx).imp id (h'.visited x)) .inr,
   fun x hx => (h'.newChained x hx).elim (fun hx => (h.newChained x hx).imp id (h'.keys x)) .inr,
   fun hd => h'.disj (h.disj hd)⟩

theorem mem_subs {s : PSt} {x : Str × Str × Chain} : x ∈ subs s ↔ ∃ ls, (x.2.1, ls) ∈ s.chains ∧ (x.1, x.2.2) ∈ ls := by
  unfold subs
  simp only [List.mem_flatMap, List.mem_map, Prod.exists]
  constructor
  · rintro ⟨r, ls, h, sub, ch, h2, rfl⟩; exact ⟨ls, h, h2⟩
  · rintro ⟨ls, h, h2⟩; exact ⟨_, ls, h, _, _, h2, rfl⟩

theorem mem_setAdd {l : List Str} {x y : Str} : y ∈ setAdd l x ↔ y ∈ l ∨ y = x := by
  unfold setAdd
  split
  · constructor
    · exact .inl
    · rintro (h | rfl) <;> assumption
  · simp

theorem lookups_fresh {r : Str} {ls : List (Str × Chain)} (h : ls.map (·.1) = (List.range ls.length).map (subName r)) :
    subName r ls.length ∉ ls.map (·.1) := by
  rw [h]
  intro hc
  obtain ⟨k, hk, e⟩ := List.mem_map.mp hc
  have := subName_inj' e
  have := List.mem_range.mp hk
  omega

theorem dicts_fresh {s : PSt} (h : PInv s) : dictName s.dicts.length ∉ s.dicts.map (·.1) := by
  rw [h.dicts]
  intro hc
  obtain ⟨k, hk, e⟩ := List.mem_map.mp hc
  have := dictName_inj e
  have := List.mem_range.mp hk
  omega

/-- `add_chain` on a consistent state: either rejected or one more substitution -/
theorem addChain_spec {s : PSt} (h : PInv s) (name : Str) (c : Chain) {s' : PSt} {r : Except Err PExpr}
    (hr : addChain s name c = (s', r)) :
    PInv s' ∧ Ext s s' ∧ ((name ∈ s.simple ∧ s' = s ∧ r = .error .unsupportedSyntax) ∨
      (name ∉ s.simple ∧ ∃ k, r = .ok (.name (subName name k)) ∧ (subName name k, name, c) ∈ subs s' ∧
        s'.simple = s.simple ∧ s'.visited = s.visited ∧ s'.dicts = s.dicts ∧
        (∀ x, x ∈ s'.chainedAll ↔ x ∈ s.chainedAll ∨ x = name) ∧
        (∀ x, x ∈ s'.chains.map (·.1) ↔ x ∈ s.chains.map (·.1) ∨ x = name))) := by
  unfold addChain at hr
  split at hr
  · rename_i hs
    simp only [Prod.mk.injEq] at hr
    obtain ⟨rfl, rfl⟩ := hr
    exact ⟨h, Ext.refl _, .inl ⟨hs, rfl, rfl⟩⟩
  · rename_i hs
    simp only [Prod.mk.injEq] at hr
    obtain ⟨rfl, rfl⟩ := hr
    set ls := (dictGet s.chains name).getD [] with hls
    have hlook : (name, ls) ∈ s.chains ∨ (name ∉ s.chains.map (·.1) ∧ ls = []) := by
      cases hg : dictGet s.chains name with
      | none => exact .inr ⟨dictGet_eq_none.mp hg, by rw [hls, hg]; rfl⟩
      | some v => left; rw [hls, hg]; exact (dictGet_eq_some h.keys).mp hg
    have hnames : ls.map (·.1) = (List.range ls.length).map (subName name) := by
      rcases hlook with hm | ⟨_, e⟩
      · exact h.names _ hm
      · rw [e]; rfl
    have hfresh := lookups_fresh hnames
    have hset : dictSet ls (subName name ls.length) c = ls ++ [(subName name ls.length, c)] := dictSet_of_not_mem hfresh
    have hmem : ∀ e, e ∈ dictSet s.chains name (dictSet ls (subName name ls.length) c) ↔
        (e ∈ s.chains ∧ e.1 ≠ name) ∨ e = (name, ls ++ [(subName name ls.length, c)]) := by
      intro e
      rw [mem_dictSet, hset, or_comm]
    have hsub : subPrefix ++ name ++ decimal ls.length = subName name ls.length := rfl
    rw [hsub]
    have hkeys : ∀ x, x ∈ (dictSet s.chains name (dictSet ls (subName name ls.length) c)).map (·.1) ↔
        x ∈ s.chains.map (·.1) ∨ x = name := by
      intro x
      constructor
      · intro hx
        obtain ⟨e, he, rfl⟩ := List.mem_map.mp hx
        rcases (hmem e).mp he with ⟨he, _⟩ | rfl
        · exact .inl (List.mem_map_of_mem he)
        · exact .inr rfl
      · rintro (hx | rfl)
        · obtain ⟨e, he, rfl⟩ := List.mem_map.mp hx
          by_cases hn : e.1 = name
          · exact List.mem_map.mpr ⟨_, (hmem _).mpr (.inr rfl), hn.symm⟩
          · exact List.mem_map.mpr ⟨e, (hmem _).mpr (.inl ⟨he, hn⟩), rfl⟩
        · exact List.mem_map.mpr ⟨_, (hmem _).mpr (.inr rfl), rfl⟩
    refine ⟨⟨dictSet_keys_nodup h.keys _ _, ?_, h.dicts, h.visited, ?_, ?_⟩, ⟨?_, fun _ h => h, fun _ h => h, fun _ h => h, ?_,
      fun x hx => (hkeys x).mpr (.inl hx), fun _ h => .inl h,
      fun x hx => (mem_setAdd.mp hx).imp id fun e => (hkeys x).mpr (.inr e), ?_⟩, .inr ⟨hs,
      ls.length, rfl, ?_, rfl, rfl, rfl, ?_, hkeys⟩⟩
    · intro e he
      rcases (hmem e).mp he with ⟨he, _⟩ | rfl
      · exact h.names e he
      · simp only [List.map_append, hnames, List.map_cons, List.map_nil, List.length_append, List.length_singleton,
          List.range_succ]
    · intro e he
      rw [mem_setAdd]
      rcases (hmem e).mp he with ⟨he, _⟩ | rfl
      · exact .inl (h.tables e he)
      · exact .inr rfl
    · intro e he
      rcases (hmem e).mp he with ⟨he, _⟩ | rfl
      · exact h.used e he
      · simp
    · intro x hx
      obtain ⟨l, hl, hx⟩ := mem_subs.mp hx
      rw [mem_subs]
      by_cases hxn : x.2.1 = name
      · refine ⟨_, (hmem _).mpr (.inr (by rw [hxn])), ?_⟩
        rcases hlook with hm | ⟨hm, _⟩
        · have : l = ls := by
            have h1 := (dictGet_eq_some h.keys).mpr hl
            rw [hxn, (dictGet_eq_some h.keys).mpr hm] at h1
            exact (Option.some.inj h1).symm
          rw [← this]
          exact List.mem_append_left _ hx
        · exact absurd (List.mem_map.mpr ⟨_, hl, hxn⟩) hm
      · exact ⟨l, (hmem _).mpr (.inl ⟨hl, hxn⟩), hx⟩
    · intro x hx; exact mem_setAdd.mpr (.inl hx)
    · intro hd x hx hx'
      rcases mem_setAdd.mp hx' with h' | rfl
      · exact hd x hx h'
      · exact hs hx
    · rw [mem_subs]
      exact ⟨_, (hmem _).mpr (.inr rfl), List.mem_append_right _ (List.mem_singleton.mpr rfl)⟩
    · intro x; exact mem_setAdd

theorem visitName_spec {s : PSt} (h : PInv s) (id : Str) {s' : PSt} {r : Except Err PExpr} (hr : visitName id s = (s', r)) :
    PInv s' ∧ Ext s s' ∧
      ((isNanName id = true ∧ s' = s ∧ r = .ok (.name nanStr)) ∨
       (isNanName id = false ∧ id ∈ s.chainedAll ∧ s' = s ∧ r = .error .unsupportedSyntax) ∨
       (isNanName id = false ∧ id ∉ s.chainedAll ∧ r = .ok (.name id) ∧ id ∈ s'.visited ∧ s'.chainedAll = s.chainedAll ∧
         s'.chains = s.chains ∧ s'.dicts = s.dicts ∧ (∀ x, x ∈ s'.simple ↔ x ∈ s.simple ∨ x = id) ∧
         (∀ x, x ∈ s'.visited ↔ x ∈ s.visited ∨ x = id))) := by
  unfold visitName at hr
  split at hr
  · rename_i hn
    simp only [Prod.mk.injEq] at hr
    obtain ⟨rfl, rfl⟩ := hr
    exact ⟨h, Ext.refl _, .inl ⟨hn, rfl, rfl⟩⟩
  · rename_i hn
    have hn : isNanName id = false := by simpa using hn
    split at hr
    · rename_i hc
      simp only [Prod.mk.injEq] at hr
      obtain ⟨rfl, rfl⟩ := hr
      exact ⟨h, Ext.refl _, .inr (.inl ⟨hn, hc, rfl, rfl⟩)⟩
    · rename_i hc
      simp only [Prod.mk.injEq] at hr
      obtain ⟨rfl, rfl⟩ := hr
      refine ⟨⟨h.keys, h.names, h.dicts, ?_, h.tables, h.used⟩, ⟨fun _ h => h, fun _ h => h, ?_, ?_, fun _ h => h, fun _ h => h,
          fun x hx => (mem_setAdd.mp hx).imp _root_.id fun e => mem_setAdd.mpr (.inr e), fun _ h => .inl h, ?_⟩,
        .inr (.inr ⟨hn, hc, rfl, mem_setAdd.mpr (.inr rfl), rfl, rfl, rfl, fun _ => mem_setAdd, fun _ => mem_setAdd⟩)⟩
      · intro x hx
        rcases mem_setAdd.mp hx with hx | rfl
        · exact mem_setAdd.mpr (.inl (h.visited x hx))
        · exact mem_setAdd.mpr (.inr rfl)
      · intro x hx; exact mem_setAdd.mpr (.inl hx)
      · intro x hx; exact mem_setAdd.mpr (.inl hx)
      · intro hd x hx
        rcases mem_setAdd.mp hx with h' | rfl
        · exact hd x h'
        · exact hc

theorem visitDict_spec {s : PSt} (h : PInv s) (env : PyEnv) (items : PItems) {s' : PSt} {r : Except Err PExpr}
    (hr : visitDict env items s = (s', r)) :
    PInv s' ∧ Ext s s' ∧ s'.simple = s.simple ∧ s'.chainedAll = s.chainedAll ∧ s'.visited = s.visited ∧ s'.chains = s.chains ∧
      ((∃ e, s' = s ∧ r = .error e) ∨
       (env.mode ≠ .utilities ∧ ∃ lit k, dictItems env items [] = .ok lit ∧ r = .ok (.name (dictName k)) ∧
         (dictName k, lit) ∈ s'.dicts)) := by
  unfold visitDict at hr
  split at hr
  · simp only [Prod.mk.injEq] at hr
    obtain ⟨rfl, rfl⟩ := hr
    exact ⟨h, Ext.refl _, rfl, rfl, rfl, rfl, .inl ⟨_, rfl, rfl⟩⟩
  · rename_i hm
    split at hr
    · simp only [Prod.mk.injEq] at hr
      obtain ⟨rfl, rfl⟩ := hr
      exact ⟨h, Ext.refl _, rfl, rfl, rfl, rfl, .inl ⟨_, rfl, rfl⟩⟩
    · rename_i lit hl
      simp only [Prod.mk.injEq] at hr
      obtain ⟨rfl, rfl⟩ := hr
      have hset : dictSet s.dicts (dictPrefix ++ decimal s.dicts.length) lit = s.dicts ++ [(dictName s.dicts.length, lit)] :=
        dictSet_of_not_mem (dicts_fresh h)
      refine ⟨⟨h.keys, h.names, ?_, h.visited, h.tables, h.used⟩, ⟨fun _ h => h, ?_, fun _ h => h, fun _ h => h, fun _ h => h,
          fun _ h => h, fun _ h => .inl h, fun _ h => .inl h, fun h => h⟩, rfl, rfl, rfl,
        rfl, .inr ⟨hm, lit, s.dicts.length, hl, rfl, ?_⟩⟩
      · simp only [hset, List.map_append, h.dicts, List.map_cons, List.map_nil, List.length_append, List.length_singleton,
          List.range_succ]
      · intro x hx; rw [hset]; exact List.mem_append_left _ hx
      · rw [hset]; exact List.mem_append_right _ (List.mem_singleton.mpr rfl)

theorem visitAttr_inv {s : PSt} (h : PInv s) (e : PExpr) {s' : PSt} {r : Except Err PExpr} (hr : visitAttr e s = (s', r)) :
    PInv s' ∧ Ext s s' := by
  unfold visitAttr at hr
  split at hr
  · simp only [Prod.mk.injEq] at hr
    obtain ⟨rfl, rfl⟩ := hr
    exact ⟨h, Ext.refl _⟩
  · obtain ⟨h1, h2, _⟩ := addChain_spec h _ _ hr
    exact ⟨h1, h2⟩

theorem visitMethod_inv {s : PSt} (h : PInv s) (e : PExpr) (args kws : PList) {s' : PSt} {r : Except Err PExpr}
    (hr : visitMethod e args kws s = (s', r)) : PInv s' ∧ Ext s s' := by
  unfold visitMethod at hr
  split at hr
  · simp only [Prod.mk.injEq] at hr
    obtain ⟨rfl, rfl⟩ := hr
    exact ⟨h, Ext.refl _⟩
  · simp only [Prod.mk.injEq] at hr
    obtain ⟨rfl, rfl⟩ := hr
    exact ⟨h, Ext.refl _⟩
  · split at hr
    · simp only [Prod.mk.injEq] at hr
      obtain ⟨rfl, rfl⟩ := hr
      exact ⟨h, Ext.refl _⟩
    · split at hr
      · simp only [Prod.mk.injEq] at hr
        obtain ⟨rfl, rfl⟩ := hr
        exact ⟨h, Ext.refl _⟩
      · simp only [Prod.mk.injEq] at hr
        obtain ⟨rfl, rfl⟩ := hr
        exact ⟨h, Ext.refl _⟩
      · obtain ⟨h1, h2, _⟩ := addChain_spec h _ _ hr
        exact ⟨h1, h2⟩

/-- chaining two steps -/
theorem step_inv {α β : Type} {s s' : PSt} {x : PSt × Except Err α} {f : α → PSt → PSt × Except Err β} {r : Except Err β}
    (hr : andThen x f = (s', r))
    (hx : ∀ s1 r1, x = (s1, r1) → PInv s1 ∧ Ext s s1)
    (hf : ∀ a s1, PInv s1 → ∀ s2 r2, f a s1 = (s2, r2) → PInv s2 ∧ Ext s1 s2) : PInv s' ∧ Ext s s' := by
  rcases andThen_eq hr with ⟨e, h1, _⟩ | ⟨a, s1, h1, h2⟩
  · exact hx _ _ h1
  · obtain ⟨i1, e1⟩ := hx _ _ h1
    obtain ⟨i2, e2⟩ := hf a s1 i1 _ _ h2
    exact ⟨i2, e1.trans e2⟩

theorem ret_inv {α : Type} {s s' : PSt} {r r' : Except Err α} (h : PInv s) (hr : (s, r) = (s', r')) : PInv s' ∧ Ext s s' := by
  cases hr; exact ⟨h, Ext.refl _⟩

mutual
theorem visit_inv (env : PyEnv) : ∀ (e : PExpr) (s : PSt), PInv s → ∀ s' r, visit env e s = (s', r) → PInv s' ∧ Ext s s'
  | .num x, s, h, s', r, hr => by rw [visit] at hr; exact ret_inv h hr
  | .bytes x, s, h, s', r, hr => by rw [visit] at hr; exact ret_inv h hr
  | .const x, s, h, s', r, hr => by rw [visit] at hr; exact ret_inv h hr
  | .str x, s, h, s', r, hr => by rw [visit] at hr; exact ret_inv h hr
  | .name id, s, h, s', r, hr => by
      rw [visit] at hr
      obtain ⟨h1, h2, _⟩ := visitName_spec h id hr
      exact ⟨h1, h2⟩
  | .attr e f, s, h, s', r, hr => by rw [visit] at hr; exact visitAttr_inv h _ hr
  | .unary .not e, s, h, s', r, hr => by
      rw [visit] at hr
      exact step_inv hr (fun s1 r1 hx => visit_inv env e s h s1 r1 hx) fun a s1 h1 s2 r2 h2 => ret_inv h1 h2
  | .unary .neg e, s, h, s', r, hr => by rw [visit] at hr; exact ret_inv h hr
  | .unary .pos e, s, h, s', r, hr => by simp only [visit] at hr; exact ret_inv h hr
  | .unary .invert e, s, h, s', r, hr => by simp only [visit] at hr; exact ret_inv h hr
  | .bin op l r', s, h, s', r, hr => by
      rw [visit] at hr
      exact step_inv hr (fun s1 r1 hx => visit_inv env l s h s1 r1 hx) fun a s1 h1 s2 r2 h2 =>
        step_inv h2 (fun s1' r1 hx => visit_inv env r' s1 h1 s1' r1 hx) fun a s1 h1 s2 r2 h2 => ret_inv h1 h2
  | .boolop op v vs, s, h, s', r, hr => by
      rw [visit] at hr
      exact step_inv hr (fun s1 r1 hx => visit_inv env v s h s1 r1 hx) fun a s1 h1 s2 r2 h2 =>
        step_inv h2 (fun s1' r1 hx => visitList_inv env vs s1 h1 s1' r1 hx) fun a s1 h1 s2 r2 h2 => ret_inv h1 h2
  | .compare l op r' rest, s, h, s', r, hr => by
      rw [visit] at hr
      exact step_inv hr (fun s1 r1 hx => visit_inv env l s h s1 r1 hx) fun a s1 h1 s2 r2 h2 =>
        step_inv h2 (fun s1' r1 hx => visit_inv env r' s1 h1 s1' r1 hx) fun a s1 h1 s2 r2 h2 =>
        step_inv h2 (fun s1' r1 hx => visitCmps_inv env rest s1 h1 s1' r1 hx) fun a s1 h1 s2 r2 h2 => ret_inv h1 h2
  | .call f args kws, s, h, s', r, hr => by
      cases f with
      | name f =>
        rw [visit] at hr
        split at hr
        · exact step_inv hr (fun s1 r1 hx => visitList_inv env args s h s1 r1 hx) fun a s1 h1 s2 r2 h2 => ret_inv h1 h2
        · exact ret_inv h hr
      | attr e field => rw [visit] at hr; exact visitMethod_inv h _ _ _ hr
      | _ =>
        rw [visit] at hr
        · exact step_inv hr (fun s1 r1 hx => visit_inv env _ s h s1 r1 hx) fun a s1 h1 s2 r2 h2 =>
            step_inv h2 (fun s1' r1 hx => visitList_inv env args s1 h1 s1' r1 hx) fun a s1 h1 s2 r2 h2 =>
            step_inv h2 (fun s1' r1 hx => visitList_inv env kws s1 h1 s1' r1 hx) fun a s1 h1 s2 r2 h2 => ret_inv h1 h2
        all_goals (intros; contradiction)
  | .dict items, s, h, s', r, hr => by
      rw [visit] at hr
      obtain ⟨h1, h2, _⟩ := visitDict_spec h env items hr
      exact ⟨h1, h2⟩
  | .banned _, s, h, s', r, hr => by rw [visit] at hr; exact ret_inv h hr
  | .display es, s, h, s', r, hr => by
      rw [visit] at hr
      exact step_inv hr (fun s1 r1 hx => visitList_inv env es s h s1 r1 hx) fun a s1 h1 s2 r2 h2 => ret_inv h1 h2
  | .other es, s, h, s', r, hr => by
      rw [visit] at hr
      exact step_inv hr (fun s1 r1 hx => visitList_inv env es s h s1 r1 hx) fun a s1 h1 s2 r2 h2 => ret_inv h1 h2
theorem visitList_inv (env : PyEnv) : ∀ (e : PList) (s : PSt), PInv s → ∀ s' r, visitList env e s = (s', r) → PInv s' ∧ Ext s s'
  | .nil, s, h, s', r, hr => by rw [visitList] at hr; exact ret_inv h hr
  | .cons e es, s, h, s', r, hr => by
      rw [visitList] at hr
      exact step_inv hr (fun s1 r1 hx => visit_inv env e s h s1 r1 hx) fun a s1 h1 s2 r2 h2 =>
        step_inv h2 (fun s1' r1 hx => visitList_inv env es s1 h1 s1' r1 hx) fun a s1 h1 s2 r2 h2 => ret_inv h1 h2
theorem visitCmps_inv (env : PyEnv) : ∀ (e : PCmps) (s : PSt), PInv s → ∀ s' r, visitCmps env e s = (s', r) → PInv s' ∧ Ext s s'
  | .nil, s, h, s', r, hr => by rw [visitCmps] at hr; exact ret_inv h hr
  | .cons op e es, s, h, s', r, hr => by
      rw [visitCmps] at hr
      exact step_inv hr (fun s1 r1 hx => visit_inv env e s h s1 r1 hx) fun a s1 h1 s2 r2 h2 =>
        step_inv h2 (fun s1' r1 hx => visitCmps_inv env es s1 h1 s1' r1 hx) fun a s1 h1 s2 r2 h2 => ret_inv h1 h2
end

end Cheval
