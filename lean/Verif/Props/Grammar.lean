import Verif.Props.ExprGroup
import Verif.Props.Reachable
import Verif.Core.Reads
import Verif.Spec.ExprSupported

/-!
# C25: exactly the supported expressions are accepted
-/
set_option linter.unusedSimpArgs false
namespace Cheval
open Spec

/-! ## accepted expressions are supported -/

theorem aggregations_names : aggregations = aggregationNames := rfl

theorem nameOfAttr_some : ∀ (e : PExpr) (p : Str × List Str), nameOfAttr e = .ok p → (dotted e).isSome = true
  | .name id, p, h => rfl
  | .attr e f, p, h => by
      simp only [nameOfAttr] at h
      split at h
      · rename_i a b hab
        simpa [dotted] using nameOfAttr_some e _ hab
      · cases h
  | .num _, _, h => by simp [nameOfAttr] at h
  | .str _, _, h => by simp [nameOfAttr] at h
  | .bytes _, _, h => by simp [nameOfAttr] at h
  | .const _, _, h => by simp [nameOfAttr] at h
  | .unary _ _, _, h => by simp [nameOfAttr] at h
  | .bin _ _ _, _, h => by simp [nameOfAttr] at h
  | .boolop _ _ _, _, h => by simp [nameOfAttr] at h
  | .compare _ _ _ _, _, h => by simp [nameOfAttr] at h
  | .call _ _ _, _, h => by simp [nameOfAttr] at h
  | .dict _, _, h => by simp [nameOfAttr] at h
  | .banned _, _, h => by simp [nameOfAttr] at h
  | .display _, _, h => by simp [nameOfAttr] at h
  | .other _, _, h => by simp [nameOfAttr] at h

mutual
theorem visit_supported (env : PyEnv) : ∀ (e : PExpr) (s s1 : PSt) (e' : PExpr), visit env e s = (s1, .ok e') → Supported env e
  | .num x, s, s1, e', hr => by simp [Supported]
  | .bytes x, s, s1, e', hr => by simp [Supported]
  | .const x, s, s1, e', hr => by simp [Supported]
  | .str x, s, s1, e', hr => by simp [Supported]
  | .name n, s, s1, e', hr => by simp [Supported]
  | .attr e f, s, s1, e', hr => by
      rw [visit] at hr
      unfold visitAttr at hr
      split at hr
      · cases hr
      · rename_i name path hn
        simp only [Supported]
        exact nameOfAttr_some _ _ hn
  | .unary .not e, s, s1, e', hr => by
      rw [visit] at hr
      obtain ⟨a, sa, h1, h2⟩ := andThen_ok hr
      simp only [Supported]
      exact visit_supported env e _ _ _ h1
  | .unary .neg e, s, s1, e', hr => by simp [Supported]
  | .unary .pos e, s, s1, e', hr => by simp [visit] at hr
  | .unary .invert e, s, s1, e', hr => by simp [visit] at hr
  | .bin op l r, s, s1, e', hr => by
      rw [visit] at hr
      obtain ⟨a, sa, h1, h2⟩ := andThen_ok hr
      obtain ⟨b, sb, h3, h4⟩ := andThen_ok h2
      simp only [Supported]
      exact ⟨visit_supported env l _ _ _ h1, visit_supported env r _ _ _ h3⟩
  | .boolop isAnd w ws, s, s1, e', hr => by
      rw [visit] at hr
      obtain ⟨a, sa, h1, h2⟩ := andThen_ok hr
      obtain ⟨b, sb, h3, h4⟩ := andThen_ok h2
      simp only [Supported]
      exact ⟨visit_supported env w _ _ _ h1, visitList_supported env ws _ _ _ h3⟩
  | .compare l op r rest, s, s1, e', hr => by
      rw [visit] at hr
      obtain ⟨a, sa, h1, h2⟩ := andThen_ok hr
      obtain ⟨b, sb, h3, h4⟩ := andThen_ok h2
      obtain ⟨ds, sd, h5, h6⟩ := andThen_ok h4
      simp only [Supported]
      exact ⟨visit_supported env l _ _ _ h1, visit_supported env r _ _ _ h3, visitCmps_supported env rest _ _ _ h5⟩
  | .call f args kws, s, s1, e', hr => by
      by_cases hf1 : ∃ n, f = .name n
      · obtain ⟨n, rfl⟩ := hf1
        rw [visit] at hr
        split at hr
        · rename_i hfn
          obtain ⟨a, sa, h1, h2⟩ := andThen_ok hr
          simp only [Supported]
          exact ⟨hfn, visitList_supported env args _ _ _ h1⟩
        · cases hr
      · by_cases hf2 : ∃ e n, f = .attr e n
        · obtain ⟨e, n, rfl⟩ := hf2
          rw [visit] at hr
          unfold visitMethod at hr
          split at hr
          · cases hr
          · cases hr
          · rename_i name fn path hn
            have hd : (dotted e).isSome = true := by simpa [dotted] using nameOfAttr_some _ _ hn
            obtain ⟨p, hp⟩ := nameOfAttr_attr hn
            simp only [List.cons.injEq] at hp
            obtain ⟨rfl, rfl⟩ := hp
            split at hr
            · cases hr
            · rename_i hag
              split at hr
              · cases hr
              · cases hr
              · simp only [Supported]
                exact ⟨hd, aggregations_names ▸ (by simpa using hag), by simp, by simp⟩
        · have hf1' : ∀ n, f ≠ .name n := fun n h => hf1 ⟨n, h⟩
          have hf2' : ∀ e n, f ≠ .attr e n := fun e n h => hf2 ⟨e, n, h⟩
          rw [visit_call_other env hf1' hf2'] at hr
          obtain ⟨f', sa, h1, h2⟩ := andThen_ok hr
          obtain ⟨as, sb, h3, h4⟩ := andThen_ok h2
          obtain ⟨ks, sd, h5, h6⟩ := andThen_ok h4
          have ha := visit_supported env f _ _ _ h1
          have hb := visitList_supported env args _ _ _ h3
          have hc := visitList_supported env kws _ _ _ h5
          cases f with
          | name n => exact absurd rfl (hf1' n)
          | attr e n => exact absurd rfl (hf2' e n)
          | _ => simp only [Supported]; exact ⟨ha, hb, hc⟩
  | .dict items, s, s1, e', hr => by
      rw [visit] at hr
      unfold visitDict at hr
      split at hr
      · cases hr
      · rename_i hm
        simp only [Supported]
        refine ⟨hm, ?_⟩
        cases hl : readItems items with
        | some l => rfl
        | none =>
          obtain ⟨e, he⟩ := dictItems_none env items [] hl
          rw [he] at hr
          cases hr
  | .banned _, s, s1, e', hr => by simp [visit] at hr
  | .display es, s, s1, e', hr => by
      rw [visit] at hr
      obtain ⟨a, sa, h1, h2⟩ := andThen_ok hr
      cases h2
  | .other es, s, s1, e', hr => by
      rw [visit] at hr
      obtain ⟨a, sa, h1, h2⟩ := andThen_ok hr
      simp only [Supported]
      exact visitList_supported env es _ _ _ h1
theorem visitList_supported (env : PyEnv) : ∀ (es : PList) (s s1 : PSt) (es' : List PExpr), visitList env es s = (s1, .ok es') → SupportedL env es
  | .nil, s, s1, es', hr => by simp [SupportedL]
  | .cons e es, s, s1, es', hr => by
      rw [visitList] at hr
      obtain ⟨a, sa, h1, h2⟩ := andThen_ok hr
      obtain ⟨b, sb, h3, h4⟩ := andThen_ok h2
      simp only [SupportedL]
      exact ⟨visit_supported env e _ _ _ h1, visitList_supported env es _ _ _ h3⟩
theorem visitCmps_supported (env : PyEnv) : ∀ (es : PCmps) (s s1 : PSt) (es' : List (COp × PExpr)), visitCmps env es s = (s1, .ok es') →
    SupportedC env es
  | .nil, s, s1, es', hr => by simp [SupportedC]
  | .cons op e es, s, s1, es', hr => by
      rw [visitCmps] at hr
      obtain ⟨a, sa, h1, h2⟩ := andThen_ok hr
      obtain ⟨b, sb, h3, h4⟩ := andThen_ok h2
      simp only [SupportedC]
      exact ⟨visit_supported env e _ _ _ h1, visitCmps_supported env es _ _ _ h3⟩
end

/-! ## supported expressions without conflicting names are accepted -/

/-- the names to be added conflict neither with the recorded ones nor among themselves -/
structure NoClash (s : PSt) (si tb : List Str) : Prop where
  simple : ∀ x ∈ si, x ∉ s.chainedAll
  table : ∀ x ∈ tb, x ∉ s.simple
  own : ∀ x ∈ si, x ∉ tb

theorem NoClash.left {s : PSt} {a b c d : List Str} (h : NoClash s (a ++ b) (c ++ d)) : NoClash s a c :=
  ⟨fun x hx => h.simple x (List.mem_append_left _ hx), fun x hx => h.table x (List.mem_append_left _ hx),
   fun x hx hy => h.own x (List.mem_append_left _ hx) (List.mem_append_left _ hy)⟩

theorem NoClash.right {s s1 : PSt} {a b c d : List Str} (h : NoClash s (a ++ b) (c ++ d)) (hi : PInv s) (he : Ext s s1) (ha : AddsNames s s1 a c) :
    NoClash s1 b d := by
  refine ⟨fun x hx hy => ?_, fun x hx hy => ?_, fun x hx hy => h.own x (List.mem_append_right _ hx) (List.mem_append_right _ hy)⟩
  · rcases he.newChained x hy with h1 | h1
    · exact h.simple x (List.mem_append_right _ hx) h1
    · rcases (ha.keys x).mp h1 with h2 | h2
      · obtain ⟨e, h3, rfl⟩ := List.mem_map.mp h2
        exact h.simple _ (List.mem_append_right _ hx) (hi.tables e h3)
      · exact h.own x (List.mem_append_right _ hx) (List.mem_append_left _ h2)
  · rcases he.newSimple x hy with h1 | h1
    · exact h.table x (List.mem_append_right _ hx) h1
    · rcases (ha.visited x).mp h1 with h2 | h2
      · exact h.table x (List.mem_append_right _ hx) (hi.visited x h2)
      · exact h.own x (List.mem_append_left _ h2) (List.mem_append_right _ hx)

theorem addChain_ok {s : PSt} {name : Str} (c : Chain) (h : name ∉ s.simple) : ∃ s1 e', addChain s name c = (s1, .ok e') := by
  unfold addChain
  rw [if_neg h]
  exact ⟨_, _, rfl⟩

theorem andThen_of {α β : Type} {x : PSt × Except Err α} {f : α → PSt → PSt × Except Err β} (hx : ∃ s a, x = (s, .ok a))
    (hf : ∀ s a, x = (s, .ok a) → ∃ s1 b, f a s = (s1, .ok b)) : ∃ s1 b, andThen x f = (s1, .ok b) := by
  obtain ⟨s, a, rfl⟩ := hx
  exact hf s a rfl

mutual
theorem visit_accepts (env : PyEnv) : ∀ (e : PExpr) (s : PSt), PInv s → Supported env e → NoClash s (simpleNames e) (tableNames e) →
    ∃ s1 e', visit env e s = (s1, .ok e')
  | .num x, s, hi, hs, hn => ⟨_, _, by rw [visit]⟩
  | .bytes x, s, hi, hs, hn => ⟨_, _, by rw [visit]⟩
  | .const x, s, hi, hs, hn => ⟨_, _, by rw [visit]⟩
  | .str x, s, hi, hs, hn => ⟨_, _, by rw [visit]⟩
  | .name n, s, hi, hs, hn => by
      rw [visit]
      unfold visitName
      split
      · exact ⟨_, _, rfl⟩
      · rename_i hnan
        rw [if_neg (hn.simple n (by simp [simpleNames, hnan]))]
        exact ⟨_, _, rfl⟩
  | .attr e f, s, hi, hs, hn => by
      simp only [Supported] at hs
      obtain ⟨⟨r, p⟩, hd⟩ := Option.isSome_iff_exists.mp hs
      rw [visit]
      unfold visitAttr
      rw [nameOfAttr_dotted _ _ _ hd]
      have hroot := dotted_root _ _ _ hd
      simp only [rootName] at hroot
      exact addChain_ok _ (hn.table r (by simp [tableNames, hroot]))
  | .unary .not e, s, hi, hs, hn => by
      simp only [Supported] at hs
      simp only [simpleNames, tableNames] at hn
      rw [visit]
      exact andThen_of (visit_accepts env e s hi hs hn) fun s1 a h => ⟨_, _, rfl⟩
  | .unary .neg e, s, hi, hs, hn => ⟨_, _, by rw [visit]⟩
  | .unary .pos e, s, hi, hs, hn => by simp [Supported] at hs
  | .unary .invert e, s, hi, hs, hn => by simp [Supported] at hs
  | .bin op l r, s, hi, hs, hn => by
      simp only [Supported] at hs
      simp only [simpleNames, tableNames] at hn
      rw [visit]
      refine andThen_of (visit_accepts env l s hi hs.1 hn.left) fun s1 a h1 => ?_
      obtain ⟨i1, x1⟩ := visit_inv env _ _ hi _ _ h1
      exact andThen_of (visit_accepts env r s1 i1 hs.2 (hn.right hi x1 (visit_adds env _ _ _ _ hi h1))) fun s2 b h2 => ⟨_, _, rfl⟩
  | .boolop isAnd w ws, s, hi, hs, hn => by
      simp only [Supported] at hs
      simp only [simpleNames, tableNames] at hn
      rw [visit]
      refine andThen_of (visit_accepts env w s hi hs.1 hn.left) fun s1 a h1 => ?_
      obtain ⟨i1, x1⟩ := visit_inv env _ _ hi _ _ h1
      exact andThen_of (visitList_accepts env ws s1 i1 hs.2 (hn.right hi x1 (visit_adds env _ _ _ _ hi h1))) fun s2 b h2 => ⟨_, _, rfl⟩
  | .compare l op r rest, s, hi, hs, hn => by
      simp only [Supported] at hs
      simp only [simpleNames, tableNames] at hn
      rw [visit]
      refine andThen_of (visit_accepts env l s hi hs.1 hn.left.left) fun s1 a h1 => ?_
      obtain ⟨i1, x1⟩ := visit_inv env _ _ hi _ _ h1
      have a1 := visit_adds env _ _ _ _ hi h1
      refine andThen_of (visit_accepts env r s1 i1 hs.2.1 (hn.left.right hi x1 a1)) fun s2 b h2 => ?_
      obtain ⟨i2, x2⟩ := visit_inv env _ _ i1 _ _ h2
      exact andThen_of (visitCmps_accepts env rest s2 i2 hs.2.2 (hn.right hi (x1.trans x2) (a1.trans (visit_adds env _ _ _ _ i1 h2))))
        fun s3 b h3 => ⟨_, _, rfl⟩
  | .call f args kws, s, hi, hs, hn => by
      by_cases hf1 : ∃ n, f = .name n
      · obtain ⟨n, rfl⟩ := hf1
        simp only [Supported] at hs
        simp only [simpleNames, tableNames] at hn
        rw [visit, if_pos hs.1]
        exact andThen_of (visitList_accepts env args s hi hs.2 hn) fun s1 a h1 => ⟨_, _, rfl⟩
      · by_cases hf2 : ∃ e n, f = .attr e n
        · obtain ⟨e, n, rfl⟩ := hf2
          simp only [Supported] at hs
          obtain ⟨hd, hag, rfl, hargs⟩ := hs
          obtain ⟨⟨r, p⟩, hd⟩ := Option.isSome_iff_exists.mp hd
          have hroot := dotted_root _ _ _ hd
          rw [visit]
          unfold visitMethod
          rw [nameOfAttr, nameOfAttr_dotted _ _ _ hd]
          simp only
          rw [if_neg (by rw [aggregations_names]; simpa using hag)]
          cases args with
          | nil => exact absurd rfl hargs
          | cons a as => exact addChain_ok _ (hn.table r (by simp [tableNames, hroot]))
        · have hf1' : ∀ n, f ≠ .name n := fun n h => hf1 ⟨n, h⟩
          have hf2' : ∀ e n, f ≠ .attr e n := fun e n h => hf2 ⟨e, n, h⟩
          have hs' : Supported env f ∧ SupportedL env args ∧ SupportedL env kws := by
            cases f with
            | name n => exact absurd rfl (hf1' n)
            | attr e n => exact absurd rfl (hf2' e n)
            | _ => simp only [Supported] at hs ⊢; exact hs
          have hn' : NoClash s (simpleNames f ++ simpleNamesL args ++ simpleNamesL kws) (tableNames f ++ tableNamesL args ++ tableNamesL kws) := by
            cases f with
            | name n => exact absurd rfl (hf1' n)
            | attr e n => exact absurd rfl (hf2' e n)
            | _ => simp only [simpleNames, tableNames] at hn ⊢; exact hn
          rw [visit_call_other env hf1' hf2']
          refine andThen_of (visit_accepts env f s hi hs'.1 hn'.left.left) fun s1 a h1 => ?_
          obtain ⟨i1, x1⟩ := visit_inv env _ _ hi _ _ h1
          have a1 := visit_adds env _ _ _ _ hi h1
          refine andThen_of (visitList_accepts env args s1 i1 hs'.2.1 (hn'.left.right hi x1 a1)) fun s2 b h2 => ?_
          obtain ⟨i2, x2⟩ := visitList_inv env _ _ i1 _ _ h2
          exact andThen_of (visitList_accepts env kws s2 i2 hs'.2.2 (hn'.right hi (x1.trans x2) (a1.trans (visitList_adds env _ _ _ _ i1 h2))))
            fun s3 b h3 => ⟨_, _, rfl⟩
  | .dict items, s, hi, hs, hn => by
      simp only [Supported] at hs
      obtain ⟨l, hl⟩ := Option.isSome_iff_exists.mp hs.2
      rw [visit]
      unfold visitDict
      rw [if_neg hs.1, dictItems_read env items l [] hl]
      exact ⟨_, _, rfl⟩
  | .banned _, s, hi, hs, hn => by simp [Supported] at hs
  | .display es, s, hi, hs, hn => by simp [Supported] at hs
  | .other es, s, hi, hs, hn => by
      simp only [Supported] at hs
      simp only [simpleNames, tableNames] at hn
      rw [visit]
      exact andThen_of (visitList_accepts env es s hi hs hn) fun s1 a h1 => ⟨_, _, rfl⟩
theorem visitList_accepts (env : PyEnv) : ∀ (es : PList) (s : PSt), PInv s → SupportedL env es → NoClash s (simpleNamesL es) (tableNamesL es) →
    ∃ s1 es', visitList env es s = (s1, .ok es')
  | .nil, s, hi, hs, hn => ⟨_, _, by rw [visitList]⟩
  | .cons e es, s, hi, hs, hn => by
      simp only [SupportedL] at hs
      simp only [simpleNamesL, tableNamesL] at hn
      rw [visitList]
      refine andThen_of (visit_accepts env e s hi hs.1 hn.left) fun s1 a h1 => ?_
      obtain ⟨i1, x1⟩ := visit_inv env _ _ hi _ _ h1
      exact andThen_of (visitList_accepts env es s1 i1 hs.2 (hn.right hi x1 (visit_adds env _ _ _ _ hi h1))) fun s2 b h2 => ⟨_, _, rfl⟩
theorem visitCmps_accepts (env : PyEnv) : ∀ (es : PCmps) (s : PSt), PInv s → SupportedC env es → NoClash s (simpleNamesC es) (tableNamesC es) →
    ∃ s1 es', visitCmps env es s = (s1, .ok es')
  | .nil, s, hi, hs, hn => ⟨_, _, by rw [visitCmps]⟩
  | .cons op e es, s, hi, hs, hn => by
      simp only [SupportedC] at hs
      simp only [simpleNamesC, tableNamesC] at hn
      rw [visitCmps]
      refine andThen_of (visit_accepts env e s hi hs.1 hn.left) fun s1 a h1 => ?_
      obtain ⟨i1, x1⟩ := visit_inv env _ _ hi _ _ h1
      exact andThen_of (visitCmps_accepts env es s1 i1 hs.2 (hn.right hi x1 (visit_adds env _ _ _ _ hi h1))) fun s2 b h2 => ⟨_, _, rfl⟩
end

/-- **C25 (exactly)** Given the names used so far by themselves and with a dot (no name being among both), the transformer accepts
an expression exactly if its syntax is supported and it uses no name in the way opposite to another use of that name. -/
theorem C25_exact (env : PyEnv) (e : PExpr) (simple chained : List Str) (hd : ∀ x ∈ simple, x ∉ chained) :
    (∃ s e', visit env e (freshParser simple chained) = (s, .ok e')) ↔ Supported env e ∧ ¬ Conflict e simple chained := by
  constructor
  · rintro ⟨s, e', h⟩
    exact ⟨visit_supported env e _ _ _ h, fun hc => visit_conflict env e _ _ hd hc _ _ h⟩
  · rintro ⟨hs, hc⟩
    refine visit_accepts env e _ (PInv.fresh _ _) hs ⟨fun x hx hy => hc (.inl ⟨x, hx, hy⟩), fun x hx hy => hc (.inr (.inl ⟨x, hx, hy⟩)),
      fun x hx hy => hc (.inr (.inr ⟨x, hx, hy⟩))⟩

theorem iter_simple {g : ExprGroup} (hg : GroupInv g) (x : Str) : x ∈ g.itersimple ↔ x ∈ g.simple := by
  refine ⟨fun hx => ?_, fun hx => List.mem_append_left _ hx⟩
  rcases List.mem_append.mp hx with hx | hx
  · exact hx
  · obtain ⟨e, he, hx⟩ := List.mem_flatMap.mp hx
    exact hg.subSimple e he x hx

theorem iter_chained {g : ExprGroup} (hg : GroupInv g) (x : Str) : x ∈ g.iterchained ↔ x ∈ g.chained := by
  refine ⟨fun hx => ?_, fun hx => List.mem_append_left _ hx⟩
  rcases List.mem_append.mp hx with hx | hx
  · exact hx
  · obtain ⟨e, he, hx⟩ := List.mem_flatMap.mp hx
    exact hg.subChained e he x hx

/-- **C25 (in a model)** After any history of calls on `model.expressions`, appending an expression that Python parses succeeds exactly
if its syntax is supported and it uses no name in the way opposite to a use recorded by the model or to another of its own. -/
theorem C25_append_exact (env : PyEnv) (py : PyParser) (ops : List GroupOp) (e text : Str) (filt : Option Str) (tree : PExpr) (k : Option Nat)
    (hs : splitFilter e = .ok (text, filt)) (hp : py text = .ok tree) :
    let g := groupRun env py ExprGroup.empty ops
    (g.append env py e k).2 = .ok () ↔ Supported env tree ∧ ¬ Conflict tree g.itersimple g.iterchained := by
  intro g
  have hg : GroupInv g := GroupInv.empty.run env py ops
  have hc : Conflict tree g.itersimple g.iterchained ↔ Conflict tree g.simple g.chained := by
    unfold Conflict
    simp only [iter_simple hg, iter_chained hg]
  rw [hc, ← C25_exact env tree g.simple g.chained hg.disj]
  unfold ExprGroup.append parse
  simp only [hs, hp]
  constructor
  · intro h
    rcases hv : visit env tree (freshParser g.simple g.chained) with ⟨s, er | e'⟩
    · unfold freshParser at hv
      rw [hv] at h
      simp at h
    · exact ⟨s, e', rfl⟩
  · rintro ⟨s, e', hv⟩
    unfold freshParser at hv
    rw [hv]
    cases k <;> rfl

/-- `x + a.b` is accepted by a new model, `x + x.a`, `x if a else b` and `+x` are not -/
example (env : PyEnv) :
    (∃ s e', visit env (.bin .add (.name exX) (.attr (.name exA) exB)) (freshParser [] []) = (s, .ok e')) ∧
    ¬ (∃ s e', visit env (.bin .add (.name exX) (.attr (.name exX) exA)) (freshParser [] []) = (s, .ok e')) ∧
    ¬ (∃ s e', visit env (.banned .ifExp) (freshParser [] []) = (s, .ok e')) ∧
    ¬ (∃ s e', visit env (.unary .pos (.name exX)) (freshParser [] []) = (s, .ok e')) := by
  refine ⟨(C25_exact env _ _ _ (by simp)).mpr ?_, fun h => ?_, fun h => ?_, fun h => ?_⟩
  · simp [Supported, dotted, Conflict, simpleNames, tableNames, rootName, exX, exA, isNanName, lower]
  · have := ((C25_exact env _ _ _ (by simp)).mp h).2
    simp [Conflict, simpleNames, tableNames, rootName, exX, exA, isNanName, lower] at this
  · simpa [Supported] using ((C25_exact env _ _ _ (by simp)).mp h).1
  · simpa [Supported] using ((C25_exact env _ _ _ (by simp)).mp h).1

/-! ## C21: names that mean NaN -/

/-- a text that is one of the two letters at every place -/
def Spelled : List (Char × Char) → Str → Prop
  | [], s => s = []
  | (l, u) :: r, s => ∃ c t, s = c :: t ∧ (c = l ∨ c = u) ∧ Spelled r t

/-- `none` or `nan`, each letter small or capital -/
def MeansNan (s : Str) : Prop := Spelled [('n', 'N'), ('o', 'O'), ('n', 'N'), ('e', 'E')] s ∨ Spelled [('n', 'N'), ('a', 'A'), ('n', 'N')] s

theorem toLower_eq (c : Char) {l u : Char} (h : (l, u) ∈ [('n','N'),('o','O'),('e','E'),('a','A')]) : c.toLower = l ↔ c = l ∨ c = u := by
  have e1 : ∀ a b : Char, a = b ↔ a.val.toNat = b.val.toNat := fun a b => by
    rw [UInt32.toNat_inj, Char.val_inj]
  rw [e1, e1, e1]
  unfold Char.toLower
  simp only [List.mem_cons, Prod.mk.injEq, List.not_mem_nil, or_false] at h
  rcases h with ⟨rfl, rfl⟩ | ⟨rfl, rfl⟩ | ⟨rfl, rfl⟩ | ⟨rfl, rfl⟩ <;>
  · split <;> rename_i ha <;> simp only [UInt32.le_iff_toNat_le, ge_iff_le] at ha <;> simp [UInt32.toNat_add] at ha ⊢ <;> omega

theorem spelled_iff : ∀ (p : List (Char × Char)), (∀ q ∈ p, q ∈ [('n','N'),('o','O'),('e','E'),('a','A')]) → ∀ s, lower s = p.map (·.1) ↔ Spelled p s
  | [], _, s => by simp [lower, Spelled]
  | (l, u) :: r, h, s => by
    have ih := spelled_iff r (fun q hq => h q (List.mem_cons_of_mem _ hq))
    cases s with
    | nil => simp [lower, Spelled]
    | cons c t =>
      have := ih t
      unfold lower at this
      simp only [lower, List.map_cons, List.cons.injEq, Spelled, this, toLower_eq c (h _ List.mem_cons_self)]
      constructor
      · rintro ⟨a, b⟩; exact ⟨c, t, ⟨rfl, rfl⟩, a, b⟩
      · rintro ⟨c', t', ⟨rfl, rfl⟩, a, b⟩; exact ⟨a, b⟩

theorem isNanName_iff (s : Str) : isNanName s = true ↔ MeansNan s := by
  unfold isNanName MeansNan
  rw [decide_eq_true_iff]
  exact or_congr (spelled_iff [('n', 'N'), ('o', 'O'), ('n', 'N'), ('e', 'E')] (by decide) s) (spelled_iff [('n', 'N'), ('a', 'A'), ('n', 'N')] (by decide) s)

/-- **C21** A name is read as NaN, and asks for no symbol, exactly if it is `none` or `nan` in small or capital letters; any other name that is
accepted stays as it is and is checked against the symbols of the model. -/
theorem C21_nan_names {F : Type} (M : Arith F) (c : CellEnv F) (env : PyEnv) (id : Str) (s : PSt) :
    (MeansNan id → visit env (.name id) s = (s, .ok (.name nanStr)) ∧ den M c (.name id) = some (.num M.nan)) ∧
    (¬ MeansNan id → ∀ s' e', visit env (.name id) s = (s', .ok e') → e' = .name id ∧ id ∈ s'.visited) := by
  rw [← isNanName_iff, visit]
  unfold visitName
  constructor
  · intro h
    exact ⟨if_pos h, by rw [den, if_pos h]⟩
  · intro h s' e'
    rw [if_neg h]
    split
    · intro h'; cases h'
    · intro h'; cases h'
      exact ⟨rfl, mem_setAdd.mpr (Or.inr rfl)⟩

example : MeansNan "NaN".toList ∧ MeansNan "None".toList ∧ ¬ MeansNan "nano".toList := by
  simp [MeansNan, Spelled]

end Cheval
