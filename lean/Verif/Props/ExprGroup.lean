import Verif.Props.Expr

/-!
# C23, C24: groups of expressions
-/
set_option linter.unusedSimpArgs false
namespace Cheval
open Spec

/-- the calls of a history on `model.expressions` -/
inductive GroupOp where
  | append (e : Str) (group : Option Nat)
  | drop (k : Nat)
  | clear

def groupStep (env : PyEnv) (py : PyParser) (g : ExprGroup) : GroupOp → ExprGroup × Except Err Unit
  | .append e k => g.append env py e k
  | .drop k => g.dropGroup k
  | .clear => (g.clear, .ok ())

/-- state after a history, whatever the individual calls returned -/
def groupRun (env : PyEnv) (py : PyParser) (g : ExprGroup) (ops : List GroupOp) : ExprGroup :=
  ops.foldl (fun g op => (groupStep env py g op).1) g

/-! ## invariant -/

theorem mem_setUnion {a b : List Str} {x : Str} : x ∈ setUnion a b ↔ x ∈ a ∨ x ∈ b := by
  unfold setUnion
  induction b generalizing a with
  | nil => simp
  | cons y b ih => rw [List.foldl_cons, ih, mem_setAdd, List.mem_cons, or_assoc]

/-- no name plays both roles, and the sets of the group cover those of its expressions and sub-groups -/
structure GroupInv (g : ExprGroup) : Prop where
  disj : ∀ x ∈ g.simple, x ∉ g.chained
  subSimple : ∀ e ∈ g.subgroups, ∀ x ∈ e.2.simple, x ∈ g.simple
  subChained : ∀ e ∈ g.subgroups, ∀ x ∈ e.2.chained, x ∈ g.chained
  exprSimple : ∀ e ∈ g.all, ∀ x ∈ e.symbols, x ∈ g.simple
  exprChained : ∀ e ∈ g.all, ∀ x ∈ e.chains.map (·.1), x ∈ g.chained

theorem GroupInv.empty : GroupInv ExprGroup.empty := by
  constructor <;> simp [ExprGroup.empty, ExprGroup.all]

/-- what parsing does to the caller's sets -/
theorem parse_spec (env : PyEnv) (py : PyParser) (e : Str) (si ch si' ch' : List Str) (r : Except Err Expression)
    (h : parse env py e si ch = ((si', ch'), r)) :
    (∀ x ∈ si, x ∈ si') ∧ (∀ x ∈ ch, x ∈ ch') ∧ ((∀ x ∈ si, x ∉ ch) → ∀ x ∈ si', x ∉ ch') ∧
    (∀ x, r = .ok x → (∀ y ∈ x.symbols, y ∈ si') ∧ (∀ y ∈ x.chains.map (·.1), y ∈ ch') ∧
      (∀ y ∈ si', y ∈ si ∨ y ∈ x.symbols) ∧ (∀ y ∈ ch', y ∈ ch ∨ y ∈ x.chains.map (·.1))) := by
  unfold parse at h
  split at h
  · cases h; exact ⟨fun _ h => h, fun _ h => h, fun h => h, fun _ h => by cases h⟩
  · split at h
    · cases h; exact ⟨fun _ h => h, fun _ h => h, fun h => h, fun _ h => by cases h⟩
    · rename_i tree _
      have hi : PInv (⟨si, ch, [], [], []⟩ : PSt) := PInv.fresh si ch
      split at h
      · rename_i s er hv
        obtain ⟨i1, e1⟩ := visit_inv env tree _ hi _ _ hv
        cases h
        exact ⟨e1.simple, e1.chained, e1.disj, fun _ h => by cases h⟩
      · rename_i s t hv
        obtain ⟨i1, e1⟩ := visit_inv env tree _ hi _ _ hv
        cases h
        refine ⟨e1.simple, e1.chained, e1.disj, ?_⟩
        intro x hx
        cases hx
        refine ⟨i1.visited, ?_, e1.newSimple, e1.newChained⟩
        intro y hy
        obtain ⟨z, hz, rfl⟩ := List.mem_map.mp hy
        exact i1.tables z hz

theorem mem_all {g : ExprGroup} {e : Expression} : e ∈ g.all ↔ e ∈ g.ungrouped ∨ ∃ k s, (k, s) ∈ g.subgroups ∧ e ∈ s.exprs := by
  simp [ExprGroup.all, List.mem_flatMap]

theorem GroupInv.append {g : ExprGroup} (hg : GroupInv g) (env : PyEnv) (py : PyParser) (e : Str) (k : Option Nat) :
    GroupInv (g.append env py e k).1 := by
  unfold ExprGroup.append
  rcases hp : parse env py e g.simple g.chained with ⟨⟨si, ch⟩, r⟩
  obtain ⟨h1, h2, h3, h4⟩ := parse_spec env py e _ _ _ _ _ hp
  cases r with
  | error er =>
    exact ⟨h3 hg.disj, fun e he x hx => h1 x (hg.subSimple e he x hx), fun e he x hx => h2 x (hg.subChained e he x hx),
      fun e he x hx => h1 x (hg.exprSimple e he x hx), fun e he x hx => h2 x (hg.exprChained e he x hx)⟩
  | ok x =>
    obtain ⟨h5, h6, _, _⟩ := h4 x rfl
    cases k with
    | none =>
      refine ⟨?_, ?_, ?_, ?_, ?_⟩
      · intro y hy hy'
        rcases mem_setUnion.mp hy with hy | hy <;> rcases mem_setUnion.mp hy' with hy' | hy'
        · exact h3 hg.disj y hy hy'
        · exact h3 hg.disj y hy (h6 y hy')
        · exact h3 hg.disj y (h5 y hy) hy'
        · exact h3 hg.disj y (h5 y hy) (h6 y hy')
      · exact fun e he y hy => mem_setUnion.mpr (.inl (h1 y (hg.subSimple e he y hy)))
      · exact fun e he y hy => mem_setUnion.mpr (.inl (h2 y (hg.subChained e he y hy)))
      · intro e he y hy
        rcases mem_all.mp he with he | he
        · rcases List.mem_append.mp he with he | he
          · exact mem_setUnion.mpr (.inl (h1 y (hg.exprSimple e (mem_all.mpr (.inl he)) y hy)))
          · rw [List.mem_singleton] at he
            subst he
            exact mem_setUnion.mpr (.inr hy)
        · exact mem_setUnion.mpr (.inl (h1 y (hg.exprSimple e (mem_all.mpr (.inr he)) y hy)))
      · intro e he y hy
        rcases mem_all.mp he with he | he
        · rcases List.mem_append.mp he with he | he
          · exact mem_setUnion.mpr (.inl (h2 y (hg.exprChained e (mem_all.mpr (.inl he)) y hy)))
          · rw [List.mem_singleton] at he
            subst he
            exact mem_setUnion.mpr (.inr hy)
        · exact mem_setUnion.mpr (.inl (h2 y (hg.exprChained e (mem_all.mpr (.inr he)) y hy)))
    | some k =>
      have hsub : (∀ y ∈ ((dictGet g.subgroups k).getD ⟨[], [], []⟩).simple, y ∈ g.simple) ∧
          (∀ y ∈ ((dictGet g.subgroups k).getD ⟨[], [], []⟩).chained, y ∈ g.chained) ∧
          (∀ y ∈ ((dictGet g.subgroups k).getD ⟨[], [], []⟩).exprs, y ∈ g.all) := by
        cases hd : dictGet g.subgroups k with
        | none => simp
        | some s =>
          have hm : (k, s) ∈ g.subgroups := by
            unfold dictGet at hd
            simp only [Option.map_eq_some_iff] at hd
            obtain ⟨e, he, rfl⟩ := hd
            have h1 := List.find?_some he
            simp only [decide_eq_true_eq] at h1
            rw [← h1]
            exact List.mem_of_find?_eq_some he
          exact ⟨hg.subSimple _ hm, hg.subChained _ hm, fun y hy => mem_all.mpr (.inr ⟨_, _, hm, hy⟩)⟩
      refine ⟨h3 hg.disj, ?_, ?_, ?_, ?_⟩
      · intro e he y hy
        rcases mem_dictSet.mp he with rfl | ⟨he, _⟩
        · rcases mem_setUnion.mp hy with hy | hy
          · exact h1 y (hsub.1 y hy)
          · exact h5 y hy
        · exact h1 y (hg.subSimple e he y hy)
      · intro e he y hy
        rcases mem_dictSet.mp he with rfl | ⟨he, _⟩
        · rcases mem_setUnion.mp hy with hy | hy
          · exact h2 y (hsub.2.1 y hy)
          · exact h6 y hy
        · exact h2 y (hg.subChained e he y hy)
      · intro e he y hy
        rcases mem_all.mp he with he | ⟨k', s, hm, he⟩
        · exact h1 y (hg.exprSimple e (mem_all.mpr (.inl he)) y hy)
        · rcases mem_dictSet.mp hm with hm | ⟨hm, _⟩
          · obtain ⟨rfl, rfl⟩ := Prod.mk.injEq .. ▸ hm
            rcases List.mem_append.mp he with he | he
            · exact h1 y (hg.exprSimple e (hsub.2.2 e he) y hy)
            · rw [List.mem_singleton] at he
              subst he
              exact h5 y hy
          · exact h1 y (hg.exprSimple e (mem_all.mpr (.inr ⟨_, _, hm, he⟩)) y hy)
      · intro e he y hy
        rcases mem_all.mp he with he | ⟨k', s, hm, he⟩
        · exact h2 y (hg.exprChained e (mem_all.mpr (.inl he)) y hy)
        · rcases mem_dictSet.mp hm with hm | ⟨hm, _⟩
          · obtain ⟨rfl, rfl⟩ := Prod.mk.injEq .. ▸ hm
            rcases List.mem_append.mp he with he | he
            · exact h2 y (hg.exprChained e (hsub.2.2 e he) y hy)
            · rw [List.mem_singleton] at he
              subst he
              exact h6 y hy
          · exact h2 y (hg.exprChained e (mem_all.mpr (.inr ⟨_, _, hm, he⟩)) y hy)

theorem GroupInv.step {g : ExprGroup} (hg : GroupInv g) (env : PyEnv) (py : PyParser) (op : GroupOp) :
    GroupInv (groupStep env py g op).1 := by
  cases op with
  | append e k => exact hg.append env py e k
  | clear => exact GroupInv.empty
  | drop k =>
    simp only [groupStep, ExprGroup.dropGroup]
    split
    · exact hg
    · have hm : ∀ e, e ∈ dictDel g.subgroups k → e ∈ g.subgroups := fun e he => (List.mem_filter.mp he).1
      have ha : ∀ e, e ∈ ExprGroup.all { g with subgroups := dictDel g.subgroups k } → e ∈ g.all := by
        intro e he
        rcases mem_all.mp he with he | ⟨k', s, h1, h2⟩
        · exact mem_all.mpr (.inl he)
        · exact mem_all.mpr (.inr ⟨k', s, hm _ h1, h2⟩)
      exact ⟨hg.disj, fun e he => hg.subSimple e (hm e he), fun e he => hg.subChained e (hm e he),
        fun e he => hg.exprSimple e (ha e he), fun e he => hg.exprChained e (ha e he)⟩

theorem GroupInv.run {g : ExprGroup} (hg : GroupInv g) (env : PyEnv) (py : PyParser) (ops : List GroupOp) :
    GroupInv (groupRun env py g ops) := by
  induction ops generalizing g with
  | nil => exact hg
  | cons op ops ih => exact ih (hg.step env py op)

/-! ## C23 -/

/-- **C23** After any history of appended (accepted or rejected, grouped or not) expressions, dropped groups and clears, no
name is recorded both as a simple and as a dotted symbol, nor used in both ways by recorded expressions. -/
theorem C23_disjoint (env : PyEnv) (py : PyParser) (ops : List GroupOp) :
    (∀ x ∈ (groupRun env py ExprGroup.empty ops).itersimple, x ∉ (groupRun env py ExprGroup.empty ops).iterchained) ∧
    (∀ e ∈ (groupRun env py ExprGroup.empty ops).all, ∀ e' ∈ (groupRun env py ExprGroup.empty ops).all,
      ∀ x ∈ e.symbols, x ∉ e'.chains.map (·.1)) := by
  have h := GroupInv.empty.run env py ops
  refine ⟨?_, fun e he e' he' x hx hx' => h.disj x (h.exprSimple e he x hx) (h.exprChained e' he' x hx')⟩
  intro x hx hx'
  have h1 : x ∈ (groupRun env py ExprGroup.empty ops).simple := by
    rcases List.mem_append.mp hx with hx | hx
    · exact hx
    · obtain ⟨e, he, hx⟩ := List.mem_flatMap.mp hx
      exact h.subSimple e he x hx
  have h2 : x ∈ (groupRun env py ExprGroup.empty ops).chained := by
    rcases List.mem_append.mp hx' with hx | hx
    · exact hx
    · obtain ⟨e, he, hx⟩ := List.mem_flatMap.mp hx
      exact h.subChained e he x hx
  exact h.disj x h1 h2

mutual
/-- only the unsupported-syntax error depends on what was recorded before -/
theorem visit_other_error (env : PyEnv) : ∀ (e : PExpr) (s s1 : PSt) (er : Err), visit env e s = (s1, .error er) →
    er ≠ .unsupportedSyntax → ∀ s' s1' e', visit env e s' ≠ (s1', .ok e')
  | .num x, s, s1, er, h, hne, s', s1', e', h' => by simp [visit] at h
  | .bytes x, s, s1, er, h, hne, s', s1', e', h' => by simp [visit] at h
  | .const x, s, s1, er, h, hne, s', s1', e', h' => by simp [visit] at h
  | .str x, s, s1, er, h, hne, s', s1', e', h' => by simp [visit] at h
  | .name n, s, s1, er, h, hne, s', s1', e', h' => by
      rw [visit] at h
      unfold visitName at h
      split at h
      · cases h
      · split at h
        · cases h; exact hne rfl
        · cases h
  | .attr e f, s, s1, er, h, hne, s', s1', e', h' => by
      rw [visit] at h h'
      unfold visitAttr at h h'
      split at h
      · rename_i hn
        rw [hn] at h'; cases h'
      · unfold addChain at h
        split at h
        · cases h; exact hne rfl
        · cases h
  | .unary .not e, s, s1, er, h, hne, s', s1', e', h' => by
      rw [visit] at h h'
      obtain ⟨a, sa, h1, h2⟩ := andThen_ok h'
      rcases andThen_eq h with ⟨e1, g1, g2⟩ | ⟨a, sa, g1, g2⟩
      · cases g2
        exact visit_other_error env e _ _ _ g1 hne _ _ _ h1
      · cases g2
  | .unary .neg e, s, s1, er, h, hne, s', s1', e', h' => by simp [visit] at h
  | .unary .pos e, s, s1, er, h, hne, s', s1', e', h' => by simp [visit] at h'
  | .unary .invert e, s, s1, er, h, hne, s', s1', e', h' => by simp [visit] at h'
  | .bin op l r, s, s1, er, h, hne, s', s1', e', h' => by
      rw [visit] at h h'
      obtain ⟨a, sa, h1, h2⟩ := andThen_ok h'
      obtain ⟨b, sb, h3, h4⟩ := andThen_ok h2
      rcases andThen_eq h with ⟨e1, g1, g2⟩ | ⟨a, sa, g1, g2⟩
      · cases g2
        exact visit_other_error env l _ _ _ g1 hne _ _ _ h1
      · rcases andThen_eq g2 with ⟨e1, g1, g2⟩ | ⟨a, sa, g1, g2⟩
        · cases g2
          exact visit_other_error env r _ _ _ g1 hne _ _ _ h3
        · cases g2
  | .boolop isAnd w ws, s, s1, er, h, hne, s', s1', e', h' => by
      rw [visit] at h h'
      obtain ⟨a, sa, h1, h2⟩ := andThen_ok h'
      obtain ⟨b, sb, h3, h4⟩ := andThen_ok h2
      rcases andThen_eq h with ⟨e1, g1, g2⟩ | ⟨a, sa, g1, g2⟩
      · cases g2
        exact visit_other_error env w _ _ _ g1 hne _ _ _ h1
      · rcases andThen_eq g2 with ⟨e1, g1, g2⟩ | ⟨a, sa, g1, g2⟩
        · cases g2
          exact visitList_other_error env ws _ _ _ g1 hne _ _ _ h3
        · cases g2
  | .compare l op r rest, s, s1, er, h, hne, s', s1', e', h' => by
      rw [visit] at h h'
      obtain ⟨a, sa, h1, h2⟩ := andThen_ok h'
      obtain ⟨b, sb, h3, h4⟩ := andThen_ok h2
      obtain ⟨d, sd, h5, h6⟩ := andThen_ok h4
      rcases andThen_eq h with ⟨e1, g1, g2⟩ | ⟨a, sa, g1, g2⟩
      · cases g2
        exact visit_other_error env l _ _ _ g1 hne _ _ _ h1
      · rcases andThen_eq g2 with ⟨e1, g1, g2⟩ | ⟨a, sa, g1, g2⟩
        · cases g2
          exact visit_other_error env r _ _ _ g1 hne _ _ _ h3
        · rcases andThen_eq g2 with ⟨e1, g1, g2⟩ | ⟨a, sa, g1, g2⟩
          · cases g2
            exact visitCmps_other_error env rest _ _ _ g1 hne _ _ _ h5
          · cases g2
  | .call f args kws, s, s1, er, h, hne, s', s1', e', h' => by
      by_cases hf1 : ∃ n, f = .name n
      · obtain ⟨n, rfl⟩ := hf1
        rw [visit] at h h'
        by_cases hfn : env.isFunction n = true
        · rw [if_pos hfn] at h h'
          obtain ⟨a, sa, h1, h2⟩ := andThen_ok h'
          rcases andThen_eq h with ⟨e1, g1, g2⟩ | ⟨a, sa, g1, g2⟩
          · cases g2
            exact visitList_other_error env args _ _ _ g1 hne _ _ _ h1
          · cases g2
        · rw [if_neg hfn] at h'
          cases h'
      · by_cases hf2 : ∃ e n, f = .attr e n
        · obtain ⟨e, n, rfl⟩ := hf2
          rw [visit] at h h'
          unfold visitMethod at h h'
          split at h
          · rename_i hn
            rw [hn] at h'; cases h'
          · rename_i hn
            rw [hn] at h'; cases h'
          · rename_i name fn path hn
            simp only [hn] at h'
            by_cases hagg : fn ∉ aggregations
            · rw [if_pos hagg] at h'; cases h'
            · rw [if_neg hagg] at h h'
              split at h
              · cases h'
              · cases h'
              · unfold addChain at h
                split at h
                · cases h; exact hne rfl
                · cases h
        · have hf1' : ∀ n, f ≠ .name n := fun n h => hf1 ⟨n, h⟩
          have hf2' : ∀ e n, f ≠ .attr e n := fun e n h => hf2 ⟨e, n, h⟩
          rw [visit_call_other env hf1' hf2'] at h h'
          obtain ⟨a, sa, h1, h2⟩ := andThen_ok h'
          obtain ⟨b, sb, h3, h4⟩ := andThen_ok h2
          obtain ⟨d, sd, h5, h6⟩ := andThen_ok h4
          rcases andThen_eq h with ⟨e1, g1, g2⟩ | ⟨a, sa, g1, g2⟩
          · cases g2
            exact visit_other_error env f _ _ _ g1 hne _ _ _ h1
          · rcases andThen_eq g2 with ⟨e1, g1, g2⟩ | ⟨a, sa, g1, g2⟩
            · cases g2
              exact visitList_other_error env args _ _ _ g1 hne _ _ _ h3
            · rcases andThen_eq g2 with ⟨e1, g1, g2⟩ | ⟨a, sa, g1, g2⟩
              · cases g2
                exact visitList_other_error env kws _ _ _ g1 hne _ _ _ h5
              · cases g2
  | .dict items, s, s1, er, h, hne, s', s1', e', h' => by
      rw [visit] at h h'
      unfold visitDict at h h'
      by_cases hm : env.mode = .utilities
      · rw [if_pos hm] at h'; cases h'
      · rw [if_neg hm] at h h'
        split at h
        · rename_i hd
          simp only [hd] at h'
          cases h'
        · cases h
  | .banned _, s, s1, er, h, hne, s', s1', e', h' => by simp [visit] at h'
  | .display es, s, s1, er, h, hne, s', s1', e', h' => by
      rw [visit] at h'
      obtain ⟨a, sa, h1, h2⟩ := andThen_ok h'
      cases h2
  | .other es, s, s1, er, h, hne, s', s1', e', h' => by
      rw [visit] at h h'
      obtain ⟨a, sa, h1, h2⟩ := andThen_ok h'
      rcases andThen_eq h with ⟨e1, g1, g2⟩ | ⟨a, sa, g1, g2⟩
      · cases g2
        exact visitList_other_error env es _ _ _ g1 hne _ _ _ h1
      · cases g2
theorem visitList_other_error (env : PyEnv) : ∀ (es : PList) (s s1 : PSt) (er : Err), visitList env es s = (s1, .error er) →
    er ≠ .unsupportedSyntax → ∀ s' s1' e', visitList env es s' ≠ (s1', .ok e')
  | .nil, s, s1, er, h, hne, s', s1', e', h' => by simp [visitList] at h
  | .cons e es, s, s1, er, h, hne, s', s1', e', h' => by
      rw [visitList] at h h'
      obtain ⟨a, sa, h1, h2⟩ := andThen_ok h'
      obtain ⟨b, sb, h3, h4⟩ := andThen_ok h2
      rcases andThen_eq h with ⟨e1, g1, g2⟩ | ⟨a, sa, g1, g2⟩
      · cases g2
        exact visit_other_error env e _ _ _ g1 hne _ _ _ h1
      · rcases andThen_eq g2 with ⟨e1, g1, g2⟩ | ⟨a, sa, g1, g2⟩
        · cases g2
          exact visitList_other_error env es _ _ _ g1 hne _ _ _ h3
        · cases g2
theorem visitCmps_other_error (env : PyEnv) : ∀ (es : PCmps) (s s1 : PSt) (er : Err), visitCmps env es s = (s1, .error er) →
    er ≠ .unsupportedSyntax → ∀ s' s1' e', visitCmps env es s' ≠ (s1', .ok e')
  | .nil, s, s1, er, h, hne, s', s1', e', h' => by simp [visitCmps] at h
  | .cons op e es, s, s1, er, h, hne, s', s1', e', h' => by
      rw [visitCmps] at h h'
      obtain ⟨a, sa, h1, h2⟩ := andThen_ok h'
      obtain ⟨b, sb, h3, h4⟩ := andThen_ok h2
      rcases andThen_eq h with ⟨e1, g1, g2⟩ | ⟨a, sa, g1, g2⟩
      · cases g2
        exact visit_other_error env e _ _ _ g1 hne _ _ _ h1
      · rcases andThen_eq g2 with ⟨e1, g1, g2⟩ | ⟨a, sa, g1, g2⟩
        · cases g2
          exact visitCmps_other_error env es _ _ _ g1 hne _ _ _ h3
        · cases g2
end

/-- the tree uses a name in the way opposite to an earlier or another use -/
def Conflict (tree : PExpr) (simple chained : List Str) : Prop :=
  (∃ x ∈ simpleNames tree, x ∈ chained) ∨ (∃ x ∈ tableNames tree, x ∈ simple) ∨ (∃ x ∈ simpleNames tree, x ∈ tableNames tree)

theorem visit_conflict (env : PyEnv) (tree : PExpr) (simple chained : List Str) (hd : ∀ x ∈ simple, x ∉ chained)
    (hc : Conflict tree simple chained) (s : PSt) (e' : PExpr) : visit env tree (freshParser simple chained) ≠ (s, .ok e') := by
  intro hv
  obtain ⟨hi, he⟩ := visit_inv env tree _ (PInv.fresh simple chained) _ _ hv
  have ha := visit_adds env tree _ _ _ (PInv.fresh simple chained) hv
  have hdis := he.disj hd
  have hsi : ∀ x ∈ simpleNames tree, x ∈ s.simple := fun x hx => hi.visited x ((ha.visited x).mpr (.inr hx))
  have hta : ∀ x ∈ tableNames tree, x ∈ s.chainedAll := by
    intro x hx
    obtain ⟨e, h1, rfl⟩ := List.mem_map.mp ((ha.keys x).mpr (.inr hx))
    exact hi.tables e h1
  rcases hc with ⟨x, h1, h2⟩ | ⟨x, h1, h2⟩ | ⟨x, h1, h2⟩
  · exact hdis x (hsi x h1) (he.chained x h2)
  · exact hdis x (he.simple x h2) (hta x h1)
  · exact hdis x (hsi x h1) (hta x h2)

/-- **C23 (rejection)** After any history, an expression that uses a name in the way opposite to a recorded one (or in both
ways itself) is rejected, with UnsupportedSyntaxError if it would be accepted by an empty model or its only defect is
the double use. -/
theorem C23_rejected (env : PyEnv) (py : PyParser) (ops : List GroupOp) (e text : Str) (filt : Option Str) (tree : PExpr)
    (k : Option Nat) (hs : splitFilter e = .ok (text, filt)) (hp : py text = .ok tree)
    (hc : Conflict tree (groupRun env py ExprGroup.empty ops).itersimple (groupRun env py ExprGroup.empty ops).iterchained) :
    ∃ er, ((groupRun env py ExprGroup.empty ops).append env py e k).2 = .error er ∧
      ((∃ s0 s1 e', visit env tree s0 = (s1, .ok e')) → er = .unsupportedSyntax) := by
  have hg := GroupInv.empty.run env py ops
  generalize groupRun env py ExprGroup.empty ops = g at hc hg
  have hc' : Conflict tree g.simple g.chained := by
    have h1 : ∀ x ∈ g.iterchained, x ∈ g.chained := by
      intro x hx
      rcases List.mem_append.mp hx with hx | hx
      · exact hx
      · obtain ⟨e, he, hx⟩ := List.mem_flatMap.mp hx
        exact hg.subChained e he x hx
    have h2 : ∀ x ∈ g.itersimple, x ∈ g.simple := by
      intro x hx
      rcases List.mem_append.mp hx with hx | hx
      · exact hx
      · obtain ⟨e, he, hx⟩ := List.mem_flatMap.mp hx
        exact hg.subSimple e he x hx
    rcases hc with ⟨x, a, b⟩ | ⟨x, a, b⟩ | h
    · exact .inl ⟨x, a, h1 x b⟩
    · exact .inr (.inl ⟨x, a, h2 x b⟩)
    · exact .inr (.inr h)
  rcases hv : visit env tree (freshParser g.simple g.chained) with ⟨s, r⟩
  cases r with
  | ok e' => exact absurd hv (visit_conflict env tree _ _ hg.disj hc' _ _)
  | error er =>
    refine ⟨er, ?_, ?_⟩
    · unfold ExprGroup.append parse
      unfold freshParser at hv
      simp only [hs, hp, hv]
    · rintro ⟨s0, s1, e', h⟩
      by_contra hne
      exact visit_other_error env tree _ _ _ hv hne _ _ _ h

/-- a parser for the examples: it knows three texts -/
def exPy : PyParser := fun t =>
  if t = exX then .ok (.name exX)
  else if t = exA then .ok (.attr (.name exX) exA)
  else if t = exB then .ok (.bin .add (.name exX) (.call (.name exB) (.cons (.name exA) .nil) .nil))
  else .error .syntaxErr

theorem ex_split (c : Char) (h : c ≠ '@') : splitFilter [c] = .ok ([c], none) := by
  simp [splitFilter, splitOn, h]

theorem exX_append (env : PyEnv) (k : Option Nat) (g : ExprGroup) (h : exX ∉ g.chained) :
    parse env exPy exX g.simple g.chained =
      ((setAdd g.simple exX, g.chained), .ok ⟨exX, .name exX, [], [], none, [exX]⟩) := by
  have h1 : isNanName exX = false := by decide
  have h2 : splitFilter exX = .ok (exX, none) := ex_split 'x' (by decide)
  have h3 : exPy exX = .ok (.name exX) := rfl
  simp only [parse, h2, h3, visit, visitName, h1, if_neg h, Bool.false_eq_true, if_false]
  simp [setAdd]

/-- the hypotheses of C23_rejected are met: after `x`, the expression `x.a` -/
example (env : PyEnv) : ∃ ops text filt tree, splitFilter exA = .ok (text, filt) ∧ exPy text = .ok tree ∧
    Conflict tree (groupRun env exPy ExprGroup.empty ops).itersimple (groupRun env exPy ExprGroup.empty ops).iterchained := by
  refine ⟨[.append exX none], exA, none, .attr (.name exX) exA, ex_split 'a' (by decide), rfl, .inr (.inl ⟨exX, ?_, ?_⟩)⟩
  · simp [tableNames, rootName]
  · have := exX_append env none ExprGroup.empty (by simp [ExprGroup.empty])
    simp only [groupRun, List.foldl_cons, List.foldl_nil, groupStep, ExprGroup.append, this]
    simp [ExprGroup.itersimple, mem_setUnion]

/-- **C23 (violated by copies)** A copy of a group (as made by `model.copy()`) forgets the symbols of the grouped
expressions: if `x` was used in a named group, the copy accepts `x.a`, and then `x` plays both roles. -/
theorem C23_copy_refuted (env : PyEnv) : ∃ ops : List GroupOp,
    let g := ((groupRun env exPy ExprGroup.empty ops).copy.append env exPy exA none)
    g.2 = .ok () ∧ exX ∈ g.1.itersimple ∧ exX ∈ g.1.iterchained := by
  refine ⟨[.append exX (some 0)], ?_⟩
  have h0 := exX_append env none ExprGroup.empty (by simp [ExprGroup.empty])
  have h1 : (groupRun env exPy ExprGroup.empty [.append exX (some 0)]).copy =
      ⟨[], [], [], [(0, ⟨[exX], [], [⟨exX, .name exX, [], [], none, [exX]⟩]⟩)]⟩ := by
    simp only [groupRun, List.foldl_cons, List.foldl_nil, groupStep, ExprGroup.append, h0]
    simp [ExprGroup.copy, ExprGroup.empty, dictGet, dictSet, SubGroup.append, SubGroup.rebuild, setUnion, setAdd]
  have h2 : splitFilter exA = .ok (exA, none) := ex_split 'a' (by decide)
  have h3 : exPy exA = .ok (.attr (.name exX) exA) := rfl
  simp only [h1]
  simp only [ExprGroup.append, parse, h2, h3, visit, visitAttr, nameOfAttr, addChain, List.not_mem_nil, if_false]
  simp [ExprGroup.itersimple, ExprGroup.iterchained, dictGet, dictSet, setAdd, setUnion]

/-- **C23 (violated by sums)** Adding two groups does not check the roles either. -/
theorem C23_plus_refuted (env : PyEnv) : ∃ ops ops' : List GroupOp,
    let g := (groupRun env exPy ExprGroup.empty ops).plus (groupRun env exPy ExprGroup.empty ops')
    exX ∈ g.itersimple ∧ exX ∈ g.iterchained := by
  refine ⟨[.append exX none], [.append exA none], ?_⟩
  have h0 := exX_append env none ExprGroup.empty (by simp [ExprGroup.empty])
  have h2 : splitFilter exA = .ok (exA, none) := ex_split 'a' (by decide)
  have h3 : exPy exA = .ok (.attr (.name exX) exA) := rfl
  constructor
  · apply List.mem_append_left
    simp only [groupRun, List.foldl_cons, List.foldl_nil, groupStep, ExprGroup.append, h0, ExprGroup.plus]
    simp [mem_setUnion]
  · apply List.mem_append_left
    simp only [groupRun, List.foldl_cons, List.foldl_nil, groupStep, ExprGroup.append, ExprGroup.plus, parse, h2, h3, visit, visitAttr,
      nameOfAttr, addChain, ExprGroup.empty, List.not_mem_nil, if_false]
    simp [mem_setUnion, dictGet, dictSet, setAdd]

/-! ## C24 -/

/-- **C24 (partial)** If appending an expression raises, the recorded expressions and groups are unchanged, and no symbol is
forgotten. Missing: the required symbols are unchanged (see below). -/
theorem C24_rejected_partial (env : PyEnv) (py : PyParser) (g : ExprGroup) (e : Str) (k : Option Nat) (er : Err)
    (h : (g.append env py e k).2 = .error er) :
    (g.append env py e k).1.ungrouped = g.ungrouped ∧ (g.append env py e k).1.subgroups = g.subgroups ∧
    (g.append env py e k).1.all = g.all ∧ (∀ x ∈ g.itersimple, x ∈ (g.append env py e k).1.itersimple) ∧
    (∀ x ∈ g.iterchained, x ∈ (g.append env py e k).1.iterchained) := by
  unfold ExprGroup.append at *
  rcases hp : parse env py e g.simple g.chained with ⟨⟨si, ch⟩, r⟩
  obtain ⟨h1, h2, _⟩ := parse_spec env py e _ _ _ _ _ hp
  rw [hp] at h
  cases r with
  | error er =>
    refine ⟨rfl, rfl, rfl, ?_, ?_⟩
    · intro x hx
      rcases List.mem_append.mp hx with hx | hx
      · exact List.mem_append_left _ (h1 x hx)
      · exact List.mem_append_right _ hx
    · intro x hx
      rcases List.mem_append.mp hx with hx | hx
      · exact List.mem_append_left _ (h2 x hx)
      · exact List.mem_append_right _ hx
  | ok x => cases k <;> cases h

/-- **C24 (syntax errors)** An expression that Python cannot parse, or with more than one '@', leaves everything unchanged. -/
theorem C24_syntax_error (env : PyEnv) (py : PyParser) (g : ExprGroup) (e : Str) (k : Option Nat)
    (h : (∃ er, splitFilter e = .error er) ∨ ∃ text filt er, splitFilter e = .ok (text, filt) ∧ py text = .error er) :
    (g.append env py e k).1 = g ∧ ∃ er, (g.append env py e k).2 = .error er := by
  rcases h with ⟨er, h⟩ | ⟨text, filt, er, h1, h2⟩
  · simp [ExprGroup.append, parse, h]
  · simp [ExprGroup.append, parse, h1, h2]

/-- **C24 (violated)** Appending `x + b(a)` with an unknown function `b` raises, but `x` stays recorded: the empty model now
requires `x` (and `x.a` would be rejected). -/
theorem C24_symbols_refuted (env : PyEnv) (hb : env.isFunction exB = false) :
    ∃ er, (ExprGroup.empty.append env exPy exB none).2 = .error er ∧ ExprGroup.empty.itersimple = [] ∧
      (ExprGroup.empty.append env exPy exB none).1.itersimple = [exX] := by
  have h1 : isNanName exX = false := by decide
  have h2 : splitFilter exB = .ok (exB, none) := ex_split 'b' (by decide)
  have h3 : exPy exB = .ok (.bin .add (.name exX) (.call (.name exB) (.cons (.name exA) .nil) .nil)) := rfl
  have : parse env exPy exB ExprGroup.empty.simple ExprGroup.empty.chained = (([exX], []), .error .unsupportedSyntax) := by
    simp [parse, h2, h3, visit, visitName, h1, hb, ExprGroup.empty, setAdd, andThen]
  refine ⟨.unsupportedSyntax, ?_, rfl, ?_⟩
  · simp only [ExprGroup.append, this]
  · simp only [ExprGroup.append, this]; rfl

end Cheval
