import Verif.Props.Sampling
import Verif.Props.TreeReplace
import Verif.Props.ZeroProb
import Verif.Props.Expr

/-!
# Where exactly the violated properties fail (C03, C18, C26)
-/
namespace Cheval
open FOps Spec B64

section
variable {F : Type} [FOps F] [FLaws F]

/-- **C03 (exactly when it fails)** For non-negative probabilities and a draw of at least MIN_RANDOM_VALUE, both sampling paths select a
choice of probability 0 exactly if the draw exceeds the computed total and the last choice has probability 0; it then is the last choice. -/
theorem C03_iff (ps : List F) (r : F) (hne : ps ≠ []) (hps : ∀ p ∈ ps, le zero p = true) (hr : le (tiny : F) r = true) :
    ∃ (k : Nat) (h : k < ps.length), sampleOnce ps r = (k : Int) ∧ logSearch r (nbfCumsum ps) = some k ∧
      (lt zero ps[k] = false ↔ lt (sumF ps) r = true ∧ lt zero (ps.getLast hne) = false) ∧
      (lt zero ps[k] = false → k + 1 = ps.length) := by
  have hrn : isNan r = false := (FLaws.le_notNan _ _ hr).2
  have hz : le (zero : F) zero = true := FLaws.le_refl _ FLaws.zero_notNan
  have hsn : isNan (sumF ps) = false := (FLaws.le_notNan _ _ (foldl_add_nonneg zero ps hz hps).1).2
  cases hc : le r (sumF ps) with
  | true =>
    obtain ⟨k, hk, h1, h2, h3⟩ := C03_positive_partial ps r hne hps hr hc
    refine ⟨k, hk, h1, h2, ?_, by simp [h3]⟩
    rw [FLaws.lt_iff (sumF ps)]
    simp [h3, hc]
  | false =>
    obtain ⟨k, hks, hk⟩ := C02_search_eq_scan ps r hne hps hr
    obtain ⟨⟨_, hlt⟩, hiff⟩ := C01_single_draw ps r hne hps hr
    have hkl : k < ps.length := by rw [hk] at hlt; exact_mod_cast hlt
    obtain ⟨_, h2⟩ := (hiff k hkl).mp hk
    have hlast : k + 1 = ps.length := by
      rcases h2 with h2 | h2
      · exfalso
        have hs := foldl_add_nonneg (sumF (ps.take (k + 1))) (ps.drop (k + 1))
          (foldl_add_nonneg zero _ hz fun p hp => hps p (List.mem_of_mem_take hp)).1 fun p hp => hps p (List.mem_of_mem_drop hp)
        have e : (ps.drop (k + 1)).foldl add (sumF (ps.take (k + 1))) = sumF ps := by
          unfold sumF
          rw [← List.foldl_append, List.take_append_drop]
        rw [e] at hs
        have := FLaws.le_trans _ _ _ h2 hs.2
        rw [hc] at this
        cases this
      · exact h2
    refine ⟨k, hkl, hk, hks, ?_, fun _ => hlast⟩
    have hg : ps.getLast hne = ps[k] := by
      rw [List.getLast_eq_getElem]
      have : ps.length - 1 = k := by omega
      simp only [this]
    have ht : lt (sumF ps) r = true := (FLaws.lt_iff _ _).mpr ⟨hsn, hrn, hc⟩
    simp [hg, ht]

/-- both sides of `C03_iff` hold for the row and the draw of `C03_zero_probability_refuted` -/
example : ∃ (ps : List F64) (r : F64) (hne : ps ≠ []), (∀ p ∈ ps, le zero p = true) ∧ le (tiny : F64) r = true ∧
    lt (sumF ps) r = true ∧ lt zero (ps.getLast hne) = false := by
  obtain ⟨ps, r, k, hk, h1, _, h3, _, h5, h6, _⟩ := C03_zero_probability_refuted
  have hne : ps ≠ [] := by rintro rfl; simp at hk
  obtain ⟨k', hk', e1, _, e3, _⟩ := C03_iff ps r hne h1 h3
  have : k = k' := by rw [h6] at e1; exact_mod_cast e1
  subst this
  have hz : lt (zero : F64) zero = false := by
    cases h : lt (zero : F64) zero with
    | false => rfl
    | true => have := ((FLaws.lt_iff _ _).mp h).2.2; rw [FLaws.le_refl _ FLaws.zero_notNan] at this; cases this
  exact ⟨ps, r, hne, h1, h3, e3.mp (by rw [h5]; exact hz)⟩

/-- **C18 (exactly when it fails)** A rejected call leaves the model unchanged exactly if no choice has the name under which the new one would
have been registered - the name itself, or the path of the parent followed by the name; from any state. -/
theorem C18_iff (st : TreeSt F) (op : TreeOp F) (e : Err) (he : (treeStep st op).2 = .error e) :
    (treeStep st op).1 = st ↔ match (generalizing := false) op with
      | .addTop n _ => n ∉ st.all.map (·.1)
      | .addChild h n _ => fullName st.nodes h ++ ['.'] ++ n ∉ st.all.map (·.1)
      | .setScale _ _ => True := by
  refine ⟨fun h => ?_, fun h => C18_rejected_partial st op e he (by cases op <;> exact h)⟩
  cases op with
  | addTop n sc =>
    simp only
    intro hm
    have : (treeStep st (.addTop n sc)).1.all = dictDel st.all n := by
      obtain ⟨old, ho⟩ : ∃ old, dictGet st.all n = some old := by
        cases hg : dictGet st.all n with
        | none => exact absurd hm (dictGet_eq_none.mp hg)
        | some o => exact ⟨o, rfl⟩
      simp only [treeStep, addTop, createNode, ho, finishCreate] at he ⊢
      by_cases ht : old ∈ st.top
      · by_cases hl : nodeLegal n sc = true
        · simp [hl, ht] at he
        · simp [hl, ht]
      · simp [ht]
    rw [h] at this
    exact dictDel_not_mem st.all n (this ▸ hm)
  | addChild hd n sc =>
    simp only
    intro hm
    have : (treeStep st (.addChild hd n sc)).1.all = dictDel st.all (fullName st.nodes hd ++ ['.'] ++ n) := by
      simp only [treeStep, addChild, createNode, expectedName, finishCreate] at he ⊢
      by_cases hl : nodeLegal n sc = true
      · simp [hl] at he
      · simp [hl]
    rw [h] at this
    exact dictDel_not_mem st.all (fullName st.nodes hd ++ ['.'] ++ n) (this ▸ hm)
  | setScale h v => trivial

/-- **C18 (what is lost)** The choice registered under that name is gone from the list of choices after a rejected call, all others stay, in order. -/
theorem C18_lost (st : TreeSt F) (op : TreeOp F) (e : Err) (he : (treeStep st op).2 = .error e) :
    (treeStep st op).1.nodes = st.nodes ∧ (treeStep st op).1.all = match (generalizing := false) op with
      | .addTop n _ => st.all.filter fun x => decide (x.1 ≠ n)
      | .addChild h n _ => st.all.filter fun x => decide (x.1 ≠ fullName st.nodes h ++ ['.'] ++ n)
      | .setScale _ _ => st.all := by
  cases op with
  | addTop n sc =>
    simp only [treeStep, addTop, createNode, finishCreate] at he ⊢
    cases hg : dictGet st.all n with
    | none =>
      simp only [hg] at he ⊢
      by_cases hl : nodeLegal n sc = true
      · simp [hl] at he
      · simp only [hl]
        exact ⟨rfl, (dictDel_of_not_mem (dictGet_eq_none.mp hg)).symm⟩
    | some old =>
      simp only [hg] at he ⊢
      by_cases ht : old ∈ st.top
      · by_cases hl : nodeLegal n sc = true
        · simp [hl, ht] at he
        · simp [hl, ht, dictDel]
      · simp [ht, dictDel]
  | addChild h n sc =>
    simp only [treeStep, addChild, createNode, expectedName, finishCreate] at he ⊢
    by_cases hl : nodeLegal n sc = true
    · simp [hl] at he
    · simp [hl, dictDel]
  | setScale h v =>
    simp only [treeStep, setScale] at he ⊢
    split
    · rename_i hl; simp [hl] at he
    · exact ⟨rfl, rfl⟩

/-- `C18_lost` applied to the rejected call of `C18_rejected_refuted` -/
example (h01 : lt (zero : F) one = true) (h11 : le (one : F) one = true) (h00 : lt (zero : F) zero = false) :
    let ops : List (TreeOp F) := [.addTop ['B'] one, .addTop ['C'] one, .addTop ['A'] one]
    (treeStep (after ops) (.addTop ['A'] zero)).1.all = (after ops).all.filter (fun x => decide (x.1 ≠ ['A'])) ∧
    (treeStep (after ops) (.addTop ['A'] zero)).1 ≠ after ops := by
  intro ops
  have he := (C18_rejected_refuted h01 h11 h00).1
  change (treeStep (after ops) (.addTop ['A'] zero)).2 = _ at he
  refine ⟨(C18_lost _ _ _ he).2, fun h => ?_⟩
  have := (C18_iff _ _ _ he).mp h
  refine this ?_
  simp [ops, after, treeRun, treeStep, addTop, createNode, finishCreate, nodeLegal, h01, h11, TreeSt.empty, expectedName, dictGet, dictSet]

end

/-- **C26 (exactly when it fails)** The lookups of an expression on the tables `a` and `b` share a substitution name exactly if `a` followed by the number
of one of the lookups on `a` spells the same as `b` followed by the number of one of the lookups on `b` (lookups on a table are numbered from 0). -/
theorem C26_iff (env : PyEnv) (simple chained : List Str) (e : PExpr) (s : PSt) (r : Except Err PExpr)
    (hv : visit env e (freshParser simple chained) = (s, r)) (a b : Str) :
    (∃ x ∈ subs s, ∃ y ∈ subs s, x.2.1 = a ∧ y.2.1 = b ∧ x.1 = y.1) ↔
      ∃ i < ((subs s).filter fun x => decide (x.2.1 = a)).length, ∃ j < ((subs s).filter fun x => decide (x.2.1 = b)).length,
        a ++ decimal i = b ++ decimal j := by
  have hi := (visit_inv env e _ (PInv.fresh simple chained) _ _ hv).1
  -- the lookups on one table
  have key : ∀ t, ∃ ls : List (Str × Chain), ((∃ l, (t, l) ∈ s.chains) → (t, ls) ∈ s.chains) ∧ ls.map (·.1) = (List.range ls.length).map (subName t) ∧
      (subs s).filter (fun x => decide (x.2.1 = t)) = ls.map fun l => (l.1, t, l.2) := by
    intro t
    have hnd := hi.keys
    have hnames := hi.names
    unfold subs
    generalize s.chains = d at hnd hnames
    induction d with
    | nil => exact ⟨[], by simp⟩
    | cons c d ih =>
      simp only [List.map_cons, List.nodup_cons] at hnd
      obtain ⟨ls, h1, h2, h3⟩ := ih hnd.2 fun e he => hnames e (List.mem_cons_of_mem _ he)
      simp only [List.flatMap_cons, List.filter_append]
      by_cases hc : c.1 = t
      · refine ⟨c.2, fun _ => by rw [← hc]; exact List.mem_cons_self .., by rw [← hc]; exact hnames c (List.mem_cons_self ..), ?_⟩
        have e1 : List.filter (fun x : Str × Str × Chain => decide (x.2.1 = t)) (d.flatMap fun x => x.2.map fun l => (l.1, x.1, l.2)) = [] := by
          rw [List.filter_eq_nil_iff]
          intro x hx
          obtain ⟨y, hy, hx⟩ := List.mem_flatMap.mp hx
          obtain ⟨l, hl, rfl⟩ := List.mem_map.mp hx
          simp only [decide_eq_true_eq]
          intro he
          exact hnd.1 (List.mem_map.mpr ⟨y, hy, by rw [he, hc]⟩)
        refine Eq.trans (congrArg (_ ++ ·) e1) ?_
        rw [List.append_nil, List.filter_eq_self.mpr]
        · rw [← hc]
        · intro x hx
          obtain ⟨l, hl, rfl⟩ := List.mem_map.mp hx
          simp [hc]
      · refine ⟨ls, ?_, h2, ?_⟩
        · rintro ⟨l, hl⟩
          rcases List.mem_cons.mp hl with rfl | hl
          · exact absurd rfl hc
          · exact List.mem_cons_of_mem _ (h1 ⟨l, hl⟩)
        · have e1 : List.filter (fun x : Str × Str × Chain => decide (x.2.1 = t)) (c.2.map fun l => (l.1, c.1, l.2)) = [] := by
            rw [List.filter_eq_nil_iff]
            intro x hx
            obtain ⟨l, hl, rfl⟩ := List.mem_map.mp hx
            simp [hc]
          refine Eq.trans (congrArg (· ++ _) e1) ?_
          rw [List.nil_append]
          exact h3
  have sub_iff : ∀ t (n : Str), (∃ x ∈ subs s, x.2.1 = t ∧ x.1 = n) ↔
      ∃ i < ((subs s).filter fun x => decide (x.2.1 = t)).length, subName t i = n := by
    intro t n
    obtain ⟨ls, _, h2, h3⟩ := key t
    rw [h3, List.length_map]
    have : (∃ x ∈ subs s, x.2.1 = t ∧ x.1 = n) ↔ n ∈ ls.map (·.1) := by
      constructor
      · rintro ⟨x, hx, ht, rfl⟩
        have hm : x ∈ (subs s).filter fun x => decide (x.2.1 = t) := List.mem_filter.mpr ⟨hx, by simpa using ht⟩
        rw [h3] at hm
        obtain ⟨l, hl, rfl⟩ := List.mem_map.mp hm
        exact List.mem_map.mpr ⟨l, hl, rfl⟩
      · intro hm
        obtain ⟨l, hl, rfl⟩ := List.mem_map.mp hm
        have : (l.1, t, l.2) ∈ (subs s).filter fun x => decide (x.2.1 = t) := by
          rw [h3]; exact List.mem_map.mpr ⟨l, hl, rfl⟩
        exact ⟨_, (List.mem_filter.mp this).1, rfl, rfl⟩
    rw [this, h2]
    simp [List.mem_map]
  constructor
  · rintro ⟨x, hx, y, hy, ha, hb, hxy⟩
    obtain ⟨i, hi', h1⟩ := (sub_iff a x.1).mp ⟨x, hx, ha, rfl⟩
    obtain ⟨j, hj', h2⟩ := (sub_iff b x.1).mp ⟨y, hy, hb, hxy.symm⟩
    refine ⟨i, hi', j, hj', ?_⟩
    rw [← h2] at h1
    unfold subName at h1
    rw [List.append_assoc, List.append_assoc, List.append_cancel_left_eq] at h1
    exact h1
  · rintro ⟨i, hi', j, hj', hij⟩
    have h1 : subName a i = subName b j := by unfold subName; rw [List.append_assoc, List.append_assoc, hij]
    obtain ⟨x, hx, ha, hx1⟩ := (sub_iff a (subName a i)).mpr ⟨i, hi', rfl⟩
    obtain ⟨y, hy, hb, hy1⟩ := (sub_iff b (subName a i)).mpr ⟨j, hj', h1.symm⟩
    exact ⟨x, hx, y, hy, ha, hb, hx1.trans hy1.symm⟩

/-- the collision of `C26_collision_refuted`, by `C26_iff`: `a` followed by 10 is `a1` followed by 0 -/
example (env : PyEnv) : ∃ e' s, visit env (.bin .add (manyLookups 10) (.attr (.name exA1) exB)) (freshParser [] []) = (s, .ok e') ∧
    ∃ i < ((subs s).filter fun x => decide (x.2.1 = exA)).length, ∃ j < ((subs s).filter fun x => decide (x.2.1 = exA1)).length,
      exA ++ decimal i = exA1 ++ decimal j := by
  obtain ⟨e', s, sub, hv, h1, h2, _⟩ := C26_collision_refuted env
  exact ⟨e', s, hv, (C26_iff env [] [] _ s _ hv exA exA1).mp ⟨_, h1, _, h2, rfl, rfl, rfl⟩⟩

end Cheval
