import Verif.Props.Reachable

/-!
# Evaluation commutes with the selection of rows

`ps` are the positions of the selected rows, out of `n`. Lemmas for C41.
-/
namespace Cheval
open FOps Spec
variable {U F : Type} [FOps F]

mutual
theorem ne_congr (M : Arith F) (loc loc' : Str → Option (Val F)) :
    ∀ (e : PExpr), (∀ id ∈ freeNames e, loc id = loc' id) → ne M loc e = ne M loc' e
  | .num x, _ => by simp [ne]
  | .bytes x, _ => by simp [ne]
  | .str x, _ => by simp [ne]
  | .const c, _ => by cases c <;> simp [ne]
  | .name id, h => by simp only [ne]; exact h id (by simp [freeNames])
  | .attr _ _, _ => by simp [ne]
  | .unary op e, h => by
    have he := ne_congr M loc loc' e (fun id hid => h id (by simpa [freeNames] using hid))
    cases op <;> simp only [ne, he]
  | .bin op l r, h => by
    have h1 := ne_congr M loc loc' l (fun id hid => h id (by simp [freeNames, hid]))
    have h2 := ne_congr M loc loc' r (fun id hid => h id (by simp [freeNames, hid]))
    simp only [ne, h1, h2]
  | .boolop _ _ _, _ => by simp [ne]
  | .compare l op r .nil, h => by
    have h1 := ne_congr M loc loc' l (fun id hid => h id (by simp [freeNames, hid]))
    have h2 := ne_congr M loc loc' r (fun id hid => h id (by simp [freeNames, hid]))
    simp only [ne, h1, h2]
  | .compare _ _ _ (.cons _ _ _), _ => by simp [ne]
  | .call (.name f) args .nil, h => by
    have h1 := neList_congr M loc loc' args (fun id hid => h id (by simp [freeNames, hid]))
    simp only [ne, h1]
  | .call (.name f) args (.cons _ _), _ => by simp [ne]
  | .call (.num _) _ _, _ => by simp [ne]
  | .call (.str _) _ _, _ => by simp [ne]
  | .call (.bytes _) _ _, _ => by simp [ne]
  | .call (.const _) _ _, _ => by simp [ne]
  | .call (.attr _ _) _ _, _ => by simp [ne]
  | .call (.unary _ _) _ _, _ => by simp [ne]
  | .call (.bin _ _ _) _ _, _ => by simp [ne]
  | .call (.boolop _ _ _) _ _, _ => by simp [ne]
  | .call (.compare _ _ _ _) _ _, _ => by simp [ne]
  | .call (.call _ _ _) _ _, _ => by simp [ne]
  | .call (.dict _) _ _, _ => by simp [ne]
  | .call (.banned _) _ _, _ => by simp [ne]
  | .call (.display _) _ _, _ => by simp [ne]
  | .call (.other _) _ _, _ => by simp [ne]
  | .dict _, _ => by simp [ne]
  | .banned _, _ => by simp [ne]
  | .display _, _ => by simp [ne]
  | .other _, _ => by simp [ne]
theorem neList_congr (M : Arith F) (loc loc' : Str → Option (Val F)) :
    ∀ (es : PList), (∀ id ∈ freeNamesL es, loc id = loc' id) → neList M loc es = neList M loc' es
  | .nil, _ => by simp [neList]
  | .cons e es, h => by
    have h1 := ne_congr M loc loc' e (fun id hid => h id (by simp [freeNamesL, hid]))
    have h2 := neList_congr M loc loc' es (fun id hid => h id (by simp [freeNamesL, hid]))
    simp only [neList, h1, h2]
end

/-! ## arrays and dictionaries -/

/-- the same single row, or the selected rows -/
def RowsArr (n : Nat) (ps : List Nat) (a a' : Arr F) : Prop :=
  a'.cols = a.cols ∧ ((a.rows = 1 ∧ a' = a) ∨
    (a.rows = n ∧ a'.rows = ps.length ∧ ∀ i (_ : i < ps.length), ∀ j, a'.val i j = a.val ps[i] j))

def RowsLoc (n : Nat) (ps : List Nat) : Local F → Local F → Prop
  | .scalar v, .scalar v' => v' = v
  | .nothing, .nothing => True
  | .array a, .array a' => RowsArr n ps a a'
  | _, _ => False

def RowsTab (n : Nat) (ps : List Nat) (u u' : Tab F) : Prop :=
  u.rows = n ∧ u'.rows = ps.length ∧ u'.cols = u.cols ∧ ∀ i (_ : i < ps.length), ∀ j, u'.val i j = u.val ps[i] j

omit [FOps F] in
theorem RowsLoc.at_eq {n : Nat} {ps : List Nat} (hps : ∀ p ∈ ps, p < n) {l l' : Local F} (h : RowsLoc n ps l l') (mask : Option Nat) (m : Nat)
    (i : Nat) (hi : i < ps.length) (j : Nat) : Local.at mask ps.length m i j l' = Local.at mask n m ps[i] j l := by
  have hp := hps _ (List.getElem_mem hi)
  cases l <;> cases l' <;> simp only [RowsLoc] at h
  · subst h; rfl
  · rename_i a a'
    obtain ⟨hc, ⟨h1, rfl⟩ | ⟨h1, h2, h3⟩⟩ := h
    · cases mask with
      | none => simp [Local.at, Arr.cell, h1]
      | some c => simp [Local.at, Arr.cellOf, h1]
    · have key : ∀ j, a'.val (if a'.rows = 1 then 0 else i) j = a.val (if a.rows = 1 then 0 else ps[i]) j := by
        intro j
        have e1 : (if a'.rows = 1 then 0 else i) = i := by split <;> omega
        have e2 : (if a.rows = 1 then 0 else ps[i]) = ps[i] := by split <;> omega
        rw [e1, e2]; exact h3 i hi j
      cases mask with
      | none =>
        simp only [Local.at, Arr.cell, key, hc]
        simp [h1, h2]
      | some c =>
        simp only [Local.at, Arr.cellOf, key, hc]
        simp [h1, h2]
  · rfl

/-- every entry of `d'` is an entry of `d` restricted to the selected rows -/
def RowsDict (n : Nat) (ps : List Nat) (d d' : List (Str × Local F)) : Prop :=
  ∀ e' ∈ d', ∃ l, dictGet d e'.1 = some l ∧ RowsLoc n ps l e'.2

omit [FOps F] in
theorem RowsDict.set {n : Nat} {ps : List Nat} {d d' : List (Str × Local F)} (h : RowsDict n ps d d') (k : Str) {v v' : Local F}
    (hv : RowsLoc n ps v v') : RowsDict n ps (dictSet d k v) (dictSet d' k v') := by
  intro e' he
  rw [dictGet_dictSet]
  rcases mem_dictSet.mp he with rfl | ⟨he, hne⟩
  · exact ⟨v, by simp, hv⟩
  · rw [if_neg hne]; exact h e' he

omit [FOps F] in
theorem RowsDict.get {n : Nat} {ps : List Nat} {d d' : List (Str × Local F)} (h : RowsDict n ps d d') {k : Str} {l' : Local F}
    (hk : dictGet d' k = some l') : ∃ l, dictGet d k = some l ∧ RowsLoc n ps l l' := h (k, l') (dictGet_mem hk)

omit [FOps F] in
theorem RowsLoc.bad {n : Nat} {ps : List Nat} {l l' : Local F} (h : RowsLoc n ps l l') (mask : Option Nat) (k k' : Str) :
    badColumn mask (k', l') = badColumn mask (k, l) := by
  cases mask with
  | none => cases l <;> cases l' <;> rfl
  | some c =>
    cases l <;> cases l' <;> simp only [RowsLoc] at h
    · rfl
    · simp only [badColumn]; rw [h.1]
    · rfl

/-! ## NumExpr -/

theorem kernelEval_rows (K : Kernel F) {n : Nat} {ps : List Nat} (hps : ∀ p ∈ ps, p < n) {e : PExpr} {d d' : List (Str × Local F)}
    (hd : RowsDict n ps d d') (hfree : ∀ id ∈ freeNames e, id ∈ d.map (·.1) → id ∈ d'.map (·.1)) {u u' : Tab F} (hu : RowsTab n ps u u') {mask : Option Nat}
    {v : Tab F} (h : kernelEval K e d u mask = .ok v) : ∃ v', kernelEval K e d' u' mask = .ok v' ∧ RowsTab n ps v v' := by
  obtain ⟨hr, hr', hc, hval⟩ := hu
  have hcell : ∀ i (hi : i < ps.length) j, newCell K e d' u' mask i j = newCell K e d u mask ps[i] j := by
    intro i hi j
    unfold newCell
    rw [hr, hr', hc, hval i hi j]
    congr 1
    refine ne_congr _ _ _ e fun id hid => ?_
    cases hl' : dictGet d' id with
    | none =>
      have : dictGet d id = none := dictGet_eq_none.mpr fun hc => dictGet_eq_none.mp hl' (hfree id hid hc)
      rw [this]
      rfl
    | some l' =>
      obtain ⟨l, hl, hrl⟩ := hd.get hl'
      rw [hl]
      exact hrl.at_eq hps mask u.cols i hi j
  unfold kernelEval at h ⊢
  split at h
  · cases h
  · rename_i hbad
    rw [if_neg (by
      intro hb
      apply hbad
      rw [Bool.or_eq_true] at hb ⊢
      rcases hb with hb | hb
      swap
      · refine Or.inr ?_
        unfold badOut at hb ⊢
        rw [hc] at hb; exact hb
      refine Or.inl ?_
      obtain ⟨e', he', hb⟩ := List.any_eq_true.mp hb
      obtain ⟨l, hl, hrl⟩ := hd e' he'
      refine List.any_eq_true.mpr ⟨(e'.1, l), dictGet_mem hl, ?_⟩
      rw [← hrl.bad mask e'.1 e'.1]; exact hb)]
    split at h
    · rename_i hall
      cases h
      simp only [List.all_eq_true, List.mem_range] at hall
      rw [if_pos (by
        simp only [List.all_eq_true, List.mem_range]
        intro i hi j hj
        rw [hr'] at hi
        rw [hcell i hi j]
        exact hall ps[i] (by rw [hr]; exact hps _ (List.getElem_mem hi)) j (by rw [← hc]; exact hj))]
      refine ⟨_, rfl, hr, hr', hc, fun i hi j => ?_⟩
      simp only [hr, hr', hc, hcell i hi j, hval i hi j, hi, hps _ (List.getElem_mem hi)]
    · cases h

theorem kernelEval_size {K : Kernel F} {e : PExpr} {d : List (Str × Local F)} {u v : Tab F} {mask : Option Nat}
    (h : kernelEval K e d u mask = .ok v) : v.rows = u.rows ∧ v.cols = u.cols := by
  unfold kernelEval at h
  split at h
  · cases h
  · split at h
    · cases h; exact ⟨rfl, rfl⟩
    · cases h

/-! ## symbols -/

/-- a symbol and its restriction: what reading gives -/
structure RowsSym (n : Nat) (ps : List Nat) (s s' : Sym F) : Prop where
  filled : s'.filled = s.filled
  get : ∀ l, s.get = .ok l → ∃ l', s'.get = .ok l' ∧ RowsLoc n ps l l'
  chain : ∀ ch l, s.getChain ch = .ok l → ∃ l', s'.getChain ch = .ok l' ∧ RowsLoc n ps l l'

def RowsScope (n : Nat) (ps : List Nat) (scope scope' : List (Str × Sym F)) : Prop :=
  ∀ x s, dictGet scope x = some s → ∃ s', dictGet scope' x = some s' ∧ RowsSym n ps s s'

omit [FOps F] in
theorem addDicts_rows (K : Kernel F) {n : Nat} {ps : List Nat} (labels : List (List Name)) (lits : List (Str × Literal)) {d d' d1 : List (Str × Local F)}
    (hd : RowsDict n ps d d') (h : addDicts K labels d lits = .ok d1) :
    ∃ d1', addDicts K labels d' lits = .ok d1' ∧ RowsDict n ps d1 d1' ∧
      ∀ k, (k ∈ d'.map (·.1) ∨ k ∈ lits.map (·.1)) → k ∈ d1'.map (·.1) := by
  unfold addDicts at h ⊢
  induction lits generalizing d d' with
  | nil => cases h; exact ⟨d', rfl, hd, by simp⟩
  | cons e lits ih =>
    rw [List.foldlM_cons] at h
    cases hr : dictRow labels e.2 with
    | error er => rw [hr] at h; cases h
    | ok row =>
      rw [hr] at h
      simp only [Except.map, bind, Except.bind] at h
      obtain ⟨d1', h1, h2, h3⟩ := ih (hd.set e.1 (v := .array ⟨1, labels.length, fun _ j => .num (K.lit (row j))⟩)
        (v' := .array ⟨1, labels.length, fun _ j => .num (K.lit (row j))⟩) ⟨rfl, .inl ⟨rfl, rfl⟩⟩) h
      refine ⟨d1', ?_, h2, ?_⟩
      · rw [List.foldlM_cons, hr]; exact h1
      · intro k hk
        apply h3 k
        simp only [List.map_cons, List.mem_cons] at hk
        rw [dictSet_keys]
        tauto

omit [FOps F] in
theorem addChains_rows {n : Nat} {ps : List Nat} {scope scope' : List (Str × Sym F)} (hs : RowsScope n ps scope scope')
    (chains : List (Str × List (Str × Chain))) {d d' d1 : List (Str × Local F)}
    (hd : RowsDict n ps d d') (h : addChains scope d chains = .ok d1) :
    ∃ d1', addChains scope' d' chains = .ok d1' ∧ RowsDict n ps d1 d1' ∧
      ∀ k, (k ∈ d'.map (·.1) ∨ ∃ t ∈ chains, k ∈ t.2.map (·.1)) → k ∈ d1'.map (·.1) := by
  unfold addChains at h ⊢
  induction chains generalizing d d' with
  | nil => cases h; exact ⟨d', rfl, hd, by simp⟩
  | cons t chains ih =>
    rw [List.foldlM_cons] at h
    cases hg : dictGet scope t.1 with
    | none => rw [hg] at h; cases h
    | some s =>
      rw [hg] at h
      obtain ⟨s', hg', hrs⟩ := hs _ _ hg
      have inner : ∀ (ls : List (Str × Chain)) (d d' d1 : List (Str × Local F)), RowsDict n ps d d' →
          ls.foldlM (fun d l => (s.getChain l.2).map fun v => dictSet d l.1 v) d = .ok d1 →
          ∃ d1', ls.foldlM (fun d l => (s'.getChain l.2).map fun v => dictSet d l.1 v) d' = .ok d1' ∧ RowsDict n ps d1 d1' ∧
            ∀ k, (k ∈ d'.map (·.1) ∨ k ∈ ls.map (·.1)) → k ∈ d1'.map (·.1) := by
        intro ls
        induction ls with
        | nil => intro d d' d1 hd h; cases h; exact ⟨d', rfl, hd, by simp⟩
        | cons l ls ihl =>
          intro d d' d1 hd h
          rw [List.foldlM_cons] at h
          cases hv : s.getChain l.2 with
          | error e => rw [hv] at h; cases h
          | ok v =>
            obtain ⟨v', hv', hrv⟩ := hrs.chain _ _ hv
            rw [hv] at h
            simp only [Except.map, bind, Except.bind] at h
            obtain ⟨d1', h1, h2, h3⟩ := ihl _ _ _ (hd.set l.1 hrv) h
            refine ⟨d1', ?_, h2, ?_⟩
            · rw [List.foldlM_cons, hv']; exact h1
            · intro k hk
              apply h3 k
              simp only [List.map_cons, List.mem_cons] at hk
              rw [dictSet_keys]
              tauto
      simp only at h
      cases hi : t.2.foldlM (fun d l => (s.getChain l.2).map fun v => dictSet d l.1 v) d with
      | error e => rw [hi] at h; cases h
      | ok d2 =>
        rw [hi] at h
        obtain ⟨d2', e1, e2, e3⟩ := inner _ _ _ _ hd hi
        obtain ⟨d1', h1, h2, h3⟩ := ih e2 h
        refine ⟨d1', ?_, h2, ?_⟩
        · rw [List.foldlM_cons, hg']
          simp only [e1, bind, Except.bind]
          exact h1
        · intro k hk
          apply h3 k
          rcases hk with hk | ⟨t', ht', hk⟩
          · exact .inl (e3 k (.inl hk))
          · rcases List.mem_cons.mp ht' with rfl | ht'
            · exact .inl (e3 k (.inr hk))
            · exact .inr ⟨t', ht', hk⟩

omit [FOps F] in
theorem addDicts_keys (K : Kernel F) (labels : List (List Name)) (lits : List (Str × Literal)) {d d1 : List (Str × Local F)}
    (h : addDicts K labels d lits = .ok d1) : ∀ k ∈ d1.map (·.1), k ∈ d.map (·.1) ∨ k ∈ lits.map (·.1) := by
  unfold addDicts at h
  induction lits generalizing d with
  | nil => cases h; exact fun k hk => .inl hk
  | cons e lits ih =>
    rw [List.foldlM_cons] at h
    cases hr : dictRow labels e.2 with
    | error er => rw [hr] at h; cases h
    | ok row =>
      rw [hr] at h
      simp only [Except.map, bind, Except.bind] at h
      intro k hk
      rcases ih h k hk with h1 | h1
      · rw [dictSet_keys] at h1
        simp only [List.map_cons, List.mem_cons]
        tauto
      · simp only [List.map_cons, List.mem_cons]
        tauto

omit [FOps F] in
theorem addChains_keys {scope : List (Str × Sym F)} (chains : List (Str × List (Str × Chain))) {d d1 : List (Str × Local F)}
    (h : addChains scope d chains = .ok d1) : ∀ k ∈ d1.map (·.1), k ∈ d.map (·.1) ∨ ∃ t ∈ chains, k ∈ t.2.map (·.1) := by
  unfold addChains at h
  induction chains generalizing d with
  | nil => cases h; exact fun k hk => .inl hk
  | cons t chains ih =>
    rw [List.foldlM_cons] at h
    cases hg : dictGet scope t.1 with
    | none => rw [hg] at h; cases h
    | some s =>
      rw [hg] at h
      have inner : ∀ (ls : List (Str × Chain)) (d d1 : List (Str × Local F)),
          ls.foldlM (fun d l => (s.getChain l.2).map fun v => dictSet d l.1 v) d = .ok d1 →
            ∀ k ∈ d1.map (·.1), k ∈ d.map (·.1) ∨ k ∈ ls.map (·.1) := by
        intro ls
        induction ls with
        | nil => intro d d1 h; cases h; exact fun k hk => .inl hk
        | cons l ls ihl =>
          intro d d1 h
          rw [List.foldlM_cons] at h
          cases hv : s.getChain l.2 with
          | error e => rw [hv] at h; cases h
          | ok v =>
            rw [hv] at h
            simp only [Except.map, bind, Except.bind] at h
            intro k hk
            rcases ihl _ _ h k hk with h1 | h1
            · rw [dictSet_keys] at h1
              simp only [List.map_cons, List.mem_cons]
              tauto
            · simp only [List.map_cons, List.mem_cons]
              tauto
      simp only at h
      cases hi : t.2.foldlM (fun d l => (s.getChain l.2).map fun v => dictSet d l.1 v) d with
      | error e => rw [hi] at h; cases h
      | ok d2 =>
        rw [hi] at h
        intro k hk
        rcases ih h k hk with h1 | ⟨t', ht', h1⟩
        · rcases inner _ _ _ hi k h1 with h2 | h2
          · exact .inl h2
          · exact .inr ⟨t, by simp, h2⟩
        · exact .inr ⟨t', by simp [ht'], h1⟩

omit [FOps F] in
theorem symLocals_inv {scope : List (Str × Sym F)} {names : List Str} {syms : List (Str × Local F)} (h : symLocals scope names = .ok syms) :
    (∀ x ∈ names, x ∉ reserved → ∃ s l, dictGet scope x = some s ∧ s.get = .ok l) ∧ ∀ e ∈ syms, e.1 ∈ names ∧ e.1 ∉ reserved := by
  unfold symLocals at h
  have key : ∀ (names : List Str) (d syms : List (Str × Local F)), names.foldlM (fun d name =>
        if name ∈ reserved ∨ name ∈ d.map (·.1) then Except.ok d
        else match dictGet scope name with
          | none => .error Err.key
          | some s => s.get.map fun l => d ++ [(name, l)]) d = .ok syms →
      (∀ x ∈ names, x ∉ reserved → x ∈ d.map (·.1) ∨ ∃ s l, dictGet scope x = some s ∧ s.get = .ok l) ∧
      ∀ e ∈ syms, e ∈ d ∨ (e.1 ∈ names ∧ e.1 ∉ reserved) := by
    intro names
    induction names with
    | nil => intro d syms h; cases h; simp
    | cons y ys ih =>
      intro d syms h
      rw [List.foldlM_cons] at h
      by_cases hc : y ∈ reserved ∨ y ∈ d.map (·.1)
      · rw [if_pos hc] at h
        obtain ⟨h1, h2⟩ := ih d syms h
        refine ⟨fun x hx hr => ?_, fun e he => ?_⟩
        · rcases List.mem_cons.mp hx with rfl | hx
          · exact .inl (hc.resolve_left hr)
          · exact h1 x hx hr
        · rcases h2 e he with h | ⟨h, h'⟩
          · exact .inl h
          · exact .inr ⟨by simp [h], h'⟩
      · rw [if_neg hc] at h
        cases hg : dictGet scope y with
        | none => rw [hg] at h; cases h
        | some s =>
          cases hl : s.get with
          | error e => simp only [hg, hl] at h; cases h
          | ok l =>
            simp only [hg, hl] at h
            obtain ⟨h1, h2⟩ := ih (d ++ [(y, l)]) syms h
            refine ⟨fun x hx hr => ?_, fun e he => ?_⟩
            · rcases List.mem_cons.mp hx with rfl | hx
              · exact .inr ⟨s, l, hg, hl⟩
              · rcases h1 x hx hr with h | h
                · simp only [List.map_append, List.map_cons, List.map_nil, List.mem_append, List.mem_singleton] at h
                  rcases h with h | rfl
                  · exact .inl h
                  · exact .inr ⟨s, l, hg, hl⟩
                · exact .inr h
            · rcases h2 e he with h | ⟨h, h'⟩
              · rcases List.mem_append.mp h with h | h
                · exact .inl h
                · obtain rfl := List.mem_singleton.mp h
                  exact .inr ⟨by simp, fun h => hc (.inl h)⟩
              · exact .inr ⟨by simp [h], h'⟩
  obtain ⟨h1, h2⟩ := key names [] syms h
  exact ⟨fun x hx hr => (h1 x hx hr).resolve_left (by simp), fun e he => (h2 e he).resolve_left (by simp)⟩

omit [FOps F] in
/-- `syms'` restricts `syms`; all non-reserved names of `names'` are there -/
theorem symLocals_rows {n : Nat} {ps : List Nat} {scope scope' : List (Str × Sym F)} (hs : RowsScope n ps scope scope')
    {names names' : List Str} (hn : ∀ x ∈ names', x ∈ names) {syms : List (Str × Local F)} (h : symLocals scope names = .ok syms) :
    ∃ syms', symLocals scope' names' = .ok syms' ∧ RowsDict n ps syms syms' ∧ (∀ e ∈ syms', e.1 ∉ reserved) ∧
      ∀ x ∈ names', x ∉ reserved → x ∈ syms'.map (·.1) := by
  obtain ⟨h1, h2⟩ := symLocals_inv h
  obtain ⟨_, e1, e2, _⟩ := symLocals_spec scope names h1
  rw [h] at e1
  cases e1
  have h3 : ∀ x ∈ names', x ∉ reserved → ∃ s l, dictGet scope' x = some s ∧ s.get = .ok l := by
    intro x hx hr
    obtain ⟨s, l, hg, hl⟩ := h1 x (hn x hx) hr
    obtain ⟨s', hg', hrs⟩ := hs x s hg
    obtain ⟨l', hl', _⟩ := hrs.get l hl
    exact ⟨s', l', hg', hl'⟩
  obtain ⟨syms', f1, f2, f3⟩ := symLocals_spec scope' names' h3
  obtain ⟨_, f4⟩ := symLocals_inv f1
  refine ⟨syms', f1, ?_, fun e he => (f4 e he).2, ?_⟩
  · intro e he
    obtain ⟨hm, hr⟩ := f4 e he
    obtain ⟨s, l, hg, hl, hd⟩ := e2 e.1 (hn _ hm) hr
    obtain ⟨s', hg', hrs⟩ := hs _ s hg
    obtain ⟨l', hl', hrl⟩ := hrs.get l hl
    obtain ⟨s2, hg2, hl2⟩ := f3 e he
    rw [hg'] at hg2; cases hg2
    rw [hl'] at hl2; cases hl2
    exact ⟨l, hd, hrl⟩
  · intro x hx hr
    obtain ⟨s, l, _, _, hd⟩ := f2 x hx hr
    exact (dictGet_isSome_iff _ _).mp (by rw [hd]; rfl)

/-! ## expressions -/

theorem startDict_rows (K : Kernel F) {n : Nat} {ps : List Nat} {u u' : Tab F} (hu : RowsTab n ps u u') {syms syms' : List (Str × Local F)}
    (hd : RowsDict n ps syms syms') (hr : ∀ e ∈ syms', e.1 ∉ reserved) :
    RowsDict n ps (reservedLocals K u ++ syms) (reservedLocals K u' ++ syms') := by
  intro e he
  rw [dictGet_append]
  rcases List.mem_append.mp he with he | he
  · simp only [reservedLocals, List.mem_cons, List.not_mem_nil, or_false] at he
    have hne1 : ¬ nanStr = outStr := by decide
    have hne2 : ¬ nanStr = negInfStr := by decide
    have hne3 : ¬ outStr = negInfStr := by decide
    rcases he with rfl | rfl | rfl
    · exact ⟨.scalar (.num K.nan), by simp [reservedLocals, dictGet_cons], rfl⟩
    · refine ⟨.array ⟨u.rows, u.cols, fun i j => .num (u.val i j)⟩, by simp [reservedLocals, dictGet_cons, hne1], hu.2.2.1, .inr ⟨hu.1, hu.2.1, ?_⟩⟩
      intro i hi j
      simp only [hu.2.2.2 i hi j]
    · exact ⟨.scalar (.num negInf), by simp [reservedLocals, dictGet_cons, hne2, hne3], rfl⟩
  · obtain ⟨l, hl, hrl⟩ := hd e he
    have hn : dictGet (reservedLocals K u) e.1 = none := by
      have := hr e he
      simp only [reserved, List.mem_cons, List.not_mem_nil, or_false, not_or] at this
      simp [reservedLocals, dictGet_cons, dictGet_nil, Ne.symm this.1, Ne.symm this.2.1, Ne.symm this.2.2]
    exact ⟨l, by rw [hn]; simpa using hl, hrl⟩

theorem evalExpr_rows (K : Kernel F) {n : Nat} {ps : List Nat} (hps : ∀ p ∈ ps, p < n) {scope scope' : List (Str × Sym F)}
    (hs : RowsScope n ps scope scope') (labels : List (List Name)) {syms syms' : List (Str × Local F)}
    (hd : RowsDict n ps syms syms') (hr : ∀ e ∈ syms', e.1 ∉ reserved) {x : Expression}
    (hfree : ∀ id ∈ freeNames x.transformed, id ∈ syms.map (·.1) → id ∈ reserved ∨ id ∈ syms'.map (·.1) ∨ (∃ t ∈ x.chains, id ∈ t.2.map (·.1)) ∨ id ∈ x.dicts.map (·.1))
    {u u' v : Tab F} (hu : RowsTab n ps u u') (h : evalExpr K scope labels syms u x = .ok v) :
    ∃ v', evalExpr K scope' labels syms' u' x = .ok v' ∧ RowsTab n ps v v' := by
  unfold evalExpr at h ⊢
  cases hm : columnMask labels x.filter with
  | error e => rw [hm] at h; cases h
  | ok mask =>
    rw [hm] at h
    simp only [bind, Except.bind] at h ⊢
    cases h1 : addDicts K labels (reservedLocals K u ++ syms) x.dicts with
    | error e => rw [h1] at h; cases h
    | ok d1 =>
      rw [h1] at h
      simp only at h
      obtain ⟨d1', e1, e2, e3⟩ := addDicts_rows K labels x.dicts (startDict_rows K hu hd hr) h1
      rw [e1]
      simp only
      cases h2 : addChains scope d1 x.chains with
      | error e => rw [h2] at h; cases h
      | ok d2 =>
        rw [h2] at h
        simp only at h
        obtain ⟨d2', f1, f2, f3⟩ := addChains_rows hs x.chains e2 h2
        rw [f1]
        simp only
        refine kernelEval_rows K hps f2 ?_ hu h
        intro id hid hk
        apply f3
        have hkey : id ∈ reserved ∨ id ∈ syms'.map (·.1) ∨ (∃ t ∈ x.chains, id ∈ t.2.map (·.1)) ∨ id ∈ x.dicts.map (·.1) := by
          rcases addChains_keys _ h2 id hk with h | h
          · rcases addDicts_keys K labels _ h1 id h with h | h
            · rw [List.map_append, List.mem_append] at h
              rcases h with h | h
              · left
                simp only [reservedLocals, List.map_cons, List.map_nil, List.mem_cons, List.not_mem_nil, or_false] at h
                simp only [reserved, List.mem_cons, List.not_mem_nil, or_false]
                tauto
              · exact hfree id hid h
            · exact .inr (.inr (.inr h))
          · exact .inr (.inr (.inl h))
        rcases hkey with h | h | h | h
        · refine .inl (e3 id (.inl ?_))
          rw [List.map_append, List.mem_append]
          left
          simp only [reserved, List.mem_cons, List.not_mem_nil, or_false] at h
          simp only [reservedLocals, List.map_cons, List.map_nil, List.mem_cons, List.not_mem_nil, or_false]
          tauto
        · refine .inl (e3 id (.inl ?_))
          rw [List.map_append, List.mem_append]
          exact .inr h
        · exact .inr h
        · exact .inl (e3 id (.inr h))

theorem evalExpr_size {K : Kernel F} {scope : List (Str × Sym F)} {labels : List (List Name)} {syms : List (Str × Local F)} {x : Expression}
    {u v : Tab F} (h : evalExpr K scope labels syms u x = .ok v) : v.rows = u.rows ∧ v.cols = u.cols := by
  unfold evalExpr at h
  cases hm : columnMask labels x.filter with
  | error e => rw [hm] at h; cases h
  | ok mask =>
    rw [hm] at h
    simp only [bind, Except.bind] at h
    split at h
    · cases h
    · split at h
      · cases h
      · exact kernelEval_size h

theorem evalLoop_size {K : Kernel F} {scope : List (Str × Sym F)} {labels : List (List Name)} {syms : List (Str × Local F)} (xs : List Expression)
    (u : Tab F) : (evalLoop K scope labels syms xs u).1.rows = u.rows ∧ (evalLoop K scope labels syms xs u).1.cols = u.cols := by
  induction xs generalizing u with
  | nil => exact ⟨rfl, rfl⟩
  | cons x xs ih =>
    unfold evalLoop
    split
    · exact ⟨rfl, rfl⟩
    · rename_i u' he
      have := evalExpr_size he
      rw [(ih u').1, (ih u').2]
      exact this

theorem evalLoop_rows (K : Kernel F) {n : Nat} {ps : List Nat} (hps : ∀ p ∈ ps, p < n) {scope scope' : List (Str × Sym F)}
    (hs : RowsScope n ps scope scope') (labels : List (List Name)) {syms syms' : List (Str × Local F)}
    (hd : RowsDict n ps syms syms') (hr : ∀ e ∈ syms', e.1 ∉ reserved) (xs : List Expression)
    (hfree : ∀ x ∈ xs, ∀ id ∈ freeNames x.transformed,
      id ∈ syms.map (·.1) → id ∈ reserved ∨ id ∈ syms'.map (·.1) ∨ (∃ t ∈ x.chains, id ∈ t.2.map (·.1)) ∨ id ∈ x.dicts.map (·.1))
    {u u' v : Tab F} (hu : RowsTab n ps u u') (h : evalLoop K scope labels syms xs u = (v, .ok ())) :
    ∃ v', evalLoop K scope' labels syms' xs u' = (v', .ok ()) ∧ RowsTab n ps v v' := by
  induction xs generalizing u u' with
  | nil => cases h; exact ⟨u', rfl, hu⟩
  | cons x xs ih =>
    unfold evalLoop at h ⊢
    cases he : evalExpr K scope labels syms u x with
    | error e => rw [he] at h; cases h
    | ok u1 =>
      rw [he] at h
      obtain ⟨u1', e1, e2⟩ := evalExpr_rows K hps hs labels hd hr (hfree x (by simp)) hu he
      rw [e1]
      exact ih (fun y hy => hfree y (by simp [hy])) e2 h

theorem hasNan_rows {n : Nat} {ps : List Nat} (hps : ∀ p ∈ ps, p < n) {u u' : Tab F} (hu : RowsTab n ps u u') (h : hasNan u = false) :
    hasNan u' = false := by
  rw [Bool.eq_false_iff] at h ⊢
  intro hn
  apply h
  obtain ⟨hr, hr', hc, hval⟩ := hu
  simp only [hasNan, List.any_eq_true, List.mem_range] at hn ⊢
  obtain ⟨i, hi, j, hj, hv⟩ := hn
  rw [hr'] at hi
  exact ⟨ps[i], by rw [hr]; exact hps _ (List.getElem_mem hi), j, by rw [← hc]; exact hj, by rw [← hval i hi j]; exact hv⟩

end Cheval
