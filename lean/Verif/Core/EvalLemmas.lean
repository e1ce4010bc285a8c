import Verif.Core.ModelLemmas

/-! # Soundness of the evaluation of utilities -/
namespace Cheval
open Spec FOps
variable {F : Type} [FOps F]

omit [FOps F] in
theorem symLocals_spec (scope : List (Str × Sym F)) (names : List Str)
    (h : ∀ x ∈ names, x ∉ reserved → ∃ s l, dictGet scope x = some s ∧ s.get = .ok l) :
    ∃ syms, symLocals scope names = .ok syms ∧
      (∀ x ∈ names, x ∉ reserved → ∃ s l, dictGet scope x = some s ∧ s.get = .ok l ∧ dictGet syms x = some l) ∧
      (∀ e ∈ syms, ∃ s, dictGet scope e.1 = some s ∧ s.get = .ok e.2) := by
  unfold symLocals
  have key : ∀ (names : List Str) (d : List (Str × Local F)), (∀ x ∈ names, x ∉ reserved → ∃ s l, dictGet scope x = some s ∧ s.get = .ok l) →
      (∀ e ∈ d, ∃ s, dictGet scope e.1 = some s ∧ s.get = .ok e.2) →
      ∃ syms, names.foldlM (fun d name =>
        if name ∈ reserved ∨ name ∈ d.map (·.1) then Except.ok d
        else match dictGet scope name with
          | none => .error Err.key
          | some s => s.get.map fun l => d ++ [(name, l)]) d = .ok syms ∧
        (∀ x, x ∉ reserved → (x ∈ names ∨ x ∈ d.map (·.1)) → ∃ s l, dictGet scope x = some s ∧ s.get = .ok l ∧ dictGet syms x = some l) ∧
        (∀ e ∈ syms, ∃ s, dictGet scope e.1 = some s ∧ s.get = .ok e.2) := by
    intro names
    induction names with
    | nil =>
      intro d _ hd
      refine ⟨d, rfl, ?_, hd⟩
      intro x _ hx
      simp only [List.not_mem_nil, false_or] at hx
      obtain ⟨l, hl⟩ := Option.isSome_iff_exists.mp ((dictGet_isSome_iff d x).mpr hx)
      obtain ⟨s, h1, h2⟩ := hd _ (dictGet_mem hl)
      exact ⟨s, l, h1, h2, hl⟩
    | cons y ys ih =>
      intro d hn hd
      rw [List.foldlM_cons]
      by_cases hc : y ∈ reserved ∨ y ∈ d.map (·.1)
      · rw [if_pos hc]
        obtain ⟨syms, h1, h2, h3⟩ := ih d (fun x hx => hn x (by simp [hx])) hd
        refine ⟨syms, h1, ?_, h3⟩
        intro x hxr hx
        apply h2 x hxr
        rcases hx with hx | hx
        · rcases List.mem_cons.mp hx with rfl | hx
          · exact .inr (hc.resolve_left hxr)
          · exact .inl hx
        · exact .inr hx
      · rw [if_neg hc]
        have hyr : y ∉ reserved := fun h => hc (.inl h)
        obtain ⟨s, l, hs, hg⟩ := hn y (by simp) hyr
        simp only [hs, hg, Except.map, bind, Except.bind]
        obtain ⟨syms, h1, h2, h3⟩ := ih (d ++ [(y, l)]) (fun x hx => hn x (by simp [hx])) (by
          intro e he
          rcases List.mem_append.mp he with he | he
          · exact hd e he
          · obtain rfl := List.mem_singleton.mp he; exact ⟨s, hs, hg⟩)
        refine ⟨syms, h1, ?_, h3⟩
        intro x hxr hx
        apply h2 x hxr
        rcases hx with hx | hx
        · rcases List.mem_cons.mp hx with rfl | hx
          · exact .inr (by simp)
          · exact .inl hx
        · right; simp only [List.map_append, List.mem_append]; exact .inl hx
  obtain ⟨syms, h1, h2, h3⟩ := key names [] h (by simp)
  exact ⟨syms, h1, fun x hx hr => h2 x hr (.inl hx), h3⟩

/-- the dictionary given to NumExpr for one expression -/
theorem localDict_spec (K : Kernel F) {env : PyEnv} {scope : List (Str × Sym F)} {paths : List (List Name)} {dep : Nat}
    {labels : List (List Name)} (hL : Labelled paths dep labels) {src : Source} {x : Expression} (hx : Ready env scope paths dep src x)
    {n : Nat} (hfit : Fits n labels.length scope) {names : List Str} {syms : List (Str × Local F)}
    (hsyms : ∀ x ∈ names, x ∉ reserved → ∃ s l, dictGet scope x = some s ∧ s.get = .ok l ∧ dictGet syms x = some l)
    (hsyms2 : ∀ e ∈ syms, ∃ s, dictGet scope e.1 = some s ∧ s.get = .ok e.2)
    {u : Tab F} (hr : u.rows = n) (hc : u.cols = labels.length) :
    ∃ d1 d, addDicts K labels (reservedLocals K u ++ syms) x.dicts = .ok d1 ∧ addChains scope d1 x.chains = .ok d ∧
      (∀ e ∈ d, Broadcasts n labels.length e.2) ∧
      ∀ simple chained s, visit env src.1 (freshParser simple chained) = (s, .ok x.transformed) → x.chains = s.chains → x.dicts = s.dicts →
        ∀ i j mask (hi : i < n) (hj : j < paths.length), mask = none ∨ mask = some j → ∀ id v,
          localNames K.toArith (cellEnv K scope paths[j] (u.val i j) i j) names s id = some v →
          (dictGet d id).bind (Local.at mask n labels.length i j) = some v := by
  have hlen : labels.length = paths.length := by rw [hL.labels]; simp
  obtain ⟨_, simple, chained, s, hv, hch, hdi, hsy⟩ := hx.parsed
  have hinv := (visit_inv env _ _ (PInv.fresh simple chained) _ _ hv).1
  -- dict literals
  let rowArr (row : Nat → ℚ) : Local F := .array ⟨1, labels.length, fun _ j => .num (K.lit (row j))⟩
  have hrow : ∀ e ∈ x.dicts, ∃ row, dictRow labels e.2 = .ok row ∧ ∀ j (hj : j < paths.length), row j = dictValue e.2 paths[j] := by
    intro e he
    obtain ⟨h1, h2⟩ := hx.dicts e he
    exact C28_dict_partial hL e.2 (fun k hk => (h1 k hk).1) (fun k hk => (h1 k hk).2) h2
  have hadd : addDicts K labels (reservedLocals K u ++ syms) x.dicts =
      x.dicts.foldlM (fun d e => ((dictRow labels e.2).map rowArr).map fun v => dictSet d e.1 v) (reservedLocals K u ++ syms) := by
    unfold addDicts
    congr 1
    funext d e
    cases dictRow labels e.2 <;> rfl
  obtain ⟨d1, hd1, hg1⟩ := foldlM_dictSet x.dicts (·.1) (fun e => (dictRow labels e.2).map rowArr) (reservedLocals K u ++ syms) (by
    intro e he
    obtain ⟨row, hr, _⟩ := hrow e he
    exact ⟨rowArr row, by simp only [hr, Except.map]⟩)
  -- lookups
  have hsub : ∀ y ∈ subs s, ∃ sy, dictGet scope y.2.1 = some sy ∧ ∃ o f, lookupCol scope y.2.1 y.2.2.path.reverse y.2.2.func = some (o, f) ∧
      (y.2.2.func ≠ none → 2 ≤ y.2.2.path.length) := by
    intro y hy
    obtain ⟨ls, hm1, hm2⟩ := mem_subs.mp hy
    rw [← hch] at hm1
    obtain ⟨h1, h2⟩ := hx.lookups _ _ _ _ hm1 hm2
    obtain ⟨⟨o, f⟩, hof⟩ := Option.isSome_iff_exists.mp h1
    cases hd : dictGet scope y.2.1 with
    | none => simp [lookupCol, hd] at hof
    | some sy => exact ⟨sy, rfl, o, f, hof, h2⟩
  have hflat := addChains_flat scope s d1 (by
    intro t ht
    obtain ⟨l, ls, hls⟩ := List.exists_cons_of_ne_nil (hinv.used t ht)
    obtain ⟨sy, hsy, _⟩ := hsub (l.1, t.1, l.2) (mem_subs.mpr ⟨t.2, ht, by rw [hls]; simp⟩)
    rw [hsy]; rfl)
  obtain ⟨d, hd, hg⟩ := foldlM_dictSet (subs s) (·.1) (fun x => match dictGet scope x.2.1 with
      | none => Except.error Err.key
      | some sy => sy.getChain x.2.2) d1 (by
    intro y hy
    obtain ⟨sy, hsy, o, f, hl, ha⟩ := hsub y hy
    obtain ⟨l, hl, _⟩ := getChain_at hfit hsy hl ha
    exact ⟨l, by rw [hsy]; exact hl⟩)
  refine ⟨d1, d, by rw [hadd]; exact hd1, by rw [hch, hflat]; exact hd, ?_, ?_⟩
  · -- shapes
    have h1 : ∀ e ∈ d1, Broadcasts n labels.length e.2 := by
      refine foldlM_dictSet_all (Broadcasts n labels.length) x.dicts (·.1) _ _ d1 ?_ ?_ hd1
      · intro e he
        rcases List.mem_append.mp he with he | he
        · simp only [reservedLocals, List.mem_cons, List.not_mem_nil, or_false] at he
          rcases he with rfl | rfl | rfl
          · trivial
          · exact ⟨.inl hr, .inl hc⟩
          · trivial
        · obtain ⟨sy, h1, h2⟩ := hsyms2 e he
          exact get_broadcasts (hfit _ (dictGet_mem h1)) h2
      · intro e he v hv
        obtain ⟨row, hr, _⟩ := hrow e he
        rw [hr] at hv
        cases hv
        exact ⟨.inr rfl, .inl rfl⟩
    refine foldlM_dictSet_all (Broadcasts n labels.length) (subs s) (·.1) _ d1 d h1 ?_ hd
    intro y hy v hv
    obtain ⟨sy, hsy, o, f, hl, ha⟩ := hsub y hy
    obtain ⟨l, hl, hb, _⟩ := getChain_at hfit hsy hl ha
    rw [hsy] at hv
    simp only [hl, Except.ok.injEq] at hv
    exact hv ▸ hb
  · intro simple' chained' s' hv' hch' hdi' i j mask hi hj hm id v hloc
    have hsubs : subs s' = subs s := by unfold subs; rw [← hch', hch]
    unfold localNames at hloc
    rw [hsubs, ← hdi'] at hloc
    obtain ⟨hg3, hg4⟩ := hg id
    obtain ⟨hg5, hg6⟩ := hg1 id
    cases hf : (subs s).reverse.find? (fun y => decide (y.1 = id)) with
    | some y =>
      obtain ⟨l, hl1, hl2⟩ := hg3 y hf
      have hym : y ∈ subs s := by simpa using List.mem_of_find?_eq_some hf
      obtain ⟨sy, hsy, o, f, hlk, ha⟩ := hsub y hym
      obtain ⟨l', hl', _, hat⟩ := getChain_at hfit hsy hlk ha
      rw [hsy] at hl1
      simp only [hl', Except.ok.injEq] at hl1
      subst hl1
      rw [hl2, Option.bind_some, hat i j mask hi (hlen ▸ hj) hm]
      rw [hf] at hloc
      simp only [cellEnv, hlk, Option.map_some] at hloc
      exact hloc
    | none =>
      rw [hg4 hf]
      rw [hf] at hloc
      simp only at hloc
      have hkd : (x.dicts.map (·.1)).Nodup := by rw [hdi]; exact dicts_nodup hinv
      cases hdg : dictGet x.dicts id with
      | some lit =>
        rw [hdg] at hloc
        have hmem := dictGet_mem hdg
        have hfd : x.dicts.reverse.find? (fun e => decide (e.1 = id)) = some (id, lit) := by
          cases hfd : x.dicts.reverse.find? (fun e => decide (e.1 = id)) with
          | none =>
            rw [List.find?_eq_none] at hfd
            have := hfd (id, lit) (by simpa using hmem)
            simp at this
          | some e =>
            have he1 := List.mem_of_find?_eq_some hfd
            have he2 : e.1 = id := by simpa using List.find?_some hfd
            have := (dictGet_eq_some hkd).mpr (by simpa using he1 : (e.1, e.2) ∈ x.dicts)
            rw [he2, hdg] at this
            rw [Option.some.injEq, Prod.ext_iff]
            exact ⟨he2, (Option.some.inj this).symm⟩
        obtain ⟨l, hl1, hl2⟩ := hg5 _ hfd
        obtain ⟨row, hrr, hrv⟩ := hrow _ hmem
        simp only [hrr, Except.map, Except.ok.injEq] at hl1
        subst hl1
        have hb : Broadcasts n labels.length (rowArr row) := ⟨.inr rfl, .inl rfl⟩
        rw [hl2, Option.bind_some]
        have hat := at_array hb hi (hlen.symm ▸ hj : j < labels.length) hm
        simp only [cellEnv, Option.some.injEq] at hloc
        rw [← hloc]
        refine hat.trans ?_
        simp only []
        by_cases h1 : labels.length = 1
        · rw [if_pos h1, ← hrv j hj, (by omega : j = 0)]
        · rw [if_neg h1, ← hrv j hj]
      | none =>
        rw [hdg] at hloc
        simp only at hloc
        have hfd : x.dicts.reverse.find? (fun e => decide (e.1 = id)) = none := by
          rw [List.find?_eq_none]
          intro e he
          have := dictGet_eq_none.mp hdg
          simp only [decide_eq_true_eq]
          rintro rfl
          exact this (List.mem_map_of_mem (by simpa using he))
        rw [hg6 hfd, dictGet_append]
        have hne1 : ¬ nanStr = outStr := by decide
        have hne2 : ¬ nanStr = negInfStr := by decide
        have hne3 : ¬ outStr = negInfStr := by decide
        by_cases h1 : id = nanStr
        · subst h1
          simp only [if_true] at hloc
          simp [reservedLocals, dictGet_cons, Local.at, ← hloc]
        · rw [if_neg h1] at hloc
          by_cases h2 : id = outStr
          · subst h2
            have : outStr ∈ reserved ∨ outStr ∈ names := .inl (by decide)
            rw [if_pos this] at hloc
            simp only [cellEnv, if_neg h1, if_true] at hloc
            have : dictGet (reservedLocals K u) outStr = some (.array ⟨u.rows, u.cols, fun i j => .num (u.val i j)⟩) := by
              simp [reservedLocals, dictGet_cons, hne1]
            rw [this, Option.some_or, Option.bind_some, at_array ⟨.inl hr, .inl hc⟩ hi (hlen ▸ hj) hm, hr, hc]
            rw [← hloc]
            have e1 : (if n = 1 then 0 else i) = i := by split <;> omega
            have e2 : (if labels.length = 1 then 0 else j) = j := by split <;> omega
            rw [e1, e2]
          · by_cases h3 : id = negInfStr
            · subst h3
              have : negInfStr ∈ reserved ∨ negInfStr ∈ names := .inl (by decide)
              rw [if_pos this] at hloc
              simp only [cellEnv, if_neg h1, if_neg h2, if_true] at hloc
              have : dictGet (reservedLocals K u) negInfStr = some (.scalar (.num negInf)) := by
                simp [reservedLocals, dictGet_cons, hne2, hne3]
              rw [this, Option.some_or, Option.bind_some, ← hloc]; rfl
            · have hres : id ∉ reserved := by simp [reserved, h1, h2, h3]
              have hn : id ∈ names := by
                by_contra hc'
                rw [if_neg (by simp [hres, hc'])] at hloc; simp at hloc
              rw [if_pos (.inr hn)] at hloc
              simp only [cellEnv, if_neg h1, if_neg h2, if_neg h3] at hloc
              obtain ⟨sy, l, hs1, hs2, hs3⟩ := hsyms id hn hres
              have hnone : dictGet (reservedLocals K u) id = none := by
                rw [dictGet_eq_none]
                simpa [reservedLocals, reserved] using hres
              rw [hnone, Option.none_or, hs3, Option.bind_some]
              rw [hs1, Option.bind_some] at hloc
              exact get_at (hfit _ (dictGet_mem hs1)) hs2 hi (hlen ▸ hj) hm hloc

/-- **one expression**: if the specification gives a value at every cell, so does the code -/
theorem evalExpr_sound (K : Kernel F) {env : PyEnv} {scope : List (Str × Sym F)} {paths : List (List Name)} {dep : Nat}
    {labels : List (List Name)} (hL : Labelled paths dep labels) {src : Source} {x : Expression} (hx : Ready env scope paths dep src x)
    {n : Nat} (hfit : Fits n labels.length scope) {names : List Str} (hnames : ∀ y ∈ x.symbols, y ∈ names) {syms : List (Str × Local F)}
    (hsyms : ∀ x ∈ names, x ∉ reserved → ∃ s l, dictGet scope x = some s ∧ s.get = .ok l ∧ dictGet syms x = some l)
    (hsyms2 : ∀ e ∈ syms, ∃ s, dictGet scope e.1 = some s ∧ s.get = .ok e.2)
    {u : Tab F} (hr : u.rows = n) (hc : u.cols = labels.length)
    (hval : ∀ i j (_ : i < n) (hj : j < paths.length), (cellStep K scope paths[j] i j (u.val i j) src).isSome) :
    ∃ u', evalExpr K scope labels syms u x = .ok u' ∧ u'.rows = n ∧ u'.cols = labels.length ∧
      ∀ i j (_ : i < n) (hj : j < paths.length), some (u'.val i j) = cellStep K scope paths[j] i j (u.val i j) src := by
  have hlen : labels.length = paths.length := by rw [hL.labels]; simp
  obtain ⟨d1, d, hd1, hd, hsh, hloc⟩ := localDict_spec K hL hx hfit hsyms hsyms2 hr hc
  obtain ⟨hfil, simple, chained, s, hv, hch, hdi, hsy⟩ := hx.parsed
  -- the column mask
  obtain ⟨mask, hmask, hmj⟩ : ∃ mask, columnMask labels x.filter = .ok mask ∧ ((mask = none ∧ src.2 = none) ∨
      ∃ c, ∃ hc : c < paths.length, mask = some c ∧ src.2 = some (joinDots paths[c])) := by
    rw [hfil]
    cases hf : src.2 with
    | none => exact ⟨none, rfl, .inl ⟨rfl, rfl⟩⟩
    | some f =>
      obtain ⟨p, hp, e⟩ := hx.filter f hf
      obtain ⟨c, hc, rfl⟩ := List.getElem_of_mem hp
      exact ⟨some c, (columnMask_spec hL f).1 c hc e, .inr ⟨c, hc, rfl, by rw [e]⟩⟩
  have happ : ∀ j (hj : j < paths.length), filterMeans paths[j] src.2 = applies mask j := by
    intro j hj
    rcases hmj with ⟨rfl, h2⟩ | ⟨c, hc, rfl, h2⟩
    · rw [h2]; rfl
    · rw [h2]
      simp only [filterMeans, applies, decide_eq_decide]
      constructor
      · intro h
        have h1 := hL.names _ (List.getElem_mem hc)
        have h2 := hL.names _ (List.getElem_mem hj)
        have := joinDots_inj h1.1 h2.1 (fun n hn => (h1.2 n hn).1) (fun n hn => (h2.2 n hn).1) h
        exact ((List.Nodup.getElem_inj_iff hL.nodup).mp this).symm
      · rintro rfl; rfl
  -- each cell
  have hcell : ∀ i j (hi : i < n) (hj : j < paths.length), applies mask j = true →
      newCell K x.transformed d u mask i j = cellStep K scope paths[j] i j (u.val i j) src := by
    intro i j hi hj ha
    have hm : mask = none ∨ mask = some j := by
      rcases hmj with ⟨rfl, _⟩ | ⟨c, _, rfl, _⟩
      · exact .inl rfl
      · right; simp only [applies, decide_eq_true_eq] at ha; rw [ha]
    have hs := hval i j hi hj
    unfold cellStep at hs ⊢
    rw [happ j hj, ha, if_pos rfl] at hs ⊢
    cases hden : den K.toArith (cellEnv K scope paths[j] (u.val i j) i j) src.1 with
    | none => rw [hden] at hs; simp at hs
    | some v =>
      have h1 : ne K.toArith (localNames K.toArith (cellEnv K scope paths[j] (u.val i j) i j) names s) x.transformed = some v := by
        refine visit_sound K.toArith _ env names src.1 _ s _ v (PInv.fresh _ _) hx.plain hv hden s (Ext.refl s)
          ⟨(visit_inv env _ _ (PInv.fresh _ _) _ _ hv).1, hch ▸ hx.clash, hsy ▸ hx.internal, fun y hy => hnames y (hsy ▸ hy)⟩
      have h2 := ne_mono K.toArith _ (fun id => (dictGet d id).bind (Local.at mask u.rows u.cols i j))
        (fun id v hv' => by rw [hr, hc]; exact hloc simple chained s hv hch hdi i j mask hi hj hm id v hv') _ v h1
      unfold newCell
      rw [h2]
  -- the kernel
  have hbad : d.any (badColumn mask) = false := by
    rw [List.any_eq_false]
    intro e he
    have hb := hsh e he
    rcases hmj with ⟨rfl, _⟩ | ⟨c, hc', rfl, _⟩
    · simp [badColumn]
    · cases hl : e.2 with
      | scalar v => simp [badColumn, hl]
      | nothing => simp [badColumn, hl]
      | array a =>
        rw [hl] at hb
        obtain ⟨_, hb⟩ := hb
        simp only [badColumn, hl, decide_eq_true_eq, not_and]
        omega
  have hout : badOut mask u = false := by
    rcases hmj with ⟨rfl, _⟩ | ⟨c, hc', rfl, _⟩
    · rfl
    · simp only [badOut, decide_eq_false_iff_not]; omega
  have hall : ((List.range u.rows).all fun i => (List.range u.cols).all fun j =>
      !applies mask j || (newCell K x.transformed d u mask i j).isSome) = true := by
    rw [List.all_eq_true]
    intro i hi
    rw [List.all_eq_true]
    intro j hj
    rw [List.mem_range, hr] at hi
    rw [List.mem_range, hc, hlen] at hj
    cases ha : applies mask j with
    | false => rfl
    | true => simp only [Bool.not_true, Bool.false_or]; rw [hcell i j hi hj ha]; exact hval i j hi hj
  refine ⟨⟨u.rows, u.cols, fun i j => if i < u.rows ∧ j < u.cols ∧ applies mask j then
      (newCell K x.transformed d u mask i j).getD (u.val i j) else u.val i j⟩, ?_, hr, hc, ?_⟩
  · unfold evalExpr
    rw [hmask]
    simp only [bind, Except.bind, hd1, hd]
    unfold kernelEval
    rw [if_neg (by rw [hbad, hout]; simp), if_pos hall]
  · intro i j hi hj
    simp only []
    cases ha : applies mask j with
    | false =>
      rw [if_neg (by simp)]
      unfold cellStep
      rw [happ j hj, ha]; rfl
    | true =>
      rw [if_pos ⟨by omega, by omega, rfl⟩, hcell i j hi hj ha]
      obtain ⟨v, hv⟩ := Option.isSome_iff_exists.mp (hval i j hi hj)
      rw [hv]; rfl

end Cheval
