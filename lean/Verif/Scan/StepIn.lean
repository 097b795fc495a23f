import Verif.Scan.Steps

/-!
# One IN column more
-/

namespace BaikalDB.Scan
open KeyEnc KeyEnc.Spec IndexKey Like Like.Spec Route

theorem takeIn_eq (f : Nat) (r : FR) (s : St) : takeIn f r s =
    { take f { s with eqCount := s.eqCount + 1, inPred := true } with
      cut := if r.isRow = false ∨ (allIn r.leftRow (insertId f s.hitIds) = true ∧
        (s.inMap.lookup (condOf r)).getD 0 = r.leftRow.length) then addAll s.cut r.conds else s.cut } := by
  unfold takeIn addCut
  cases r.isRow
  · simp [take]
  · by_cases hh : allIn r.leftRow (insertId f s.hitIds) = true <;>
      by_cases h2 : (s.inMap.lookup (condOf r)).getD 0 = r.leftRow.length <;> simp [take, hh, h2]

theorem lookup_bump (i j : Nat) (l : List (Nat × Nat)) :
    (bump i l).lookup j = if j = i then (l.lookup i).map (· + 1) else l.lookup j := by
  unfold bump
  induction l with
  | nil => simp
  | cons p l ih =>
    obtain ⟨a, b⟩ := p
    simp only [List.map_cons]
    by_cases ha : a = i
    · subst ha
      by_cases hj : j = a
      · subst hj; simp [List.lookup]
      · have : (j == a) = false := by simp [hj]
        simp only [if_true, List.lookup, this, hj, if_false] at ih ⊢
        rw [ih]
    · by_cases hj : j = a
      · subst hj
        simp [ha, List.lookup]
      · have h1 : (j == a) = false := by simp [hj]
        have h2 : (i == a) = false := by simp [Ne.symm ha]
        simp only [ha, if_false, List.lookup, h1, h2] at ih ⊢
        exact ih

theorem lookup_snoc (i j v : Nat) (l : List (Nat × Nat)) :
    (l ++ [(i, v)]).lookup j = (l.lookup j).or (if j = i then some v else none) := by
  induction l with
  | nil => by_cases h : j = i <;> simp [List.lookup, h]
  | cons p l ih =>
    obtain ⟨a, b⟩ := p
    simp only [List.cons_append, List.lookup]
    split
    · simp
    · exact ih

section
variable {cs : Charset} {ty : Nat → PType} {ix : IndexInfo} {conds : List Cond} {m : FMap}

theorem condOf_one {r : FR} {i : Nat} (h : r.conds = [i]) : condOf r = i := by simp [condOf, h]

/-- A column of a row IN. -/
theorem rowCol (hm : MInv conds.length conds m) {c : Col} (hsrc : ColFrom m c) {i : Nat}
    (hg : c.gid = .inl i) : ∃ vss, ∃ k : Nat, conds[i]? = some (.rin (m c.f.id).leftRow vss) ∧
      (m c.f.id).leftRow[k]? = some c.f.id ∧ c.vals = column (tuples vss) k ∧ 2 ≤ c.vals.length := by
  obtain ⟨hv, h | h⟩ := hsrc
  · rw [h.2.1] at hg; cases hg
  · obtain ⟨i', hcd, h2, h3⟩ := (hm.fok c.f.id).inn h.1
    rw [h.2, condOf_one hcd] at hg
    rcases h3 with ⟨hr, _⟩ | ⟨hr, vss, k, h4, h5, h6⟩
    · rw [hr] at hg; simp at hg
    · rw [hr] at hg
      simp only [if_true, Sum.inl.injEq] at hg
      subst hg
      exact ⟨vss, k, h4, h5, by rw [hv, h6], by rw [hv]; exact h2⟩

theorem forced_in (hcov : Covered cs ty ix conds) (hm : MInv conds.length conds m) {cols : List Col} {c : Col}
    (hc : c ∈ cols) (hsrc : ∀ c ∈ cols, ColFrom m c) (hnd : (cols.map (·.f.id)).Nodup)
    (hlen : 0 < c.vals.length) (ht : (m c.f.id).type = .inn)
    (hoff : ∀ i, c.gid = .inl i → ∀ c' ∈ cols, c'.gid = .inl i → c'.off = c.off)
    (hcut : (m c.f.id).isRow = false ∨
      (cols.filter fun c' => decide (c'.gid = .inl (condOf (m c.f.id)))).length = (m c.f.id).leftRow.length) :
    ∀ i ∈ (m c.f.id).conds, ∃ d, conds[i]? = some d ∧
      ∀ row, RowOk cs ix row → ∀ j, Matches cols j row → Holds cs row d := by
  intro i hi
  obtain ⟨i', hcd, h2, ⟨hr, vs, h4, h5⟩ | ⟨hr, vss, k, h4, h5, h6⟩⟩ := (hm.fok c.f.id).inn ht
  · rw [hcd] at hi
    simp only [List.mem_singleton] at hi
    subst hi
    refine ⟨_, h4, ?_⟩
    intro row _ j hma
    obtain ⟨x, hx, hxc⟩ := hma c hc
    refine ⟨x, c.val j, hx, ?_, hxc⟩
    rw [← mem_nonNull, ← h5, ← (hsrc c hc).1]
    exact val_mem hlen j
  · rw [hcd] at hi
    simp only [List.mem_singleton] at hi
    subst hi
    have hgid : c.gid = .inl i := by
      rcases (hsrc c hc).2 with h | h
      · rcases h.1 with h | h <;> rw [ht] at h <;> cases h
      · rw [h.2, hr, condOf_one hcd]; rfl
    rw [condOf_one hcd] at hcut
    have hcut : (cols.filter fun c' => decide (c'.gid = .inl i)).length = (m c.f.id).leftRow.length := by
      rcases hcut with h | h
      · rw [hr] at h; cases h
      · exact h
    generalize hfs : (m c.f.id).leftRow = fs at h4 h5 hcut
    -- the columns of this row IN are all its columns
    have hmem : ∀ c' ∈ cols, c'.gid = .inl i → ∃ k : Nat, fs[k]? = some c'.f.id ∧ c'.vals = column (tuples vss) k := by
      intro c' hc' hg'
      obtain ⟨vss', k', e1, e2, e3, _⟩ := rowCol hm (hsrc c' hc') hg'
      rw [h4] at e1
      simp only [Option.some.injEq, Cond.rin.injEq] at e1
      obtain ⟨e, rfl⟩ := e1
      exact ⟨k', by rw [e]; exact e2, e3⟩
    have hsub : ((cols.filter fun c' => decide (c'.gid = .inl i)).map (·.f.id)) ⊆ fs := by
      intro g hg
      obtain ⟨c', hc', rfl⟩ := List.mem_map.1 hg
      rw [List.mem_filter] at hc'
      obtain ⟨k', hk', _⟩ := hmem c' hc'.1 (by simpa using hc'.2)
      exact List.mem_iff_getElem?.2 ⟨k', hk'⟩
    have hnd' : ((cols.filter fun c' => decide (c'.gid = .inl i)).map (·.f.id)).Nodup :=
      hnd.sublist (List.filter_sublist.map _)
    have hperm := (hnd'.subperm hsub).perm_of_length_le (by simp [hcut])
    have hfsnd : fs.Nodup := hperm.nodup_iff.1 hnd'
    refine ⟨_, h4, ?_⟩
    intro row _ j hma
    have hvl : c.vals.length = (tuples vss).length := by
      rw [(hsrc c hc).1, h6]; simp [column]
    have hidx : (j / c.off) % c.vals.length < (tuples vss).length := by
      rw [← hvl]; exact Nat.mod_lt _ hlen
    have hT : (tuples vss)[(j / c.off) % c.vals.length] ∈ tuples vss := List.getElem_mem _
    generalize hTe : (tuples vss)[(j / c.off) % c.vals.length] = T at hT
    refine ⟨_, mem_tuples.1 hT, ?_⟩
    rw [rowTrue_eq_iff (fits_tuples (ok_at hcov h4).2 hT)]
    intro k' g v hk' hv'
    obtain ⟨c', hc', hid⟩ := List.mem_map.1 (hperm.symm.subset (List.mem_iff_getElem?.2 ⟨k', hk'⟩))
    rw [List.mem_filter] at hc'
    have hg' : c'.gid = .inl i := by simpa using hc'.2
    obtain ⟨k2, hk2, hv2⟩ := hmem c' hc'.1 hg'
    have : k2 = k' := by
      rw [hid] at hk2
      obtain ⟨l1, e1⟩ := List.getElem?_eq_some_iff.1 hk2
      obtain ⟨l2, e2⟩ := List.getElem?_eq_some_iff.1 hk'
      exact (List.getElem_inj hfsnd).1 (e1.trans e2.symm)
    subst this
    obtain ⟨x, hx, hxc⟩ := hma c' hc'.1
    have hval : c'.val j = v := by
      unfold Col.val
      rw [hoff i hgid c' hc'.1 hg', hv2]
      have : (column (tuples vss) k2).length = c.vals.length := by rw [hvl]; simp [column]
      rw [this]
      unfold column
      rw [List.getD_eq_getElem?_getD, List.getElem?_map, List.getElem?_eq_getElem hidx, hTe]
      simp [List.getD_eq_getElem?_getD, hv']
    rw [hval] at hxc
    exact ⟨x, hid ▸ hx, hxc⟩

theorem recs0_eq {base : Bytes} {cols : List Col} {s : St} {k : KSt} (h : Rel cs ix conds m base cols s k) :
    (if k.recs = [] then [(k.left, [])] else k.recs) = (List.range s.inSize).map fun j => (pkey base cols j, ([] : Bytes)) := by
  rcases h.recs with ⟨_, h2, h3, h4, _, _⟩ | ⟨_, h2⟩
  · rw [if_pos h3, h4, h2]; simp
  · have hne : k.recs ≠ [] := by
      rw [h2]; simp; exact Nat.pos_iff_ne_zero.1 h.size
    rw [if_neg hne, h2]

theorem matches_mod {base : Bytes} {cols : List Col} {s : St} {k : KSt} (h : Rel cs ix conds m base cols s k) (j : Nat) :
    jvals cols (j % s.inSize) = jvals cols j := by
  unfold jvals Col.val
  apply List.map_congr_left
  intro c hc
  rw [div_mod_mod (h.div c hc).2.2]

/-- Another column of a row IN that is being served. -/
theorem rel_in_more (hcov : Covered cs ty ix conds) (hm : MInv conds.length conds m) {base : Bytes} {cols : List Col}
    {s : St} {k : KSt} (h : Rel cs ix conds m base cols s k) {f : FieldInfo} (hf : f ∈ avail ix) (hn : f.id ∉ s.hitIds)
    (ht : (m f.id).type = .inn) (hrow : (m f.id).isRow = true)
    (hsome : (s.inMap.lookup (condOf (m f.id))).isSome = true) (hmod : s.inSize % (m f.id).eqIn.length = 0) :
    ∃ c k', c.f = f ∧ keyIn f.type (m f.id) { k with cnt := k.cnt + 1 } = some k' ∧
      Rel cs ix conds m base (cols ++ [c])
        (takeIn f.id (m f.id) { s with inMap := bump (condOf (m f.id)) s.inMap }) k' := by
  obtain ⟨i, hcd, h2, h3⟩ := (hm.fok f.id).inn ht
  obtain ⟨vss, kk, h4, h5, h6⟩ : ∃ vss, ∃ kk : Nat, conds[i]? = some (.rin (m f.id).leftRow vss) ∧
      (m f.id).leftRow[kk]? = some f.id ∧ (m f.id).eqIn = column (tuples vss) kk := by
    rcases h3 with ⟨hr, _⟩ | ⟨_, h⟩
    · rw [hrow] at hr; cases hr
    · exact h
  rw [condOf_one hcd] at hsome ⊢
  obtain ⟨off, hoff⟩ : ∃ off, k.offs.lookup i = some off := by
    rw [h.maps i] at hsome
    exact Option.isSome_iff_exists.1 hsome
  obtain ⟨c0, hc0, hg0⟩ := h.offs' i off hoff
  have hoff0 : c0.off = off := by
    have := h.offs c0 hc0 i hg0
    rw [hoff] at this
    exact (Option.some.inj this).symm
  obtain ⟨vss', k0, e1, e2, e3, e4⟩ := rowCol hm (h.src c0 hc0) hg0
  have hvss : vss' = vss := by
    rw [h4] at e1
    simp only [Option.some.injEq, Cond.rin.injEq] at e1
    exact e1.2.symm
  subst hvss
  have hl0 : c0.vals.length = (m f.id).eqIn.length := by rw [e3, h6]; simp [column]
  have hdiv0 := h.div c0 hc0
  rw [hoff0, hl0] at hdiv0
  have hrecs : k.recs = (List.range s.inSize).map fun j => (pkey base cols j, ([] : Bytes)) := by
    rcases h.recs with ⟨_, _, _, _, _, h6⟩ | ⟨_, h2⟩
    · have := h6 c0 hc0; omega
    · exact h2
  have hne : k.recs ≠ [] := by rw [hrecs]; simp; exact Nat.pos_iff_ne_zero.1 h.size
  refine ⟨⟨f, (m f.id).eqIn, off, .inl i⟩,
    { k with cnt := k.cnt + 1, recs := flatFill f.type (m f.id).eqIn off 0 0 k.recs }, rfl, ?_, ?_⟩
  · unfold keyIn
    rw [condOf_one hcd]
    simp only [hrow, if_true, hoff]
    rw [if_pos]
    refine ⟨by omega, ?_⟩
    rw [hrecs]
    simpa using hmod
  · have hids : insertId f.id s.hitIds = (cols ++ [(⟨f, (m f.id).eqIn, off, .inl i⟩ : Col)]).map (·.f.id) := by
      rw [insertId_new hn, h.ids]; simp
    have hnd : ((cols ++ [(⟨f, (m f.id).eqIn, off, .inl i⟩ : Col)]).map (·.f.id)).Nodup := by
      rw [← hids, insertId_new hn]
      have := h.nodup
      rw [← h.ids] at this
      exact List.nodup_append.2 ⟨this, by simp, by intro a ha b hb; simp at hb; subst hb; intro e; exact hn (e ▸ ha)⟩
    have hsrc : ∀ c ∈ cols ++ [(⟨f, (m f.id).eqIn, off, .inl i⟩ : Col)], ColFrom m c := by
      intro c hc
      rcases List.mem_append.1 hc with hc | hc
      · exact h.src c hc
      · simp only [List.mem_singleton] at hc
        subst hc
        exact ⟨rfl, .inr ⟨ht, by simp [hrow, condOf_one hcd]⟩⟩
    have hoffs : ∀ c ∈ cols ++ [(⟨f, (m f.id).eqIn, off, .inl i⟩ : Col)], ∀ j, c.gid = .inl j →
        k.offs.lookup j = some c.off := by
      intro c hc j hj
      rcases List.mem_append.1 hc with hc | hc
      · exact h.offs c hc j hj
      · simp only [List.mem_singleton] at hc
        subst hc
        simp only [Sum.inl.injEq] at hj
        subst hj
        exact hoff
    have hcount : ∀ j, ((bump i s.inMap).lookup j).getD 0 =
        ((cols ++ [(⟨f, (m f.id).eqIn, off, .inl i⟩ : Col)]).filter fun c => decide (c.gid = .inl j)).length := by
      intro j
      rw [lookup_bump, List.filter_append, List.length_append, ← h.count j]
      by_cases hj : j = i
      · subst hj
        obtain ⟨n, hn⟩ := Option.isSome_iff_exists.1 hsome
        simp [hn]
      · have : ¬ i = j := fun e => hj e.symm
        simp [hj, this]
    rw [takeIn_eq, condOf_one hcd]
    constructor
    · simp [take, h.cnt]
    · simp [h.kcnt]
    · simpa [take] using hids
    · exact hnd
    · rfl
    · rfl
    · simp [take, h.cnt]
    · simp [take, h.cnt]
    · exact h.likePrefix
    · exact h.eqOrIn
    · simp [take, h.eqCount]
    · exact hsrc
    · intro c hc w hw
      rcases List.mem_append.1 hc with hc | hc
      · exact h.valid c hc w hw
      · simp only [List.mem_singleton] at hc
        subst hc
        exact eqIn_valid hcov hm hf (by tauto) hw
    · right
      refine ⟨rfl, ?_⟩
      dsimp only
      rw [hrecs, flatFill_range _ _ _ _ hdiv0.1 hdiv0.2.1]
      apply List.map_congr_left
      intro j _
      rw [app_eq, pkey_snoc]
      rfl
    · exact h.size
    · intro c hc
      rcases List.mem_append.1 hc with hc | hc
      · exact h.div c hc
      · simp only [List.mem_singleton] at hc
        subst hc
        exact hdiv0
    · intro ch hch
      obtain ⟨j, hj, hj'⟩ := h.complete ch fun c hc => hch c (by simp [hc])
      refine ⟨j, hj, ?_⟩
      intro c hc
      rcases List.mem_append.1 hc with hc | hc
      · exact hj' c hc
      · simp only [List.mem_singleton] at hc
        subst hc
        have := hj' c0 hc0
        rw [hoff0, hl0, hg0] at this
        exact this
    · exact hoffs
    · intro j o ho
      obtain ⟨c, hc, hc'⟩ := h.offs' j o ho
      exact ⟨c, by simp [hc], hc'⟩
    · intro j
      dsimp only [take]
      rw [lookup_bump, ← h.maps j]
      by_cases hj : j = i
      · subst hj; simp
      · simp [hj]
    · exact hcount
    · intro j hj
      dsimp only at hj
      have old : j ∈ s.cut → ∃ d, conds[j]? = some d ∧ ∀ row, RowOk cs ix row → ∀ l,
          Matches (cols ++ [(⟨f, (m f.id).eqIn, off, .inl i⟩ : Col)]) l row → Holds cs row d := by
        intro hi
        obtain ⟨d, hd, hd'⟩ := h.cut j hi
        exact ⟨d, hd, fun row hr l hl => hd' row hr l (matches_left hl)⟩
      split at hj
      · rename_i hcond
        rcases mem_addAll.1 hj with hj | hj
        · exact old hj
        · refine forced_in hcov hm (c := ⟨f, (m f.id).eqIn, off, .inl i⟩) (by simp) hsrc hnd hdiv0.2.1 ht ?_ ?_ j hj
          · intro l hl c' hc' hg'
            simp only [Sum.inl.injEq] at hl
            subst hl
            have := hoffs c' hc' _ hg'
            rw [hoff] at this
            exact (Option.some.inj this).symm
          · rcases hcond with h0 | h0
            · exact .inl h0
            · right
              rw [condOf_one hcd, ← hcount i]
              exact h0.2
      · exact old hj

/-- A new IN. -/
theorem rel_in_new (hcov : Covered cs ty ix conds) (hm : MInv conds.length conds m) {base : Bytes} {cols : List Col}
    {s : St} {k : KSt} (h : Rel cs ix conds m base cols s k) {f : FieldInfo} (hf : f ∈ avail ix) (hn : f.id ∉ s.hitIds)
    (ht : (m f.id).type = .inn)
    (hnone : (m f.id).isRow = true → s.inMap.lookup (condOf (m f.id)) = none) :
    ∃ c k', c.f = f ∧ keyIn f.type (m f.id) { k with cnt := k.cnt + 1 } = some k' ∧
      Rel cs ix conds m base (cols ++ [c])
        (takeIn f.id (m f.id) { (if (m f.id).isRow then { s with inMap := s.inMap ++ [(condOf (m f.id), 1)] } else s) with
          inSize := (m f.id).eqIn.length * s.inSize }) k' := by
  obtain ⟨i, hcd, h2, h3⟩ := (hm.fok f.id).inn ht
  rw [condOf_one hcd] at hnone ⊢
  have hknone : (m f.id).isRow = true → k.offs.lookup i = none := by
    intro hr
    have := h.maps i
    rw [hnone hr] at this
    simpa using this.symm
  have hlook : (if (m f.id).isRow = true then k.offs.lookup i else none) = none := by
    split
    · rename_i hr; exact hknone hr
    · rfl
  generalize hg : (if (m f.id).isRow then (Sum.inl i : Nat ⊕ Nat) else .inr f.id) = g
  have hnew : ∀ c ∈ cols, c.gid ≠ g := by
    intro c hc e
    subst hg
    split at e
    · rename_i hr
      have := h.offs c hc i e
      rw [hknone hr] at this
      cases this
    · obtain ⟨_, h' | h'⟩ := h.src c hc
      · rw [h'.2.1] at e
        simp only [Sum.inr.injEq] at e
        apply hn
        rw [h.ids, ← e]
        exact List.mem_map.2 ⟨c, hc, rfl⟩
      · rw [h'.2] at e
        split at e
        · cases e
        · simp only [Sum.inr.injEq] at e
          apply hn
          rw [h.ids, ← e]
          exact List.mem_map.2 ⟨c, hc, rfl⟩
  refine ⟨⟨f, (m f.id).eqIn, s.inSize, g⟩,
    { k with cnt := k.cnt + 1,
             recs := expand f.type (m f.id).eqIn ((List.range s.inSize).map fun j => (pkey base cols j, [])),
             offs := if (m f.id).isRow then k.offs ++ [(i, s.inSize)] else k.offs }, rfl, ?_, ?_⟩
  · unfold keyIn
    rw [condOf_one hcd]
    have h0 := recs0_eq h
    simp only [hlook]
    rw [h0]
    simp
  · have hids : insertId f.id s.hitIds = (cols ++ [(⟨f, (m f.id).eqIn, s.inSize, g⟩ : Col)]).map (·.f.id) := by
      rw [insertId_new hn, h.ids]; simp
    have hnd : ((cols ++ [(⟨f, (m f.id).eqIn, s.inSize, g⟩ : Col)]).map (·.f.id)).Nodup := by
      rw [← hids, insertId_new hn]
      have := h.nodup
      rw [← h.ids] at this
      exact List.nodup_append.2 ⟨this, by simp, by intro a ha b hb; simp at hb; subst hb; intro e; exact hn (e ▸ ha)⟩
    have hsrc : ∀ c ∈ cols ++ [(⟨f, (m f.id).eqIn, s.inSize, g⟩ : Col)], ColFrom m c := by
      intro c hc
      rcases List.mem_append.1 hc with hc | hc
      · exact h.src c hc
      · simp only [List.mem_singleton] at hc
        subst hc
        exact ⟨rfl, .inr ⟨ht, by rw [condOf_one hcd]; exact hg.symm⟩⟩
    have hoffs : ∀ c ∈ cols ++ [(⟨f, (m f.id).eqIn, s.inSize, g⟩ : Col)], ∀ j, c.gid = .inl j →
        (if (m f.id).isRow then k.offs ++ [(i, s.inSize)] else k.offs).lookup j = some c.off := by
      intro c hc j hj
      rcases List.mem_append.1 hc with hc | hc
      · have := h.offs c hc j hj
        split
        · rw [lookup_snoc, this]; rfl
        · exact this
      · simp only [List.mem_singleton] at hc
        subst hc
        subst hg
        dsimp only at hj
        split at hj
        · rename_i hr
          simp only [Sum.inl.injEq] at hj
          subst hj
          rw [if_pos hr, lookup_snoc, hknone hr]
          simp
        · cases hj
    have hcount : ∀ j, ((if (m f.id).isRow then s.inMap ++ [(i, 1)] else s.inMap).lookup j).getD 0 =
        ((cols ++ [(⟨f, (m f.id).eqIn, s.inSize, g⟩ : Col)]).filter fun c => decide (c.gid = .inl j)).length := by
      intro j
      rw [List.filter_append, List.length_append, ← h.count j]
      subst hg
      by_cases hr : (m f.id).isRow = true
      · simp only [hr, if_true, lookup_snoc]
        by_cases hj : j = i
        · subst hj
          rw [hnone hr]
          simp
        · have : ¬ i = j := fun e => hj e.symm
          simp [hj, this]
      · simp [hr]
    have hmap : ∀ {α} (g : St → α), (∀ a b, g { s with inMap := a } = g { s with inMap := b }) →
        g (if (m f.id).isRow then { s with inMap := s.inMap ++ [(i, 1)] } else s) = g s := by
      intro α g hgg
      split
      · exact hgg _ _
      · rfl
    have hinmap : (if (m f.id).isRow then { s with inMap := s.inMap ++ [(i, 1)] } else s).inMap =
        if (m f.id).isRow then s.inMap ++ [(i, 1)] else s.inMap := by split <;> rfl
    have e1 := hmap (·.fieldCnt) (fun _ _ => rfl)
    have e2 := hmap (·.hitIds) (fun _ _ => rfl)
    have e3 := hmap (·.likePrefix) (fun _ _ => rfl)
    have e4 := hmap (·.eqOrIn) (fun _ _ => rfl)
    have e5 := hmap (·.eqCount) (fun _ _ => rfl)
    have e6 := hmap (·.cut) (fun _ _ => rfl)
    rw [takeIn_eq, condOf_one hcd]
    generalize (if (m f.id).isRow then { s with inMap := s.inMap ++ [(i, 1)] } else s) = s0 at *
    have hn2 : 0 < (m f.id).eqIn.length := by omega
    constructor
    · simp [take, h.cnt, e1]
    · simp [h.kcnt]
    · simp only [take]; rw [e2]; exact hids
    · exact hnd
    · rfl
    · rfl
    · simp [take, h.cnt, e1]
    · simp [take, h.cnt, e1]
    · simp only [take]; rw [e3]; exact h.likePrefix
    · simp only [take]; rw [e4]; exact h.eqOrIn
    · simp [take, h.eqCount, e5]
    · exact hsrc
    · intro c hc w hw
      rcases List.mem_append.1 hc with hc | hc
      · exact h.valid c hc w hw
      · simp only [List.mem_singleton] at hc
        subst hc
        exact eqIn_valid hcov hm hf (by tauto) hw
    · right
      refine ⟨rfl, ?_⟩
      simp only [take]
      rw [expand_range _ _ _ h.size]
      apply List.map_congr_left
      intro j hj
      have hj' : j / s.inSize < (m f.id).eqIn.length := by
        rw [Nat.div_lt_iff_lt_mul h.size]; simpa using hj
      rw [app_eq, pkey_snoc]
      unfold Col.val
      dsimp only
      rw [Nat.mod_eq_of_lt hj']
      unfold pkey
      rw [matches_mod h j]
    · simp only [take]; exact Nat.mul_pos hn2 h.size
    · intro c hc
      simp only [take]
      rcases List.mem_append.1 hc with hc | hc
      · obtain ⟨d1, d2, d3⟩ := h.div c hc
        exact ⟨d1, d2, d3.trans (Nat.dvd_mul_left _ _)⟩
      · simp only [List.mem_singleton] at hc
        subst hc
        exact ⟨h.size, hn2, by dsimp only; rw [Nat.mul_comm]⟩
    · intro ch hch
      obtain ⟨j, hj, hj'⟩ := h.complete ch fun c hc => hch c (by simp [hc])
      have hchg : ch g < (m f.id).eqIn.length := hch ⟨f, (m f.id).eqIn, s.inSize, g⟩ (by simp)
      obtain ⟨dm1, dm2⟩ := divmod_of (a := s.inSize * ch g + j) rfl hj
      refine ⟨s.inSize * ch g + j, ?_, ?_⟩
      · simp only [take]
        calc s.inSize * ch g + j < s.inSize * ch g + s.inSize := by omega
          _ = s.inSize * (ch g + 1) := by rw [Nat.mul_add, Nat.mul_one]
          _ ≤ s.inSize * (m f.id).eqIn.length := Nat.mul_le_mul_left _ hchg
          _ = (m f.id).eqIn.length * s.inSize := Nat.mul_comm _ _
      · intro c hc
        rcases List.mem_append.1 hc with hc | hc
        · rw [← div_mod_mod (h.div c hc).2.2, dm1]
          exact hj' c hc
        · simp only [List.mem_singleton] at hc
          subst hc
          dsimp only
          rw [dm2, Nat.mod_eq_of_lt hchg]
    · exact hoffs
    · intro j o ho
      dsimp only at ho
      split at ho
      · rename_i hr
        rw [lookup_snoc] at ho
        cases hl : k.offs.lookup j with
        | some o' =>
          obtain ⟨c, hc, hc'⟩ := h.offs' j o' hl
          exact ⟨c, by simp [hc], hc'⟩
        | none =>
          rw [hl] at ho
          simp only [Option.none_or] at ho
          split at ho
          · rename_i hji
            subst hji
            exact ⟨_, List.mem_append_right _ (List.mem_singleton.2 rfl), by rw [← hg, hr]; rfl⟩
          · cases ho
      · obtain ⟨c, hc, hc'⟩ := h.offs' j o ho
        exact ⟨c, by simp [hc], hc'⟩
    · intro j
      simp only [take]
      rw [hinmap]
      have := h.maps j
      by_cases hr : (m f.id).isRow = true
      · simp only [hr, if_true, lookup_snoc]
        by_cases hj : j = i
        · simp [hj]
        · simp [hj, this]
      · simpa [hr] using this
    · intro j
      simp only [take]
      rw [hinmap]
      exact hcount j
    · intro j hj
      dsimp only at hj
      rw [e6, e2, hinmap] at hj
      generalize hM : (if (m f.id).isRow then s.inMap ++ [(i, 1)] else s.inMap) = M at hj hcount
      have old : j ∈ s.cut → ∃ d, conds[j]? = some d ∧ ∀ row, RowOk cs ix row → ∀ l,
          Matches (cols ++ [(⟨f, (m f.id).eqIn, s.inSize, g⟩ : Col)]) l row → Holds cs row d := by
        intro hi
        obtain ⟨d, hd, hd'⟩ := h.cut j hi
        exact ⟨d, hd, fun row hr l hl => hd' row hr l (matches_left hl)⟩
      split at hj
      · rename_i hcond
        rcases mem_addAll.1 hj with hj | hj
        · exact old hj
        · refine forced_in hcov hm (c := ⟨f, (m f.id).eqIn, s.inSize, g⟩) (by simp) hsrc hnd hn2 ht ?_ ?_ j hj
          · intro l hl c' hc' hg'
            have a1 := hoffs c' hc' _ hg'
            have a2 := hoffs ⟨f, (m f.id).eqIn, s.inSize, g⟩ (by simp) _ hl
            rw [a1] at a2
            exact Option.some.inj a2
          · rcases hcond with h0 | h0
            · exact .inl h0
            · right
              rw [condOf_one hcd, ← hcount i]
              exact h0.2
      · exact old hj

theorem rel_in (hcov : Covered cs ty ix conds) (hm : MInv conds.length conds m) {cfg : Cfg} {base : Bytes}
    {cols : List Col} {s s' : St} {k : KSt} (h : Rel cs ix conds m base cols s k) {f : FieldInfo} (hf : f ∈ avail ix)
    (hn : f.id ∉ s.hitIds) (ht : (m f.id).type = .inn) (e : stepIn cfg ix f.id (m f.id) s = some s') :
    ∃ c k', c.f = f ∧ keyIn f.type (m f.id) { k with cnt := k.cnt + 1 } = some k' ∧
      Rel cs ix conds m base (cols ++ [c]) s' k' := by
  unfold stepIn at e
  split at e
  · rename_i h1
    rw [Bool.and_eq_true] at h1
    split at e
    · rename_i h2
      cases e
      exact rel_in_more hcov hm h hf hn ht h1.1 h1.2 h2.2
    · cases e
  · rename_i h1
    split at e
    · cases e
    · split at e
      · cases e
      · cases e
        refine rel_in_new hcov hm h hf hn ht ?_
        intro hr
        rw [hr, Bool.true_and] at h1
        cases hl : s.inMap.lookup (condOf (m f.id)) with
        | none => rfl
        | some x => rw [hl] at h1; exact absurd rfl h1

end

end BaikalDB.Scan
