import Verif.Scan.Cols

/-!
# One column more
-/

namespace BaikalDB.Scan
open KeyEnc KeyEnc.Spec IndexKey Like Like.Spec Route

theorem fitsRow_get {ty : Nat → PType} {fs : List Nat} {vs : List (Option PbVal)} (h : FitsRow ty fs vs) {k f : Nat}
    {v : Option PbVal} (hk : fs[k]? = some f) (hv : vs[k]? = some v) : FitsCol ty f v := by
  induction fs generalizing vs k with
  | nil => simp at hk
  | cons g fs ih => cases vs with
    | nil => simp at hv
    | cons w vs => cases k with
      | zero => simp at hk hv; subst hk; subst hv; exact h.1
      | succ k => exact ih h.2 (by simpa using hk) (by simpa using hv)

theorem rowTrue_eq_iff {row : Row} {fs : List Nat} {ws : List PbVal} (hl : ws.length = fs.length) :
    rowTrue .eq row fs (ws.map some) ↔
      ∀ (k : Nat) f v, fs[k]? = some f → ws[k]? = some v → ∃ x, row f = some x ∧ colCompare x v = .eq := by
  induction fs generalizing ws with
  | nil => cases ws <;> simp [rowTrue, opOk] at hl ⊢
  | cons f fs ih => cases ws with
    | nil => simp at hl
    | cons w ws =>
      simp only [List.map_cons, rowTrue, Option.some.injEq, opOk]
      rw [ih (by simpa using hl)]
      constructor
      · rintro ⟨x, y, hx, rfl, ⟨h1, h2⟩ | ⟨h1, h2⟩⟩ k g v hk hv
        · cases k with
          | zero => simp at hk hv; subst hk; subst hv; exact ⟨x, hx, h1⟩
          | succ k => exact h2 k g v (by simpa using hk) (by simpa using hv)
        · exact absurd h2 h1
      · intro h
        obtain ⟨x, hx, hc⟩ := h 0 f w rfl rfl
        exact ⟨x, w, hx, rfl, .inl ⟨hc, fun k g v hk hv => h (k + 1) g v (by simpa using hk) (by simpa using hv)⟩⟩

section
variable {cs : Charset} {ty : Nat → PType} {ix : IndexInfo} {conds : List Cond} {m : FMap}

theorem ok_at (h : Covered cs ty ix conds) {i : Nat} {c : Cond} (hi : conds[i]? = some c) : CondOk cs ty c :=
  h.ok c (List.mem_iff_getElem?.2 ⟨i, hi⟩)

theorem hit_zero {p : Bytes} (h : 0#8 ∉ p) : 0#8 ∉ (hitIndex p).2.2 := fun hh => h (scan_sub hh)

/-- The length of the tuple of a row equality. -/
theorem rowEqAt_len (hcov : Covered cs ty ix conds) {i : Nat} {fs : List Nat} {ws : List PbVal}
    (h : RowEqAt conds i fs ws) : ws.length = fs.length := by
  rcases h with ⟨vs, h, hw⟩ | ⟨vss, h, hw⟩
  · have := fitsRow_len (ok_at hcov h).2.1
    rw [this, tuple_some.1 hw, List.length_map]
  · exact fits_tuples (ok_at hcov h).2 (by simp [hw])

theorem rowEqAt_fits (hcov : Covered cs ty ix conds) {i : Nat} {fs : List Nat} {ws : List PbVal}
    (h : RowEqAt conds i fs ws) : FitsRow ty fs (ws.map some) := by
  rcases h with ⟨vs, h, hw⟩ | ⟨vss, h, hw⟩
  · rw [← tuple_some.1 hw]; exact (ok_at hcov h).2.1
  · exact (ok_at hcov h).2 _ (mem_tuples.1 (by simp [hw]))

theorem eqIn_valid (hcov : Covered cs ty ix conds) (hm : MInv conds.length conds m) {f : FieldInfo} (hf : f ∈ avail ix)
    (ht : (m f.id).type = .eq ∨ (m f.id).type = .likeEq ∨ (m f.id).type = .likePrefix ∨ (m f.id).type = .inn)
    {v : PbVal} (hv : v ∈ (m f.id).eqIn) : Valid f.type v := by
  have hok := hm.fok f.id
  rw [hcov.types f hf]
  rcases ht with h | h | h | h
  · obtain ⟨i, w, _, he, h | ⟨_, ws, k, h1, h2, h3⟩⟩ := hok.eq h
    · rw [he] at hv
      simp only [List.mem_singleton] at hv
      subst hv
      rcases h.2 with h | ⟨vs, h, h'⟩
      · exact ok_at hcov h v rfl
      · exact ok_at hcov h _ (mem_nonNull.1 (by rw [h']; simp)) v rfl
    · rw [he] at hv
      simp only [List.mem_singleton] at hv
      subst hv
      exact fitsRow_get (rowEqAt_fits hcov h1) h2 (v := some v) (by simp [h3]) v rfl
  · obtain ⟨i, p, _, _, hc, _, he⟩ := hok.likeEq h
    rw [he] at hv
    simp only [List.mem_singleton] at hv
    subst hv
    have := ok_at hcov hc
    rw [this.1]
    exact hit_zero (this.2 p rfl).1
  · obtain ⟨i, p, _, _, hc, _, _, he⟩ := hok.likePrefix h
    rw [he] at hv
    simp only [List.mem_singleton] at hv
    subst hv
    have := ok_at hcov hc
    rw [this.1]
    exact hit_zero (this.2 p rfl).1
  · obtain ⟨i, _, _, ⟨_, vs, hc, he⟩ | ⟨_, vss, k, hc, hk, he⟩⟩ := hok.inn h
    · rw [he, mem_nonNull] at hv
      exact ok_at hcov hc _ hv v rfl
    · rw [he] at hv
      unfold column at hv
      obtain ⟨T, hT, rfl⟩ := List.mem_map.1 hv
      have hlen := fits_tuples (ok_at hcov hc).2 hT
      have hfit := (ok_at hcov hc).2 _ (mem_tuples.1 hT)
      have hlt : k < T.length := by rw [hlen]; exact (List.getElem?_eq_some_iff.1 hk).1
      refine fitsRow_get hfit hk (v := some _) ?_ _ rfl
      rw [List.getElem?_map, List.getElem?_eq_getElem hlt, List.getD_eq_getElem?_getD, List.getElem?_eq_getElem hlt]
      rfl

theorem val_one {c : Col} {v : PbVal} (h : c.vals = [v]) (j : Nat) : c.val j = v := by
  unfold Col.val; rw [h]; simp [Nat.mod_one]

/-- A string column of a row holds text. -/
theorem str_of_valid {t : PType} {x : PbVal} (h : Valid t x) (ht : t = .string) : ∃ s, x = .str s ∧ 0#8 ∉ s := by
  subst ht
  cases x <;> simp [Valid] at h
  exact ⟨_, rfl, h⟩

/-- The conditions an EQ entry stands for are implied by the fixed columns. -/
theorem forced_eq (hcov : Covered cs ty ix conds) (hm : MInv conds.length conds m) {cols : List Col} {c : Col}
    (hc : c ∈ cols) (hav : c.f ∈ avail ix) (hsrc : ∀ c ∈ cols, ColFrom m c)
    (ht : (m c.f.id).type = .eq ∨ (m c.f.id).type = .likeEq)
    (hcut : (m c.f.id).isRow = false ∨ ∀ g ∈ (m c.f.id).leftRow, g ∈ cols.map (·.f.id)) :
    ∀ i ∈ (m c.f.id).conds, ∃ d, conds[i]? = some d ∧
      ∀ row, RowOk cs ix row → ∀ j, Matches cols j row → Holds cs row d := by
  intro i hi
  have hok := hm.fok c.f.id
  rcases ht with h | h
  · obtain ⟨i', v, hcd, he, ⟨_, h⟩ | ⟨hr, ws, k, h1, h2, h3⟩⟩ := hok.eq h
    · rw [hcd] at hi
      simp only [List.mem_singleton] at hi
      subst hi
      have hcv : c.vals = [v] := by rw [(hsrc c hc).1, he]
      rcases h with h | ⟨vs, h, h'⟩
      · refine ⟨_, h, ?_⟩
        intro row _ j hma
        obtain ⟨x, hx, hxc⟩ := hma c hc
        rw [val_one hcv] at hxc
        exact ⟨x, v, hx, rfl, hxc⟩
      · refine ⟨_, h, ?_⟩
        intro row _ j hma
        obtain ⟨x, hx, hxc⟩ := hma c hc
        rw [val_one hcv] at hxc
        exact ⟨x, v, hx, mem_nonNull.1 (by simp [h']), hxc⟩
    · rw [hcd] at hi
      simp only [List.mem_singleton] at hi
      subst hi
      have hall : ∀ g ∈ (m c.f.id).leftRow, g ∈ cols.map (·.f.id) := by
        rcases hcut with h0 | h0
        · rw [hr] at h0; cases h0
        · exact h0
      have hilt : i < conds.length := by
        rcases h1 with ⟨_, h, _⟩ | ⟨_, h, _⟩ <;> exact (List.getElem?_eq_some_iff.1 h).1
      have hlen := rowEqAt_len hcov h1
      have key : ∀ row j, Matches cols j row → rowTrue .eq row (m c.f.id).leftRow (ws.map some) := by
        intro row j hma
        rw [rowTrue_eq_iff hlen]
        intro k' g v' hk' hv'
        obtain ⟨c', hc', hid⟩ := List.mem_map.1 (hall g (List.mem_iff_getElem?.2 ⟨k', hk'⟩))
        obtain ⟨x, hx, hxc⟩ := hma c' hc'
        have hfrom := hsrc c' hc'
        have hreq := hm.row i hilt _ ws h1 k' g v' hk' hv'
        rw [← hid] at hreq
        have hv1 : c'.vals = [v'] := by
          rcases hreq with h0 | h0
          · rcases hfrom.2 with ⟨h, _⟩ | ⟨h, _⟩ <;> rw [h0] at h <;> simp at h
          · rw [hfrom.1, h0.2.2.2.1]
        rw [val_one hv1] at hxc
        exact ⟨x, hid ▸ hx, hxc⟩
      rcases h1 with ⟨vs, h, hw⟩ | ⟨vss, h, hw⟩
      · refine ⟨_, h, fun row _ j hma => ?_⟩
        have := key row j hma
        rw [← tuple_some.1 hw] at this
        exact this
      · exact ⟨_, h, fun row _ j hma => ⟨_, mem_tuples.1 (by simp [hw]), key row j hma⟩⟩
  · obtain ⟨i', p, hcd, _, hcp, h1, he⟩ := hok.likeEq h
    rw [hcd] at hi
    simp only [List.mem_singleton] at hi
    subst hi
    refine ⟨_, hcp, ?_⟩
    intro row hrow j hma
    obtain ⟨x, hx, hxc⟩ := hma c hc
    have hcv : c.vals = [.str (hitIndex p).2.2] := by rw [(hsrc c hc).1, he]
    rw [val_one hcv] at hxc
    obtain ⟨x', hx', hval⟩ := hrow.cols c.f hav
    rw [hx] at hx'
    cases hx'
    have hok' := ok_at hcov hcp
    obtain ⟨t, rfl, _⟩ := str_of_valid hval (by rw [hcov.types c.f hav]; exact hok'.1)
    obtain ⟨_, P, hP, hcl⟩ := hok'.2 p rfl
    obtain ⟨T, hT⟩ := hrow.text _ t hx
    refine ⟨t, p, hx, rfl, ?_⟩
    rw [C26_index_eq hcov.charset hT hP hcl h1]
    exact bcmp_eq_iff.1 hxc

theorem allIn_iff {fs ids : List Nat} : allIn fs ids = true ↔ ∀ g ∈ fs, g ∈ ids := by
  simp [allIn]

theorem stepEq_eq (f : Nat) (r : FR) (s : St) : stepEq f r s =
    { take f { s with eqCount := s.eqCount + 1 } with
      cut := if r.isRow = false ∨ allIn r.leftRow (insertId f s.hitIds) = true then addAll s.cut r.conds else s.cut } := by
  unfold stepEq addCut
  cases r.isRow
  · simp [take]
  · by_cases hh : allIn r.leftRow (insertId f s.hitIds) = true <;> simp [take, hh]

theorem insertId_new {i : Nat} {l : List Nat} (h : i ∉ l) : insertId i l = l ++ [i] := by simp [insertId, h]

theorem v0_one {r : FR} {v : PbVal} (h : r.eqIn = [v]) : v0 r = v := by simp [v0, h]

theorem keyEq_eq {lp : Bool} {t : PType} {r : FR} {k : KSt} (h : r.type ≠ .likePrefix) :
    keyEq lp t r k = if k.recs = [] then { k with left := app k.left t (v0 r), right := app k.right t (v0 r) }
      else { k with recs := k.recs.map fun p => (app p.1 t (v0 r), p.2) } := by
  unfold keyEq
  have : (lp && r.type == .likePrefix) = false := by
    cases lp <;> simp [h]
  rw [this]
  rfl

theorem rel_eq (hcov : Covered cs ty ix conds) (hm : MInv conds.length conds m) {base : Bytes} {cols : List Col}
    {s : St} {k : KSt} (h : Rel cs ix conds m base cols s k) (hav : ∀ c ∈ cols, c.f ∈ avail ix) {f : FieldInfo}
    (hf : f ∈ avail ix) (hn : f.id ∉ s.hitIds) (ht : (m f.id).type = .eq ∨ (m f.id).type = .likeEq) (lp : Bool) :
    Rel cs ix conds m base (cols ++ [(⟨f, (m f.id).eqIn, 1, .inr f.id⟩ : Col)]) (stepEq f.id (m f.id) s)
      (keyEq lp f.type (m f.id) { k with cnt := k.cnt + 1 }) := by
  obtain ⟨v, hv⟩ : ∃ v, (m f.id).eqIn = [v] := by
    rcases ht with h | h
    · obtain ⟨_, v, _, h, _⟩ := (hm.fok f.id).eq h; exact ⟨v, h⟩
    · obtain ⟨_, p, _, _, _, _, h⟩ := (hm.fok f.id).likeEq h; exact ⟨_, h⟩
  have hnp : (m f.id).type ≠ .likePrefix := by rcases ht with h | h <;> simp [h]
  have hids : insertId f.id s.hitIds = (cols ++ [(⟨f, (m f.id).eqIn, 1, .inr f.id⟩ : Col)]).map (·.f.id) := by
    rw [insertId_new hn, h.ids]; simp
  have hsrc : ∀ c ∈ cols ++ [(⟨f, (m f.id).eqIn, 1, .inr f.id⟩ : Col)], ColFrom m c := by
    intro c hc
    rcases List.mem_append.1 hc with hc | hc
    · exact h.src c hc
    · simp only [List.mem_singleton] at hc
      subst hc
      exact ⟨rfl, .inl ⟨ht, rfl, by simp [hv]⟩⟩
  have hpk : ∀ j, pkey base (cols ++ [(⟨f, (m f.id).eqIn, 1, .inr f.id⟩ : Col)]) j = pkey base cols j ++ ck f.type v := by
    intro j
    rw [pkey_snoc, val_one hv]
  rw [keyEq_eq hnp, stepEq_eq, v0_one hv]
  constructor
  · simp [take, h.cnt]
  · split <;> simp [h.kcnt]
  · simpa [take] using hids
  · rw [← hids, insertId_new hn]
    have := h.nodup
    rw [← h.ids] at this
    exact List.nodup_append.2 ⟨this, by simp, by intro a ha b hb; simp at hb; subst hb; intro e; exact hn (e ▸ ha)⟩
  · rfl
  · rfl
  · simp [take, h.cnt]
  · simp [take, h.cnt]
  · exact h.likePrefix
  · exact h.eqOrIn
  · simp [take, h.eqCount]
  · exact hsrc
  · intro c hc w hw
    rcases List.mem_append.1 hc with hc | hc
    · exact h.valid c hc w hw
    · simp only [List.mem_singleton] at hc
      subst hc
      exact eqIn_valid hcov hm hf (by tauto) hw
  · rcases h.recs with ⟨h1, h2, h3, h4, h5, h6⟩ | ⟨h1, h2⟩
    · left
      refine ⟨h1, h2, ?_⟩
      simp only [h3, if_true, app_eq, h4, h5, hpk, true_and]
      intro c hc
      rcases List.mem_append.1 hc with hc | hc
      · exact h6 c hc
      · simp only [List.mem_singleton] at hc
        subst hc
        simp [hv]
    · right
      refine ⟨h1, ?_⟩
      have hne : k.recs ≠ [] := by
        rw [h2]; simp; exact Nat.pos_iff_ne_zero.1 h.size
      rw [if_neg hne, h2]
      simp only [List.map_map, take, Function.comp_def, app_eq, hpk]
  · exact h.size
  · intro c hc
    rcases List.mem_append.1 hc with hc | hc
    · exact h.div c hc
    · simp only [List.mem_singleton] at hc
      subst hc
      simp [hv]
  · intro ch hch
    obtain ⟨j, hj, hj'⟩ := h.complete ch fun c hc => hch c (by simp [hc])
    refine ⟨j, hj, ?_⟩
    intro c hc
    rcases List.mem_append.1 hc with hc' | hc'
    · exact hj' c hc'
    · have := hch c hc
      simp only [List.mem_singleton] at hc'
      subst hc'
      simp only [hv, List.length_singleton, Nat.mod_one] at this ⊢
      omega
  · intro c hc i hi
    rcases List.mem_append.1 hc with hc | hc
    · have := h.offs c hc i hi
      split <;> exact this
    · simp only [List.mem_singleton] at hc
      subst hc
      cases hi
  · intro i off ho
    obtain ⟨c, hc, hc'⟩ := h.offs' i off (by split at ho <;> exact ho)
    exact ⟨c, by simp [hc], hc'⟩
  · intro i
    have := h.maps i
    by_cases hk : k.recs = [] <;> simpa [take, hk] using this
  · intro i
    rw [List.filter_append, List.length_append]
    simpa [take] using h.count i
  · intro i hi
    dsimp only at hi
    have old : i ∈ s.cut → ∃ d, conds[i]? = some d ∧ ∀ row, RowOk cs ix row → ∀ j,
        Matches (cols ++ [(⟨f, (m f.id).eqIn, 1, .inr f.id⟩ : Col)]) j row → Holds cs row d := by
      intro hi
      obtain ⟨d, hd, hd'⟩ := h.cut i hi
      exact ⟨d, hd, fun row hr j hj => hd' row hr j (matches_left hj)⟩
    split at hi
    · rename_i hcond
      rcases mem_addAll.1 hi with hi | hi
      · exact old hi
      · refine forced_eq hcov hm (c := ⟨f, (m f.id).eqIn, 1, .inr f.id⟩) (by simp) hf hsrc ht ?_ i hi
        rcases hcond with h0 | h0
        · exact .inl h0
        · right
          rw [allIn_iff, hids] at h0
          exact h0
    · exact old hi

end

end BaikalDB.Scan
