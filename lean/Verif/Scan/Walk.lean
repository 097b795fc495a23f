import Verif.Scan.StepIn

/-!
# Both walks together
-/

namespace BaikalDB.Scan
open KeyEnc KeyEnc.Spec IndexKey Like Like.Spec Route

theorem take_hit (f : Nat) (s : St) : (take f s).hitIds = insertId f s.hitIds := rfl

theorem stepEq_hit (f : Nat) (r : FR) (s : St) : (stepEq f r s).hitIds = insertId f s.hitIds := by
  rw [stepEq_eq]; rfl

theorem stepIn_hit {cfg : Cfg} {ix : IndexInfo} {f : Nat} {r : FR} {s s' : St} (h : stepIn cfg ix f r s = some s') :
    s'.hitIds = insertId f s.hitIds := by
  unfold stepIn at h
  split at h
  · split at h
    · cases h; rw [takeIn_eq]; rfl
    · cases h
  · split at h
    · cases h
    · split at h
      · cases h
      · cases h
        rw [takeIn_eq]
        dsimp only [take]
        split <;> rfl

theorem rangeLeft_hit (ids : List Nat) (r : FR) (s : St) : s.hitIds.length ≤ (rangeLeft ids r s).1.hitIds.length := by
  unfold rangeLeft
  split
  · exact Nat.le_refl _
  · split
    · dsimp only
      split <;> exact length_addAll _ _
    · exact Nat.le_refl _

theorem rangeRight_hit (ids : List Nat) (r : FR) (p : St × Nat) : p.1.hitIds.length ≤ (rangeRight ids r p).hitIds.length := by
  unfold rangeRight
  dsimp only
  split
  · exact Nat.le_refl _
  · split
    · split <;> exact length_addAll _ _
    · exact Nat.le_refl _

theorem stepRange_hit (ids : List Nat) (f : Nat) (r : FR) (s : St) :
    (insertId f s.hitIds).length ≤ (stepRange ids f r s).hitIds.length := by
  unfold stepRange
  have h := rangeLeft_hit ids r { s with fieldCnt := s.fieldCnt + 1, eqOrIn := false, hitIds := insertId f s.hitIds }
  exact Nat.le_trans h (rangeRight_hit ids r _)

theorem walk_hit (cfg : Cfg) (ix : IndexInfo) (m : FMap) (fs : List FieldInfo) (s : St) :
    s.hitIds.length ≤ (walk cfg ix m fs s).hitIds.length := by
  induction fs generalizing s with
  | nil => exact Nat.le_refl _
  | cons f fs ih =>
    unfold walk
    split
    · exact Nat.le_refl _
    · split
      · exact Nat.le_refl _
      · exact Nat.le_trans (length_insertId _ _) (stepRange_hit _ _ _ _)
      · refine Nat.le_trans ?_ (ih _)
        rw [stepEq_hit]; exact length_insertId _ _
      · refine Nat.le_trans ?_ (ih _)
        rw [stepEq_hit]; exact length_insertId _ _
      · split
        · exact Nat.le_refl _
        · exact length_insertId _ _
      · exact Nat.le_refl _
      · split
        · exact Nat.le_refl _
        · rename_i s' hs
          refine Nat.le_trans ?_ (ih _)
          rw [stepIn_hit hs]; exact length_insertId _ _
      · exact ih _

theorem keys_stop {m : FMap} {lp : Bool} {hs : Nat} {k : KSt} (h : hs ≤ k.cnt) (fs : List FieldInfo) :
    keys m lp hs fs k = some k := by
  cases fs with
  | nil => rfl
  | cons f fs => unfold keys; rw [if_pos (by omega)]

/-- The keys after a RANGE column. -/
def rangeK (f : FieldInfo) (fs : List FieldInfo) (r : FR) (k : KSt) : KSt :=
  if k.recs = [] then
    { k with left := (rangeKeys (f :: fs) f.type r (k.left, k.right)).1,
             right := (rangeKeys (f :: fs) f.type r (k.left, k.right)).2 }
  else { k with recs := k.recs.map fun p => rangeKeys (f :: fs) f.type r (p.1, p.1) }

/-- How the walks end after the fixed columns. -/
inductive Tail (ix : IndexInfo) (m : FMap) (s1 : St) (k1 : KSt) : List FieldInfo → St → KSt → Prop where
  | stop (rest) : Tail ix m s1 k1 rest s1 k1
  | range (f rest) (hn : f.id ∉ s1.hitIds) (ht : (m f.id).type = .range) :
      Tail ix m s1 k1 (f :: rest) (stepRange ((avail ix).map (·.id)) f.id (m f.id) s1) (rangeK f rest (m f.id) k1)
  | like (f rest) (hn : f.id ∉ s1.hitIds) (ht : (m f.id).type = .likePrefix) (hs : f.type = .string) :
      Tail ix m s1 k1 (f :: rest) (stepPrefix f.id s1) (keyEq true f.type (m f.id) { k1 with cnt := k1.cnt + 1 })

section
variable {cs : Charset} {ty : Nat → PType} {ix : IndexInfo} {conds : List Cond} {m : FMap}

theorem walk_keys (hcov : Covered cs ty ix conds) (hm : MInv conds.length conds m) (cfg : Cfg) (base : Bytes) :
    ∀ (fs : List FieldInfo) (cols : List Col) (s : St) (k : KSt), Rel cs ix conds m base cols s k →
      avail ix = flds cols ++ fs →
      ∃ cols' fs' s1 k1 k', avail ix = flds cols' ++ fs' ∧ Rel cs ix conds m base cols' s1 k1 ∧
        keys m (walk cfg ix m fs s).likePrefix (walk cfg ix m fs s).hitIds.length fs k = some k' ∧
        Tail ix m s1 k1 fs' (walk cfg ix m fs s) k' := by
  intro fs
  induction fs with
  | nil =>
    intro cols s k h hav
    exact ⟨cols, [], s, k, k, hav, h, rfl, .stop _⟩
  | cons f fs ih =>
    intro cols s k h hav
    have hf : f ∈ avail ix := by rw [hav]; simp
    have hcols : ∀ c ∈ cols, c.f ∈ avail ix := by
      intro c hc
      rw [hav]
      exact List.mem_append_left _ (List.mem_map.2 ⟨c, hc, rfl⟩)
    have hlen : s.hitIds.length = k.cnt := by rw [h.ids, h.kcnt, List.length_map]
    have hsnoc : ∀ c : Col, c.f = f → avail ix = flds (cols ++ [c]) ++ fs := by
      intro c hc
      rw [hav, flds, flds, List.map_append, List.append_assoc]
      simp [hc]
    have hstop : walk cfg ix m (f :: fs) s = s → ∃ cols' fs' s1 k1 k', avail ix = flds cols' ++ fs' ∧
        Rel cs ix conds m base cols' s1 k1 ∧
        keys m (walk cfg ix m (f :: fs) s).likePrefix (walk cfg ix m (f :: fs) s).hitIds.length (f :: fs) k = some k' ∧
        Tail ix m s1 k1 fs' (walk cfg ix m (f :: fs) s) k' := by
      intro hw
      rw [hw]
      exact ⟨cols, f :: fs, s, k, k, hav, h, keys_stop (by omega) _, .stop _⟩
    by_cases hn : f.id ∈ s.hitIds
    · exact hstop (by unfold walk; rw [if_pos hn])
    · have hins : (insertId f.id s.hitIds).length = k.cnt + 1 := by rw [insertId_new hn]; simp [hlen]
      cases ht : (m f.id).type with
      | none => exact hstop (by unfold walk; rw [if_neg hn, ht])
      | like => exact hstop (by unfold walk; rw [if_neg hn, ht])
      | full =>
        obtain ⟨gs, p, hc, hg⟩ := (hm.fok f.id).full ht
        exact absurd rfl (hcov.noFull _ hc f.id hg f hf)
      | range =>
        have hw : walk cfg ix m (f :: fs) s = stepRange ((avail ix).map (·.id)) f.id (m f.id) s := by
          unfold walk; rw [if_neg hn, ht]
        rw [hw]
        refine ⟨cols, f :: fs, s, k, rangeK f fs (m f.id) k, hav, h, ?_, .range _ _ hn ht⟩
        have hl := stepRange_hit ((avail ix).map (·.id)) f.id (m f.id) s
        unfold keys
        rw [if_neg (by omega), ht]
        rfl
      | likePrefix =>
        by_cases hs : f.type = .string
        · have hw : walk cfg ix m (f :: fs) s = stepPrefix f.id s := by
            unfold walk; rw [if_neg hn, ht]; simp [hs]
          rw [hw]
          refine ⟨cols, f :: fs, s, k, _, hav, h, ?_, .like _ _ hn ht hs⟩
          have hl : (stepPrefix f.id s).hitIds.length = k.cnt + 1 := hins
          rw [hl]
          unfold keys
          rw [if_neg (by omega), ht]
          dsimp only
          rw [keys_stop]
          · rfl
          · unfold keyEq
            split
            · split <;> exact Nat.le_refl _
            · split <;> exact Nat.le_refl _
        · exact hstop (by unfold walk; rw [if_neg hn, ht]; simp [hs])
      | eq =>
        have hw : walk cfg ix m (f :: fs) s = walk cfg ix m fs (stepEq f.id (m f.id) s) := by
          conv_lhs => unfold walk
          rw [if_neg hn, ht]
        rw [hw]
        have hl := walk_hit cfg ix m fs (stepEq f.id (m f.id) s)
        rw [stepEq_hit] at hl
        obtain ⟨cols', fs', s1, k1, k', e1, e2, e3, e4⟩ := ih _ _ _
          (rel_eq hcov hm h hcols hf hn (.inl ht) (walk cfg ix m fs (stepEq f.id (m f.id) s)).likePrefix) (hsnoc _ rfl)
        refine ⟨cols', fs', s1, k1, k', e1, e2, ?_, e4⟩
        unfold keys
        rw [if_neg (by omega), ht]
        exact e3
      | likeEq =>
        have hw : walk cfg ix m (f :: fs) s = walk cfg ix m fs (stepEq f.id (m f.id) s) := by
          conv_lhs => unfold walk
          rw [if_neg hn, ht]
        rw [hw]
        have hl := walk_hit cfg ix m fs (stepEq f.id (m f.id) s)
        rw [stepEq_hit] at hl
        obtain ⟨cols', fs', s1, k1, k', e1, e2, e3, e4⟩ := ih _ _ _
          (rel_eq hcov hm h hcols hf hn (.inr ht) (walk cfg ix m fs (stepEq f.id (m f.id) s)).likePrefix) (hsnoc _ rfl)
        refine ⟨cols', fs', s1, k1, k', e1, e2, ?_, e4⟩
        unfold keys
        rw [if_neg (by omega), ht]
        exact e3
      | inn =>
        cases hst : stepIn cfg ix f.id (m f.id) s with
        | none => exact hstop (by unfold walk; rw [if_neg hn, ht]; simp [hst])
        | some s' =>
          have hw : walk cfg ix m (f :: fs) s = walk cfg ix m fs s' := by
            conv_lhs => unfold walk
            rw [if_neg hn, ht]
            simp [hst]
          rw [hw]
          have hl := walk_hit cfg ix m fs s'
          rw [stepIn_hit hst] at hl
          obtain ⟨c, k2, hc, hk2, hrel⟩ := rel_in hcov hm h hf hn ht hst
          obtain ⟨cols', fs', s1, k1, k', e1, e2, e3, e4⟩ := ih _ _ _ hrel (hsnoc c hc)
          refine ⟨cols', fs', s1, k1, k', e1, e2, ?_, e4⟩
          unfold keys
          rw [if_neg (by omega), ht]
          dsimp only
          rw [hk2]
          exact e3

theorem rel_zero (base : Bytes) : Rel cs ix conds m base [] {} { left := base, right := base } := by
  constructor <;> try simp
  simp [pkey, tk, flds]

/-- The ends of both walks from the beginning. -/
theorem walk_keys_all (hcov : Covered cs ty ix conds) (hm : MInv conds.length conds m) (cfg : Cfg) (base : Bytes) :
    ∃ cols rest s1 k1 k', avail ix = flds cols ++ rest ∧ Rel cs ix conds m base cols s1 k1 ∧
      keys m (walk cfg ix m (avail ix) {}).likePrefix (walk cfg ix m (avail ix) {}).hitIds.length (avail ix)
        { left := base, right := base } = some k' ∧
      Tail ix m s1 k1 rest (walk cfg ix m (avail ix) {}) k' :=
  walk_keys hcov hm cfg base (avail ix) [] {} { left := base, right := base } (rel_zero base) rfl

end

end BaikalDB.Scan
