import Verif.Scan.Final
import Verif.IndexKey.Props
import Verif.IndexKey.LikePrefix
import Mathlib.Data.List.Nodup

/-!
# C44: reading through an index returns the rows WHERE asks for
-/

namespace BaikalDB.Scan
open KeyEnc KeyEnc.Spec IndexKey IndexKey.Spec Like Like.Spec Route

section
variable {cs : Charset} {ty : Nat → PType} {ix : IndexInfo} {conds : List Cond} {m : FMap}

theorem planOf_finish (hcov : Covered cs ty ix conds) (hm : MInv conds.length conds m) (cfg : Cfg) :
    ∃ cols rest s1 k1 s k, avail ix = flds cols ++ rest ∧ Rel cs ix conds m (flag ix) cols s1 k1 ∧
      Tail ix m s1 k1 rest s k ∧ planOf cfg ix m = some (finish ix s k) := by
  obtain ⟨cols, rest, s1, k1, k', e1, e2, e3, e4⟩ := walk_keys_all hcov hm cfg (flag ix)
  refine ⟨cols, rest, s1, k1, _, k', e1, e2, e4, ?_⟩
  unfold planOf
  simp only [e3, Option.map_some]

theorem mkPlan_cases (hcov : Covered cs ty ix conds) (cfg : Cfg) :
    (hits 0 conds (fun _ => {}) = none ∧ mkPlan cfg ix conds = .empty) ∨
    ∃ m cols rest s1 k1 s k, MInv conds.length conds m ∧ avail ix = flds cols ++ rest ∧
      Rel cs ix conds m (flag ix) cols s1 k1 ∧ Tail ix m s1 k1 rest s k ∧ mkPlan cfg ix conds = .plan (finish ix s k) := by
  unfold mkPlan
  cases e : hits 0 conds (fun _ => {}) with
  | none => exact .inl ⟨rfl, rfl⟩
  | some m =>
    have hm := hits_minv hcov.rowEq hcov.ok e
    obtain ⟨cols, rest, s1, k1, s, k, e1, e2, e3, e4⟩ := planOf_finish hcov hm cfg
    exact .inr ⟨m, cols, rest, s1, k1, s, k, hm, e1, e2, e3, by simp [e4]⟩

/-- **C44.** A plan is always made. -/
theorem C44_never_fails (hcov : Covered cs ty ix conds) (cfg : Cfg) : mkPlan cfg ix conds ≠ .error := by
  rcases mkPlan_cases hcov cfg with ⟨_, h⟩ | ⟨_, _, _, _, _, _, _, _, _, _, _, h⟩ <;> rw [h] <;> simp

/-- **C44.** When the query is answered with no rows because of a NULL, no row meets all its conditions. -/
theorem C44_empty (hok : ∀ c ∈ conds, CondOk cs ty c) {cfg : Cfg} (e : mkPlan cfg ix conds = .empty) (row : Row) :
    ∃ c ∈ conds, ¬ Holds cs row c := by
  unfold mkPlan at e
  cases h : hits 0 conds (fun _ => {}) with
  | none => exact hits_none hok h row
  | some m =>
    rw [h] at e
    dsimp only at e
    split at e <;> cases e

/-- **C44.** A row meets all the conditions of WHERE exactly if its entry is in one of the ranges of the index and it
meets the conditions that are evaluated afterwards: nothing is lost and no condition is dropped that the ranges do not
stand for.  A prefix search by LIKE is covered when no IN comes before it (see `C44_in_before_like_counterexample`). -/
theorem C44_plan_exact_partial (hcov : Covered cs ty ix conds) {cfg : Cfg} {p : Plan} (e : mkPlan cfg ix conds = .plan p)
    (hlike : p.st.likePrefix = true → p.st.inPred = false) {row : Row} (hrow : RowOk cs ix row) :
    (∀ c ∈ conds, Holds cs row c) ↔
      (∃ r ∈ p.ranges, Reaches p r (rowKey ix row)) ∧
      ∀ (i : Nat) c, conds[i]? = some c → i ∉ p.cut → Holds cs row c := by
  rcases mkPlan_cases hcov cfg with ⟨_, h⟩ | ⟨m, cols, rest, s1, k1, s, k, hm, hav, hrel, ht, h⟩
  · rw [h] at e; cases e
  · rw [h] at e
    cases e
    show ExactFor cs ix conds (finish ix s k) row
    cases ht with
    | stop => exact exact_stop hcov hm hav hrel hrow
    | range f rest hn ht => exact exact_range hcov hm hav hrel ht hrow
    | like f rest hn ht hs =>
      refine exact_like hcov hm hav hrel ht hs ?_ hrow
      rw [finish_st] at hlike
      exact hlike rfl

theorem stepRange_like (ids : List Nat) (f : Nat) (r : FR) (s : St) : (stepRange ids f r s).likePrefix = s.likePrefix := by
  have h1 : ∀ (s : St), (rangeLeft ids r s).1.likePrefix = s.likePrefix := by
    intro s
    unfold rangeLeft
    dsimp only
    repeat' split
    all_goals rfl
  have h2 : ∀ p : St × Nat, (rangeRight ids r p).likePrefix = p.1.likePrefix := by
    intro p
    unfold rangeRight
    dsimp only
    repeat' split
    all_goals rfl
  unfold stepRange
  rw [h2, h1]

/-- **C44.** Without LIKE the ranges are exact for every query and index covered. -/
theorem C44_plan_exact_no_like (hcov : Covered cs ty ix conds) (hno : ∀ c ∈ conds, ∀ f p, c ≠ .like f p) {cfg : Cfg} {p : Plan}
    (e : mkPlan cfg ix conds = .plan p) {row : Row} (hrow : RowOk cs ix row) :
    (∀ c ∈ conds, Holds cs row c) ↔
      (∃ r ∈ p.ranges, Reaches p r (rowKey ix row)) ∧
      ∀ (i : Nat) c, conds[i]? = some c → i ∉ p.cut → Holds cs row c := by
  refine C44_plan_exact_partial hcov e ?_ hrow
  intro hlp
  exfalso
  rcases mkPlan_cases hcov cfg with ⟨_, h⟩ | ⟨m, cols, rest, s1, k1, s, k, hm, hav, hrel, ht, h⟩
  · rw [h] at e; cases e
  · rw [h] at e
    cases e
    rw [finish_st] at hlp
    cases ht with
    | stop => rw [hrel.likePrefix] at hlp; cases hlp
    | range f rest hn ht =>
      have key := stepRange_like ((avail ix).map (·.id)) f.id (m f.id) s1
      rw [key, hrel.likePrefix] at hlp
      cases hlp
    | like f rest hn ht hs =>
      obtain ⟨i, p, _, _, hcp, _⟩ := (hm.fok f.id).likePrefix ht
      exact hno _ (List.mem_iff_getElem?.2 ⟨_, hcp⟩) _ _ rfl

/-- **C44.** Whichever of two indexes is chosen, the same rows are returned. -/
theorem C44_any_index_partial {ix' : IndexInfo} (hcov : Covered cs ty ix conds) (hcov' : Covered cs ty ix' conds)
    {cfg cfg' : Cfg} {p p' : Plan} (e : mkPlan cfg ix conds = .plan p) (e' : mkPlan cfg' ix' conds = .plan p')
    (hlike : p.st.likePrefix = true → p.st.inPred = false) (hlike' : p'.st.likePrefix = true → p'.st.inPred = false)
    {row : Row} (hrow : RowOk cs ix row) (hrow' : RowOk cs ix' row) :
    ((∃ r ∈ p.ranges, Reaches p r (rowKey ix row)) ∧
      ∀ (i : Nat) c, conds[i]? = some c → i ∉ p.cut → Holds cs row c) ↔
    ((∃ r ∈ p'.ranges, Reaches p' r (rowKey ix' row)) ∧
      ∀ (i : Nat) c, conds[i]? = some c → i ∉ p'.cut → Holds cs row c) := by
  rw [← C44_plan_exact_partial hcov e hlike hrow, ← C44_plan_exact_partial hcov' e' hlike' hrow']

/-! ## Each entry is read once -/

theorem prefix_of_bounds {P a b x : Bytes} {o o' : Bool} (h1 : P ++ a = [] ∨ LeftOk (P ++ a) o x)
    (h2 : RightOk (P ++ b) o' x) : P <+: x := by
  have hle : BLe (P ++ a) x := by
    rcases h1 with h | h
    · rw [h]; cases x <;> simp [BLe, bcmp]
    · unfold LeftOk at h
      split at h
      · exact h.1.le
      · exact h
  have hr : P ++ b = [] ∨ BLt x (P ++ b) ∨ P ++ b <+: x := by
    rcases h2 with h | h | h
    · exact .inl h
    · exact .inr (.inl h)
    · exact .inr (.inr h.2)
  rcases hr with h | h | h
  · rw [(List.append_eq_nil_iff.1 h).1]; exact List.nil_prefix
  · clear h1 h2
    induction P generalizing x with
    | nil => exact List.nil_prefix
    | cons y P ih =>
      cases x with
      | nil => simp [BLe, bcmp] at hle
      | cons z x =>
        simp only [BLe, BLt, List.cons_append, bcmp] at hle h
        have : y = z := by
          apply BitVec.eq_of_toNat_eq
          by_contra hne
          rcases Nat.lt_or_gt_of_ne hne with hc | hc
          · rw [if_neg (by omega), if_pos hc] at h; cases h
          · rw [if_neg (by omega), if_pos hc] at hle; exact hle rfl
        subst this
        simp only [Nat.lt_irrefl, if_false] at hle h
        exact List.cons_prefix_cons.2 ⟨rfl, ih hle h⟩
  · exact (List.prefix_append _ _).trans h

theorem finish_mem {s : St} {k : KSt} (hz : ¬ (s.leftCnt = 0 ∧ s.rightCnt = 0)) {r : Rng} (hr : r ∈ (finish ix s k).ranges) :
    ∃ p ∈ pairs k, r = toRng ix s p := by
  unfold finish at hr
  rw [if_neg hz] at hr
  unfold pairs
  dsimp only at hr
  split at hr
  · rename_i hne
    rw [if_pos hne]
    obtain ⟨p, hp, rfl⟩ := List.mem_map.1 hr
    refine ⟨p, ?_, rfl⟩
    have : ∀ (l : List (Bytes × Bytes)) (seen : List Bytes), ∀ p ∈ dedupe seen l, p ∈ l := by
      intro l
      induction l with
      | nil => intro seen p hp; simp [dedupe] at hp
      | cons q l ih =>
        intro seen p hp
        unfold dedupe at hp
        split at hp
        · exact List.mem_cons_of_mem _ (ih _ p hp)
        · rcases List.mem_cons.1 hp with rfl | hp
          · simp
          · exact List.mem_cons_of_mem _ (ih _ p hp)
    exact this _ _ p hp
  · rename_i hne
    rw [if_neg hne]
    exact ⟨_, List.mem_singleton.2 rfl, List.mem_singleton.1 hr⟩

/-- The ranges, one for every record. -/
theorem ranges_records {cols : List Col} {s1 s : St} {k1 k : KSt} {rest : List FieldInfo}
    (hrel : Rel cs ix conds m (flag ix) cols s1 k1) (ht : Tail ix m s1 k1 rest s k)
    (hz : ¬ (s.leftCnt = 0 ∧ s.rightCnt = 0)) :
    ∃ G : Bytes → Rng, ∀ r ∈ (finish ix s k).ranges, ∃ j, r = G (pkey (flag ix) cols j) ∧
      ∀ x, Reaches (finish ix s k) r x → pkey (flag ix) cols j <+: x := by
  cases ht with
  | stop =>
    refine ⟨fun P => toRng ix s1 (P, []), ?_⟩
    intro r hr
    obtain ⟨p, hp, rfl⟩ := finish_mem hz hr
    have hrp : toRng ix s1 p = toRng ix s1 (p.1, []) := by simp [toRng, hrel.eqOrIn]
    have hj : ∃ j, p.1 = pkey (flag ix) cols j := by
      unfold pairs at hp
      rcases hrel.recs with ⟨_, h2, h3, h4, h5, _⟩ | ⟨_, h2⟩
      · simp [h3, h4] at hp
        exact ⟨0, by rw [hp]⟩
      · have hne : k1.recs ≠ [] := by rw [h2]; simp; exact Nat.pos_iff_ne_zero.1 hrel.size
        rw [if_pos hne, h2] at hp
        obtain ⟨j, _, rfl⟩ := List.mem_map.1 hp
        exact ⟨j, rfl⟩
    obtain ⟨j, hj⟩ := hj
    refine ⟨j, by rw [hrp, hj], ?_⟩
    intro x hx
    unfold Reaches at hx
    rw [finish_tpl hz, C11_eq_bounds _ _ hrel.eqOrIn hrel.leftOpen] at hx
    rw [← hj]
    exact hx
  | range f rest hn ht =>
    have heq : (stepRange ((avail ix).map (·.id)) f.id (m f.id) s1).eqOrIn = false := by
      have h1 : ∀ (ids : List Nat) (r : FR) (s : St), (rangeLeft ids r s).1.eqOrIn = s.eqOrIn := by
        intro ids r s
        unfold rangeLeft
        dsimp only
        repeat' split
        all_goals rfl
      have h2 : ∀ (ids : List Nat) (r : FR) (p : St × Nat), (rangeRight ids r p).eqOrIn = p.1.eqOrIn := by
        intro ids r p
        unfold rangeRight
        dsimp only
        repeat' split
        all_goals rfl
      unfold stepRange
      rw [h2, h1]
    refine ⟨fun P => toRng ix (stepRange ((avail ix).map (·.id)) f.id (m f.id) s1)
      (P ++ tk (f :: rest) (endVals (m f.id).left (m f.id).leftRow ((f :: rest).map (·.id))),
       P ++ tk (f :: rest) (endVals (m f.id).right (m f.id).rightRow ((f :: rest).map (·.id)))), ?_⟩
    intro r hr
    obtain ⟨p, hp, rfl⟩ := finish_mem hz hr
    rw [pairs_range hrel] at hp
    obtain ⟨j, _, rfl⟩ := List.mem_map.1 hp
    refine ⟨j, rfl, ?_⟩
    intro x hx
    unfold Reaches at hx
    rw [finish_tpl hz, C11_range_bounds _ _ (by intro t' e; cases e; exact heq)] at hx
    simp only [toRng, heq, Bool.false_eq_true, if_false] at hx
    exact prefix_of_bounds hx.1 hx.2
  | like f rest hn ht hs =>
    rcases hrel.recs with ⟨_, _, h3, h4, h5, _⟩ | ⟨_, h2⟩
    · refine ⟨fun P => toRng ix (stepPrefix f.id s1) (P ++ strOf (v0 (m f.id)), P ++ strOf (v0 (m f.id))), ?_⟩
      intro r hr
      obtain ⟨p, hp, rfl⟩ := finish_mem hz hr
      have : p = (pkey (flag ix) cols 0 ++ strOf (v0 (m f.id)), pkey (flag ix) cols 0 ++ strOf (v0 (m f.id))) := by
        unfold pairs keyEq at hp
        simpa [ht, h3, h4, h5, appendStringPrefix] using hp
      subst this
      refine ⟨0, rfl, ?_⟩
      intro x hx
      unfold Reaches at hx
      rw [finish_tpl hz, C11_range_bounds _ _ (by intro t' e; cases e; rfl)] at hx
      exact prefix_of_bounds hx.1 hx.2
    · have hne : k1.recs ≠ [] := by rw [h2]; simp; exact Nat.pos_iff_ne_zero.1 hrel.size
      refine ⟨fun P => toRng ix (stepPrefix f.id s1) (P ++ strOf (v0 (m f.id)),
        P ++ (strOf (v0 (m f.id)) ++ strOf (v0 (m f.id)))), ?_⟩
      intro r hr
      obtain ⟨p, hp, rfl⟩ := finish_mem hz hr
      have : ∃ j, p = (pkey (flag ix) cols j ++ strOf (v0 (m f.id)),
          pkey (flag ix) cols j ++ (strOf (v0 (m f.id)) ++ strOf (v0 (m f.id)))) := by
        unfold pairs keyEq at hp
        simp only [ht, Bool.true_and, beq_self_eq_true, if_true, if_neg hne] at hp
        rw [if_pos (by simpa using hne), h2, List.map_map] at hp
        obtain ⟨j, _, rfl⟩ := List.mem_map.1 hp
        exact ⟨j, by simp [appendStringPrefix]⟩
      obtain ⟨j, rfl⟩ := this
      refine ⟨j, rfl, ?_⟩
      intro x hx
      unfold Reaches at hx
      rw [finish_tpl hz, C11_range_bounds _ _ (by intro t' e; cases e; rfl)] at hx
      exact prefix_of_bounds hx.1 hx.2

theorem ranges_shape {cols : List Col} {s1 s : St} {k1 k : KSt} {rest : List FieldInfo}
    (hrel : Rel cs ix conds m (flag ix) cols s1 k1) (ht : Tail ix m s1 k1 rest s k) :
    (∃ r0, (finish ix s k).ranges = [r0]) ∨
    ∃ G : Bytes → Rng, ∀ r ∈ (finish ix s k).ranges, ∃ j, r = G (pkey (flag ix) cols j) ∧
      ∀ x, Reaches (finish ix s k) r x → pkey (flag ix) cols j <+: x := by
  by_cases hz : s.leftCnt = 0 ∧ s.rightCnt = 0
  · left
    unfold finish
    rw [if_pos hz]
    exact ⟨_, rfl⟩
  · exact .inr (ranges_records hrel ht hz)

/-- **C44.** The ranges are distinct, and the entry of a row is in one of them only: no row is returned twice. -/
theorem C44_once (hcov : Covered cs ty ix conds) {cfg : Cfg} {p : Plan} (e : mkPlan cfg ix conds = .plan p) :
    p.ranges.Nodup ∧ ∀ row, RowOk cs ix row → ∀ r ∈ p.ranges, ∀ r' ∈ p.ranges,
      Reaches p r (rowKey ix row) → Reaches p r' (rowKey ix row) → r = r' := by
  rcases mkPlan_cases hcov cfg with ⟨_, h⟩ | ⟨m, cols, rest, s1, k1, s, k, hm, hav, hrel, ht, h⟩
  · rw [h] at e; cases e
  rw [h] at e
  cases e
  constructor
  · unfold finish
    split
    · simp
    · dsimp only
      split
      · apply List.Nodup.of_map (fun r : Rng => r.left)
        rw [List.map_map]
        exact (dedupe_nodup k.recs []).1
      · simp
  · intro row hrow r hr r' hr' h1 h2
    rcases ranges_shape hrel ht with ⟨r0, h0⟩ | ⟨G, hG⟩
    · rw [h0] at hr hr'
      rw [List.mem_singleton.1 hr, List.mem_singleton.1 hr']
    · obtain ⟨j, rfl, hj⟩ := hG r hr
      obtain ⟨j', rfl, hj'⟩ := hG r' hr'
      congr 1
      have p1 := hj _ h1
      have p2 := hj' _ h2
      have main : ∀ i i', pkey (flag ix) cols i <+: pkey (flag ix) cols i' → pkey (flag ix) cols i = pkey (flag ix) cols i' := by
        intro i i' hp
        have hv := fits_cols hrel.valid (fun c hc => (hrel.div c hc).2.1) i
        have hv' := fits_cols hrel.valid (fun c hc => (hrel.div c hc).2.1) i'
        unfold pkey at hp ⊢
        rw [List.prefix_append_right_inj] at hp
        have hq := (prefix_fixed hv hv' (jvals_len _ _) (jvals_len _ _) [] []).1 (by simpa using hp)
        have hq' := (prefix_fixed hv' hv (jvals_len _ _) (jvals_len _ _) [] []).2 ⟨by
          rw [← tupleCompare_swap, hq.1]; rfl, List.nil_prefix⟩
        simp only [List.append_nil] at hq'
        rw [List.IsPrefix.eq_of_length hp (Nat.le_antisymm hp.length_le hq'.length_le)]
      rcases List.prefix_or_prefix_of_prefix p1 p2 with hp | hp
      · exact main j j' hp
      · exact (main j' j hp).symm

/-- **C44.** A range marked as one full key of a PRIMARY or UNIQUE index is answered by a point read; it stands for the
one key given. -/
theorem C44_point (hcov : Covered cs ty ix conds) {cfg : Cfg} {p : Plan} (e : mkPlan cfg ix conds = .plan p) {r : Rng}
    (hr : r ∈ p.ranges) (hfull : r.leftFull = true) (heq : p.tpl.isEq = true) {row : Row} (hrow : RowOk cs ix row) :
    Reaches p r (rowKey ix row) ↔ rowKey ix row = r.left := by
  rcases mkPlan_cases hcov cfg with ⟨_, h⟩ | ⟨m, cols, rest, s1, k1, s, k, hm, hav, hrel, ht, h⟩
  · rw [h] at e; cases e
  rw [h] at e
  cases e
  by_cases hz : s.leftCnt = 0 ∧ s.rightCnt = 0
  · unfold finish at hr
    rw [if_pos hz] at hr
    rw [List.mem_singleton.1 hr] at hfull
    cases hfull
  · rw [finish_tpl hz] at heq
    simp only at heq
    cases ht with
    | range f rest hn ht =>
      exfalso
      have h1 : ∀ (ids : List Nat) (r : FR) (s : St), (rangeLeft ids r s).1.eqOrIn = s.eqOrIn := by
        intro ids r s
        unfold rangeLeft
        dsimp only
        repeat' split
        all_goals rfl
      have h2 : ∀ (ids : List Nat) (r : FR) (p : St × Nat), (rangeRight ids r p).eqOrIn = p.1.eqOrIn := by
        intro ids r p
        unfold rangeRight
        dsimp only
        repeat' split
        all_goals rfl
      unfold stepRange at heq
      rw [h2, h1] at heq
      cases heq
    | like f rest hn ht hs => cases heq
    | stop =>
      obtain ⟨q, hq, rfl⟩ := finish_mem hz hr
      have hj : ∃ j, q.1 = pkey (flag ix) cols j := by
        unfold pairs at hq
        rcases hrel.recs with ⟨_, h2, h3, h4, h5, _⟩ | ⟨_, h2⟩
        · simp [h3, h4] at hq
          exact ⟨0, by rw [hq]⟩
        · have hne : k1.recs ≠ [] := by rw [h2]; simp; exact Nat.pos_iff_ne_zero.1 hrel.size
          rw [if_pos hne, h2] at hq
          obtain ⟨j, _, rfl⟩ := List.mem_map.1 hq
          exact ⟨j, rfl⟩
      obtain ⟨j, hj⟩ := hj
      have hlen : cols.length = (avail ix).length := by
        have : leftFull ix s1 = true := hfull
        unfold leftFull at this
        simp only [Bool.and_eq_true, decide_eq_true_eq] at this
        rw [← hrel.leftCnt]
        exact this.1.1
      have hrest : rest = [] := by
        rw [hav, List.length_append] at hlen
        simp [flds] at hlen
        exact hlen
      subst hrest
      rw [List.append_nil] at hav
      unfold Reaches
      rw [finish_tpl hz, C11_eq_bounds _ _ hrel.eqOrIn hrel.leftOpen, rowKey_eq hrow]
      show q.1 <+: _ ↔ _ = q.1
      rw [hj, pkey, hav]
      have hv := fits_cols hrel.valid (fun c hc => (hrel.div c hc).2.1) j
      have hw : FitsCols (flds cols) (vals row (flds cols)) := by
        have := vals_fits hrow.cols
        rwa [hav] at this
      constructor
      · intro hp
        rw [List.prefix_append_right_inj] at hp
        have hq := (prefix_fixed hv hw (jvals_len _ _) (vals_len _ _) [] []).1 (by simpa using hp)
        have hq' := (prefix_fixed hw hv (vals_len _ _) (jvals_len _ _) [] []).2 ⟨by
          rw [← tupleCompare_swap, hq.1]; rfl, List.nil_prefix⟩
        simp only [List.append_nil] at hq'
        rw [List.IsPrefix.eq_of_length hp (Nat.le_antisymm hp.length_le hq'.length_le)]
      · intro hp
        rw [hp]; exact List.prefix_refl _

/-! ## The key of a row is the one the store writes -/

theorem colBytes_row {row : Row} {f : FieldInfo} (h : ∃ v, row f.id = some v ∧ Valid f.type v) :
    colBytes row f = ((row f.id).bind fun v => encodeField f.type v [] false).getD [] := by
  obtain ⟨v, hv, _⟩ := h
  simp [colBytes, stored, hv]

/-- **C44.** In the primary index `rowKey` is the key under which the row is stored. -/
theorem C44_primary_key {g : Bool} {fields pk : List FieldInfo} {row : Row} (hrow : RowOk cs (buildIndex .primary g fields pk) row)
    (hok : ∀ f ∈ fields, ColOK row f) (hnn : ∀ f ∈ fields, f.canNull = false) :
    encodeKey (buildIndex .primary g fields pk) row [] none false = .ok (rowKey (buildIndex .primary g fields pk) row, true) := by
  have hav : avail (buildIndex .primary g fields pk) = fields := by simp [avail, buildIndex_type, buildIndex_fields]
  have hc := hrow.cols
  rw [hav] at hc
  rw [encodeKey_primary hok (fun f hf => by obtain ⟨v, hv, _⟩ := hc f hf; simp [hv])
    (by rintro ⟨f, hf, h⟩; rw [hnn f hf] at h; cases h)]
  congr 2
  unfold rowKey
  rw [hav]
  simp only [flag, buildIndex_type, List.nil_append]
  rw [List.flatMap, List.flatMap, List.map_congr_left (fun f hf => colBytes_row (hc f hf))]
  simp

/-- **C44.** In a local KEY or UNIQUE index, too (with KEY, the columns of the primary key follow). -/
theorem C44_secondary_key {ty : IndexType} (hty : ty = .key ∨ ty = .uniq) {fields pk : List FieldInfo} {row : Row}
    (hrow : RowOk cs (buildIndex ty false fields pk) row) (S : Setup fields pk row) :
    ∃ v, secondaryEntry (buildIndex ty false fields pk) row = .ok (rowKey (buildIndex ty false fields pk) row, v) := by
  have hkey := encodeKey_secondary hty false (pk := pk) S.fieldsOK S.nullable8 []
  have hsub : ∀ f ∈ (buildIndex ty false fields pk).pkFields, f ∈ pk := by
    rw [buildIndex_eq ty false fields pk hty]
    intro f hf
    simp only at hf
    split at hf
    · exact (List.mem_filter.1 hf).1
    · exact hf
  have hpk : ∀ k, encodePrimaryKey (buildIndex ty false fields pk) row k =
      .ok (k ++ (buildIndex ty false fields pk).pkFields.flatMap (colBytes row)) := by
    intro k
    have h1 : ¬ (ty ≠ .key ∧ ty ≠ .uniq) := by rcases hty with rfl | rfl <;> simp
    simp only [encodePrimaryKey, buildIndex_type, if_neg h1]
    exact encodePkLoop_eq _ _ (fun f hf => S.pkOK f (hsub f hf)) (fun f hf => S.pkPresent f (hsub f hf))
  have hc := hrow.cols
  have hf : ∀ f ∈ fields, f ∈ avail (buildIndex ty false fields pk) := by
    intro f hf
    unfold avail
    split
    · simp [hf]
    · simpa using hf
  have hmask : nullMask row 0 fields 0#8 = 0#8 :=
    nullMask_present fields 0 _ (fun f hf' => by obtain ⟨v, hv, _⟩ := hc f (hf f hf'); simp [hv])
  rw [hmask] at hkey
  have hrk : rowKey (buildIndex ty false fields pk) row =
      [0#8] ++ (avail (buildIndex ty false fields pk)).flatMap (colBytes row) := by
    unfold rowKey flag
    rw [if_pos (by rcases hty with rfl | rfl <;> simp), List.flatMap, List.flatMap,
      List.map_congr_left (fun f hf => (colBytes_row (hc f hf)).symm)]
  rw [hrk]
  rcases hty with rfl | rfl
  · refine ⟨[], ?_⟩
    simp only [secondaryEntry, hkey, buildIndex_type, hpk]
    simp [avail]
  · refine ⟨[] ++ (buildIndex .uniq false fields pk).pkFields.flatMap (colBytes row), ?_⟩
    simp only [secondaryEntry, hkey, buildIndex_type, hpk]
    simp [avail]

end

/-! ## Examples -/

/-- KEY (a, b, c) on a table with primary key (id); a, b, id are BIGINT, c is text. -/
def exIx : IndexInfo := buildIndex .key false [⟨1, .int64, false⟩, ⟨2, .int64, false⟩, ⟨3, .string, false⟩] [⟨9, .int64, false⟩]
def exTy (f : Nat) : PType := if f = 3 then .string else .int64
def exCfg : Cfg := ⟨30000, 0⟩
def exRow (a b : Int) (c : Bytes) (id : Int) : Row := fun f =>
  if f = 1 then some (.i64 (BitVec.ofInt 64 a)) else if f = 2 then some (.i64 (BitVec.ofInt 64 b))
  else if f = 3 then some (.str c) else if f = 9 then some (.i64 (BitVec.ofInt 64 id)) else none
def i (n : Int) : PbVal := .i64 (BitVec.ofInt 64 n)

/-- WHERE a IN (1, NULL, 5, 1) AND b >= 3 AND b < 8 AND id <> 4 -/
def exConds : List Cond := [.inn 1 [some (i 1), none, some (i 5), some (i 1)], .cmp .ge 2 (some (i 3)), .cmp .lt 2 (some (i 8)),
  .other fun r => decide (r 9 ≠ some (i 4))]

theorem exCovered : Covered .utf8 exTy exIx exConds := by
  refine ⟨by decide, by decide, ?_, ?_, ?_, .inl (by decide)⟩
  · intro c hc
    simp only [exConds, List.mem_cons, List.not_mem_nil, or_false] at hc
    rcases hc with rfl | rfl | rfl | rfl
    · intro v hv x hx
      simp at hv
      rcases hv with rfl | rfl | rfl | rfl <;> cases hx <;> simp [exTy, i, Valid]
    · intro x hx; cases hx; simp [exTy, i, Valid]
    · intro x hx; cases hx; simp [exTy, i, Valid]
    · trivial
  · intro n c fs hc hr
    have := List.mem_iff_getElem?.2 ⟨n, hc⟩
    simp only [exConds, List.mem_cons, List.not_mem_nil, or_false] at this
    rcases this with rfl | rfl | rfl | rfl <;> simp [RowEquality] at hr
  · intro c hc f hf
    simp only [exConds, List.mem_cons, List.not_mem_nil, or_false] at hc
    rcases hc with rfl | rfl | rfl | rfl <;> simp [fullCols] at hf

/-- Two ranges, one for a = 1 and one for a = 5; the conditions on a and b are not evaluated again, the one on id is. -/
example : ∃ p, mkPlan exCfg exIx exConds = .plan p ∧ p.ranges.length = 2 ∧ p.cut = [0, 1, 2] ∧
    p.tpl = ⟨false, false, true⟩ ∧ p.st.likePrefix = false :=
  ⟨_, rfl, by decide +kernel, by decide +kernel, by decide +kernel, by decide +kernel⟩

/-- `WHERE id = 4` on the primary key: one full key, read as a point. -/
example : ∃ p, mkPlan exCfg (buildIndex .primary false [⟨9, .int64, false⟩] [⟨9, .int64, false⟩]) [.cmp .eq 9 (some (i 4))] = .plan p ∧
    p.tpl.isEq = true ∧ p.ranges.length = 1 ∧ ∀ r ∈ p.ranges, r.leftFull = true :=
  ⟨_, rfl, by decide +kernel, by decide +kernel, by decide +kernel⟩

/-- `WHERE a = 1 AND b = 2 AND c LIKE 'x%'`: a prefix search with no IN before it. -/
example : ∃ p, mkPlan exCfg exIx [.cmp .eq 1 (some (i 1)), .cmp .eq 2 (some (i 2)), .like 3 (some [0x78#8, 0x25#8])] = .plan p ∧
    p.st.likePrefix = true ∧ p.st.inPred = false :=
  ⟨_, rfl, by decide +kernel, by decide +kernel⟩

example : RowOk .utf8 exIx (exRow 5 7 [0x61#8] 4) := by
  refine ⟨?_, ?_⟩
  · intro f hf
    have : f = ⟨1, .int64, false⟩ ∨ f = ⟨2, .int64, false⟩ ∨ f = ⟨3, .string, false⟩ ∨ f = ⟨9, .int64, false⟩ := by
      have h : avail exIx = [⟨1, .int64, false⟩, ⟨2, .int64, false⟩, ⟨3, .string, false⟩, ⟨9, .int64, false⟩] := by decide
      rw [h] at hf
      simpa using hf
    rcases this with rfl | rfl | rfl | rfl <;> simp [exRow, Valid]
  · intro f t ht
    have : t = [0x61#8] := by
      unfold exRow at ht
      split at ht
      · cases ht
      · split at ht
        · cases ht
        · split at ht
          · cases ht; rfl
          · split at ht <;> cases ht
    subst this
    exact ⟨[[0x61#8]], rfl, by intro c hc; simp at hc; subst hc; exact .inl ⟨_, rfl, by decide⟩⟩

end BaikalDB.Scan
