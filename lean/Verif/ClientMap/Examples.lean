import Verif.ClientMap.Props

/-!
# C48: cases that meet the theorems' hypotheses, and where the map does not follow

Keys are single bytes.
-/

namespace BaikalDB.ClientMap

open Region (RI Seg NE endPos ent Covers Good Tiles Filed)

/-- Region `i` from `a` to `b` at version `v`. -/
def reg (i v : Nat) (a b : Bytes) : RI := ⟨i, v, 1, a, b, 0, 0⟩

def msg (r : RI) : Msg := ⟨r, false⟩

/-- The map of a list of regions. -/
def mapOf (L : List RI) : Map := ⟨L.map ent, fun i => L.find? fun r => r.id == i⟩

theorem mapOf_placed (L : List RI) : Placed (mapOf L) := by
  intro i r h
  have h1 := List.find?_some h
  have h2 : r.id = i := by simpa using h1
  exact ⟨h2, List.mem_map.2 ⟨r, List.mem_of_find?_eq_some h, by rw [← h2]; rfl⟩⟩

theorem mapOf_infos {L : List RI} (h : (L.map (·.id)).Nodup) : ∀ r ∈ L, (mapOf L).infos r.id = some r := by
  intro r hr
  have hs : ((mapOf L).infos r.id).isSome := by
    rw [mapOf, List.find?_isSome]; exact ⟨r, hr, by simp⟩
  obtain ⟨r', hr'⟩ := Option.isSome_iff_exists.1 hs
  have h1 := List.find?_some hr'
  have h2 : r'.id = r.id := by simpa using h1
  rw [hr']
  exact congrArg some (List.inj_on_of_nodup_map h (List.mem_of_find?_eq_some hr') hr h2)

instance (r : RI) : Decidable (NE r) := inferInstanceAs (Decidable (_ ∨ _))

instance decSeg : (p : Option Bytes) → (L : List RI) → (q : Option Bytes) → Decidable (Seg p L q)
  | p, [], q => inferInstanceAs (Decidable (p = q))
  | p, r :: t, q =>
    have := decSeg (endPos r.stop) t q
    inferInstanceAs (Decidable (p = some r.start ∧ NE r ∧ Seg (endPos r.stop) t q))

theorem mapOf_good {L : List RI} (h1 : Seg (some []) L none) (h2 : (L.map (·.id)).Nodup) :
    Good (mapOf L).infos (mapOf L).keys := ⟨L, h1, rfl, mapOf_infos h2⟩

/-! ## The hypotheses are met -/

def before : List RI := [reg 1 1 [] [10], reg 2 1 [10] [20], reg 3 1 [20] [30], reg 4 1 [30] []]

/-- 1 splits off 5; 2 merges into 3, which then splits off 6 and 7; 4 only gets a higher version. -/
def heard : List Msg := [msg (reg 7 1 [27] [30]), msg (reg 1 2 [] [5]), msg (reg 2 2 [20] [20]), msg (reg 5 1 [5] [10]),
  msg (reg 3 4 [10] [22]), msg (reg 6 1 [22] [27]), msg (reg 4 2 [30] [])]

def inOrder : List Msg := [msg (reg 1 2 [] [5]), msg (reg 5 1 [5] [10]), msg (reg 3 4 [10] [22]), msg (reg 6 1 [22] [27]),
  msg (reg 7 1 [27] [30]), msg (reg 4 2 [30] [])]

def after : List RI := [reg 1 2 [] [5], reg 5 1 [5] [10], reg 3 4 [10] [22], reg 6 1 [22] [27], reg 7 1 [27] [30], reg 4 2 [30] []]

theorem before_seg : Seg (some []) before none := by decide +kernel

theorem before_good : Good (mapOf before).infos (mapOf before).keys := mapOf_good before_seg (by decide +kernel)

instance {rs : List Msg} : Decidable (rs.Pairwise fun a b => BLt a.r.start b.r.start) :=
  inferInstanceAs (Decidable (List.Pairwise _ rs))

theorem inOrder_batch : Batch inOrder :=
  ⟨by decide +kernel, by decide +kernel, by decide +kernel, by decide +kernel⟩

theorem heard_change : Change (mapOf before) before inOrder after := by
  refine Change.change (M := []) (m := reg 1 1 [] [10]) (x := msg (reg 1 2 [] [5])) (news := [msg (reg 5 1 [5] [10])])
    (p := some []) (q := some [10]) (by decide +kernel) (by decide +kernel) rfl (.inl (by decide)) (by simp) (by decide +kernel) ?_
  refine Change.change (M := [reg 2 1 [10] [20]]) (m := reg 3 1 [20] [30]) (x := msg (reg 3 4 [10] [22]))
    (news := [msg (reg 6 1 [22] [27]), msg (reg 7 1 [27] [30])]) (p := some [10]) (q := some [30]) (by decide +kernel)
    (by decide +kernel) rfl (.inl (by decide)) (by simp) (by decide +kernel) ?_
  exact Change.change (M := []) (m := reg 4 1 [30] []) (x := msg (reg 4 2 [30] [])) (news := []) (p := some [30]) (q := none)
    (by decide +kernel) (by decide +kernel) rfl (.inl (by decide)) (by simp) (by simp) .nil

/-- The hypotheses of `C48_follows` are met by a batch with a split, a merge followed by a split, and a new version. -/
example : (update (mapOf before) heard).keys = after.map ent :=
  (C48_follows before_seg rfl (mapOf_infos (by decide +kernel)) (mapOf_placed _) heard_change inOrder_batch
    (by decide +kernel)).1

theorem heard_reported : Reported (mapOf before) heard := by
  refine ⟨by decide +kernel, by decide +kernel, by decide +kernel, ?_⟩
  intro x hx o ho hv
  simp only [heard, List.mem_cons, List.not_mem_nil, or_false] at hx
  rcases hx with rfl | rfl | rfl | rfl | rfl | rfl | rfl <;>
    simp [mapOf, before, msg, reg] at ho <;> subst ho <;> simp [msg, reg] at hv

theorem heard_apart : Apart (mapOf before) heard := by
  refine ⟨by decide +kernel, ?_⟩
  intro x hx hg o ho
  simp only [heard, List.mem_cons, List.not_mem_nil, or_false] at hx
  rcases hx with rfl | rfl | rfl | rfl | rfl | rfl | rfl <;>
    simp [mapOf, before, msg, reg] at ho <;> subst ho <;> revert hg <;> decide +kernel

/-- The hypotheses of `C48_tiles`, `C48_placed` and `C48_run` are met. -/
example : Tiles (update (mapOf before) heard).infos (update (mapOf before) heard).keys ∧
    Placed (update (mapOf before) heard) :=
  ⟨(C48_tiles before_good (mapOf_placed _) heard_reported).2.1,
   (C48_run (.cons heard_reported heard_apart .nil) before_good (mapOf_placed _)).2.2⟩

/-- `C48_tiles` also covers reports that only tell a part: the split of 1 without what it split off. -/
example : Reported (mapOf before) [msg (reg 1 2 [] [5])] ∧
    (update (mapOf before) [msg (reg 1 2 [] [5])]).keys = before.map ent := by
  refine ⟨⟨by decide +kernel, by decide +kernel, by decide +kernel, ?_⟩, by decide +kernel⟩
  intro x hx o ho hv
  simp only [List.mem_singleton] at hx
  subst hx
  simp [mapOf, before, msg, reg] at ho
  subst ho
  simp [msg, reg] at hv

/-- The hypotheses of `C48_first_load` are met. -/
example : (update (mapOf []) heard).keys = after.map ent :=
  ((C48_first_load (t := mapOf []) rfl (fun _ => rfl) (rs := heard) inOrder_batch (by decide +kernel)).2
    (by decide +kernel)).1

/-! ## Where the map does not follow -/

/-- The part of region 1 that was split off as 3 has merged into 2 before the node heard of either. -/
def told1 : List Msg := [msg (reg 1 2 [] [5]), msg (reg 2 2 [5] [])]

def known1 : List RI := [reg 1 1 [] [10], reg 2 1 [10] []]

/-- A region splits and the split-off part merges into the next region before the node hears of it: the two regions it is
told are all there are, both newer than those it knows, and it takes over neither, however often it is told. -/
theorem C48_stuck_counterexample : ∃ t rs, Good t.infos t.keys ∧ Placed t ∧ Reported t rs ∧
    Seg (some []) (rs.map (·.r)) none ∧ (∀ x ∈ rs, ∃ o, t.infos x.r.id = some o ∧ o.ver < x.r.ver) ∧ update t rs = t := by
  refine ⟨mapOf known1, told1, mapOf_good (by decide +kernel) (by decide +kernel), mapOf_placed _,
    ⟨by decide +kernel, by decide +kernel, by decide +kernel, ?_⟩, by decide +kernel, ?_, rfl⟩
  · intro x hx o ho hv
    simp only [told1, List.mem_cons, List.not_mem_nil, or_false] at hx
    rcases hx with rfl | rfl <;> simp [mapOf, known1, msg, reg] at ho <;> subst ho <;> simp [msg, reg] at hv
  · intro x hx
    simp only [told1, List.mem_cons, List.not_mem_nil, or_false] at hx
    rcases hx with rfl | rfl
    · exact ⟨reg 1 1 [] [10], by decide +kernel, by decide⟩
    · exact ⟨reg 2 1 [10] [], by decide +kernel, by decide⟩

def known2 : List RI := [reg 1 1 [] [10], reg 2 1 [10] [20], reg 3 1 [20] []]

/-- 3 split off 4, then merged into it, then 2 merged into it. -/
def told2 : List Msg := [msg (reg 4 3 [10] [])]

/-- Then 4 splits. -/
def told2' : List Msg := [msg (reg 4 4 [10] [40]), msg (reg 5 1 [40] [])]

/-- A region not known so far has taken the place of the region that started where it does: the node keeps routing to the
old ones, knows the new one by number only, and when the new one splits later, takes over half of it, so that keys
belong to two regions of the map. -/
theorem C48_orphan_counterexample : ∃ t rs rs', Good t.infos t.keys ∧ Placed t ∧ Reported t rs ∧
    (update t rs).keys = t.keys ∧ ¬ Placed (update t rs) ∧ update (update t rs) rs = update t rs ∧
    Reported (update t rs) rs' ∧
    ¬ Tiles (update (update t rs) rs').infos (update (update t rs) rs').keys := by
  have hi : ∀ i, (update (mapOf known2) told2).infos i = if i = 4 then some (reg 4 3 [10] []) else (mapOf known2).infos i :=
    fun i => rfl
  refine ⟨mapOf known2, told2, told2', mapOf_good (by decide +kernel) (by decide +kernel), mapOf_placed _,
    ⟨by decide +kernel, by decide +kernel, by decide +kernel, ?_⟩, by decide +kernel, ?_, ?_,
    ⟨by decide +kernel, by decide +kernel, by decide +kernel, ?_⟩, ?_⟩
  · intro x hx o ho hv
    simp only [told2, List.mem_singleton] at hx
    subst hx
    simp [mapOf, known2, msg, reg] at ho
  · intro h
    have := (h 4 (reg 4 3 [10] []) (hi 4)).2
    revert this; decide +kernel
  · have hk : (update (update (mapOf known2) told2) told2).keys = (update (mapOf known2) told2).keys := by decide +kernel
    have hf : (update (update (mapOf known2) told2) told2).infos = (update (mapOf known2) told2).infos := by
      funext i
      show setInfo _ 4 _ i = _
      unfold setInfo
      rw [hi]
      split
      · rfl
      · rfl
    generalize update (update (mapOf known2) told2) told2 = a at *
    generalize update (mapOf known2) told2 = b at *
    cases a; cases b; simp_all
  · intro x hx o ho hv
    simp only [told2', List.mem_cons, List.not_mem_nil, or_false] at hx
    rw [hi] at ho
    rcases hx with rfl | rfl
    · have : reg 4 3 [10] [] = o := by simpa [msg, reg] using ho
      subst this; simp [msg, reg] at hv
    · simp [mapOf, known2, msg, reg] at ho
  · intro h
    obtain ⟨e, _, _, hu⟩ := h [50]
    have h1 := hu ([20], 3) (by decide +kernel) ⟨reg 3 1 [20] [], by decide +kernel, by
      refine ⟨by decide +kernel, .inl rfl⟩⟩
    have h2 := hu ([40], 5) (by decide +kernel) ⟨reg 5 1 [40] [], by decide +kernel, by
      refine ⟨by decide +kernel, .inl rfl⟩⟩
    rw [← h2] at h1
    revert h1; decide +kernel

def known3 : List RI := [reg 1 1 [] [10], reg 3 1 [20] []]

/-- After a region has been deleted there is a gap, and then an unknown region is only checked against its neighbour on
the left: it may reach into the one on the right. -/
theorem C48_gap_counterexample : ∃ t x, (∀ k, ∀ e ∈ t.keys, ∀ e' ∈ t.keys, ∀ r r', t.infos e.2 = some r → t.infos e'.2 = some r' →
      Covers r.start r.stop k → Covers r'.start r'.stop k → e = e') ∧ Placed t ∧ Reported t [x] ∧
    ∃ k, ∃ e ∈ (update t [x]).keys, ∃ e' ∈ (update t [x]).keys, ∃ r r', (update t [x]).infos e.2 = some r ∧
      (update t [x]).infos e'.2 = some r' ∧ Covers r.start r.stop k ∧ Covers r'.start r'.stop k ∧ e ≠ e' := by
  have hx : ∀ k, Covers [] [10] k → Covers [20] [] k → False := by
    intro k h1 h2
    have h3 : BLt k [10] := h1.2.resolve_left (by simp)
    have h4 : BLt [10] [20] := by decide +kernel
    exact not_BLt.2 h2.1 (BLt.trans h3 h4)
  refine ⟨mapOf known3, msg (reg 4 1 [10] [30]), ?_, mapOf_placed _,
    ⟨by decide +kernel, by decide +kernel, by decide +kernel, ?_⟩, [25], ([10], 4), by decide +kernel, ([20], 3),
    by decide +kernel, reg 4 1 [10] [30], reg 3 1 [20] [], by decide +kernel, by decide +kernel, ?_, ?_, by decide⟩
  · intro k e he e' he' r r' hr hr' hc hc'
    simp only [mapOf, known3, List.map_cons, List.map_nil, List.mem_cons, List.not_mem_nil, or_false] at he he'
    rcases he with rfl | rfl <;> rcases he' with rfl | rfl
    · rfl
    · simp [mapOf, known3, ent, reg] at hr hr'; subst hr; subst hr'; exact (hx k hc hc').elim
    · simp [mapOf, known3, ent, reg] at hr hr'; subst hr; subst hr'; exact (hx k hc' hc).elim
    · rfl
  · intro y hy o ho hv
    rw [List.mem_singleton] at hy; subst hy
    simp [mapOf, known3, msg, reg] at ho
  · exact ⟨by decide +kernel, .inr (by decide +kernel)⟩
  · exact ⟨by decide +kernel, .inl rfl⟩

end BaikalDB.ClientMap
