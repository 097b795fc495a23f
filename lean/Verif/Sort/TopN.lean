import Verif.Sort.Merge
/-! # The bounded heap of `TopNSorter` -/
namespace BaikalDB.Sort
open Expr Expr.Spec

section
variable {ρ : Type} {ty : Key ρ → VTy} {ks : List (Key ρ)}

def toItem (p : ρ × Nat) : Item ρ := ⟨p.1, p.2 + 1⟩

/-- The rows with the numbers `_current_idx` gives them. -/
def items (l : List ρ) : List (Item ρ) := l.zipIdx.map toItem

theorem items_concat (l : List ρ) (r : ρ) : items (l ++ [r]) = items l ++ [⟨r, l.length + 1⟩] := by
  simp [items, List.zipIdx_append, toItem]

theorem items_idx {l : List ρ} {x : Item ρ} (h : x ∈ items l) : x.idx ≤ l.length := by
  unfold items at h
  obtain ⟨⟨a, i⟩, hp, rfl⟩ := List.mem_map.1 h
  have := List.mem_zipIdx hp
  simp only [toItem]; omega

theorem items_row {l : List ρ} {x : Item ρ} (h : x ∈ items l) : x.row ∈ l := by
  unfold items at h
  obtain ⟨⟨a, i⟩, hp, rfl⟩ := List.mem_map.1 h
  have := List.mem_zipIdx hp
  simp only [toItem]; rw [this.2.2]; exact List.getElem_mem _

/-- State of the TopN heap after the rows `l`. -/
structure TopOK (ks : List (Key ρ)) (limit : Nat) (l : List ρ) (s : TopN ρ) (dropped : List (Item ρ)) : Prop where
  perm : (items l).Perm (s.heap ++ dropped)
  le : ∀ x ∈ s.heap, ∀ d ∈ dropped, ItemLe ks x d
  full : dropped ≠ [] → s.heap.length = limit
  len : s.heap.length ≤ limit
  cur : s.cur = l.length
  heap : HeapFrom (fun x y => itemLess ks y x) 0 s.heap

theorem heapUp_concat {α : Type} {better : α → α → Bool} {h : List α} {x : α} (hh : HeapFrom better 0 h) :
    HeapUp better h.length (h ++ [x]) := by
  refine ⟨?_, ?_⟩
  · intro a c hc hac v w hv hw
    have hl := (List.getElem?_eq_some_iff.1 hw).1
    rw [List.length_append, List.length_singleton] at hl
    have hc' : c < h.length := by omega
    have ha' : a < h.length := by rcases hac with e | e <;> omega
    rw [List.getElem?_append_left ha'] at hv
    rw [List.getElem?_append_left hc'] at hw
    exact hh a c (Nat.zero_le _) hac v w hv hw
  · intro p c _ hc v w _ hw
    have hl := (List.getElem?_eq_some_iff.1 hw).1
    rw [List.length_append, List.length_singleton] at hl
    rcases hc with e | e <;> omega

theorem topnAdd_spec (hks : ks ≠ []) {limit : Nat} (hl : 0 < limit) {l : List ρ} {r : ρ} (hok : ∀ x ∈ l ++ [r], RowOK ty ks x)
    {s : TopN ρ} {dropped : List (Item ρ)} (h : TopOK ks limit l s dropped) :
    ∃ s' dropped', topnAdd ks limit s r = some s' ∧ TopOK ks limit (l ++ [r]) s' dropped' := by
  have hks' : ks.isEmpty = false := by cases ks <;> simp_all
  have hmem : ∀ x ∈ s.heap ++ dropped, RowOK ty ks x.row ∧ x.idx ≤ l.length := by
    intro x hx
    have := h.perm.mem_iff.2 hx
    exact ⟨hok _ (by simp [items_row this]), items_idx this⟩
  have hr : RowOK ty ks r := hok r (by simp)
  have w := Weak.flip (itemLess_weak (ty := ty) (ks := ks))
  unfold topnAdd
  simp only [hks', Bool.false_eq_true, if_false]
  by_cases hlt : s.heap.length < limit
  · rw [if_pos hlt]
    have hd : dropped = [] := by
      cases dropped with
      | nil => rfl
      | cons d ds => have := h.full (by simp); omega
    subst hd
    have hp := shiftup_perm (better := fun x y => itemLess ks y x) (s.heap ++ [⟨r, s.cur + 1⟩]) s.heap.length
    refine ⟨_, [], rfl, ?_, by simp, by simp, ?_, by simp [h.cur], ?_⟩
    · rw [items_concat, List.append_nil]
      refine List.Perm.trans ?_ hp.symm
      rw [h.cur]
      exact (by simpa using h.perm : (items l).Perm s.heap).append_right _
    · have := hp.length_eq
      simp only [List.length_append, List.length_singleton] at this
      simp only; omega
    · refine shiftup_heap w ?_ (by simp) (heapUp_concat h.heap)
      intro x hx
      rcases List.mem_append.1 hx with hx | hx
      · exact (hmem x (by simp [hx])).1
      · simp only [List.mem_singleton] at hx; subst hx; exact hr
  · rw [if_neg hlt]
    obtain ⟨heap, cur⟩ := s
    cases heap with
    | nil => simp only [List.length_nil] at hlt; omega
    | cons top rest =>
      simp only
      have htop := hmem top (by simp)
      have hcur : cur = l.length := h.cur
      have hall : ∀ x ∈ top :: rest, ItemLe ks x top := by
        intro x hx
        rcases List.mem_cons.1 hx with rfl | hx
        · exact ⟨RowLe.refl _ _, fun _ => Nat.le_refl _⟩
        · obtain ⟨j, hj, rfl⟩ := List.mem_iff_getElem.1 hx
          have := heap_root w (h := top :: rest) (fun x hx => (hmem x (List.mem_append_left _ hx)).1) h.heap (j + 1) (by omega) top rest[j] rfl
            (by rw [List.getElem?_cons_succ, List.getElem?_eq_getElem hj])
          exact (itemLess_false (hmem _ (by simp)).1 htop.1).1 this
      by_cases hrl : rowLess ks r top.row = true
      · rw [if_pos hrl]
        have hstrict := (rowLess_iff hr htop.1).1 hrl
        have hnew : ItemLe ks ⟨r, cur + 1⟩ top := by
          refine ⟨?_, ?_⟩
          · show RowLe ks r top.row
            unfold RowLe; rw [hstrict]; simp
          · intro hh
            exfalso
            have hh' : RowLe ks top.row r := hh
            unfold RowLe at hh'
            rw [← rowOrd_swap ks r top.row, hstrict] at hh'
            exact hh' rfl
        have hp := shiftdown_perm (better := fun x y => itemLess ks y x) (⟨r, cur + 1⟩ :: rest) 0
        refine ⟨_, top :: dropped, rfl, ?_, ?_, ?_, ?_, by simp [hcur], ?_⟩
        · rw [items_concat]
          refine ((h.perm.append_right _).trans ?_).trans (hp.symm.append_right _)
          simp only [List.cons_append, List.append_assoc]
          rw [hcur]
          refine List.Perm.trans ?_ (List.Perm.cons _ (List.perm_middle).symm)
          refine List.Perm.trans ?_ (List.Perm.swap _ _ _)
          refine List.Perm.cons _ ?_
          rw [← List.append_assoc]
          exact (List.perm_append_singleton _ _)
        · intro x hx d hd
          have hx' := hp.mem_iff.1 hx
          have hxt : ItemLe ks x top := by
            rcases List.mem_cons.1 hx' with rfl | hx'
            · exact hnew
            · exact hall x (by simp [hx'])
          rcases List.mem_cons.1 hd with rfl | hd
          · exact hxt
          · exact hxt.trans (h.le top (by simp) d hd)
        · intro _
          have := hp.length_eq
          have h1 := h.len
          simp only [List.length_cons] at this h1 hlt ⊢; omega
        · have := hp.length_eq
          have h1 := h.len
          simp only [List.length_cons] at this h1 hlt ⊢; omega
        · refine shiftdown_heap w ?_ (Nat.le_refl 0) (heapBut_root h.heap (List.prefix_refl _))
          intro x hx
          rcases List.mem_cons.1 hx with rfl | hx
          · exact hr
          · exact (hmem x (by simp [hx])).1
      · rw [if_neg hrl]
        have hle := (rowLess_false htop.1 hr).1 (by simpa using hrl)
        have hnew : ItemLe ks top ⟨r, cur + 1⟩ := ⟨hle, fun _ => by have := htop.2; simp only; omega⟩
        refine ⟨_, dropped ++ [⟨r, cur + 1⟩], rfl, ?_, ?_, ?_, h.len, by simp [hcur], h.heap⟩
        · rw [items_concat, hcur, ← List.append_assoc]
          exact h.perm.append_right _
        · intro x hx d hd
          rcases List.mem_append.1 hd with hd | hd
          · exact h.le x hx d hd
          · simp only [List.mem_singleton] at hd; subst hd
            exact (hall x hx).trans hnew
        · intro _
          have h1 := h.len
          simp only [List.length_cons] at h1 hlt ⊢; omega

theorem topnAddBatch_spec (hks : ks ≠ []) {limit : Nat} (hl : 0 < limit) (rs : List ρ) {l : List ρ}
    (hok : ∀ x ∈ l ++ rs, RowOK ty ks x) {s : TopN ρ} {dropped : List (Item ρ)} (h : TopOK ks limit l s dropped) :
    ∃ s' dropped', topnAddBatch ks limit s rs = some s' ∧ TopOK ks limit (l ++ rs) s' dropped' := by
  induction rs generalizing l s dropped with
  | nil => exact ⟨s, dropped, rfl, by simpa using h⟩
  | cons r rs ih =>
    obtain ⟨s1, d1, e1, h1⟩ := topnAdd_spec (ty := ty) hks hl (l := l) (r := r) (fun x hx => hok x (by simp at hx ⊢; tauto)) h
    obtain ⟨s2, d2, e2, h2⟩ := ih (l := l ++ [r]) (fun x hx => hok x (by simpa using hx)) h1
    refine ⟨s2, d2, ?_, by simpa using h2⟩
    unfold topnAddBatch
    rw [e1]; exact e2

theorem topOK_nil (limit : Nat) : TopOK ks limit [] ⟨[], 0⟩ [] :=
  ⟨by simp [items], by simp, by simp, by simp, rfl, fun a c _ _ v w hv => by simp at hv⟩

theorem orderBy_perm (l : List ρ) : (orderBy ks l).Perm l := List.mergeSort_perm _ _

theorem orderBy_sorted (l : List ρ) : (orderBy ks l).Pairwise (RowLe ks) := by
  have := List.pairwise_mergeSort (le := fun a b => decide (RowLe ks a b))
    (fun a b c h1 h2 => by simp only [decide_eq_true_iff] at *; exact h1.trans h2)
    (fun a b => by simp only [Bool.or_eq_true, decide_eq_true_iff]; exact RowLe.total ks a b) l
  exact this.imp (fun h => by simpa using h)

/-- The numbered rows in their one and only order. -/
theorem items_sorted (l : List ρ) : ∃ z : List (Item ρ), z.Perm (items l) ∧ z.Pairwise (ItemLe ks) ∧ z.map (·.row) = orderBy ks l := by
  have htr : ∀ a b c : ρ, decide (RowLe ks a b) = true → decide (RowLe ks b c) = true → decide (RowLe ks a c) = true :=
    fun a b c h1 h2 => by simp only [decide_eq_true_iff] at *; exact h1.trans h2
  have hto : ∀ a b : ρ, (decide (RowLe ks a b) || decide (RowLe ks b a)) = true :=
    fun a b => by simp only [Bool.or_eq_true, decide_eq_true_iff]; exact RowLe.total ks a b
  refine ⟨(l.zipIdx.mergeSort (List.zipIdxLE fun a b => decide (RowLe ks a b))).map toItem, ?_, ?_, ?_⟩
  · exact (List.mergeSort_perm _ _).map _
  · rw [List.pairwise_map]
    refine (List.pairwise_mergeSort (List.zipIdxLE_trans htr) (List.zipIdxLE_total hto) _).imp ?_
    intro a b h
    unfold List.zipIdxLE at h
    simp only [decide_eq_true_eq] at h
    by_cases h1 : RowLe ks a.1 b.1
    · refine ⟨h1, fun h2 => ?_⟩
      have h2' : RowLe ks b.1 a.1 := h2
      simp only [h1, h2', if_true, decide_eq_true_eq] at h
      simp only [toItem]; omega
    · simp [h1] at h
  · rw [List.map_map]
    exact List.mergeSort_zipIdx

theorem itemLe_antisymm {l : List ρ} {a b : Item ρ} (ha : a ∈ items l) (hb : b ∈ items l) (h1 : ItemLe ks a b)
    (h2 : ItemLe ks b a) : a = b := by
  have e : a.idx = b.idx := Nat.le_antisymm (h1.2 h2.1) (h2.2 h1.1)
  unfold items at ha hb
  obtain ⟨⟨x, i⟩, hp, rfl⟩ := List.mem_map.1 ha
  obtain ⟨⟨y, j⟩, hq, rfl⟩ := List.mem_map.1 hb
  have hij : i = j := by simp only [toItem] at e; omega
  subst hij
  have h1 := (List.mem_zipIdx hp).2.2
  have h2 := (List.mem_zipIdx hq).2.2
  rw [h1, h2]

/-- After `sort`, the heap holds the first `limit` rows of the sorted input. -/
theorem topn_exact {limit : Nat} {l : List ρ} (hok : ∀ x ∈ l, RowOK ty ks x) {s : TopN ρ} {dropped : List (Item ρ)}
    (h : TopOK ks limit l s dropped) {srtI : List (Item ρ) → List (Item ρ)} (hs : IsSort (itemLess ks) srtI) :
    (srtI s.heap).map (·.row) = (orderBy ks l).take limit ∧ (srtI s.heap).length ≤ limit := by
  have hmem : ∀ x ∈ s.heap ++ dropped, RowOK ty ks x.row := fun x hx => hok _ (items_row (h.perm.mem_iff.2 hx))
  have hsort : ∀ t : List (Item ρ), (∀ x ∈ t, RowOK ty ks x.row) → (srtI t).Perm t ∧ (srtI t).Pairwise (ItemLe ks) := by
    intro t ht
    obtain ⟨h1, h2⟩ := hs.apply (itemLess_weak (ty := ty)) ht
    refine ⟨h1, h2.imp_of_mem ?_⟩
    intro a b ha hb hab
    exact (itemLess_false (ht a (h1.mem_iff.1 ha)) (ht b (h1.mem_iff.1 hb))).1 hab
  obtain ⟨p1, q1⟩ := hsort s.heap (fun x hx => hmem x (by simp [hx]))
  obtain ⟨p2, q2⟩ := hsort dropped (fun x hx => hmem x (by simp [hx]))
  obtain ⟨z, pz, qz, ez⟩ := items_sorted (ks := ks) l
  have hz : z = srtI s.heap ++ srtI dropped := by
    refine List.Perm.eq_of_pairwise (le := ItemLe ks) ?_ qz ?_ ?_
    · intro a b ha hb h1 h2
      refine itemLe_antisymm (pz.mem_iff.1 ha) (l := l) ?_ h1 h2
      refine h.perm.mem_iff.2 ?_
      exact (p1.append p2).mem_iff.1 hb
    · rw [List.pairwise_append]
      exact ⟨q1, q2, fun a ha b hb => h.le a (p1.mem_iff.1 ha) b (p2.mem_iff.1 hb)⟩
    · exact (pz.trans h.perm).trans (p1.append p2).symm
  refine ⟨?_, by rw [p1.length_eq]; exact h.len⟩
  rw [← ez, hz, List.map_append]
  by_cases hd : dropped = []
  · subst hd
    have : srtI [] = [] := p2.eq_nil
    rw [this, List.map_nil, List.append_nil, List.take_of_length_le]
    rw [List.length_map, p1.length_eq]; exact h.len
  · have := h.full hd
    rw [List.take_append_of_le_length (Nat.le_of_eq (by rw [List.length_map, p1.length_eq, this])), List.take_of_length_le]
    exact Nat.le_of_eq (by rw [List.length_map, p1.length_eq, this])

theorem fillTopN_eq (room : Nat) (s : TopN ρ) :
    fillTopN room s = (((s.heap.drop s.cur).take room).map (·.row), decide (s.heap.length - s.cur < room),
      ⟨s.heap, s.cur + min room (s.heap.length - s.cur)⟩) := by
  induction room generalizing s with
  | zero => simp [fillTopN]
  | succ room ih =>
    unfold fillTopN
    cases e : s.heap[s.cur]? with
    | none =>
      have := List.getElem?_eq_none_iff.1 e
      simp only
      rw [List.drop_eq_nil_of_le this]
      have h0 : s.heap.length - s.cur = 0 := by omega
      simp [h0]
    | some it =>
      obtain ⟨hl, rfl⟩ := List.getElem?_eq_some_iff.1 e
      simp only [ih]
      rw [List.drop_eq_getElem_cons hl, List.take_succ_cons]
      simp only [List.map_cons, Prod.mk.injEq, true_and, TopN.mk.injEq, decide_eq_decide]
      omega

theorem drain_topn {limit cap : Nat} (hcap : 0 < cap) (calls : Nat) (H : List (Item ρ)) (cur : Nat) (hl : H.length ≤ limit)
    (hc : cur ≤ H.length) (hcalls : H.length - cur < calls) :
    SortNode.drain ks (some limit) cap calls (.topn ⟨H, cur⟩, cur) = some ((H.drop cur).map (·.row)) := by
  induction calls generalizing cur with
  | zero => omega
  | succ calls ih =>
    unfold SortNode.drain SortNode.getNext
    simp only [reachedLimit, decide_eq_true_eq, Sorter.getNext, fillTopN_eq]
    by_cases h1 : cur ≥ limit
    · rw [if_pos h1]
      have : cur = H.length := by omega
      subst this; simp
    · rw [if_neg h1]
      simp only [List.length_map, List.length_take, List.length_drop, Option.getD_some]
      by_cases h2 : cur + min cap (H.length - cur) ≥ limit
      · rw [if_pos h2]
        have : H.length = limit := by omega
        have hm : min cap (H.length - cur) = H.length - cur := by omega
        simp only [hm]
        rw [List.take_of_length_le (by rw [List.length_map, List.length_take, List.length_drop]; omega),
          List.take_of_length_le (by rw [List.length_drop]; omega)]
      · rw [if_neg h2]
        by_cases h3 : H.length - cur < cap
        · simp only [h3, decide_true]
          rw [List.take_of_length_le (by rw [List.length_drop]; omega)]
        · simp only [h3, decide_false]
          have hm : min cap (H.length - cur) = cap := by omega
          rw [hm, ih (cur + cap) (by omega) (by omega)]
          simp only [Option.map_some, ← List.map_append]
          rw [← List.drop_drop, List.take_append_drop]

theorem topnAddBatch_plain {limit : Nat} (rs : List ρ) (s : TopN ρ) (h : s.heap.length ≤ limit) :
    ∃ s', topnAddBatch [] limit s rs = some s' ∧ s'.heap.map (·.row) = (s.heap.map (·.row) ++ rs).take limit := by
  induction rs generalizing s with
  | nil =>
    refine ⟨s, rfl, ?_⟩
    rw [List.append_nil, List.take_of_length_le (by simpa using h)]
  | cons r rs ih =>
    unfold topnAddBatch topnAdd
    simp only [List.isEmpty_nil, if_true]
    by_cases hlt : s.heap.length < limit
    · rw [if_pos hlt]
      obtain ⟨s', e, h'⟩ := ih ⟨s.heap ++ [⟨r, s.cur + 1⟩], s.cur + 1⟩ (by simp; omega)
      exact ⟨s', e, by simpa using h'⟩
    · rw [if_neg hlt]
      obtain ⟨s', e, h'⟩ := ih ⟨s.heap, s.cur + 1⟩ h
      refine ⟨s', e, ?_⟩
      have hl : (s.heap.map (·.row)).length = limit := by rw [List.length_map]; omega
      rw [h']
      simp only
      rw [List.take_append_of_le_length (by omega), List.take_append_of_le_length (by omega)]

end
end BaikalDB.Sort
