import Verif.Sort.Order
/-! # The k-way merge of `Sorter` -/
namespace BaikalDB.Sort
open Expr Expr.Spec

section
variable {ρ : Type} {ty : Key ρ → VTy} {ks : List (Key ρ)}

/-- A batch in the heap: not exhausted, rows well typed and in order. -/
structure BatchOK (ty : Key ρ → VTy) (ks : List (Key ρ)) (b : List ρ) : Prop where
  ne : b ≠ []
  ok : ∀ r ∈ b, RowOK ty ks r
  sorted : b.Pairwise (RowLe ks)

theorem headLess_false {a b : List ρ} (ha : BatchOK ty ks a) (hb : BatchOK ty ks b) :
    headLess ks b a = false ↔ ∀ x y, a.head? = some x → b.head? = some y → RowLe ks x y := by
  obtain ⟨x, xs, rfl⟩ := List.exists_cons_of_ne_nil ha.ne
  obtain ⟨y, ys, rfl⟩ := List.exists_cons_of_ne_nil hb.ne
  simp only [headLess, List.head?_cons, Option.some.injEq]
  rw [rowLess_false (ha.ok x (by simp)) (hb.ok y (by simp))]
  constructor
  · rintro h _ _ rfl rfl; exact h
  · intro h; exact h x y rfl rfl

theorem headLess_weak : Weak (headLess ks) (BatchOK ty ks) where
  asymm a b ha hb h := by
    obtain ⟨x, xs, rfl⟩ := List.exists_cons_of_ne_nil ha.ne
    obtain ⟨y, ys, rfl⟩ := List.exists_cons_of_ne_nil hb.ne
    exact (rowLess_weak (ty := ty)).asymm x y (ha.ok x (by simp)) (hb.ok y (by simp)) h
  trans a b c ha hb hc h1 h2 := by
    obtain ⟨x, xs, rfl⟩ := List.exists_cons_of_ne_nil ha.ne
    obtain ⟨y, ys, rfl⟩ := List.exists_cons_of_ne_nil hb.ne
    obtain ⟨z, zs, rfl⟩ := List.exists_cons_of_ne_nil hc.ne
    exact (rowLess_weak (ty := ty)).trans x y z (ha.ok x (by simp)) (hb.ok y (by simp)) (hc.ok z (by simp)) h1 h2

/-- State of the merge. -/
structure MergeOK (ty : Key ρ → VTy) (ks : List (Key ρ)) (h : List (List ρ)) : Prop where
  ok : ∀ b ∈ h, BatchOK ty ks b
  heap : HeapFrom (headLess ks) 0 h

theorem flatten_perm {α : Type} {l₁ l₂ : List (List α)} (h : l₁.Perm l₂) : l₁.flatten.Perm l₂.flatten := h.flatten

/-- Replacing the root leaves a heap but for the root. -/
theorem heapBut_root {α : Type} {better : α → α → Bool} {x y : α} {rest rest' : List α} (hh : HeapFrom better 0 (x :: rest))
    (hr : rest' <+: rest) : HeapBut better 0 0 (y :: rest') := by
  have g : ∀ (a : Nat) (v : α), rest'[a]? = some v → rest[a]? = some v := by
    intro a v hv
    obtain ⟨t, rfl⟩ := hr
    have hl := (List.getElem?_eq_some_iff.1 hv).1
    rw [List.getElem?_append_left hl]; exact hv
  refine ⟨?_, ?_⟩
  · intro a c _ ha hc v w hv hw
    obtain ⟨a', rfl⟩ : ∃ a', a = a' + 1 := ⟨a - 1, by omega⟩
    obtain ⟨c', rfl⟩ : ∃ c', c = c' + 1 := ⟨c - 1, by rcases hc with e | e <;> omega⟩
    rw [List.getElem?_cons_succ] at hv hw
    exact hh (a' + 1) (c' + 1) (Nat.zero_le _) hc v w (by rw [List.getElem?_cons_succ]; exact g _ _ hv)
      (by rw [List.getElem?_cons_succ]; exact g _ _ hw)
  · intro p c _ hp _
    rcases hp with e | e <;> omega

theorem popRow_spec {h : List (List ρ)} (hm : MergeOK ty ks h) (hne : h ≠ []) :
    ∃ x h', popRow ks h = some (x, h') ∧ MergeOK ty ks h' ∧ h.flatten.Perm (x :: h'.flatten) ∧
      (∀ y ∈ h'.flatten, RowLe ks x y) ∧ RowOK ty ks x := by
  obtain ⟨b, rest, rfl⟩ := List.exists_cons_of_ne_nil hne
  have hb := hm.ok b (by simp)
  obtain ⟨x, xs, rfl⟩ := List.exists_cons_of_ne_nil hb.ne
  have hmin : ∀ y ∈ xs ++ rest.flatten, RowLe ks x y := by
    intro y hy
    rcases List.mem_append.1 hy with hy | hy
    · exact List.rel_of_pairwise_cons hb.sorted hy
    · obtain ⟨c, hc, hyc⟩ := List.mem_flatten.1 hy
      obtain ⟨j, hj, rfl⟩ := List.mem_iff_getElem.1 hc
      have ok := hm.ok rest[j] (by simp)
      have hr := heap_root (headLess_weak (ty := ty)) hm.ok hm.heap (j + 1) (by omega) (x :: xs) rest[j] rfl
        (by rw [List.getElem?_cons_succ, List.getElem?_eq_getElem hj])
      rw [headLess_false hb ok] at hr
      obtain ⟨z, zs, hz⟩ := List.exists_cons_of_ne_nil ok.ne
      rw [hz] at hyc hr
      have hxz := hr x z rfl rfl
      rcases List.mem_cons.1 hyc with rfl | hyc
      · exact hxz
      · have := ok.sorted; rw [hz] at this
        exact hxz.trans (List.rel_of_pairwise_cons this hyc)
  unfold popRow
  by_cases hx : xs = []
  · subst hx
    simp only [if_true]
    cases hl : rest.getLast? with
    | none =>
      rw [List.getLast?_eq_none_iff] at hl; subst hl
      refine ⟨x, [], rfl, ⟨by simp, ?_⟩, by simp, by simp, hb.ok x (by simp)⟩
      intro a c _ _ v w hv; simp at hv
    | some l =>
      have hrl : rest = rest.dropLast ++ [l] := by
        have hne' : rest ≠ [] := by rintro rfl; simp at hl
        rw [List.getLast?_eq_some_getLast hne'] at hl
        simp only [Option.some.injEq] at hl
        rw [← hl, List.dropLast_concat_getLast]
      have hp := shiftdown_perm (better := headLess ks) (l :: rest.dropLast) 0
      have hp2 : (l :: rest.dropLast).Perm rest := by
        conv => rhs; rw [hrl]
        exact (List.perm_append_singleton _ _).symm
      have hflat : (shiftdown (headLess ks) (l :: rest.dropLast) 0).flatten.Perm rest.flatten := (hp.trans hp2).flatten
      have hok : ∀ c ∈ l :: rest.dropLast, BatchOK ty ks c := by
        intro c hc
        have := (hp2.mem_iff).1 hc
        exact hm.ok c (by simp [this])
      refine ⟨x, _, rfl, ⟨fun c hc => hok c (hp.mem_iff.1 hc), ?_⟩, ?_, ?_, hb.ok x (by simp)⟩
      · exact shiftdown_heap headLess_weak hok (Nat.le_refl 0) (heapBut_root hm.heap (List.dropLast_prefix _))
      · simpa using hflat.symm
      · intro y hy; exact hmin y (by simpa using hflat.mem_iff.1 hy)
  · simp only [if_neg hx]
    have hp := shiftdown_perm (better := headLess ks) (xs :: rest) 0
    have hok : ∀ c ∈ xs :: rest, BatchOK ty ks c := by
      intro c hc
      rcases List.mem_cons.1 hc with rfl | hc
      · exact ⟨hx, fun r hr => hb.ok r (by simp [hr]), (List.pairwise_cons.1 hb.sorted).2⟩
      · exact hm.ok c (by simp [hc])
    have hflat : (shiftdown (headLess ks) (xs :: rest) 0).flatten.Perm (xs ++ rest.flatten) := by
      simpa using hp.flatten
    refine ⟨x, _, rfl, ⟨fun c hc => hok c (hp.mem_iff.1 hc), ?_⟩, ?_, ?_, hb.ok x (by simp)⟩
    · exact shiftdown_heap headLess_weak hok (Nat.le_refl 0) (heapBut_root hm.heap (List.prefix_refl _))
    · simpa using hflat.symm
    · intro y hy; exact hmin y (hflat.mem_iff.1 hy)

/-- One batch: the rows are the smallest ones, in order; a batch that is not the last one is full. -/
theorem fillMerge_spec (room : Nat) {h : List (List ρ)} (hm : MergeOK ty ks h) :
    ∃ out eos h', fillMerge ks room h = some (out, eos, h') ∧ MergeOK ty ks h' ∧ h.flatten.Perm (out ++ h'.flatten) ∧
      out.Pairwise (RowLe ks) ∧ (∀ x ∈ out, ∀ y ∈ h'.flatten, RowLe ks x y) ∧
      (eos = true → h' = []) ∧ (eos = false → out.length = room) := by
  induction room generalizing h with
  | zero => exact ⟨[], false, h, rfl, hm, by simp, by simp, by simp, by simp, by simp⟩
  | succ room ih =>
    unfold fillMerge
    by_cases hne : h = []
    · subst hne
      exact ⟨[], true, [], by simp, hm, by simp, by simp, by simp, by simp, by simp⟩
    · rw [if_neg hne]
      obtain ⟨x, h', e, hm', hp, hx, _⟩ := popRow_spec hm hne
      obtain ⟨out, eos, h'', e', hm'', hp', ho, hy, h1, h2⟩ := ih hm'
      rw [e]
      simp only [e', Option.map_some]
      refine ⟨x :: out, eos, h'', rfl, hm'', ?_, ?_, ?_, h1, ?_⟩
      · exact hp.trans (by simpa using hp'.cons x)
      · rw [List.pairwise_cons]
        exact ⟨fun y hy => hx y (hp'.mem_iff.2 (List.mem_append_left _ hy)), ho⟩
      · intro z hz y hy'
        rcases List.mem_cons.1 hz with rfl | hz
        · exact hx y (hp'.mem_iff.2 (List.mem_append_right _ hy'))
        · exact hy z hz y hy'
      · intro he; simp [h2 he]

/-- Draining the merge without a limit: all rows, in order. -/
theorem drain_merge (hks : ks ≠ []) {cap : Nat} (hcap : 0 < cap) (calls : Nat) {h : List (List ρ)} (idx n : Nat)
    (hm : MergeOK ty ks h) (hc : h.flatten.length < calls) :
    ∃ out, SortNode.drain ks none cap calls (.merge h idx, n) = some out ∧ out.Perm h.flatten ∧ out.Pairwise (RowLe ks) := by
  induction calls generalizing h n with
  | zero => omega
  | succ calls ih =>
    have hks' : ks.isEmpty = false := by cases ks <;> simp_all
    unfold SortNode.drain SortNode.getNext
    simp only [reachedLimit, Bool.false_eq_true, if_false, Sorter.getNext, hks']
    by_cases h0 : h.length = 0
    · have : h = [] := List.length_eq_zero_iff.1 h0
      subst this
      refine ⟨[], ?_, ?_, ?_⟩ <;> simp
    · rw [if_neg h0]
      obtain ⟨out, eos, h', e, hm', hp, ho, hy, h1, h2⟩ := fillMerge_spec cap hm
      rw [e]
      simp only [Option.map_some]
      cases eos with
      | true =>
        have := h1 rfl; subst this
        exact ⟨out, rfl, by simpa using hp.symm, ho⟩
      | false =>
        have hl := h2 rfl
        have hlen := hp.length_eq
        rw [List.length_append] at hlen
        obtain ⟨out', e', hp', ho'⟩ := ih (n + out.length) hm' (by omega)
        simp only [e', Option.map_some]
        refine ⟨out ++ out', rfl, ?_, ?_⟩
        · exact (hp'.append_left out).trans hp.symm
        · rw [List.pairwise_append]
          exact ⟨ho, ho', fun a ha b hb => hy a ha b (hp'.mem_iff.1 hb)⟩

/-- Without order-by columns the batches come out as they went in. -/
theorem drain_plain {cap : Nat} (calls : Nat) (h : List (List ρ)) (idx n : Nat) (hi : idx < h.length)
    (hc : h.length - idx ≤ calls) :
    SortNode.drain ([] : List (Key ρ)) none cap calls (.merge h idx, n) = some (h.drop idx).flatten := by
  induction calls generalizing idx n with
  | zero => omega
  | succ calls ih =>
    unfold SortNode.drain SortNode.getNext
    simp only [reachedLimit, Bool.false_eq_true, if_false, Sorter.getNext, List.isEmpty_nil, if_true]
    rw [if_neg (by omega), List.getElem?_eq_getElem hi]
    by_cases hl : idx = h.length - 1
    · simp only [hl, decide_true]
      have : h.drop (h.length - 1) = [h[h.length - 1]'(by omega)] := by
        rw [List.drop_eq_getElem_cons (by omega), List.drop_eq_nil_of_le (by omega)]
      rw [this]; simp
    · simp only [hl, decide_false]
      rw [ih (idx + 1) _ (by omega) (by omega), List.drop_eq_getElem_cons hi, List.flatten_cons]
      simp

theorem readChild_prefix (child : List (List ρ)) (h : ∀ b ∈ child.dropLast, b ≠ []) :
    (readChild child).flatten = child.flatten := by
  induction child with
  | nil => rfl
  | cons b bs ih =>
    unfold readChild
    by_cases hb : b.length = 0
    · have : b = [] := List.length_eq_zero_iff.1 hb
      subst this
      cases bs with
      | nil => simp
      | cons c cs => exact absurd rfl (h [] (by simp))
    · rw [if_neg hb]
      simp only [List.flatten_cons]
      rw [ih]
      intro c hc
      cases bs with
      | nil => simp at hc
      | cons d ds => exact h c (by rw [List.dropLast_cons_of_ne_nil (by simp)]; simp [hc])

theorem readChild_ne (child : List (List ρ)) : ∀ b ∈ readChild child, b ≠ [] := by
  induction child with
  | nil => simp [readChild]
  | cons b bs ih =>
    unfold readChild
    split
    · simp
    · rename_i hb
      intro c hc
      rcases List.mem_cons.1 hc with rfl | hc
      · rintro rfl; simp at hb
      · exact ih c hc

theorem length_le_flatten {α : Type} (l : List (List α)) (h : ∀ b ∈ l, b ≠ []) : l.length ≤ l.flatten.length := by
  induction l with
  | nil => simp
  | cons b bs ih =>
    have := ih (fun c hc => h c (by simp [hc]))
    have : b.length ≠ 0 := fun h0 => h b (by simp) (List.length_eq_zero_iff.1 h0)
    rw [List.flatten_cons, List.length_append, List.length_cons]; omega

/-- After `sort` the heap is ready and holds the rows that were put in. -/
theorem sortBatches_spec {srt : List ρ → List ρ} (hs : IsSort (rowLess ks) srt) (hks : ks ≠ []) {h : List (List ρ)}
    (hne : ∀ b ∈ h, b ≠ []) (hok : ∀ r ∈ h.flatten, RowOK ty ks r) :
    MergeOK ty ks (sortBatches ks srt h) ∧ (sortBatches ks srt h).flatten.Perm h.flatten := by
  have hks' : ks.isEmpty = false := by cases ks <;> simp_all
  have hb : ∀ b ∈ h, BatchOK ty ks (srt b) ∧ (srt b).Perm b := by
    intro b hb
    have hr : ∀ r ∈ b, RowOK ty ks r := fun r hr => hok r (List.mem_flatten.2 ⟨b, hb, hr⟩)
    obtain ⟨h1, h2⟩ := hs.apply (rowLess_weak (ty := ty)) hr
    refine ⟨⟨fun h0 => hne b hb ?_, fun r hx => hr r (h1.mem_iff.1 hx), ?_⟩, h1⟩
    · rw [h0] at h1; exact h1.symm.eq_nil
    · refine h2.imp_of_mem ?_
      intro x y hx hy hxy
      exact (rowLess_false (hr x (h1.mem_iff.1 hx)) (hr y (h1.mem_iff.1 hy))).1 hxy
  have hmap : (h.map srt).flatten.Perm h.flatten := by
    clear hok hne
    induction h with
    | nil => simp
    | cons b bs ih =>
      simp only [List.map_cons, List.flatten_cons]
      exact (hb b (by simp)).2.append (ih (fun c hc => hb c (by simp [hc])))
  have hmok : ∀ b ∈ h.map srt, BatchOK ty ks b := by
    intro b hb'
    obtain ⟨c, hc, rfl⟩ := List.mem_map.1 hb'
    exact (hb c hc).1
  unfold sortBatches
  simp only [hks', Bool.false_eq_true, if_false]
  split
  · rename_i h1
    refine ⟨⟨hmok, ?_⟩, hmap⟩
    intro a c _ hc x y hx hy
    have := (List.getElem?_eq_some_iff.1 hy).1
    rw [List.length_map, h1] at this
    rcases hc with e | e <;> omega
  · split
    · have hp := makeHeap_perm (better := headLess ks) (h.map srt)
      exact ⟨⟨fun b hb' => hmok b (hp.mem_iff.1 hb'), makeHeap_heap headLess_weak hmok⟩, hp.flatten.trans hmap⟩
    · rename_i h1 h2
      have : h = [] := List.length_eq_zero_iff.1 (by omega)
      subst this
      exact ⟨⟨by simp, fun a c _ _ v w hv => by simp at hv⟩, by simp⟩

/-- `merge_sort` on batches that are sorted already. -/
theorem mergeSort_spec (hks : ks ≠ []) {h : List (List ρ)} (hok : ∀ b ∈ h, BatchOK ty ks b) :
    MergeOK ty ks (mergeSort ks h) ∧ (mergeSort ks h).flatten.Perm h.flatten := by
  have hks' : ks.isEmpty = false := by cases ks <;> simp_all
  unfold mergeSort
  simp only [hks', Bool.false_eq_true, if_false]
  split
  · have hp := makeHeap_perm (better := headLess ks) h
    exact ⟨⟨fun b hb' => hok b (hp.mem_iff.1 hb'), makeHeap_heap headLess_weak hok⟩, hp.flatten⟩
  · rename_i h1
    refine ⟨⟨hok, ?_⟩, List.Perm.refl _⟩
    intro a c _ hc x y hx hy
    have := (List.getElem?_eq_some_iff.1 hy).1
    rcases hc with e | e <;> omega
end
end BaikalDB.Sort
