import Verif.Reverse.Or

/-! # The nodes of a term -/

namespace BaikalDB.Reverse

variable {K : Type} [LinearOrder K]

/-- Nodes in the order of their keys, one for each. -/
def KSorted (l : List (Node K)) : Prop := l.Pairwise fun a b => a.key < b.key

theorem KSorted.ext {l l' : List (Node K)} (h : KSorted l) (h' : KSorted l') (e : ∀ x, x ∈ l ↔ x ∈ l') : l = l' := by
  induction l generalizing l' with
  | nil =>
    cases l' with
    | nil => rfl
    | cons b l' => exact absurd ((e b).2 List.mem_cons_self) (List.not_mem_nil)
  | cons a l ih =>
    cases l' with
    | nil => exact absurd ((e a).1 List.mem_cons_self) (List.not_mem_nil)
    | cons b l' =>
      unfold KSorted at h h' ih
      rw [List.pairwise_cons] at h h'
      have hab : a = b := by
        rcases List.mem_cons.1 ((e a).1 List.mem_cons_self) with h1 | h1
        · exact h1
        · rcases List.mem_cons.1 ((e b).2 List.mem_cons_self) with h2 | h2
          · exact h2.symm
          · exact absurd (h.1 b h2) (not_lt.2 (le_of_lt (h'.1 a h1)))
      subst hab
      congr 1
      refine ih h.2 h'.2 fun x => ⟨fun hx => ?_, fun hx => ?_⟩
      · rcases List.mem_cons.1 ((e x).1 (List.mem_cons_of_mem _ hx)) with rfl | h1
        · exact absurd (h.1 x hx) (lt_irrefl _)
        · exact h1
      · rcases List.mem_cons.1 ((e x).2 (List.mem_cons_of_mem _ hx)) with rfl | h1
        · exact absurd (h'.1 x hx) (lt_irrefl _)
        · exact h1

theorem KSorted.key_inj {l : List (Node K)} (h : KSorted l) {a b : Node K} (ha : a ∈ l) (hb : b ∈ l) (e : a.key = b.key) : a = b := by
  induction l with
  | nil => simp at ha
  | cons c l ih =>
    unfold KSorted at h
    rw [List.pairwise_cons] at h
    rcases List.mem_cons.1 ha with h1 | h1 <;> rcases List.mem_cons.1 hb with h2 | h2
    · rw [h1, h2]
    · subst h1; exact absurd (h.1 b h2) (by rw [e]; exact lt_irrefl _)
    · subst h2; exact absurd (h.1 a h1) (by rw [e]; exact lt_irrefl _)
    · exact ih h.2 h1 h2

/-! ### level_merge -/

theorem loop_fuel (d : Bool) (f g : Nat) (a b : List (Node K)) (hf : a.length + b.length < f) (hg : a.length + b.length < g) :
    levelMergeLoop d f a b = levelMergeLoop d g a b := by
  induction f generalizing g a b with
  | zero => omega
  | succ f ih =>
    cases g with
    | zero => omega
    | succ g =>
      cases a with
      | nil =>
        cases b with
        | nil => rfl
        | cons o os =>
          simp only [levelMergeLoop]
          simp only [List.length_nil, List.length_cons] at hf hg
          rw [ih g [] os (by simp only [List.length_nil]; omega) (by simp only [List.length_nil]; omega)]
      | cons n ns =>
        cases b with
        | nil =>
          simp only [levelMergeLoop]
          simp only [List.length_nil, List.length_cons] at hf hg
          rw [ih g ns [] (by simp only [List.length_nil]; omega) (by simp only [List.length_nil]; omega)]
        | cons o os =>
          simp only [levelMergeLoop]
          simp only [List.length_cons] at hf hg
          rw [ih g ns (o :: os) (by simp only [List.length_cons]; omega) (by simp only [List.length_cons]; omega),
            ih g (n :: ns) os (by simp only [List.length_cons]; omega) (by simp only [List.length_cons]; omega),
            ih g ns os (by omega) (by omega)]

theorem levelMerge_nil_nil (d : Bool) : levelMerge d ([] : List (Node K)) [] = [] := rfl

theorem levelMerge_cons_nil (d : Bool) (n : Node K) (ns : List (Node K)) :
    levelMerge d (n :: ns) [] = (if d && n.del then [] else [n]) ++ levelMerge d ns [] := by
  unfold levelMerge
  simp only [levelMergeLoop, List.length_cons, List.length_nil]

theorem levelMerge_nil_cons (d : Bool) (n : Node K) (ns : List (Node K)) :
    levelMerge d [] (n :: ns) = (if d && n.del then [] else [n]) ++ levelMerge d [] ns := by
  unfold levelMerge
  simp only [levelMergeLoop, List.length_cons, List.length_nil]
  rw [loop_fuel d _ (0 + ns.length + 1) [] ns (by simp only [List.length_nil]; omega) (by simp only [List.length_nil]; omega)]

theorem levelMerge_cons_cons (d : Bool) (n o : Node K) (ns os : List (Node K)) :
    levelMerge d (n :: ns) (o :: os) =
      if n.key < o.key then (if d && n.del then [] else [n]) ++ levelMerge d ns (o :: os)
      else if o.key < n.key then (if d && o.del then [] else [o]) ++ levelMerge d (n :: ns) os
      else (if d && n.del then [] else [n]) ++ levelMerge d ns os := by
  unfold levelMerge
  simp only [levelMergeLoop, List.length_cons]
  rw [loop_fuel d _ (ns.length + (os.length + 1) + 1) ns (o :: os) (by simp only [List.length_cons]; omega) (by simp only [List.length_cons]; omega),
    loop_fuel d _ (ns.length + 1 + os.length + 1) (n :: ns) os (by simp only [List.length_cons]; omega) (by simp only [List.length_cons]; omega),
    loop_fuel d _ (ns.length + os.length + 1) ns os (by omega) (by omega)]

omit [LinearOrder K] in
theorem mem_keep {d : Bool} {n x : Node K} : x ∈ (if d && n.del then [] else [n]) ↔ x = n ∧ (d && x.del) = false := by
  cases h : d && n.del with
  | true =>
    simp only [if_true, List.not_mem_nil, false_iff, not_and]
    rintro rfl; rw [h]; simp
  | false =>
    simp only [Bool.false_eq_true, if_false, List.mem_singleton]
    constructor
    · rintro rfl; exact ⟨rfl, h⟩
    · exact fun h => h.1

/-- What a merge gives: the new nodes, and the old ones whose keys are not among the new; without the deletes if `d`. -/
theorem mem_levelMerge (d : Bool) (a b : List (Node K)) (ha : KSorted a) (hb : KSorted b) (x : Node K) :
    x ∈ levelMerge d a b ↔ (x ∈ a ∨ (x ∈ b ∧ ∀ n ∈ a, n.key ≠ x.key)) ∧ (d && x.del) = false := by
  obtain ⟨m, hl⟩ : ∃ m, a.length + b.length ≤ m := ⟨_, le_refl _⟩
  induction m generalizing a b with
  | zero =>
    have e1 : a = [] := List.length_eq_zero_iff.1 (by omega)
    have e2 : b = [] := List.length_eq_zero_iff.1 (by omega)
    subst e1; subst e2; simp [levelMerge_nil_nil]
  | succ m ih =>
    cases a with
    | nil =>
      cases b with
      | nil => simp [levelMerge_nil_nil]
      | cons o os =>
        simp only [List.length_nil, List.length_cons] at hl
        unfold KSorted at hb; rw [List.pairwise_cons] at hb
        rw [levelMerge_nil_cons, List.mem_append, mem_keep, ih [] os ha hb.2 (by simp only [List.length_nil]; omega)]
        simp only [List.not_mem_nil, false_or, List.mem_cons, false_imp_iff, implies_true, and_true]
        rw [← or_and_right]
    | cons n ns =>
      cases b with
      | nil =>
        simp only [List.length_nil, List.length_cons] at hl
        unfold KSorted at ha; rw [List.pairwise_cons] at ha
        rw [levelMerge_cons_nil, List.mem_append, mem_keep, ih ns [] ha.2 hb (by simp only [List.length_nil]; omega)]
        simp only [List.not_mem_nil, false_and, or_false, List.mem_cons]
        rw [← or_and_right]
      | cons o os =>
        simp only [List.length_cons] at hl
        have ha' := ha
        have hb' := hb
        unfold KSorted at ha hb
        rw [List.pairwise_cons] at ha hb
        rw [levelMerge_cons_cons]
        by_cases h1 : n.key < o.key
        · rw [if_pos h1, List.mem_append, mem_keep, ih ns (o :: os) ha.2 hb' (by simp only [List.length_cons]; omega), ← or_and_right]
          refine and_congr_left fun _ => ?_
          have hne : ∀ y ∈ o :: os, n.key ≠ y.key := by
            intro y hy
            rcases List.mem_cons.1 hy with rfl | hy
            · exact ne_of_lt h1
            · exact ne_of_lt (lt_trans h1 (hb.1 y hy))
          constructor
          · rintro (rfl | h2 | ⟨h2, h3⟩)
            · exact .inl List.mem_cons_self
            · exact .inl (List.mem_cons_of_mem _ h2)
            · refine .inr ⟨h2, fun y hy => ?_⟩
              rcases List.mem_cons.1 hy with rfl | hy
              · exact hne x h2
              · exact h3 y hy
          · rintro (h2 | ⟨h2, h3⟩)
            · rcases List.mem_cons.1 h2 with rfl | h2
              · exact .inl rfl
              · exact .inr (.inl h2)
            · exact .inr (.inr ⟨h2, fun y hy => h3 y (List.mem_cons_of_mem _ hy)⟩)
        · rw [if_neg h1]
          by_cases h2 : o.key < n.key
          · rw [if_pos h2, List.mem_append, mem_keep, ih (n :: ns) os ha' hb.2 (by simp only [List.length_cons]; omega), ← or_and_right]
            refine and_congr_left fun _ => ?_
            have hne : ∀ y ∈ n :: ns, y.key ≠ o.key := by
              intro y hy
              rcases List.mem_cons.1 hy with rfl | hy
              · exact ne_of_gt h2
              · exact ne_of_gt (lt_trans h2 (ha.1 y hy))
            constructor
            · rintro (rfl | h3 | ⟨h3, h4⟩)
              · exact .inr ⟨List.mem_cons_self, hne⟩
              · exact .inl h3
              · exact .inr ⟨List.mem_cons_of_mem _ h3, h4⟩
            · rintro (h3 | ⟨h3, h4⟩)
              · exact .inr (.inl h3)
              · rcases List.mem_cons.1 h3 with rfl | h3
                · exact .inl rfl
                · exact .inr (.inr ⟨h3, h4⟩)
          · rw [if_neg h2, List.mem_append, mem_keep, ih ns os ha.2 hb.2 (by omega), ← or_and_right]
            have heq : n.key = o.key := le_antisymm (not_lt.1 h2) (not_lt.1 h1)
            refine and_congr_left fun _ => ?_
            constructor
            · rintro (rfl | h3 | ⟨h3, h4⟩)
              · exact .inl List.mem_cons_self
              · exact .inl (List.mem_cons_of_mem _ h3)
              · refine .inr ⟨List.mem_cons_of_mem _ h3, fun y hy => ?_⟩
                rcases List.mem_cons.1 hy with rfl | hy
                · rw [heq]; exact ne_of_lt (hb.1 x h3)
                · exact h4 y hy
            · rintro (h3 | ⟨h3, h4⟩)
              · rcases List.mem_cons.1 h3 with rfl | h3
                · exact .inl rfl
                · exact .inr (.inl h3)
              · rcases List.mem_cons.1 h3 with rfl | h3
                · exact absurd heq (h4 n List.mem_cons_self)
                · exact .inr (.inr ⟨h3, fun y hy => h4 y (List.mem_cons_of_mem _ hy)⟩)

theorem keep_append_sorted {d : Bool} {n : Node K} {l : List (Node K)} (hl : KSorted l) (h : ∀ x ∈ l, n.key < x.key) :
    KSorted ((if d && n.del then [] else [n]) ++ l) := by
  split
  · simpa using hl
  · unfold KSorted at hl ⊢
    rw [List.singleton_append, List.pairwise_cons]
    exact ⟨h, hl⟩

theorem levelMerge_sorted (d : Bool) (a b : List (Node K)) (ha : KSorted a) (hb : KSorted b) : KSorted (levelMerge d a b) := by
  obtain ⟨m, hl⟩ : ∃ m, a.length + b.length ≤ m := ⟨_, le_refl _⟩
  induction m generalizing a b with
  | zero =>
    have e1 : a = [] := List.length_eq_zero_iff.1 (by omega)
    have e2 : b = [] := List.length_eq_zero_iff.1 (by omega)
    subst e1; subst e2; exact List.Pairwise.nil
  | succ m ih =>
    cases a with
    | nil =>
      cases b with
      | nil => exact List.Pairwise.nil
      | cons o os =>
        simp only [List.length_nil, List.length_cons] at hl
        unfold KSorted at hb; rw [List.pairwise_cons] at hb
        rw [levelMerge_nil_cons]
        refine keep_append_sorted (ih [] os ha hb.2 (by simp only [List.length_nil]; omega)) fun x hx => ?_
        have := ((mem_levelMerge d [] os ha hb.2 x).1 hx).1
        simp only [List.not_mem_nil, false_or] at this
        exact hb.1 x this.1
    | cons n ns =>
      cases b with
      | nil =>
        simp only [List.length_nil, List.length_cons] at hl
        unfold KSorted at ha; rw [List.pairwise_cons] at ha
        rw [levelMerge_cons_nil]
        refine keep_append_sorted (ih ns [] ha.2 hb (by simp only [List.length_nil]; omega)) fun x hx => ?_
        have := ((mem_levelMerge d ns [] ha.2 hb x).1 hx).1
        simp only [List.not_mem_nil, false_and, or_false] at this
        exact ha.1 x this
      | cons o os =>
        simp only [List.length_cons] at hl
        have ha' := ha
        have hb' := hb
        unfold KSorted at ha hb
        rw [List.pairwise_cons] at ha hb
        rw [levelMerge_cons_cons]
        by_cases h1 : n.key < o.key
        · rw [if_pos h1]
          refine keep_append_sorted (ih ns (o :: os) ha.2 hb' (by simp only [List.length_cons]; omega)) fun x hx => ?_
          rcases ((mem_levelMerge d ns (o :: os) ha.2 hb' x).1 hx).1 with h2 | ⟨h2, _⟩
          · exact ha.1 x h2
          · rcases List.mem_cons.1 h2 with rfl | h2
            · exact h1
            · exact lt_trans h1 (hb.1 x h2)
        · rw [if_neg h1]
          by_cases h2 : o.key < n.key
          · rw [if_pos h2]
            refine keep_append_sorted (ih (n :: ns) os ha' hb.2 (by simp only [List.length_cons]; omega)) fun x hx => ?_
            rcases ((mem_levelMerge d (n :: ns) os ha' hb.2 x).1 hx).1 with h3 | ⟨h3, _⟩
            · rcases List.mem_cons.1 h3 with rfl | h3
              · exact h2
              · exact lt_trans h2 (ha.1 x h3)
            · exact hb.1 x h3
          · rw [if_neg h2]
            have heq : n.key = o.key := le_antisymm (not_lt.1 h2) (not_lt.1 h1)
            refine keep_append_sorted (ih ns os ha.2 hb.2 (by omega)) fun x hx => ?_
            rcases ((mem_levelMerge d ns os ha.2 hb.2 x).1 hx).1 with h3 | ⟨h3, _⟩
            · exact ha.1 x h3
            · rw [heq]; exact hb.1 x h3

theorem levelMerge_length (d : Bool) (a b : List (Node K)) : (levelMerge d a b).length ≤ a.length + b.length := by
  have keep_le : ∀ n : Node K, (if d && n.del then ([] : List (Node K)) else [n]).length ≤ 1 := by
    intro n; split <;> simp
  obtain ⟨m, hl⟩ : ∃ m, a.length + b.length ≤ m := ⟨_, le_refl _⟩
  induction m generalizing a b with
  | zero =>
    have e1 : a = [] := List.length_eq_zero_iff.1 (by omega)
    have e2 : b = [] := List.length_eq_zero_iff.1 (by omega)
    subst e1; subst e2; simp [levelMerge_nil_nil]
  | succ m ih =>
    cases a with
    | nil =>
      cases b with
      | nil => simp [levelMerge_nil_nil]
      | cons o os =>
        simp only [List.length_nil, List.length_cons] at hl ⊢
        rw [levelMerge_nil_cons, List.length_append]
        have h1 := ih [] os (by simp only [List.length_nil]; omega)
        have := keep_le o
        simp only [List.length_nil] at h1
        omega
    | cons n ns =>
      cases b with
      | nil =>
        simp only [List.length_nil, List.length_cons] at hl ⊢
        rw [levelMerge_cons_nil, List.length_append]
        have h1 := ih ns [] (by simp only [List.length_nil]; omega)
        have := keep_le n
        simp only [List.length_nil] at h1
        omega
      | cons o os =>
        simp only [List.length_cons] at hl ⊢
        rw [levelMerge_cons_cons]
        have k1 := keep_le n
        have k2 := keep_le o
        split
        · rw [List.length_append]
          have h1 := ih ns (o :: os) (by simp only [List.length_cons]; omega)
          simp only [List.length_cons] at h1
          omega
        · split
          · rw [List.length_append]
            have h1 := ih (n :: ns) os (by simp only [List.length_cons]; omega)
            simp only [List.length_cons] at h1
            omega
          · rw [List.length_append]
            have := ih ns os (by omega)
            omega

/-! ### The binary search -/

/-- How many nodes are less than `t`. -/
def rank (t : K) (l : List (Node K)) : Nat := (l.takeWhile fun n => decide (n.key < t)).length

theorem below_iff {t : K} {l : List (Node K)} (h : KSorted l) (i : Nat) (hi : i < l.length) : below t l i = true ↔ i < rank t l := by
  induction l generalizing i with
  | nil => simp at hi
  | cons a l ih =>
    unfold KSorted at h
    rw [List.pairwise_cons] at h
    unfold rank
    rw [List.takeWhile_cons]
    cases i with
    | zero =>
      unfold below
      simp only [List.getElem?_cons_zero, Option.elim_some]
      by_cases ha : a.key < t <;> simp [ha]
    | succ i =>
      simp only [List.length_cons] at hi
      have := ih h.2 i (by omega)
      have e : below t (a :: l) (i + 1) = below t l i := by unfold below; simp
      rw [e, this]
      by_cases ha : a.key < t
      · simp [ha, rank]
      · simp only [ha, decide_false, Bool.false_eq_true, if_false, List.length_nil, Nat.not_lt_zero, iff_false]
        intro h2
        have := this.2 h2
        unfold below at this
        rw [List.getElem?_eq_getElem (by omega)] at this
        simp only [Option.elim_some, decide_eq_true_eq] at this
        exact ha (lt_trans (h.1 _ (List.getElem_mem _)) this)

theorem rank_le (t : K) (l : List (Node K)) : rank t l ≤ l.length := by
  unfold rank
  exact (List.takeWhile_sublist _).length_le

theorem drop_rank (t : K) (l : List (Node K)) : l.drop (rank t l) = l.dropWhile fun n => decide (n.key < t) := by
  unfold rank
  induction l with
  | nil => rfl
  | cons a l ih =>
    rw [List.takeWhile_cons, List.dropWhile_cons]
    by_cases ha : a.key < t
    · simp only [ha, decide_true, if_true, List.length_cons, List.drop_succ_cons]; exact ih
    · simp [ha]

theorem gallop_spec {t : K} {l : List (Node K)} (off f j : Nat) (hj : 0 < j) (hf : off + 1 ≤ j + f)
    (hinv : j = 1 ∨ (j / 2 ≤ off ∧ below t l (j / 2) = true)) :
    let g := gallop t l off f j
    0 < g ∧ ¬ (g ≤ off ∧ below t l g = true) ∧ (g = 1 ∨ (g / 2 ≤ off ∧ below t l (g / 2) = true)) := by
  induction f generalizing j with
  | zero => exact ⟨hj, fun h => by have := h.1; simp only [gallop] at this; omega, hinv⟩
  | succ f ih =>
    simp only [gallop]
    by_cases h : j ≤ off ∧ below t l j = true
    · rw [if_pos h]
      refine ih (j * 2) (by omega) (by omega) (.inr ?_)
      rw [Nat.mul_div_cancel _ (by omega)]
      exact h
    · rw [if_neg h]
      exact ⟨hj, h, hinv⟩

theorem bisect_spec {t : K} {l : List (Node K)} (h : KSorted l) (f first last : Nat) (h1 : first ≤ rank t l) (h2 : rank t l ≤ last)
    (hl : last < l.length) (hf : last - first < f) : bisect t l f first last = rank t l := by
  induction f generalizing first last with
  | zero => omega
  | succ f ih =>
    unfold bisect
    by_cases hlt : first < last
    · rw [if_pos hlt]
      simp only []
      generalize hm : first + (last - first) / 2 = mid
      have hmid : first ≤ mid ∧ mid < last := by omega
      have hml : mid < l.length := by omega
      have hb := below_iff (t := t) h mid hml
      have hget := List.getElem?_eq_getElem hml
      by_cases ha : above t l mid = true
      · rw [if_pos ha]
        have : ¬ below t l mid = true := by
          unfold above at ha; unfold below
          rw [hget] at ha ⊢
          simp only [Option.elim_some, decide_eq_true_eq] at ha ⊢
          exact not_lt.2 (le_of_lt ha)
        rw [hb] at this
        exact ih first mid h1 (by omega) hml (by omega)
      · rw [if_neg ha]
        by_cases hbl : below t l mid = true
        · rw [if_pos hbl]
          exact ih (mid + 1) last (by have := hb.1 hbl; omega) h2 hl (by omega)
        · rw [if_neg hbl]
          have hle : rank t l ≤ mid := by
            by_contra hc; exact hbl (hb.2 (by omega))
          have heq : l[mid].key = t := by
            unfold above at ha; unfold below at hbl
            rw [hget] at ha hbl
            simp only [Option.elim_some, decide_eq_true_eq, not_lt] at ha hbl
            exact le_antisymm ha hbl
          rcases Nat.eq_zero_or_pos mid with h0 | h0
          · omega
          · have hb' := below_iff (t := t) h (mid - 1) (by omega)
            have : below t l (mid - 1) = true := by
              unfold below
              rw [List.getElem?_eq_getElem (by omega)]
              simp only [Option.elim_some, decide_eq_true_eq]
              have := List.pairwise_iff_getElem.1 h (mid - 1) mid (by omega) hml (by omega)
              rw [heq] at this; exact this
            have := hb'.1 this
            omega
    · rw [if_neg hlt]; omega

theorem seek_eq {t : K} {l : List (Node K)} (h : KSorted l) : seek t l = l.dropWhile fun n => decide (n.key < t) := by
  unfold seek
  by_cases hl : l = []
  · subst hl; rfl
  · rw [if_neg hl]
    have hpos : 0 < l.length := List.length_pos_iff.2 hl
    unfold binarySearch
    simp only []
    obtain ⟨g1, g2, g3⟩ := gallop_spec (t := t) (l := l) (l.length - 1) l.length 1 (by omega) (by omega) (.inl rfl)
    generalize gallop t l (l.length - 1) l.length 1 = j at *
    have hlast : min j (l.length - 1) < l.length := by omega
    have hb := below_iff (t := t) h _ hlast
    have hrl := rank_le t l
    by_cases hbl : below t l (min j (l.length - 1)) = true
    · rw [if_pos hbl]
      have hjoff : ¬ j ≤ l.length - 1 := by
        intro hle
        rw [Nat.min_eq_left hle] at hbl
        exact g2 ⟨hle, hbl⟩
      have hmin : min j (l.length - 1) = l.length - 1 := Nat.min_eq_right (by omega)
      have := hb.1 hbl
      rw [hmin] at this
      have e : rank t l = l.length := by omega
      rw [← drop_rank, e, List.drop_length]; rfl
    · rw [if_neg hbl]
      have h2 : rank t l ≤ min j (l.length - 1) := by
        by_contra hc; exact hbl (hb.2 (by omega))
      have h1 : j / 2 ≤ rank t l := by
        rcases g3 with e | ⟨e1, e2⟩
        · rw [e]; exact Nat.zero_le _
        · exact le_of_lt ((below_iff (t := t) h (j / 2) (by omega)).1 e2)
      rw [bisect_spec h _ _ _ h1 h2 hlast (by omega)]
      exact drop_rank t l

theorem KSorted.dropWhile {l : List (Node K)} (h : KSorted l) (p : Node K → Bool) : KSorted (l.dropWhile p) := List.Pairwise.sublist (List.dropWhile_sublist p) h
theorem KSorted.takeWhile {l : List (Node K)} (h : KSorted l) (p : Node K → Bool) : KSorted (l.takeWhile p) := List.Pairwise.sublist (List.takeWhile_sublist p) h
theorem KSorted.filter {l : List (Node K)} (h : KSorted l) (p : Node K → Bool) : KSorted (l.filter p) := List.Pairwise.sublist List.filter_sublist h
theorem KSorted.tail {l : List (Node K)} (h : KSorted l) : KSorted l.tail := List.Pairwise.sublist (List.tail_sublist l) h

theorem KSorted.mem_dropWhile {l : List (Node K)} (h : KSorted l) (t : K) (x : Node K) :
    x ∈ l.dropWhile (fun n => decide (n.key < t)) ↔ x ∈ l ∧ t ≤ x.key := by
  induction l with
  | nil => simp
  | cons a l ih =>
    unfold KSorted at h
    rw [List.pairwise_cons] at h
    rw [List.dropWhile_cons]
    by_cases ha : a.key < t
    · simp only [ha, decide_true, if_true, ih h.2, List.mem_cons]
      constructor
      · rintro ⟨h1, h2⟩; exact ⟨.inr h1, h2⟩
      · rintro ⟨rfl | h1, h2⟩
        · exact absurd ha (not_lt.2 h2)
        · exact ⟨h1, h2⟩
    · simp only [ha, decide_false, Bool.false_eq_true, if_false]
      refine ⟨fun hx => ⟨hx, ?_⟩, fun hx => hx.1⟩
      rcases List.mem_cons.1 hx with rfl | hx
      · exact not_lt.1 ha
      · exact le_trans (not_lt.1 ha) (le_of_lt (h.1 x hx))

/-- The part before an end. -/
theorem KSorted.mem_takeWhile {l : List (Node K)} (h : KSorted l) {p : Node K → Bool} (hp : ∀ a b : Node K, a.key < b.key → p b = true → p a = true) (x : Node K) :
    x ∈ l.takeWhile p ↔ x ∈ l ∧ p x = true := by
  induction l with
  | nil => simp
  | cons a l ih =>
    unfold KSorted at h
    rw [List.pairwise_cons] at h
    rw [List.takeWhile_cons]
    cases ha : p a with
    | true =>
      simp only [if_true, List.mem_cons, ih h.2]
      constructor
      · rintro (rfl | ⟨h1, h2⟩)
        · exact ⟨.inl rfl, ha⟩
        · exact ⟨.inr h1, h2⟩
      · rintro ⟨rfl | h1, h2⟩
        · exact .inl rfl
        · exact .inr ⟨h1, h2⟩
    | false =>
      simp only [Bool.false_eq_true, if_false, List.not_mem_nil, List.mem_cons, false_iff, not_and]
      rintro (rfl | h1) h2
      · rw [ha] at h2; cases h2
      · rw [hp a x (h.1 x h1) h2] at ha; cases ha

end BaikalDB.Reverse
