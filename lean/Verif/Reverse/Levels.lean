import Verif.Reverse.Exec

/-! # The levels of a term -/

namespace BaikalDB.Reverse

variable {K T : Type} [LinearOrder K]

/-- What the last node of a key says. -/
def lastN (l : List (Node K)) (k : K) : Option Bool := (l.filter fun n => decide (n.key = k)).getLast?.map Node.del

theorem lastN_nil (k : K) : lastN ([] : List (Node K)) k = none := rfl

theorem lastN_cons (a : Node K) (l : List (Node K)) (k : K) : lastN (a :: l) k = (lastN l k).or (if a.key = k then some a.del else none) := by
  unfold lastN
  by_cases h : a.key = k
  · rw [List.filter_cons_of_pos (by simpa using h), if_pos h]
    cases hf : (l.filter fun n => decide (n.key = k)) with
    | nil => rfl
    | cons b m =>
      rw [List.getLast?_cons_cons]
      cases hg : (b :: m).getLast? with
      | none => simp at hg
      | some c => rfl
  · rw [List.filter_cons_of_neg (by simpa using h), if_neg h, Option.or_none]

theorem lastN_none (l : List (Node K)) (k : K) : lastN l k = none ↔ ∀ n ∈ l, n.key ≠ k := by
  induction l with
  | nil => simp [lastN_nil]
  | cons a l ih =>
    rw [lastN_cons, Option.or_eq_none_iff, ih]
    by_cases h : a.key = k <;> simp [h]

theorem KSorted.lastN {l : List (Node K)} (h : KSorted l) (k : K) (d : Bool) : lastN l k = some d ↔ ⟨k, d⟩ ∈ l := by
  induction l with
  | nil => simp [lastN_nil]
  | cons a l ih =>
    have h' := h
    unfold KSorted at h
    rw [List.pairwise_cons] at h
    rw [lastN_cons, List.mem_cons, ← ih h.2]
    by_cases ha : a.key = k
    · have hn : Reverse.lastN l k = none := by
        rw [lastN_none]
        intro n hn e
        have := h.1 n hn
        rw [e, ha] at this
        exact lt_irrefl _ this
      rw [hn, if_pos ha]
      simp only [Option.none_or, Option.some.injEq, reduceCtorEq, or_false]
      constructor
      · rintro rfl; rw [← ha]
      · intro e; rw [← e]
    · rw [if_neg ha, Option.or_none]
      constructor
      · exact .inr
      · rintro (e | h1)
        · exact absurd (by rw [← e]) ha
        · exact h1

theorem lastN_levelMerge (d : Bool) {a b : List (Node K)} (ha : KSorted a) (hb : KSorted b) (k : K) (v : Bool) :
    lastN (levelMerge d a b) k = some v ↔ (lastN a k).or (lastN b k) = some v ∧ (d && v) = false := by
  rw [(levelMerge_sorted d a b ha hb).lastN, mem_levelMerge d a b ha hb]
  refine and_congr_left fun _ => ?_
  rw [Option.or_eq_some_iff, ha.lastN, hb.lastN, lastN_none]
  simp only
  tauto

theorem lastN_lastOfEach (l : List (Node K)) (k : K) : lastN (lastOfEach l) k = lastN l k := by
  induction l using lastOfEach.induct with
  | case1 => rfl
  | case2 => rfl
  | case3 x y t h ih =>
    rw [lastOfEach, if_pos h, ih, lastN_cons x (y :: t), lastN_cons y t, h]
    by_cases hk : y.key = k
    · rw [if_pos hk]
      cases lastN t k <;> simp
    · rw [if_neg hk, if_neg hk]; simp
  | case4 x y t h ih => rw [lastOfEach, if_neg h, lastN_cons, ih, ← lastN_cons]

theorem mem_lastOfEach (l : List (Node K)) (n : Node K) (h : n ∈ lastOfEach l) : n ∈ l := by
  induction l using lastOfEach.induct with
  | case1 => exact h
  | case2 => exact h
  | case3 x y t e ih => rw [lastOfEach, if_pos e] at h; exact List.mem_cons_of_mem _ (ih h)
  | case4 x y t e ih =>
    rw [lastOfEach, if_neg e] at h
    rcases List.mem_cons.1 h with rfl | h
    · exact List.mem_cons_self
    · exact List.mem_cons_of_mem _ (ih h)

theorem lastOfEach_sorted (l : List (Node K)) (h : l.Pairwise fun a b => a.key ≤ b.key) : KSorted (lastOfEach l) := by
  induction l using lastOfEach.induct with
  | case1 => exact List.Pairwise.nil
  | case2 => exact List.pairwise_singleton _ _
  | case3 x y t e ih => rw [lastOfEach, if_pos e]; exact ih (List.pairwise_cons.1 h).2
  | case4 x y t e ih =>
    rw [lastOfEach, if_neg e]
    rw [List.pairwise_cons] at h
    refine List.pairwise_cons.2 ⟨fun n hn => ?_, ih h.2⟩
    have hxy := lt_of_le_of_ne (h.1 y List.mem_cons_self) e
    rcases List.mem_cons.1 (mem_lastOfEach _ n hn) with rfl | hn
    · exact hxy
    · exact lt_of_lt_of_le hxy ((List.pairwise_cons.1 h.2).1 n hn)

theorem KSorted.lastOfEach {l : List (Node K)} (h : KSorted l) : lastOfEach l = l := by
  refine KSorted.ext (lastOfEach_sorted l (h.imp le_of_lt)) h fun x => ?_
  rw [← (lastOfEach_sorted l (h.imp le_of_lt)).lastN, lastN_lastOfEach, h.lastN]

/-! ### Level 1 -/

/-- Entries in the order of key and time. -/
def ESorted (l : List (Entry K)) : Prop := l.Pairwise fun a b => a.key < b.key ∨ (a.key = b.key ∧ a.time < b.time)

def node (e : Entry K) : Node K := ⟨e.key, e.del⟩

theorem lastN_node (a : Entry K) (l : List (Node K)) (k : K) : lastN (node a :: l) k = (lastN l k).or (if a.key = k then some a.del else none) :=
  lastN_cons _ _ _

theorem mem_putEntry (e : Entry K) (l : List (Entry K)) (x : Entry K) (h : x ∈ putEntry e l) : x = e ∨ x ∈ l := by
  induction l with
  | nil => simpa [putEntry] using h
  | cons a l ih =>
    unfold putEntry at h
    split at h
    · rcases List.mem_cons.1 h with h | h
      · exact .inl h
      · exact .inr h
    · split at h
      · rcases List.mem_cons.1 h with h | h
        · exact .inl h
        · exact .inr (List.mem_cons_of_mem _ h)
      · rcases List.mem_cons.1 h with h | h
        · exact .inr (by rw [h]; exact List.mem_cons_self)
        · rcases ih h with h | h
          · exact .inl h
          · exact .inr (List.mem_cons_of_mem _ h)

theorem putEntry_sorted (e : Entry K) {l : List (Entry K)} (h : ESorted l) : ESorted (putEntry e l) := by
  induction l with
  | nil => exact List.pairwise_singleton _ _
  | cons a l ih =>
    have h' := h
    unfold ESorted at h
    rw [List.pairwise_cons] at h
    unfold putEntry
    split
    · rename_i hlt
      refine List.pairwise_cons.2 ⟨fun x hx => ?_, h'⟩
      rcases List.mem_cons.1 hx with rfl | hx
      · exact hlt
      · rcases hlt with h1 | ⟨h1, h2⟩ <;> rcases h.1 x hx with h3 | ⟨h3, h4⟩
        · exact .inl (lt_trans h1 h3)
        · exact .inl (by rw [← h3]; exact h1)
        · exact .inl (by rw [h1]; exact h3)
        · exact .inr ⟨h1.trans h3, lt_trans h2 h4⟩
    · rename_i hlt
      split
      · rename_i heq
        refine List.pairwise_cons.2 ⟨fun x hx => ?_, h.2⟩
        rw [heq.1, heq.2]; exact h.1 x hx
      · rename_i heq
        refine List.pairwise_cons.2 ⟨fun x hx => ?_, ih h.2⟩
        rcases mem_putEntry e l x hx with rfl | hx
        · rcases lt_trichotomy a.key x.key with h1 | h1 | h1
          · exact .inl h1
          · rcases Nat.lt_trichotomy a.time x.time with h2 | h2 | h2
            · exact .inr ⟨h1, h2⟩
            · exact absurd ⟨h1.symm, h2.symm⟩ heq
            · exact absurd (.inr ⟨h1.symm, h2⟩) hlt
          · exact absurd (.inl h1) hlt
        · exact h.1 x hx

theorem lastN_putEntry (e : Entry K) {l : List (Entry K)} (hs : ESorted l) (h : ∀ x ∈ l, x.key = e.key → x.time ≤ e.time) (k : K) :
    lastN ((putEntry e l).map node) k = if k = e.key then some e.del else lastN (l.map node) k := by
  induction l with
  | nil =>
    simp only [putEntry, List.map_cons, List.map_nil, lastN_node, lastN_nil, Option.none_or]
    by_cases hk : k = e.key
    · rw [if_pos hk.symm, if_pos hk]
    · rw [if_neg (Ne.symm hk), if_neg hk]
  | cons a l ih =>
    unfold ESorted at hs
    rw [List.pairwise_cons] at hs
    have rest : e.key < a.key ∨ (e.key = a.key ∧ e.time ≤ a.time) → lastN (l.map node) e.key = none := by
      intro hlt
      rw [lastN_none]
      intro n hn
      obtain ⟨x, hx, rfl⟩ := List.mem_map.1 hn
      show x.key ≠ e.key
      intro hxe
      rcases hlt with h1 | ⟨h1, h2⟩ <;> rcases hs.1 x hx with h3 | ⟨h3, h4⟩
      · rw [hxe] at h3; exact lt_asymm h1 h3
      · rw [h3, hxe] at h1; exact lt_irrefl _ h1
      · rw [hxe, h1] at h3; exact lt_irrefl _ h3
      · have := h x (List.mem_cons_of_mem _ hx) hxe
        omega
    unfold putEntry
    split
    · rename_i hlt
      have hak : e.key ≠ a.key := by
        intro hek
        rcases hlt with h1 | ⟨_, h2⟩
        · rw [hek] at h1; exact lt_irrefl _ h1
        · have := h a List.mem_cons_self hek.symm
          omega
      have hr := rest (hlt.imp id fun h => ⟨h.1, le_of_lt h.2⟩)
      simp only [List.map_cons]
      rw [lastN_node]
      by_cases hk : k = e.key
      · subst hk
        rw [lastN_node, hr, if_neg (Ne.symm hak), if_pos rfl, if_pos rfl]; rfl
      · rw [if_neg hk, if_neg (Ne.symm hk), Option.or_none]
    · split
      · rename_i heq
        simp only [List.map_cons]
        rw [lastN_node, lastN_node]
        by_cases hk : k = e.key
        · subst hk
          rw [rest (.inr ⟨heq.1, le_of_eq heq.2⟩), if_pos rfl, if_pos rfl]; rfl
        · rw [if_neg hk, if_neg (Ne.symm hk), if_neg (by rw [← heq.1]; exact Ne.symm hk)]
      · simp only [List.map_cons]
        rw [lastN_node, ih hs.2 (fun x hx => h x (List.mem_cons_of_mem _ hx)), lastN_node]
        by_cases hk : k = e.key
        · rw [if_pos hk, if_pos hk]; rfl
        · rw [if_neg hk, if_neg hk]

variable [OrderBot K]

theorem lastN_filter (r : Range K) (l : List (Node K)) (k : K) :
    lastN (l.filter fun n => r.has n.key) k = if r.has k then lastN l k else none := by
  induction l with
  | nil => simp [lastN_nil]
  | cons a l ih =>
    by_cases ha : r.has a.key = true
    · rw [List.filter_cons_of_pos (p := fun n : Node K => r.has n.key) ha, lastN_cons, ih, lastN_cons]
      by_cases hk : r.has k = true
      · rw [if_pos hk, if_pos hk]
      · rw [if_neg hk, if_neg hk, if_neg (by intro e; rw [e] at ha; exact hk ha)]; rfl
    · rw [List.filter_cons_of_neg (p := fun n : Node K => r.has n.key) ha, ih, lastN_cons]
      by_cases hk : r.has k = true
      · rw [if_pos hk, if_pos hk, if_neg (by intro e; rw [e] at ha; exact ha hk), Option.or_none]
      · rw [if_neg hk, if_neg hk]

theorem firstLevel_eq (r : Range K) (l : List (Entry K)) : firstLevel r l = lastOfEach ((l.map node).filter fun n => r.has n.key) := by
  unfold firstLevel
  rw [List.filter_map]; rfl

theorem firstLevel_sorted (r : Range K) {l : List (Entry K)} (h : ESorted l) : KSorted (firstLevel r l) := by
  rw [firstLevel_eq]
  refine lastOfEach_sorted _ (List.Pairwise.sublist List.filter_sublist ?_)
  rw [List.pairwise_map]
  refine List.Pairwise.imp ?_ h
  rintro a b (h | h)
  · exact le_of_lt h
  · exact le_of_eq h.1

theorem lastN_firstLevel (r : Range K) (l : List (Entry K)) (k : K) : lastN (firstLevel r l) k = if r.has k then lastN (l.map node) k else none := by
  rw [firstLevel_eq, lastN_lastOfEach, lastN_filter]

theorem secondLevel_eq (r : Range K) {l : List (Node K)} (h : KSorted l) : secondLevel r l = l.filter fun n => r.has n.key := by
  unfold secondLevel
  rw [h.lastOfEach]
  refine KSorted.ext ((h.filter _).takeWhile _) (h.filter _) fun x => ?_
  refine ((h.filter _).mem_takeWhile (inStop_lt r) x).trans ?_
  rw [List.mem_filter, List.mem_filter]
  unfold inStop Range.has
  simp only [Bool.not_or, Bool.and_eq_true]
  tauto

theorem secondLevel_sorted (r : Range K) {l : List (Node K)} (h : KSorted l) : KSorted (secondLevel r l) := by
  rw [secondLevel_eq r h]; exact h.filter _

theorem lastN_secondLevel (r : Range K) {l : List (Node K)} (h : KSorted l) (k : K) :
    lastN (secondLevel r l) k = if r.has k then lastN l k else none := by
  rw [secondLevel_eq r h, lastN_filter]

/-! ### All levels -/

structure LSorted (lv : Levels K) : Prop where
  one : ESorted lv.one
  two : KSorted lv.two
  three : KSorted lv.three

/-- What the levels say about a key. -/
def eff (lv : Levels K) (k : K) : Option Bool := (lastN (lv.one.map node) k).or ((lastN lv.two k).or (lastN lv.three k))

/-- Level 3 has only nodes of the range. -/
def Clean (r : Range K) (lv : Levels K) : Prop := ∀ n ∈ lv.three, r.has n.key = true

theorem upper_sorted (r : Range K) {lv : Levels K} (h : LSorted lv) : KSorted (levelMerge false (firstLevel r lv.one) (secondLevel r lv.two)) :=
  levelMerge_sorted _ _ _ (firstLevel_sorted r h.one) (secondLevel_sorted r h.two)

theorem lastN_upper (r : Range K) {lv : Levels K} (h : LSorted lv) (k : K) :
    lastN (levelMerge false (firstLevel r lv.one) (secondLevel r lv.two)) k =
      if r.has k then (lastN (lv.one.map node) k).or (lastN lv.two k) else none := by
  refine Option.ext fun v => ?_
  rw [lastN_levelMerge _ (firstLevel_sorted r h.one) (secondLevel_sorted r h.two), lastN_firstLevel, lastN_secondLevel r h.two]
  by_cases hk : r.has k = true
  · simp [hk]
  · simp [hk]

theorem mergeLevels_sorted (len : Nat) (r : Range K) {lv : Levels K} (h : LSorted lv) : LSorted (mergeLevels len r lv) := by
  unfold mergeLevels
  simp only []
  split
  · exact ⟨List.Pairwise.nil, List.Pairwise.nil, levelMerge_sorted _ _ _ (secondLevel_sorted r (upper_sorted r h)) (secondLevel_sorted r h.three)⟩
  · exact ⟨List.Pairwise.nil, upper_sorted r h, h.three⟩

theorem mergeLevels_eff (len : Nat) (r : Range K) {lv : Levels K} (h : LSorted lv) (k : K) (hk : r.has k = true) :
    eff (mergeLevels len r lv) k = some false ↔ eff lv k = some false := by
  unfold mergeLevels
  simp only []
  split
  · unfold eff
    simp only [List.map_nil, lastN_nil, Option.none_or]
    rw [lastN_levelMerge _ (secondLevel_sorted r (upper_sorted r h)) (secondLevel_sorted r h.three), lastN_secondLevel r (upper_sorted r h),
      lastN_secondLevel r h.three, lastN_upper r h, if_pos hk, if_pos hk, if_pos hk, Option.or_assoc]
    simp
  · unfold eff
    simp only [List.map_nil, lastN_nil, Option.none_or]
    rw [lastN_upper r h, if_pos hk, Option.or_assoc]

theorem mergeLevels_clean (len : Nat) (r : Range K) {lv : Levels K} (h : LSorted lv) (hc : Clean r lv) : Clean r (mergeLevels len r lv) := by
  unfold mergeLevels
  simp only []
  split
  · intro n hn
    simp only [] at hn
    rcases ((mem_levelMerge _ _ _ (secondLevel_sorted r (upper_sorted r h)) (secondLevel_sorted r h.three) n).1 hn).1 with h1 | ⟨h1, _⟩
    · rw [secondLevel_eq r (upper_sorted r h)] at h1; exact (List.mem_filter.1 h1).2
    · rw [secondLevel_eq r h.three] at h1; exact (List.mem_filter.1 h1).2
  · exact hc

theorem removeRange_eq (r : Range K) {l : List (Node K)} (h : KSorted l) : removeRange r l = l.filter fun n => r.has n.key := by
  have hmerge : levelMerge false [] (secondLevel r l) = l.filter fun n => r.has n.key := by
    refine KSorted.ext (levelMerge_sorted _ _ _ List.Pairwise.nil (secondLevel_sorted r h)) (h.filter _) fun x => ?_
    rw [mem_levelMerge _ _ _ List.Pairwise.nil (secondLevel_sorted r h), secondLevel_eq r h]
    simp
  unfold removeRange
  cases l with
  | nil => rfl
  | cons a l =>
    rw [List.head?_cons, List.getLast?_cons]
    simp only []
    split
    · rename_i hc
      symm
      refine List.filter_eq_self.2 fun n hn => ?_
      rw [Bool.and_eq_true, decide_eq_true_eq] at hc
      have hge : r.start ≤ n.key := by
        rcases List.mem_cons.1 hn with rfl | hn
        · exact hc.1
        · exact le_trans hc.1 (le_of_lt ((List.pairwise_cons.1 h).1 n hn))
      have hle : n.key ≤ (l.getLast?.getD a).key := by
        have hg : (a :: l).getLast? = some (l.getLast?.getD a) := List.getLast?_cons
        generalize l.getLast?.getD a = b at hg
        have : ∀ m : List (Node K), KSorted m → m.getLast? = some b → ∀ n ∈ m, n.key ≤ b.key := by
          intro m hm hb n hn
          induction m with
          | nil => simp at hn
          | cons c m ih =>
            have hbm : b ∈ c :: m := List.mem_of_getLast? hb
            cases m with
            | nil =>
              simp only [List.mem_singleton] at hn hbm
              rw [hn, hbm]
            | cons d m =>
              rw [List.getLast?_cons_cons] at hb
              rcases List.mem_cons.1 hn with rfl | hn
              · exact le_of_lt ((List.pairwise_cons.1 hm).1 b (List.mem_of_getLast? hb))
              · exact ih (List.pairwise_cons.1 hm).2 hb hn
        exact this _ h hg n hn
      generalize (l.getLast?.getD a).key = b at hle hc
      have hst := hc.2
      unfold stopLt at hst
      unfold Range.has
      simp only [Bool.not_or, Bool.and_eq_true, Bool.not_eq_true', Bool.and_eq_false_iff, decide_eq_false_iff_not, not_lt, not_le, ne_eq, not_not]
      refine ⟨.inr hge, ?_⟩
      by_cases hs : r.stop = ⊥
      · exact .inl hs
      · right
        split at hst
        · exact absurd hst (by simp)
        · split at hst
          · exact absurd hst (by simp)
          · exact lt_of_le_of_lt hle (of_decide_eq_true hst)
    · exact hmerge

theorem clean_sorted (r : Range K) {lv : Levels K} (h : LSorted lv) : LSorted (clean r lv) := by
  unfold clean
  refine ⟨h.one, ?_, ?_⟩
  · simp only []; rw [removeRange_eq r h.two]; exact h.two.filter _
  · simp only []; rw [removeRange_eq r h.three]; exact h.three.filter _

theorem clean_eff (r : Range K) {lv : Levels K} (h : LSorted lv) (k : K) (hk : r.has k = true) : eff (clean r lv) k = eff lv k := by
  unfold clean eff
  simp only []
  rw [removeRange_eq r h.two, removeRange_eq r h.three, lastN_filter, lastN_filter, if_pos hk, if_pos hk]

theorem clean_clean (r : Range K) {lv : Levels K} (h : LSorted lv) : Clean r (clean r lv) := by
  unfold clean
  intro n hn
  simp only [] at hn
  rw [removeRange_eq r h.three] at hn
  exact (List.mem_filter.1 hn).2

/-- What the parser of a term gives: the keys of the range that its levels say. -/
theorem leaf_spec (r : Range K) {lv : Levels K} (h : LSorted lv) (hr : r.start ≠ ⊥ ∨ Clean r lv ∨ r.stop = ⊥) :
    ∃ l, TermI ⟨lv.parser r, true, none⟩ l ∧ ∀ k, k ∈ l ↔ r.has k = true ∧ eff lv k = some false := by
  have hu := upper_sorted r h
  have hm := levelMerge_sorted false _ _ hu h.three
  have hp := init_spec r hu h.three (by
    rcases hr with h1 | h1 | h1
    · exact .inl h1
    · right
      intro n hn
      have hhas : r.has n.key = true := by
        rcases ((mem_levelMerge _ _ _ hu h.three n).1 hn).1 with h2 | ⟨h2, _⟩
        · have : lastN (levelMerge false (firstLevel r lv.one) (secondLevel r lv.two)) n.key = some n.del := (hu.lastN _ _).2 h2
          rw [lastN_upper r h] at this
          by_contra hc
          rw [if_neg hc] at this
          cases this
        · exact h1 n h2
      unfold Range.has at hhas
      unfold inStop
      simp only [Bool.not_or, Bool.and_eq_true] at hhas
      exact hhas.2
    · right
      intro n _
      unfold inStop
      simp [h1])
  refine ⟨_, ⟨rfl, _, hp, rfl⟩, fun k => ?_⟩
  rw [mem_live, List.mem_filter, ← hm.lastN, lastN_levelMerge _ hu h.three, lastN_upper r h]
  simp only [Bool.false_and, and_true]
  constructor
  · rintro ⟨h1, h2⟩
    rw [if_pos h2, Option.or_assoc] at h1
    exact ⟨h2, h1⟩
  · rintro ⟨h1, h2⟩
    rw [if_pos h1, Option.or_assoc]
    exact ⟨h2, h1⟩

end BaikalDB.Reverse
