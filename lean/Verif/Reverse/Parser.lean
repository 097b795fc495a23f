import Verif.Reverse.Term

/-! # The parser of a term, and its executor -/

namespace BaikalDB.Reverse

variable {K : Type} [LinearOrder K]

theorem choose_eq (a b : List (Node K)) : choose a b = (levelMerge false a b).head? := by
  cases a with
  | nil =>
    cases b with
    | nil => rfl
    | cons o os => rw [levelMerge_nil_cons]; simp [choose]
  | cons n ns =>
    cases b with
    | nil => rw [levelMerge_cons_nil]; simp [choose]
    | cons o os =>
      rw [levelMerge_cons_cons]
      simp only [choose, Bool.false_and, Bool.false_eq_true, if_false, List.singleton_append]
      by_cases h1 : n.key < o.key
      · rw [if_pos h1, if_pos (le_of_lt h1)]; rfl
      · rw [if_neg h1]
        by_cases h2 : o.key < n.key
        · rw [if_pos h2, if_neg (not_le.2 h2)]; rfl
        · rw [if_neg h2, if_pos (not_lt.1 h2)]; rfl

theorem levelMerge_seek {a b : List (Node K)} (ha : KSorted a) (hb : KSorted b) (t : K) :
    levelMerge false (seek t a) (seek t b) = (levelMerge false a b).dropWhile fun n => decide (n.key < t) := by
  rw [seek_eq ha, seek_eq hb]
  have ha' := ha.dropWhile fun n => decide (n.key < t)
  have hb' := hb.dropWhile fun n => decide (n.key < t)
  have hm := levelMerge_sorted false a b ha hb
  refine KSorted.ext (levelMerge_sorted _ _ _ ha' hb') (hm.dropWhile _) fun x => ?_
  rw [mem_levelMerge _ _ _ ha' hb', hm.mem_dropWhile, mem_levelMerge _ _ _ ha hb, ha.mem_dropWhile, hb.mem_dropWhile]
  simp only [Bool.false_and, and_true]
  constructor
  · rintro (⟨h1, h2⟩ | ⟨⟨h1, h2⟩, h3⟩)
    · exact ⟨.inl h1, h2⟩
    · refine ⟨.inr ⟨h1, fun n hn e => h3 n ((ha.mem_dropWhile t n).2 ⟨hn, ?_⟩) e⟩, h2⟩
      rw [e]; exact h2
  · rintro ⟨h1 | ⟨h1, h2⟩, h3⟩
    · exact .inl ⟨h1, h3⟩
    · exact .inr ⟨⟨h1, h3⟩, fun n hn => h2 n ((ha.mem_dropWhile t n).1 hn).1⟩

variable [OrderBot K]

/-- Before the end of a range. -/
def inStop (r : Range K) (n : Node K) : Bool := !(decide (r.stop ≠ ⊥) && decide (r.stop ≤ n.key))

theorem inStop_lt (r : Range K) (a b : Node K) (h : a.key < b.key) (hb : inStop r b = true) : inStop r a = true := by
  unfold inStop at *
  simp only [Bool.not_eq_true', Bool.and_eq_false_iff, decide_eq_false_iff_not, not_not, not_le] at *
  rcases hb with hb | hb
  · exact .inl hb
  · exact .inr (lt_trans h hb)

theorem clip_head (r : Range K) (l : List (Node K)) : clip r l.head? = (l.takeWhile (inStop r)).head? := by
  cases l with
  | nil => rfl
  | cons a l =>
    unfold clip
    simp only [List.head?_cons, Option.bind_some, List.takeWhile_cons]
    by_cases h : r.stop ≠ ⊥ ∧ r.stop ≤ a.key
    · have : inStop r a = false := by unfold inStop; simp only [h.1, h.2, ne_eq, not_false_eq_true, decide_true, Bool.and_self, Bool.not_true]
      simp [h, this]
    · have : inStop r a = true := by
        unfold inStop
        simp only [Bool.not_eq_true', Bool.and_eq_false_iff, decide_eq_false_iff_not]
        tauto
      simp only [if_neg h, this, if_true, List.head?_cons]

/-- What is left of a parser. -/
structure PR (p : Parser K) (ns : List (Node K)) : Prop where
  new : KSorted p.new
  old : KSorted p.old
  cur : p.cur = ns.head?
  nodes : ns = [] ∨ ns = (levelMerge false p.new p.old).takeWhile (inStop p.range)

theorem PR.sorted {p : Parser K} {ns : List (Node K)} (h : PR p ns) : KSorted ns := by
  rcases h.nodes with e | e
  · rw [e]; exact List.Pairwise.nil
  · rw [e]; exact (levelMerge_sorted _ _ _ h.new h.old).takeWhile _

theorem PR.length {p : Parser K} {ns : List (Node K)} (h : PR p ns) : ns.length ≤ p.new.length + p.old.length := by
  rcases h.nodes with e | e
  · rw [e]; simp
  · rw [e]; exact le_trans (List.takeWhile_sublist _).length_le (levelMerge_length _ _ _)

theorem PR.next {p : Parser K} {ns : List (Node K)} (h : PR p ns) : PR p.next ns.tail := by
  cases hc : p.cur with
  | none =>
    have hns : ns = [] := by
      have := h.cur
      rw [hc] at this
      exact List.head?_eq_none_iff.1 this.symm
    subst hns
    have e : p.next = p := by unfold Parser.next; rw [hc]
    rw [e]; exact h
  | some c =>
    have hne : ns ≠ [] := by
      intro e
      have := h.cur
      rw [hc, e] at this
      simp at this
    have hns := h.nodes.resolve_left hne
    have hm : ∀ q : List (Node K) × List (Node K), KSorted q.1 → KSorted q.2 → levelMerge false q.1 q.2 = (levelMerge false p.new p.old).tail →
        PR { p with new := q.1, old := q.2, cur := clip p.range (choose q.1 q.2) } ns.tail := by
      intro q h1 h2 h3
      have e : ns.tail = (levelMerge false q.1 q.2).takeWhile (inStop p.range) := by
        rw [h3, hns]
        cases hl : levelMerge false p.new p.old with
        | nil => rfl
        | cons a l =>
          rw [List.takeWhile_cons]
          split
          · rfl
          · rename_i hi
            rw [hns, hl, List.takeWhile_cons, if_neg hi] at hne
            exact absurd rfl hne
      refine ⟨h1, h2, ?_, .inr e⟩
      simp only []
      rw [choose_eq, clip_head, e]
    unfold Parser.next
    rw [hc]
    simp only []
    have hn := h.new
    have ho := h.old
    cases ha : p.new with
    | nil =>
      cases hb : p.old with
      | nil => exact hm ([], []) List.Pairwise.nil List.Pairwise.nil (by rw [ha, hb]; rfl)
      | cons o os =>
        rw [hb] at ho
        exact hm ([], os) List.Pairwise.nil ho.tail (by rw [ha, hb, levelMerge_nil_cons]; simp)
    | cons n ns' =>
      rw [ha] at hn
      cases hb : p.old with
      | nil => exact hm (ns', []) hn.tail List.Pairwise.nil (by rw [ha, hb, levelMerge_cons_nil]; simp)
      | cons o os =>
        rw [hb] at ho
        simp only []
        have hcc := levelMerge_cons_cons false n o ns' os
        by_cases h1 : n.key < o.key
        · rw [if_pos h1]
          exact hm (ns', o :: os) hn.tail ho (by rw [ha, hb, hcc, if_pos h1]; simp)
        · rw [if_neg h1]
          by_cases h2 : n.key = o.key
          · rw [if_pos h2]
            refine hm (ns', os) hn.tail ho.tail (by rw [ha, hb, hcc, if_neg h1, if_neg (by rw [h2]; exact lt_irrefl _)]; simp)
          · rw [if_neg h2]
            have h3 : o.key < n.key := lt_of_le_of_ne (not_lt.1 h1) (Ne.symm h2)
            exact hm (n :: ns', os) hn ho.tail (by rw [ha, hb, hcc, if_neg h1, if_pos h3]; simp)

theorem dropWhile_takeWhile {l : List (Node K)} (h : KSorted l) (r : Range K) (t : K) :
    (l.dropWhile fun n => decide (n.key < t)).takeWhile (inStop r) = (l.takeWhile (inStop r)).dropWhile fun n => decide (n.key < t) := by
  refine KSorted.ext ((h.dropWhile _).takeWhile _) ((h.takeWhile _).dropWhile _) fun x => ?_
  rw [(h.dropWhile _).mem_takeWhile (inStop_lt r), h.mem_dropWhile, (h.takeWhile _).mem_dropWhile, h.mem_takeWhile (inStop_lt r)]
  tauto

theorem PR.advance {p : Parser K} {ns : List (Node K)} (h : PR p ns) (t : K) : PR (p.advance t) (ns.dropWhile fun n => decide (n.key < t)) := by
  cases hc : p.cur with
  | none =>
    have hns : ns = [] := by
      have := h.cur
      rw [hc] at this
      exact List.head?_eq_none_iff.1 this.symm
    subst hns
    have e : p.advance t = p := by unfold Parser.advance; rw [hc]
    rw [e]; exact h
  | some c =>
    have hne : ns ≠ [] := by
      intro e
      have := h.cur
      rw [hc, e] at this
      simp at this
    have hns := h.nodes.resolve_left hne
    have hm := levelMerge_sorted false _ _ h.new h.old
    have e : ns.dropWhile (fun n => decide (n.key < t)) = (levelMerge false (seek t p.new) (seek t p.old)).takeWhile (inStop p.range) := by
      rw [levelMerge_seek h.new h.old, dropWhile_takeWhile hm, ← hns]
    unfold Parser.advance
    rw [hc]
    refine ⟨?_, ?_, ?_, .inr e⟩
    · simp only []; rw [seek_eq h.new]; exact h.new.dropWhile _
    · simp only []; rw [seek_eq h.old]; exact h.old.dropWhile _
    · simp only []; rw [choose_eq, clip_head, e]

/-- The nodes that a new parser gives are those in the range, if the first is not checked in vain. -/
theorem init_spec (r : Range K) {new old : List (Node K)} (hn : KSorted new) (ho : KSorted old)
    (hr : r.start ≠ ⊥ ∨ ∀ n ∈ levelMerge false new old, inStop r n = true) :
    PR (Parser.init r new old) ((levelMerge false new old).filter fun n => r.has n.key) := by
  have hm := levelMerge_sorted false _ _ hn ho
  unfold Parser.init
  simp only []
  by_cases hs : r.start = ⊥
  · rw [if_neg (by simp [hs])]
    have hall := hr.resolve_left (by simp [hs])
    have e : (levelMerge false new old).filter (fun n => r.has n.key) = levelMerge false new old := by
      refine List.filter_eq_self.2 fun n hn => ?_
      have := hall n hn
      unfold inStop at this
      unfold Range.has
      simp only [hs, ne_eq, not_true, decide_false, Bool.false_and, Bool.false_or]
      simpa using this
    rw [e]
    refine ⟨hn, ho, choose_eq _ _, .inr ?_⟩
    generalize levelMerge false new old = l at hall
    induction l with
    | nil => rfl
    | cons a l ih =>
      rw [List.takeWhile_cons, if_pos (hall a List.mem_cons_self), ← ih fun n hn => hall n (List.mem_cons_of_mem _ hn)]
  · rw [if_pos hs]
    have e : (levelMerge false new old).filter (fun n => r.has n.key) =
        ((levelMerge false new old).dropWhile fun n => decide (n.key < r.start)).takeWhile (inStop r) := by
      refine KSorted.ext (hm.filter _) ((hm.dropWhile _).takeWhile _) fun x => ?_
      rw [(hm.dropWhile _).mem_takeWhile (inStop_lt r), hm.mem_dropWhile, List.mem_filter]
      unfold Range.has inStop
      simp only [ne_eq, hs, not_false_eq_true, decide_true, Bool.true_and, Bool.not_or, Bool.and_eq_true, Bool.not_eq_true', decide_eq_false_iff_not, not_lt]
      tauto
    unfold Parser.advance
    simp only []
    cases hc : choose new old with
    | none =>
      rw [choose_eq, List.head?_eq_none_iff] at hc
      simp only []
      rw [hc]
      exact ⟨hn, ho, rfl, .inl rfl⟩
    | some c =>
      simp only []
      rw [e, ← levelMerge_seek hn ho]
      refine ⟨?_, ?_, ?_, .inr rfl⟩
      · simp only []; rw [seek_eq hn]; exact hn.dropWhile _
      · simp only []; rw [seek_eq ho]; exact ho.dropWhile _
      · simp only []; rw [choose_eq, clip_head]

/-! ### The executor of a term -/

/-- The keys of the nodes that are not deletes. -/
def live (ns : List (Node K)) : List K := (ns.filter fun n => !n.del).map Node.key

omit [LinearOrder K] [OrderBot K] in
theorem mem_live {ns : List (Node K)} {k : K} : k ∈ live ns ↔ ⟨k, false⟩ ∈ ns := by
  unfold live
  simp only [List.mem_map, List.mem_filter, Bool.not_eq_true']
  constructor
  · rintro ⟨⟨a, b⟩, ⟨h1, h2⟩, h3⟩
    simp only at h2 h3
    subst h2; subst h3; exact h1
  · intro h; exact ⟨_, ⟨h, rfl⟩, rfl⟩

omit [OrderBot K] in
theorem live_sorted {ns : List (Node K)} (h : KSorted ns) : (live ns).Pairwise (· < ·) := by
  unfold live
  rw [List.pairwise_map]
  exact h.filter _

def TermR (t : Term K) (l : List K) : Prop :=
  t.init = false ∧ t.cur = t.parser.cur ∧ t.cur.elim false Node.del = false ∧ ∃ ns, PR t.parser ns ∧ l = live ns

def TermI (t : Term K) (l : List K) : Prop := t.init = true ∧ ∃ ns, PR t.parser ns ∧ l = live ns

theorem skip_spec (f : Nat) {p : Parser K} {ns : List (Node K)} (h : PR p ns) (hf : ns.length ≤ f) :
    (skipDeleted f p).cur.elim false Node.del = false ∧ ∃ ns', PR (skipDeleted f p) ns' ∧ live ns' = live ns := by
  induction f generalizing p ns with
  | zero =>
    have : ns = [] := List.length_eq_zero_iff.1 (by omega)
    subst this
    unfold skipDeleted
    exact ⟨by rw [h.cur]; rfl, [], h, rfl⟩
  | succ f ih =>
    unfold skipDeleted
    by_cases hd : p.cur.elim false Node.del = true
    · rw [if_pos hd]
      cases ns with
      | nil => rw [h.cur] at hd; simp at hd
      | cons a ns =>
        have ha : a.del = true := by rw [h.cur] at hd; simpa using hd
        obtain ⟨h1, ns', h2, h3⟩ := ih h.next (by simp only [List.length_cons] at hf; simp only [List.tail_cons]; omega)
        refine ⟨h1, ns', h2, ?_⟩
        rw [h3]
        unfold live
        simp [ha]
    · rw [if_neg hd]
      exact ⟨by simpa using hd, ns, h, rfl⟩

theorem term_start {t : Term K} {l : List K} (h : TermI t l) : TermR t.next l := by
  obtain ⟨h0, ns, h1, h2⟩ := h
  obtain ⟨h3, ns', h4, h5⟩ := skip_spec (t.parser.new.length + t.parser.old.length + 1) h1 (by have := h1.length; omega)
  unfold Term.next
  simp only [h0, if_true]
  exact ⟨rfl, rfl, h3, ns', h4, by rw [h5]; exact h2⟩

omit [LinearOrder K] [OrderBot K] in
theorem live_cons_of_not {a : Node K} {ns : List (Node K)} (h : a.del = false) : live (a :: ns) = a.key :: live ns := by
  unfold live; simp [h]

omit [LinearOrder K] [OrderBot K] in
theorem live_cons_of_del {a : Node K} {ns : List (Node K)} (h : a.del = true) : live (a :: ns) = live ns := by
  unfold live; simp [h]

theorem term_next {t : Term K} {l : List K} (h : TermR t l) : TermR t.next l.tail := by
  obtain ⟨h0, hc, hd, ns, h1, h2⟩ := h
  have hn := h1.next
  obtain ⟨h3, ns', h4, h5⟩ := skip_spec (t.parser.next.new.length + t.parser.next.old.length + 1) hn (by have := hn.length; omega)
  unfold Term.next
  simp only [h0, Bool.false_eq_true, if_false]
  refine ⟨rfl, rfl, h3, ns', h4, ?_⟩
  rw [h5, h2]
  cases ns with
  | nil => rfl
  | cons a ns =>
    have : a.del = false := by rw [hc, h1.cur] at hd; simpa using hd
    rw [live_cons_of_not this]; rfl

theorem term_cur {t : Term K} {l : List K} (h : TermR t l) : t.cur.map Node.key = l.head? := by
  obtain ⟨h0, hc, hd, ns, h1, h2⟩ := h
  rw [h2, hc, h1.cur]
  cases ns with
  | nil => rfl
  | cons a ns =>
    have : a.del = false := by rw [hc, h1.cur] at hd; simpa using hd
    rw [live_cons_of_not this]; rfl

omit [OrderBot K] in
theorem live_dropWhile {ns : List (Node K)} (h : KSorted ns) (k : K) :
    live (ns.dropWhile fun n => decide (n.key < k)) = (live ns).dropWhile fun y => decide (y < k) := by
  refine sorted_ext (live_sorted (h.dropWhile _)) (sorted_dropWhile (live_sorted h) _) fun x => ?_
  rw [mem_live, h.mem_dropWhile, mem_dropWhile (live_sorted h), mem_live]

theorem term_adv {t : Term K} {l : List K} (h : TermR t l) (k : K) : TermR (t.advance k) (l.dropWhile fun y => decide (y < k)) := by
  have hcur := term_cur h
  have h' := h
  obtain ⟨h0, hc, hd, ns, h1, h2⟩ := h
  have same : ∀ l', l' = l → TermR ({ t with init := false } : Term K) l' := by
    rintro _ rfl
    have : ({ t with init := false } : Term K) = t := by cases t; simp only at h0; subst h0; rfl
    rw [this]; exact h'
  unfold Term.advance
  cases hcc : t.cur with
  | none =>
    have := same (l.dropWhile fun y => decide (y < k)) (by
      rw [hcc] at hcur
      rw [List.head?_eq_none_iff.1 hcur.symm]; rfl)
    rw [hcc] at this
    exact this
  | some n =>
    simp only []
    rw [hcc] at hcur
    simp only [Option.map_some] at hcur
    by_cases hk : k ≤ n.key
    · rw [if_pos hk]
      have e : l.dropWhile (fun y => decide (y < k)) = l := by
        cases l with
        | nil => rfl
        | cons a l =>
          simp only [List.head?_cons, Option.some.injEq] at hcur
          rw [List.dropWhile_cons_of_neg]
          simp only [decide_eq_true_eq, not_lt]
          rw [← hcur]; exact hk
      rw [e]
      have := same l rfl
      rw [hcc] at this
      exact this
    · rw [if_neg hk]
      have ha := h1.advance k
      have hl := live_dropWhile h1.sorted k
      rw [← h2] at hl
      by_cases hdd : (t.parser.advance k).cur.elim false Node.del = true
      · rw [if_pos hdd]
        have hn := ha.next
        obtain ⟨h3, ns', h4, h5⟩ := skip_spec ((t.parser.advance k).next.new.length + (t.parser.advance k).next.old.length + 1) hn (by have := hn.length; omega)
        unfold Term.next
        simp only [Bool.false_eq_true, if_false]
        refine ⟨rfl, rfl, h3, ns', h4, ?_⟩
        rw [h5, ← hl]
        cases hx : ns.dropWhile (fun n => decide (n.key < k)) with
        | nil => rfl
        | cons a ms =>
          rw [ha.cur, hx] at hdd
          rw [live_cons_of_del (by simpa using hdd)]; rfl
      · rw [if_neg hdd]
        exact ⟨rfl, rfl, by simpa using hdd, _, ha, hl.symm⟩

theorem termR_sorted {t : Term K} {l : List K} (h : TermR t l) : l.Pairwise (· < ·) := by
  obtain ⟨h0, hc, hd, ns, h1, h2⟩ := h
  rw [h2]; exact live_sorted h1.sorted

theorem termI_sorted {t : Term K} {l : List K} (h : TermI t l) : l.Pairwise (· < ·) := by
  obtain ⟨h0, ns, h1, h2⟩ := h
  rw [h2]; exact live_sorted h1.sorted

omit [LinearOrder K] [OrderBot K] in
theorem live_length (ns : List (Node K)) : (live ns).length ≤ ns.length := by
  unfold live; rw [List.length_map]; exact List.length_filter_le _ _

theorem termR_size {t : Term K} {l : List K} (h : TermR t l) : l.length ≤ t.parser.new.length + t.parser.old.length := by
  obtain ⟨h0, hc, hd, ns, h1, h2⟩ := h
  rw [h2]; exact le_trans (live_length ns) h1.length

theorem termI_size {t : Term K} {l : List K} (h : TermI t l) : l.length ≤ t.parser.new.length + t.parser.old.length := by
  obtain ⟨h0, ns, h1, h2⟩ := h
  rw [h2]; exact le_trans (live_length ns) h1.length

end BaikalDB.Reverse
