import Verif.Reverse.Build

/-!
# C65: full-text search
-/

namespace BaikalDB.Reverse
open Spec

variable {K T X : Type} [LinearOrder K] [OrderBot K] [DecidableEq T]

omit [DecidableEq T] in
theorem has_iff (r : Range K) (k : K) : r.has k = true ↔ Covers r k := by
  unfold Range.has Covers
  simp only [Bool.not_or, Bool.and_eq_true, Bool.not_eq_true', Bool.and_eq_false_iff, decide_eq_false_iff_not, not_lt, not_le, ne_eq, not_not]
  constructor
  · rintro ⟨h1 | h1, h2⟩
    · exact ⟨by rw [h1]; exact bot_le, h2⟩
    · exact ⟨h1, h2⟩
  · rintro ⟨h1, h2⟩
    exact ⟨.inr h1, h2⟩

/-- What is so of an index all the time. -/
structure Inv (seg : X → List T) (x : Index T K) (tb : Rows K X) (c : Nat) (d : Bool) : Prop where
  sorted : ∀ t, LSorted (x.levels t)
  times : ∀ t, ∀ e ∈ (x.levels t).one, e.time ≤ c
  rows : ∀ k, tb k ≠ none → Covers x.range k
  eff : ∀ t k, Covers x.range k → (eff (x.levels t) k = some false ↔ ∃ text, tb k = some text ∧ t ∈ seg text)
  clean : d = false → ∀ t, Clean x.range (x.levels t)

omit [OrderBot K] in
theorem handle_one (x : Index T K) (del : Bool) (terms : List T) (k : K) (at_ : T → Nat) (t : T) :
    ((x.handle del terms k at_).levels t) =
      if t ∈ terms then { x.levels t with one := putEntry ⟨k, at_ t, del⟩ (x.levels t).one } else x.levels t := rfl

theorem handle_inv {seg : X → List T} {x : Index T K} {tb : Rows K X} {c : Nat} {d : Bool} (h : Inv seg x tb c d) (del : Bool) (k : K)
    (text : X) (new : Option X) (at_ : T → Nat) (c' : Nat) (hk : Covers x.range k) (hb : Between (seg text) at_ c c')
    (hnew : (del = false ∧ tb k = none ∧ new = some text) ∨ (del = true ∧ tb k = some text ∧ new = none)) :
    Inv seg (x.handle del (seg text) k at_) (tb.put k new) c' d := by
  refine ⟨fun t => ?_, fun t e he => ?_, fun j hj => ?_, fun t j hj => ?_, fun hd t => ?_⟩
  · rw [handle_one]
    split
    · exact ⟨putEntry_sorted _ (h.sorted t).one, (h.sorted t).two, (h.sorted t).three⟩
    · exact h.sorted t
  · rw [handle_one] at he
    split at he
    · rename_i ht
      rcases mem_putEntry _ _ _ he with rfl | he
      · exact (hb.2 t ht).2
      · exact le_trans (h.times t e he) hb.1
    · exact le_trans (h.times t e he) hb.1
  · unfold Rows.put at hj
    by_cases hjk : j = k
    · rw [hjk]; exact hk
    · rw [if_neg hjk] at hj; exact h.rows j hj
  · have hold := h.eff t j hj
    rw [handle_one]
    unfold Rows.put
    by_cases hjk : j = k
    · subst hjk
      rw [if_pos rfl]
      by_cases ht : t ∈ seg text
      · rw [if_pos ht]
        have e : Reverse.eff { x.levels t with one := putEntry ⟨j, at_ t, del⟩ (x.levels t).one } j = some del := by
          unfold Reverse.eff
          simp only []
          rw [lastN_putEntry _ (h.sorted t).one (fun y hy _ => le_trans (h.times t y hy) (hb.2 t ht).1), if_pos rfl]
          rfl
        rw [e]
        rcases hnew with ⟨rfl, _, rfl⟩ | ⟨rfl, _, rfl⟩
        · simp [ht]
        · simp
      · rw [if_neg ht, hold]
        rcases hnew with ⟨_, h1, rfl⟩ | ⟨_, h1, rfl⟩
        · rw [h1]; simp [ht]
        · rw [h1]; simp [ht]
    · rw [if_neg hjk]
      split
      · rename_i ht
        have e : Reverse.eff { x.levels t with one := putEntry ⟨k, at_ t, del⟩ (x.levels t).one } j = Reverse.eff (x.levels t) j := by
          unfold Reverse.eff
          simp only []
          rw [lastN_putEntry _ (h.sorted t).one (fun y hy _ => le_trans (h.times t y hy) (hb.2 t ht).1), if_neg hjk]
        rw [e]; exact hold
      · exact hold
  · have := h.clean hd t
    rw [handle_one]
    split
    · exact this
    · exact this

theorem run_inv {seg : X → List T} {x : Index T K} {tb : Rows K X} {c : Nat} {d : Bool} (h : Run seg x tb c d) : Inv seg x tb c d := by
  induction h with
  | start r =>
    refine ⟨fun t => ⟨.nil, .nil, .nil⟩, fun t e he => by simp [Index.empty] at he, fun k hk => absurd rfl hk, fun t k _ => ?_, fun _ t n hn => by simp [Index.empty] at hn⟩
    simp [Index.empty, eff, lastN_nil]
  | insert k text at_ c' _ hk hn hb ih => exact handle_inv ih false k text _ at_ c' hk hb (.inl ⟨rfl, hn, rfl⟩)
  | delete k text at_ c' _ hn hb ih =>
    exact handle_inv ih true k text _ at_ c' (ih.rows k (by rw [hn]; simp)) hb (.inr ⟨rfl, hn, rfl⟩)
  | @merge x tb c d len t _ ih =>
    have hl : ∀ u, (x.merge len t).levels u = if u = t then mergeLevels len x.range (x.levels u) else x.levels u := fun u => rfl
    refine ⟨fun u => ?_, fun u e he => ?_, ih.rows, fun u k hk => ?_, fun hd u => ?_⟩
    · rw [hl]; split
      · exact mergeLevels_sorted _ _ (ih.sorted u)
      · exact ih.sorted u
    · rw [hl] at he; split at he
      · unfold mergeLevels at he
        simp only [] at he
        split at he <;> simp at he
      · exact ih.times u e he
    · have := ih.eff u k hk
      rw [hl]; split
      · rw [mergeLevels_eff len x.range (ih.sorted u) k ((has_iff x.range k).2 hk)]; exact this
      · exact this
    · rw [hl]; split
      · exact mergeLevels_clean _ _ (ih.sorted u) (ih.clean hd u)
      · exact ih.clean hd u
  | @clean x tb c d _ ih =>
    refine ⟨fun u => clean_sorted _ (ih.sorted u), fun u e he => ih.times u e he, ih.rows, fun u k hk => ?_, fun _ u => clean_clean _ (ih.sorted u)⟩
    have := ih.eff u k hk
    show eff (Reverse.clean x.range (x.levels u)) k = some false ↔ _
    rw [clean_eff x.range (ih.sorted u) k ((has_iff x.range k).2 hk)]
    exact this
  | @narrow x tb c d r _ hr ih =>
    refine ⟨ih.sorted, ih.times, fun k hk => ?_, fun u k hk => ?_, fun hd => by cases hd⟩
    · unfold Rows.within at hk
      by_contra hc
      exact hk (if_neg hc)
    · unfold Rows.within
      have hk : Covers r k := hk
      rw [if_pos hk]
      exact ih.eff u k (hr k hk)

/-- **C65**: a search of a region's full-text index finds exactly the rows of the region whose texts have the terms that the
condition asks for, each once and in the order of the primary key: after any inserts and deletes, merges of the index's levels, splits of
the region and removals of what is out of its range, and for any nesting of AND and OR. -/
theorem C65_search {seg : X → List T} {x : Index T K} {tb : Rows K X} {c : Nat} {d : Bool} (h : Run seg x tb c d) (q : Query T) (hok : Ok q)
    (hr : Ready x.range d) : (x.search q).Pairwise (· < ·) ∧ ∀ k, k ∈ x.search q ↔ Finds seg tb q k := by
  have hi := run_inv h
  have hleaf : ∀ t, ∃ l, TermI ⟨(x.levels t).parser x.range, true, none⟩ l ∧ ∀ k, k ∈ l ↔ x.range.has k = true ∧ eff (x.levels t) k = some false := by
    intro t
    refine leaf_spec x.range (hi.sorted t) ?_
    rcases hr with h1 | h1 | h1
    · exact .inl h1
    · exact .inr (.inr h1)
    · exact .inr (.inl (hi.clean h1 t))
  choose S hS hmem using hleaf
  have hmem' : ∀ t k, k ∈ S t ↔ ∃ text, tb k = some text ∧ t ∈ seg text := by
    intro t k
    rw [hmem, has_iff]
    constructor
    · rintro ⟨h1, h2⟩; exact (hi.eff t k h1).1 h2
    · intro h2
      obtain ⟨text, h3, h4⟩ := h2
      have := hi.rows k (by rw [h3]; simp)
      exact ⟨this, (hi.eff t k this).2 ⟨text, h3, h4⟩⟩
  have hp : ∀ k text, tb k = some text → (fun t => k ∈ S t) = fun t => t ∈ seg text := by
    intro k text hk
    funext t
    rw [hmem', hk]
    simp
  have hnone : ∀ k, tb k = none → (fun t => k ∈ S t) = fun _ => False := by
    intro k hk
    funext t
    rw [hmem', hk]
    simp
  have hfinds : ∀ k, Holds (fun t => k ∈ S t) q ↔ Finds seg tb q k := by
    intro k
    unfold Finds
    cases hk : tb k with
    | some text => rw [hp k text hk]; simp
    | none =>
      rw [hnone k hk]
      simp only [reduceCtorEq, false_and, exists_false, iff_false]
      exact noHolds q hok
  have hl : ∀ t n, ExI (n + 1) (x.leaf t) (S t) := fun t n => hS t
  unfold Index.search
  rcases build_spec hl q hok q.depth (le_refl _) with ⟨h1, _, h2⟩ | ⟨e, L, h1, h2, h3⟩
  · rw [h1]
    exact ⟨.nil, fun k => ⟨fun hk => absurd hk (List.not_mem_nil), fun hk => absurd ((hfinds k).2 hk) (h2 k)⟩⟩
  · rw [h1]
    simp only [Option.elim_some]
    rw [drain_I (ops_sound q.depth) h2]
    exact ⟨(ops_sound q.depth).iSorted h2, fun k => by rw [h3, hfinds]⟩

/-- **C65**: merging the levels of a term, whenever it is done, and removing what is out of the range change no search. -/
theorem C65_background {seg : X → List T} {x : Index T K} {tb : Rows K X} {c : Nat} {d : Bool} (h : Run seg x tb c d) (q : Query T) (hok : Ok q)
    (hr : Ready x.range d) : (∀ len t, (x.merge len t).search q = x.search q) ∧ x.clean.search q = x.search q := by
  have h0 := C65_search h q hok hr
  constructor
  · intro len t
    have h1 := C65_search (h.merge len t) q hok hr
    exact sorted_ext h1.1 h0.1 fun k => by rw [h1.2, h0.2]
  · have h1 := C65_search h.clean q hok (.inr (.inr rfl))
    exact sorted_ext h1.1 h0.1 fun k => by rw [h1.2, h0.2]

/-- **C65**: when a region splits, a search of its first part, once what is out of the range is removed, and one of its last part give
together what the search of the region gave. -/
theorem C65_split {seg : X → List T} {x : Index T K} {tb : Rows K X} {c : Nat} {d : Bool} (h : Run seg x tb c d) (q : Query T) (hok : Ok q)
    (hr : Ready x.range d) (m : K) (hm : x.range.start < m) (hm' : x.range.stop = ⊥ ∨ m < x.range.stop) :
    (x.narrow ⟨x.range.start, m⟩).clean.search q ++ (x.narrow ⟨m, x.range.stop⟩).search q = x.search q := by
  have hbot : m ≠ ⊥ := ne_of_gt (lt_of_le_of_lt bot_le hm)
  have h0 := C65_search h q hok hr
  have hi := run_inv h
  have h1 := C65_search (h.narrow ⟨x.range.start, m⟩ (by
    rintro k ⟨h1, h2⟩
    refine ⟨h1, hm'.imp id fun h3 => lt_trans ?_ h3⟩
    exact h2.resolve_left hbot)).clean q hok (.inr (.inr rfl))
  have h2 := C65_search (h.narrow ⟨m, x.range.stop⟩ (by
    rintro k ⟨h1, h2⟩
    exact ⟨le_trans (le_of_lt hm) h1, h2⟩)) q hok (.inl hbot)
  have f1 : ∀ k, Finds seg (tb.within ⟨x.range.start, m⟩) q k ↔ Finds seg tb q k ∧ k < m := by
    intro k
    unfold Finds Rows.within
    by_cases hc : Covers ⟨x.range.start, m⟩ k
    · rw [if_pos hc]
      have : k < m := hc.2.resolve_left hbot
      simp [this]
    · rw [if_neg hc]
      simp only [reduceCtorEq, false_and, exists_false, false_iff, not_and, not_lt]
      rintro ⟨text, h3, _⟩
      by_contra hlt
      exact hc ⟨(hi.rows k (by rw [h3]; simp)).1, .inr (not_le.1 hlt)⟩
  have f2 : ∀ k, Finds seg (tb.within ⟨m, x.range.stop⟩) q k ↔ Finds seg tb q k ∧ m ≤ k := by
    intro k
    unfold Finds Rows.within
    by_cases hc : Covers ⟨m, x.range.stop⟩ k
    · rw [if_pos hc]
      have : m ≤ k := hc.1
      simp [this]
    · rw [if_neg hc]
      simp only [reduceCtorEq, false_and, exists_false, false_iff, not_and, not_le]
      rintro ⟨text, h3, _⟩
      by_contra hlt
      exact hc ⟨not_lt.1 hlt, (hi.rows k (by rw [h3]; simp)).2⟩
  refine sorted_ext ?_ h0.1 fun k => ?_
  · rw [List.pairwise_append]
    refine ⟨h1.1, h2.1, fun a ha b hb => ?_⟩
    exact lt_of_lt_of_le ((f1 a).1 ((h1.2 a).1 ha)).2 ((f2 b).1 ((h2.2 b).1 hb)).2
  · rw [List.mem_append, h1.2, h2.2, h0.2, f1, f2, ← and_or_left]
    exact and_iff_left (lt_or_ge k m)

omit [OrderBot K] in
/-- **C65**: the lists of a term may be searched by bisection: what `advance` leaves is the nodes from the key on. -/
theorem C65_seek (t : K) (l : List (Node K)) (h : l.Pairwise fun a b => a.key < b.key) : seek t l = l.filter fun n => decide (t ≤ n.key) := by
  rw [seek_eq h]
  refine KSorted.ext (KSorted.dropWhile h _) (KSorted.filter h _) fun x => ?_
  rw [KSorted.mem_dropWhile h, List.mem_filter, decide_eq_true_eq]

/-! ### Where it fails -/

/-- Texts that are lists of terms. -/
def words : List Nat → List Nat := id

def whole : Index Nat Nat := Index.empty ⟨0, 0⟩

/-- A row with the key 7 is in level 3 when the region, the first of the table, is split before it. -/
def cutOff : Index Nat Nat := ((whole.handle false [1] 7 fun _ => 1).merge 0 1).narrow ⟨0, 5⟩

/-- **C65**, where it fails: the first region of a table, after a split, until what is out of its range is removed: the first node of a
term is not compared with the end of the range. -/
theorem C65_first_node_counterexample :
    ∃ tb, Run words cutOff tb 1 true ∧ cutOff.search (.find false [[1]]) = [7] ∧ ¬ Finds words tb (.find false [[1]]) 7 := by
  refine ⟨_, ((Run.insert 7 [1] (fun _ => 1) 1 (Run.start _) ⟨Nat.zero_le _, .inl rfl⟩ rfl ⟨by decide, fun _ _ => ⟨Nat.zero_le _, Nat.le_refl _⟩⟩).merge 0 1).narrow
    ⟨0, 5⟩ (fun k _ => ⟨Nat.zero_le _, .inl rfl⟩), by decide +kernel, ?_⟩
  rintro ⟨text, h, _⟩
  unfold Rows.within at h
  rw [if_neg (by rintro ⟨_, h | h⟩ <;> revert h <;> decide)] at h
  cases h

/-- A row is inserted at the time 5 and deleted at the time 3 of another clock. -/
def backwards : Index Nat Nat := (whole.handle false [1] 7 fun _ => 5).handle true [1] 7 fun _ => 3

/-- **C65**, where it fails: if the clock of the node that writes is behind, a deleted row is found. -/
theorem C65_clock_counterexample : backwards.search (.find false [[1]]) = [7] := by decide +kernel

/-- One row with the term 1. -/
def oneRow : Index Nat Nat := whole.handle false [1] 7 fun _ => 1

/-- **C65**, where it fails: an AND with a search for a text that has no terms gives what the other operand gives, though such a search
finds nothing by itself. -/
theorem C65_empty_operand_counterexample :
    oneRow.search (.all [.find false [[1]], .find false [[]]]) = [7] ∧ oneRow.search (.find false [[]]) = [] ∧
      ¬ Holds (fun t => t ∈ [1]) (.all [.find false [[1]], .find false [[]]]) := by
  refine ⟨by decide +kernel, by decide +kernel, ?_⟩
  simp [Holds, HoldsAll]

end BaikalDB.Reverse
