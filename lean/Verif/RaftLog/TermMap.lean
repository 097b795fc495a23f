import Mathlib.Tactic.Common
import Mathlib.Data.List.Induction
/-
C17: the run-length map from raft log indexes to terms, include/raft/index_term_map.h.

`q` is the deque `_q` front first; an element is (index, term): the first index of a run of entries with that term.
Indexes are mathematical integers (int64_t in the code), terms natural numbers (non-negative int64_t).
-/
namespace BaikalDB.RaftLog

abbrev TermMap := List (Int × Nat)

/-- std::upper_bound(_q.begin(), _q.end(), index, Cmp()): number of elements before the first one whose index is above
`i`.  (Simplified: the library function is a binary search, which finds this position in a deque sorted by index.) -/
def upperBound (q : TermMap) (i : Int) : Nat := (q.takeWhile (fun x => ¬ i < x.1)).length

/-- index_term_map.h L42-69. -/
def TermMap.getTerm (q : TermMap) (i : Int) : Nat :=
  match q.getLast? with
  | none => 0
  | some b =>
    if i ≥ b.1 then b.2
    else if q.length < 15 then
      match q.reverse.find? (fun x => i ≥ x.1) with
      | some x => x.2
      | none => 0
    else
      match upperBound q i with
      | 0 => 0
      | k + 1 => match q[k]? with
        | some x => x.2
        | none => 0

/-- index_term_map.h L71-87; `none` is return value -1. -/
def TermMap.append (q : TermMap) (i : Int) (t : Nat) : Option TermMap :=
  match q.getLast? with
  | none => some (q ++ [(i, t)])
  | some b => if i ≤ b.1 ∨ t < b.2 then none else if t ≠ b.2 then some (q ++ [(i, t)]) else some q

/-- index_term_map.h L89-105. -/
def TermMap.truncatePrefix (q : TermMap) (kept : Int) : TermMap :=
  match q with
  | [] => []
  | x :: r => (x :: r).drop ((r.takeWhile (fun y => y.1 ≤ kept)).length)

/-- index_term_map.h L107-111. -/
def TermMap.truncateSuffix (q : TermMap) (kept : Int) : TermMap := (q.reverse.dropWhile (fun x => x.1 > kept)).reverse

namespace Spec

/-- What the map has to know: the terms of a log whose first index is `first`. -/
def termAt (first : Int) (terms : List Nat) (i : Int) : Option Nat := if first ≤ i then terms[(i - first).toNat]? else none

end Spec
open Spec

/-- Indexes and terms strictly increase. -/
def Sorted (q : TermMap) : Prop := q.Pairwise (fun x y => x.1 < y.1 ∧ x.2 < y.2)

/-- The term of the last element whose index is not above i. -/
def lastLe (q : TermMap) (i : Int) : Option (Int × Nat) := (q.filter (fun x => x.1 ≤ i)).getLast?

theorem lastLe_append (q : TermMap) (x : Int × Nat) (i : Int) :
    lastLe (q ++ [x]) i = if x.1 ≤ i then some x else lastLe q i := by
  unfold lastLe
  rw [List.filter_append]
  by_cases h : x.1 ≤ i
  · simp [h]
  · simp [h]

theorem find_reverse_eq (q : TermMap) (i : Int) : q.reverse.find? (fun x => decide (i ≥ x.1)) = lastLe q i := by
  induction q using List.reverseRecOn with
  | nil => rfl
  | append_singleton q x ih =>
    rw [lastLe_append, List.reverse_append, List.reverse_singleton, List.singleton_append, List.find?_cons]
    by_cases h : x.1 ≤ i
    · simp [h]
    · have : decide (i ≥ x.1) = false := by simpa using h
      rw [this, if_neg h]; exact ih

theorem filter_eq_takeWhile {q : TermMap} (hs : Sorted q) (i : Int) :
    q.filter (fun x => x.1 ≤ i) = q.takeWhile (fun x => ¬ i < x.1) := by
  induction q with
  | nil => rfl
  | cons x q ih =>
    obtain ⟨h1, h2⟩ := List.pairwise_cons.1 hs
    by_cases h : x.1 ≤ i
    · rw [List.filter_cons_of_pos (by simpa using h), List.takeWhile_cons_of_pos (by simpa using h), ih h2]
    · rw [List.filter_cons_of_neg (by simpa using h), List.takeWhile_cons_of_neg (by simpa using h)]
      rw [List.filter_eq_nil_iff]
      intro y hy
      have := (h1 y hy).1
      simp only [decide_eq_true_eq]
      omega

/-- All three search strategies of get_term find the last element whose index is not above the argument. -/
theorem getTerm_eq {q : TermMap} (hs : Sorted q) (i : Int) : q.getTerm i = ((lastLe q i).map (·.2)).getD 0 := by
  unfold TermMap.getTerm
  cases hq : q.getLast? with
  | none =>
    rw [List.getLast?_eq_none_iff] at hq
    subst hq; rfl
  | some b =>
    simp only []
    by_cases hb : i ≥ b.1
    · rw [if_pos hb]
      obtain ⟨r, rfl⟩ := List.getLast?_eq_some_iff.1 hq
      rw [lastLe_append, if_pos hb]; rfl
    · rw [if_neg hb]
      split
      · rw [find_reverse_eq]
        cases lastLe q i <;> rfl
      · unfold lastLe upperBound
        rw [filter_eq_takeWhile hs]
        obtain ⟨s, hp⟩ := List.takeWhile_prefix (fun x : Int × Nat => decide (¬ i < x.1)) (l := q)
        generalize q.takeWhile (fun x : Int × Nat => decide (¬ i < x.1)) = p at hp ⊢
        subst hp
        induction p using List.reverseRecOn with
        | nil => rfl
        | append_singleton p x _ => simp

theorem lastLe_mem {q : TermMap} {i : Int} {x : Int × Nat} (h : lastLe q i = some x) : x ∈ q ∧ x.1 ≤ i := by
  have := List.mem_of_getLast? h
  simpa [List.mem_filter] using this

/-- The map of a log: it knows the term of every entry; `floor` bounds the terms of runs that began before the log's
first entry (the last element stays even when the log is truncated past its end). -/
structure Rep (q : TermMap) (first : Int) (terms : List Nat) (floor : Nat) : Prop where
  sorted : Sorted q
  below : ∀ x ∈ q, x.1 < first + terms.length
  known : ∀ (k : Nat) t, terms[k]? = some t → (lastLe q (first + k)).map (·.2) = some t
  floor : ∀ x ∈ q, x.1 < first → x.2 ≤ floor

theorem Rep.get {q : TermMap} {first : Int} {terms : List Nat} {floor : Nat} (h : Rep q first terms floor) {i : Int} {t : Nat}
    (hi : termAt first terms i = some t) : q.getTerm i = t := by
  unfold termAt at hi
  split at hi
  · rename_i hle
    have := h.known _ _ hi
    have e : first + ((i - first).toNat : Int) = i := by omega
    rw [e] at this
    rw [getTerm_eq h.sorted, this]; rfl
  · cases hi

/-- The last known term is the term of the last entry. -/
theorem Rep.back {q : TermMap} {first : Int} {terms : List Nat} {floor : Nat} (h : Rep q first terms floor) {b : Int × Nat}
    (hb : q.getLast? = some b) : b.2 ≤ (terms.getLast?).getD floor ∧ (∀ t, terms.getLast? = some t → b.2 = t) := by
  have hmem := List.mem_of_getLast? hb
  cases ht : terms.getLast? with
  | none =>
    rw [List.getLast?_eq_none_iff] at ht
    exact ⟨h.floor b hmem (by have := h.below b hmem; rw [ht] at this; simpa using this), by simp⟩
  | some t =>
    obtain ⟨r, hr⟩ := List.getLast?_eq_some_iff.1 ht
    have h1 : terms[r.length]? = some t := by rw [hr]; simp
    have h2 := h.known _ _ h1
    have h3 := h.below b hmem
    have h4 : b.1 ≤ first + (r.length : Int) := by rw [hr] at h3; simp at h3; omega
    obtain ⟨p, hp⟩ := List.getLast?_eq_some_iff.1 hb
    subst hp
    rw [lastLe_append, if_pos h4] at h2
    simp at h2
    simp [h2]

/-- C17: appending the next entry, whose term is not below the last one, succeeds. -/
theorem Rep.append {q : TermMap} {first : Int} {terms : List Nat} {floor t : Nat} (h : Rep q first terms floor)
    (ht : (terms.getLast?).getD floor ≤ t) :
    ∃ q', q.append (first + terms.length) t = some q' ∧ Rep q' first (terms ++ [t]) floor := by
  unfold TermMap.append
  cases hb : q.getLast? with
  | none =>
    rw [List.getLast?_eq_none_iff] at hb
    subst hb
    have hnil : terms = [] := by
      cases terms with
      | nil => rfl
      | cons a l => have := h.known 0 a rfl; simp [lastLe] at this
    subst hnil
    refine ⟨_, rfl, ?_, ?_, ?_, ?_⟩
    · simp [Sorted]
    · simp; omega
    · intro k u hk
      cases k with
      | zero => simp at hk; subst hk; simp [lastLe]
      | succ k => simp at hk
    · simp
  | some b =>
    obtain ⟨hb1, hb2⟩ := h.back hb
    have hmem := List.mem_of_getLast? hb
    have hlt := h.below b hmem
    simp only []
    rw [if_neg (by omega)]
    have key : ∀ q' : TermMap, Sorted q' → (∀ x ∈ q', x.1 ≤ first + terms.length) →
        (∀ j : Int, j < first + terms.length → lastLe q' j = lastLe q j) →
        (lastLe q' (first + terms.length)).map (·.2) = some t → (∀ x ∈ q', x.1 < first → x ∈ q) →
        Rep q' first (terms ++ [t]) floor := by
      intro q' hs hbl hsame hnew hold
      refine ⟨hs, fun x hx => by have := hbl x hx; simp; omega, ?_, fun x hx hlt => h.floor x (hold x hx hlt) hlt⟩
      intro k u hk
      by_cases hkl : k < terms.length
      · rw [List.getElem?_append_left hkl] at hk
        rw [hsame _ (by omega)]
        exact h.known k u hk
      · have : k = terms.length := by
          rw [List.getElem?_append_right (by omega)] at hk
          rcases Nat.eq_zero_or_pos (k - terms.length) with e | e
          · omega
          · rw [List.getElem?_eq_none (by simp; omega)] at hk; cases hk
        subst this
        simp at hk
        subst hk
        exact hnew
    by_cases hne : t ≠ b.2
    · rw [if_pos hne]
      refine ⟨_, rfl, key _ ?_ ?_ ?_ ?_ ?_⟩
      · unfold Sorted
        rw [List.pairwise_append]
        refine ⟨h.sorted, by simp, ?_⟩
        intro x hx y hy
        simp only [List.mem_singleton] at hy
        subst hy
        refine ⟨h.below x hx, ?_⟩
        have hxb : x.2 ≤ b.2 := by
          obtain ⟨p, rfl⟩ := List.getLast?_eq_some_iff.1 hb
          rcases List.mem_append.1 hx with hx | hx
          · exact Nat.le_of_lt ((List.pairwise_append.1 h.sorted).2.2 x hx b (by simp)).2
          · simp only [List.mem_singleton] at hx; rw [hx]; exact Nat.le_refl _
        show x.2 < t
        omega
      · intro x hx
        rcases List.mem_append.1 hx with hx | hx
        · have := h.below x hx; omega
        · simp only [List.mem_singleton] at hx; rw [hx]; simp
      · intro j hj
        rw [lastLe_append, if_neg (by simp; omega)]
      · rw [lastLe_append, if_pos (by simp)]; rfl
      · intro x hx hlt
        rcases List.mem_append.1 hx with hx | hx
        · exact hx
        · simp only [List.mem_singleton] at hx; subst hx; simp at hlt; omega
    · rw [if_neg hne]
      have hne : t = b.2 := by simpa using hne
      refine ⟨_, rfl, key _ h.sorted (fun x hx => by have := h.below x hx; omega) (fun _ _ => rfl) ?_ (fun x hx _ => hx)⟩
      obtain ⟨p, rfl⟩ := List.getLast?_eq_some_iff.1 hb
      rw [lastLe_append, if_pos (by omega)]
      simp [hne]

theorem truncatePrefix_split {q : TermMap} (hs : Sorted q) (kept : Int) :
    ∃ p, q = p ++ q.truncatePrefix kept ∧ ∀ i, kept ≤ i → lastLe (q.truncatePrefix kept) i = lastLe q i := by
  unfold TermMap.truncatePrefix
  cases q with
  | nil => exact ⟨[], rfl, fun _ _ => rfl⟩
  | cons x r =>
    induction r generalizing x with
    | nil => exact ⟨[], by simp, fun _ _ => by simp⟩
    | cons y r ih =>
      obtain ⟨h1, h2⟩ := List.pairwise_cons.1 hs
      by_cases hy : y.1 ≤ kept
      · simp only []
        rw [List.takeWhile_cons_of_pos (by simpa using hy)]
        obtain ⟨p, hp, hl⟩ := ih y h2
        simp only [List.length_cons, List.drop_succ_cons] at hl ⊢
        refine ⟨x :: p, ?_, ?_⟩
        · rw [List.cons_append, ← hp]
        · intro i hi
          rw [hl i hi]
          unfold lastLe
          have hyi : y.1 ≤ i := by omega
          rw [List.filter_cons_of_pos (a := y) (by simpa using hyi)]
          have hxi : x.1 ≤ i := by have := (h1 y (by simp)).1; omega
          rw [List.filter_cons_of_pos (a := x) (by simpa using hxi), List.filter_cons_of_pos (a := y) (by simpa using hyi)]
          rw [List.getLast?_cons_cons]
      · simp only []
        rw [List.takeWhile_cons_of_neg (by simpa using hy)]
        exact ⟨[], rfl, fun _ _ => rfl⟩

theorem lastLe_max {q : TermMap} (hs : Sorted q) {i : Int} {y x : Int × Nat} (h : lastLe q i = some y) (hx : x ∈ q)
    (hi : x.1 ≤ i) : x.2 ≤ y.2 := by
  unfold lastLe at h
  have hmem : x ∈ q.filter (fun x => x.1 ≤ i) := List.mem_filter.2 ⟨hx, by simpa using hi⟩
  have hs' : Sorted (q.filter (fun x => x.1 ≤ i)) := hs.filter _
  obtain ⟨r, hr⟩ := List.getLast?_eq_some_iff.1 h
  rw [hr] at hmem hs'
  rcases List.mem_append.1 hmem with hm | hm
  · exact Nat.le_of_lt ((List.pairwise_append.1 hs').2.2 x hm y (by simp)).2
  · simp only [List.mem_singleton] at hm; rw [hm]; exact Nat.le_refl _

/-- C17: truncating the prefix, also past the end of the log. -/
theorem Rep.truncatePrefix {q : TermMap} {first : Int} {terms : List Nat} {floor : Nat} (h : Rep q first terms floor)
    {kept : Int} (hk : first ≤ kept) :
    Rep (q.truncatePrefix kept) kept (terms.drop (kept - first).toNat)
      (((terms.take (kept - first).toNat).getLast?).getD floor) := by
  obtain ⟨p, hp, hl⟩ := truncatePrefix_split h.sorted kept
  have hmem : ∀ x ∈ q.truncatePrefix kept, x ∈ q := by
    intro x hx; rw [hp]; exact List.mem_append_right _ hx
  have hsort : Sorted (q.truncatePrefix kept) := by
    have := h.sorted; rw [hp] at this; exact (List.pairwise_append.1 this).2.1
  refine ⟨hsort, ?_, ?_, ?_⟩
  · intro x hx
    have := h.below x (hmem x hx)
    simp only [List.length_drop]
    omega
  · intro k t ht
    rw [List.getElem?_drop] at ht
    have := h.known _ _ ht
    rw [hl _ (by omega)]
    rw [← this]
    congr 2
    omega
  · intro x hx hlt
    have hx' := hmem x hx
    cases ht : (terms.take (kept - first).toNat).getLast? with
    | none =>
      rw [List.getLast?_eq_none_iff] at ht
      refine h.floor x hx' ?_
      have := h.below x hx'
      rcases List.take_eq_nil_iff.1 ht with e | e
      · omega
      · rw [e] at this; simpa using this
    | some t =>
      obtain ⟨r, hr⟩ := List.getLast?_eq_some_iff.1 ht
      have hlen : r.length + 1 = min (kept - first).toNat terms.length := by
        rw [← List.length_take, hr]; simp
      have h1 : terms[r.length]? = some t := by
        have e : (terms.take (kept - first).toNat)[r.length]? = terms[r.length]? := List.getElem?_take_of_lt (by omega)
        rw [← e, hr]; simp
      have h2 := h.known _ _ h1
      obtain ⟨y, hy, hyt⟩ := Option.map_eq_some_iff.1 h2
      have hb := h.below x hx'
      have := lastLe_max h.sorted hy hx' (by omega)
      simp only [Option.getD_some]
      omega

theorem truncateSuffix_eq {q : TermMap} (hs : Sorted q) (kept : Int) : q.truncateSuffix kept = q.filter (fun x => x.1 ≤ kept) := by
  unfold TermMap.truncateSuffix
  induction q using List.reverseRecOn with
  | nil => rfl
  | append_singleton q x ih =>
    have hq := (List.pairwise_append.1 hs)
    rw [List.reverse_append, List.reverse_singleton, List.singleton_append, List.filter_append]
    by_cases h : x.1 ≤ kept
    · rw [List.dropWhile_cons_of_neg (by simp; omega)]
      simp only [List.reverse_cons, List.reverse_reverse]
      rw [List.filter_eq_self.2]
      · simp [h]
      · intro y hy
        have := (hq.2.2 y hy x (by simp)).1
        simp only [decide_eq_true_eq]; omega
    · rw [List.dropWhile_cons_of_pos (by simp; omega), ih hq.1]
      simp [h]

theorem lastLe_filter (q : TermMap) {kept i : Int} (h : i ≤ kept) : lastLe (q.filter (fun x => x.1 ≤ kept)) i = lastLe q i := by
  unfold lastLe
  rw [List.filter_filter]
  congr 1
  apply List.filter_congr
  intro x _
  simp only [Bool.and_eq_decide, decide_eq_true_eq, decide_eq_decide]
  omega

/-- C17: truncating the suffix (not below the start of the log). -/
theorem Rep.truncateSuffix {q : TermMap} {first : Int} {terms : List Nat} {floor : Nat} (h : Rep q first terms floor)
    {kept : Int} (hk : first - 1 ≤ kept) (hk2 : kept < first + terms.length - 1) :
    Rep (q.truncateSuffix kept) first (terms.take (kept - first + 1).toNat) floor := by
  rw [truncateSuffix_eq h.sorted]
  have hlen : (terms.take (kept - first + 1).toNat).length = (kept - first + 1).toNat := by
    rw [List.length_take]; omega
  refine ⟨h.sorted.filter _, ?_, ?_, fun x hx => h.floor x (List.mem_filter.1 hx).1⟩
  · intro x hx
    have : x.1 ≤ kept := by simpa using (List.mem_filter.1 hx).2
    rw [hlen]; omega
  · intro k t ht
    have hkk : k < (kept - first + 1).toNat := by
      have := (List.getElem?_eq_some_iff.1 ht).1
      omega
    rw [List.getElem?_take_of_lt hkk] at ht
    rw [lastLe_filter q (by omega)]
    exact h.known k t ht

theorem Rep.nil (first : Int) (floor : Nat) : Rep [] first [] floor :=
  ⟨.nil, by simp, by simp, by simp⟩

/-! ### C17 over operation sequences -/

namespace Spec

/-- Operations on the log the map belongs to. -/
inductive TOp where
  | append (t : Nat)
  | truncatePrefix (kept : Int)
  | truncateSuffix (kept : Int)
  | reset (next : Int)

/-- The log: its first index, the terms of its entries, and the term of the entry before the first one (0 if none). -/
structure TLog where
  first : Int
  terms : List Nat
  before : Nat

def TLog.lastTerm (a : TLog) : Nat := (a.terms.getLast?).getD a.before

/-- Raft never appends a term below that of the previous entry, and truncates inside the log. -/
def TLog.allows (a : TLog) : TOp → Prop
  | .append t => a.lastTerm ≤ t
  | .truncatePrefix k => a.first ≤ k
  | .truncateSuffix k => a.first - 1 ≤ k ∧ k < a.first + a.terms.length - 1
  | .reset _ => True

def TLog.step (a : TLog) : TOp → TLog
  | .append t => { a with terms := a.terms ++ [t] }
  | .truncatePrefix k => ⟨k, a.terms.drop (k - a.first).toNat, (⟨a.first, a.terms.take (k - a.first).toNat, a.before⟩ : TLog).lastTerm⟩
  | .truncateSuffix k => { a with terms := a.terms.take (k - a.first + 1).toNat }
  | .reset n => ⟨n, [], 0⟩

end Spec

/-- One operation on the map; `none` if append refuses. -/
def TermMap.step (q : TermMap) (a : Spec.TLog) : Spec.TOp → Option TermMap
  | .append t => q.append (a.first + a.terms.length) t
  | .truncatePrefix k => some (q.truncatePrefix k)
  | .truncateSuffix k => some (q.truncateSuffix k)
  | .reset _ => some []

def runTerms : TermMap → Spec.TLog → List Spec.TOp → Option (TermMap × Spec.TLog)
  | q, a, [] => some (q, a)
  | q, a, o :: os => (q.step a o).bind fun q' => runTerms q' (a.step o) os

def allowed : Spec.TLog → List Spec.TOp → Prop
  | _, [] => True
  | a, o :: os => a.allows o ∧ allowed (a.step o) os

/-- C17: whatever the sequence of appends and truncations, no append is refused and the map gives the term of every entry
of the log. -/
theorem C17_terms {q : TermMap} {a : Spec.TLog} (h : Rep q a.first a.terms a.before) {os : List Spec.TOp} (hv : allowed a os) :
    ∃ q' a', runTerms q a os = some (q', a') ∧ a' = os.foldl Spec.TLog.step a ∧
      ∀ i t, termAt a'.first a'.terms i = some t → q'.getTerm i = t := by
  induction os generalizing q a with
  | nil => exact ⟨q, a, rfl, rfl, fun i t hi => h.get hi⟩
  | cons o os ih =>
    obtain ⟨h1, h2⟩ := hv
    have hstep : ∃ q', q.step a o = some q' ∧ Rep q' (a.step o).first (a.step o).terms (a.step o).before := by
      cases o with
      | append t => exact h.append h1
      | truncatePrefix k => exact ⟨_, rfl, h.truncatePrefix h1⟩
      | truncateSuffix k => exact ⟨_, rfl, h.truncateSuffix h1.1 h1.2⟩
      | reset n => exact ⟨_, rfl, Rep.nil n 0⟩
    obtain ⟨q', hq', hr⟩ := hstep
    obtain ⟨q2, a2, e1, e2, e3⟩ := ih hr h2
    exact ⟨q2, a2, by simp [runTerms, hq', e1], e2, e3⟩

/-- Appending a lower term, or an index that is not new, is refused. -/
theorem C17_refuses {q : TermMap} {i : Int} {t : Nat} {b : Int × Nat} (hb : q.getLast? = some b) (h : i ≤ b.1 ∨ t < b.2) :
    q.append i t = none := by simp [TermMap.append, hb, h]

/-- Non-vacuity: a long history that uses the binary search (17 runs), truncations past the end and re-appends. -/
example : ∃ q, runTerms [] ⟨1, [], 0⟩ [.append 1, .append 1, .append 3, .truncateSuffix 2, .append 2, .truncatePrefix 9, .append 2,
    .append 7] = some (q, ⟨9, [2, 7], 2⟩) ∧ q = [(3, 2), (10, 7)] ∧ q.getTerm 9 = 2 := ⟨_, rfl, rfl, by decide⟩
example : let q : TermMap := (List.range 17).map (fun k => ((3 * k : Nat), k + 1)); q.getTerm 10 = 4 ∧ q.getTerm 48 = 17 ∧
    q.getTerm (-1) = 0 := by decide
example : allowed ⟨1, [], 0⟩ [.append 1, .append 1, .append 3, .truncateSuffix 2, .append 2, .truncatePrefix 9, .append 2, .append 7] := by
  simp [allowed, Spec.TLog.allows, Spec.TLog.step, Spec.TLog.lastTerm]

end BaikalDB.RaftLog
