import Verif.Reverse.Levels
import Verif.Reverse.Spec

/-! # The executors of a query -/

namespace BaikalDB.Reverse
open Spec

variable {K T : Type} [LinearOrder K] [OrderBot K]

omit [OrderBot K] in
theorem ex_sorted (l : List K) : ∃ L : List K, L.Pairwise (· < ·) ∧ ∀ x, x ∈ L ↔ x ∈ l := by
  induction l with
  | nil => exact ⟨[], List.Pairwise.nil, fun _ => Iff.rfl⟩
  | cons a l ih =>
    obtain ⟨L, h1, h2⟩ := ih
    refine ⟨L.filter (fun y => decide (y < a)) ++ a :: L.filter (fun y => decide (a < y)), ?_, fun x => ?_⟩
    · rw [List.pairwise_append, List.pairwise_cons]
      refine ⟨h1.filter _, ⟨fun y hy => by simpa using (List.mem_filter.1 hy).2, h1.filter _⟩, fun y hy z hz => ?_⟩
      have hya : y < a := by simpa using (List.mem_filter.1 hy).2
      rcases List.mem_cons.1 hz with rfl | hz
      · exact hya
      · exact lt_trans hya (by simpa using (List.mem_filter.1 hz).2)
    · simp only [List.mem_append, List.mem_cons, List.mem_filter, decide_eq_true_eq, h2]
      constructor
      · rintro (h | rfl | h)
        · exact .inr h.1
        · exact .inl rfl
        · exact .inr h.1
      · rintro (rfl | h)
        · exact .inr (.inl rfl)
        · rcases lt_trichotomy x a with h3 | h3 | h3
          · exact .inl ⟨h, h3⟩
          · exact .inr (.inl h3)
          · exact .inr (.inr ⟨h, h3⟩)

theorem ex_and {n : Nat} {subs : List (Exec K)} {ls : List (List K)} (h : List.Forall₂ (ExI n) subs ls) (hne : ls ≠ []) :
    ∃ L, ExI (n + 1) (.and ⟨subs, true, false, some ⊥⟩) L ∧ ∀ x, x ∈ L ↔ ∀ l ∈ ls, x ∈ l := by
  obtain ⟨L, h1, h2⟩ := ex_sorted ((ls.headD []).filter fun x => decide (∀ l ∈ ls, x ∈ l))
  have hm : ∀ x, x ∈ L ↔ ∀ l ∈ ls, x ∈ l := by
    intro x
    rw [h2, List.mem_filter, decide_eq_true_eq]
    refine ⟨fun h => h.2, fun h => ⟨?_, h⟩⟩
    cases ls with
    | nil => exact absurd rfl hne
    | cons l ls => exact h l List.mem_cons_self
  exact ⟨L, ⟨h1, rfl, rfl, .inr ⟨ls, h, hne, hm⟩⟩, hm⟩

theorem ex_or {n : Nat} {subs : List (Exec K)} {ls : List (List K)} (h : List.Forall₂ (ExI n) subs ls) :
    ∃ L, ExI (n + 1) (.or ⟨subs, true, false, some ⊥⟩) L ∧ ∀ x, x ∈ L ↔ ∃ l ∈ ls, x ∈ l := by
  obtain ⟨L, h1, h2⟩ := ex_sorted ls.flatten
  have hm : ∀ x, x ∈ L ↔ ∃ l ∈ ls, x ∈ l := by
    intro x; rw [h2, List.mem_flatten]
  exact ⟨L, ⟨h1, rfl, rfl, ls, h, hm⟩, hm⟩

section
variable {leaf : T → Exec K} {S : T → List K}

theorem parseAll_terms (ts : List T) : parseAll leaf (ts.map Tree.term) = ts.map leaf := by
  induction ts with
  | nil => rfl
  | cons t ts ih => simp only [List.map_cons, parseAll, parse, ih]

theorem terms_I (hl : ∀ t n, ExI (n + 1) (leaf t) (S t)) (n : Nat) (ts : List T) : List.Forall₂ (ExI (n + 1)) (ts.map leaf) (ts.map S) := by
  induction ts with
  | nil => exact .nil
  | cons t ts ih => exact .cons (hl t n) ih

theorem and_terms (hl : ∀ t n, ExI (n + 1) (leaf t) (S t)) (n : Nat) {ts : List T} (hne : ts ≠ []) :
    ∃ e L, parse leaf (.and (ts.map .term)) = some e ∧ ExI (n + 2) e L ∧ ∀ x, x ∈ L ↔ ∀ t ∈ ts, x ∈ S t := by
  obtain ⟨L, h1, h2⟩ := ex_and (terms_I hl n ts) (by simpa using hne)
  refine ⟨_, L, ?_, h1, fun x => ?_⟩
  · unfold parse
    rw [if_neg (by cases ts <;> simp at hne ⊢), parseAll_terms]
  · rw [h2]; simp

theorem or_terms (hl : ∀ t n, ExI (n + 1) (leaf t) (S t)) (n : Nat) {ts : List T} (hne : ts ≠ []) :
    ∃ e L, parse leaf (.or (ts.map .term)) = some e ∧ ExI (n + 2) e L ∧ ∀ x, x ∈ L ↔ ∃ t ∈ ts, x ∈ S t := by
  obtain ⟨L, h1, h2⟩ := ex_or (terms_I hl n ts)
  refine ⟨_, L, ?_, h1, fun x => ?_⟩
  · unfold parse
    rw [if_neg (by cases ts <;> simp at hne ⊢), parseAll_terms]
  · rw [h2]; simp

theorem item_spec (hl : ∀ t n, ExI (n + 1) (leaf t) (S t)) (n : Nat) {ts : List T} (hne : ts ≠ []) :
    ∃ tr e L, itemTree ts = some tr ∧ parse leaf tr = some e ∧ ExI (n + 2) e L ∧ ∀ x, x ∈ L ↔ ∀ t ∈ ts, x ∈ S t := by
  match ts, hne with
  | [t], _ => exact ⟨_, _, S t, rfl, rfl, hl t (n + 1), fun x => by simp⟩
  | t :: u :: ts, h =>
    obtain ⟨e, L, h1, h2, h3⟩ := and_terms hl n h
    exact ⟨_, e, L, rfl, h1, h2, h3⟩

theorem items_spec (hl : ∀ t n, ExI (n + 1) (leaf t) (S t)) (n : Nat) (items : List (List T)) :
    ∃ ls, List.Forall₂ (ExI (n + 2)) (parseAll leaf (items.filterMap itemTree)) ls ∧
      ∀ x, (∃ l ∈ ls, x ∈ l) ↔ ∃ ts ∈ items, ts ≠ [] ∧ ∀ t ∈ ts, x ∈ S t := by
  induction items with
  | nil => exact ⟨[], .nil, fun x => by simp⟩
  | cons ts items ih =>
    obtain ⟨ls, h1, h2⟩ := ih
    by_cases hts : ts = []
    · subst hts
      refine ⟨ls, h1, fun x => ?_⟩
      rw [h2]; simp
    · obtain ⟨tr, e, L, h3, h4, h5, h6⟩ := item_spec hl n hts
      refine ⟨L :: ls, ?_, fun x => ?_⟩
      · rw [List.filterMap_cons_some h3]
        unfold parseAll
        rw [h4]
        exact .cons h5 h1
      · simp only [List.mem_cons, exists_eq_or_imp, h2, h6]
        simp only [hts, ne_eq, not_false_eq_true, true_and]

omit [LinearOrder K] [OrderBot K] in
theorem no_items {items : List (List T)} (h : items.filterMap itemTree = []) : ∀ ts ∈ items, ts = [] := by
  intro ts hts
  rw [List.filterMap_eq_nil_iff] at h
  have := h ts hts
  match ts with
  | [] => rfl
  | [t] => simp [itemTree] at this
  | t :: u :: ts => simp [itemTree] at this

theorem find_spec (hl : ∀ t n, ExI (n + 1) (leaf t) (S t)) (n : Nat) (natural : Bool) (items : List (List T))
    (hok : natural = true → items.length = 1) :
    ((matchTree natural items).bind (parse leaf) = none ∧ (¬ ∃ ts ∈ items, ts ≠ []) ∧ ∀ x : K, ¬ Holds (fun t => x ∈ S t) (.find natural items)) ∨
    ∃ e L, (matchTree natural items).bind (parse leaf) = some e ∧ ExI (n + 3) e L ∧ ∀ x, x ∈ L ↔ Holds (fun t => x ∈ S t) (.find natural items) := by
  match items, hok with
  | [], hok =>
    left
    refine ⟨rfl, by simp, fun x => ?_⟩
    cases natural <;> simp [Holds]
  | [[t]], hok =>
    right
    refine ⟨leaf t, S t, rfl, hl t _, fun x => ?_⟩
    cases natural <;> simp [Holds]
  | [[]], hok =>
    left
    refine ⟨?_, by simp, fun x => ?_⟩
    · cases natural <;> simp [matchTree, parse]
    · cases natural <;> simp [Holds]
  | [t :: u :: ts], hok =>
    right
    cases natural with
    | true =>
      obtain ⟨e, L, h1, h2, h3⟩ := or_terms hl (n + 1) (ts := t :: u :: ts) (by simp)
      exact ⟨e, L, h1, h2, fun x => by rw [h3]; simp [Holds]⟩
    | false =>
      obtain ⟨e, L, h1, h2, h3⟩ := and_terms hl (n + 1) (ts := t :: u :: ts) (by simp)
      exact ⟨e, L, h1, h2, fun x => by rw [h3]; simp [Holds]⟩
  | a :: b :: items, hok =>
    have hnat : natural = false := by
      cases natural with
      | true => simp at hok
      | false => rfl
    subst hnat
    have hm : matchTree false (a :: b :: items) = some (.or ((a :: b :: items).filterMap itemTree)) := by
      unfold matchTree
      split <;> simp_all
    rw [hm]
    simp only [Option.bind_some]
    unfold parse
    generalize a :: b :: items = its
    by_cases hemp : its.filterMap itemTree = []
    · left
      rw [hemp]
      have := no_items hemp
      refine ⟨rfl, fun ⟨ts, h1, h2⟩ => h2 (this ts h1), fun x => ?_⟩
      simp only [Holds]
      rintro ⟨ts, h1, h2, _⟩
      exact h2 (this ts h1)
    · right
      rw [if_neg (by simpa using hemp)]
      obtain ⟨ls, h1, h2⟩ := items_spec hl n its
      obtain ⟨L, h3, h4⟩ := ex_or h1
      exact ⟨_, L, rfl, h3, fun x => by rw [h4, h2]; simp only [Holds]⟩

mutual
theorem build_spec (hl : ∀ t n, ExI (n + 1) (leaf t) (S t)) (q : Query T) (hok : Ok q) (n : Nat) (hn : q.depth ≤ n) :
    (q.build leaf = none ∧ ¬ HasTerms q ∧ ∀ x : K, ¬ Holds (fun t => x ∈ S t) q) ∨
    ∃ e L, q.build leaf = some e ∧ ExI n e L ∧ ∀ x, x ∈ L ↔ Holds (fun t => x ∈ S t) q := by
  match q, hok, hn with
  | .find natural items, hok, hn =>
    simp only [Query.depth] at hn
    obtain ⟨m, rfl⟩ : ∃ m, n = m + 3 := ⟨n - 3, by omega⟩
    exact find_spec hl m natural items hok
  | .all l, hok, hn =>
    simp only [Query.depth] at hn
    obtain ⟨m, rfl⟩ : ∃ m, n = m + 1 := ⟨n - 1, by omega⟩
    simp only [Ok] at hok
    obtain ⟨ls, h1, h2, h3⟩ := buildAll_all hl l hok.2 m (by omega)
    obtain ⟨L, h4, h5⟩ := ex_and h1 (by
      intro e
      rw [e] at h2
      exact hok.1 (List.length_eq_zero_iff.1 h2.symm))
    exact .inr ⟨_, L, rfl, h4, fun x => by rw [h5, h3]; simp only [Holds]⟩
  | .any l, hok, hn =>
    simp only [Query.depth] at hn
    obtain ⟨m, rfl⟩ : ∃ m, n = m + 1 := ⟨n - 1, by omega⟩
    simp only [Ok] at hok
    obtain ⟨ls, h1, h3⟩ := buildAll_any hl l hok m (by omega)
    obtain ⟨L, h4, h5⟩ := ex_or h1
    exact .inr ⟨_, L, rfl, h4, fun x => by rw [h5, h3]; simp only [Holds]⟩
theorem buildAll_all (hl : ∀ t n, ExI (n + 1) (leaf t) (S t)) (qs : List (Query T)) (hok : OkAll qs) (n : Nat) (hn : Query.depths qs ≤ n) :
    ∃ ls, List.Forall₂ (ExI n) (Query.buildAll leaf qs) ls ∧ ls.length = qs.length ∧
      ∀ x : K, (∀ l ∈ ls, x ∈ l) ↔ HoldsAll (fun t => x ∈ S t) qs := by
  match qs, hok, hn with
  | [], _, _ => exact ⟨[], .nil, rfl, fun x => by simp [HoldsAll]⟩
  | q :: qs, hok, hn =>
    simp only [OkAll] at hok
    simp only [Query.depths] at hn
    obtain ⟨ls, h1, h2, h3⟩ := buildAll_all hl qs hok.2.2 n (by omega)
    rcases build_spec hl q hok.1 n (by omega) with ⟨_, h4, _⟩ | ⟨e, L, h4, h5, h6⟩
    · exact absurd hok.2.1 h4
    · refine ⟨L :: ls, ?_, by simp [h2], fun x => ?_⟩
      · unfold Query.buildAll
        rw [h4]
        exact .cons h5 h1
      · simp only [List.mem_cons, forall_eq_or_imp, h3, h6, HoldsAll]
theorem buildAll_any (hl : ∀ t n, ExI (n + 1) (leaf t) (S t)) (qs : List (Query T)) (hok : OkAny qs) (n : Nat) (hn : Query.depths qs ≤ n) :
    ∃ ls, List.Forall₂ (ExI n) (Query.buildAll leaf qs) ls ∧
      ∀ x : K, (∃ l ∈ ls, x ∈ l) ↔ HoldsAny (fun t => x ∈ S t) qs := by
  match qs, hok, hn with
  | [], _, _ => exact ⟨[], .nil, fun x => by simp [HoldsAny]⟩
  | q :: qs, hok, hn =>
    simp only [OkAny] at hok
    simp only [Query.depths] at hn
    obtain ⟨ls, h1, h3⟩ := buildAll_any hl qs hok.2 n (by omega)
    rcases build_spec hl q hok.1 n (by omega) with ⟨h4, _, h6⟩ | ⟨e, L, h4, h5, h6⟩
    · refine ⟨ls, ?_, fun x => ?_⟩
      · unfold Query.buildAll
        rw [h4]
        exact h1
      · simp only [h3, HoldsAny, h6 x, false_or]
    · refine ⟨L :: ls, ?_, fun x => ?_⟩
      · unfold Query.buildAll
        rw [h4]
        exact .cons h5 h1
      · simp only [List.mem_cons, exists_eq_or_imp, h3, h6, HoldsAny]
end

end

/-! A condition does not hold for a row without terms. -/
mutual
theorem noHolds (q : Query T) (h : Ok q) : ¬ Holds (fun _ => False) q := by
  match q, h with
  | .find true items, _ => simp [Holds]
  | .find false items, _ =>
    simp only [Holds]
    rintro ⟨ts, _, h1, h2⟩
    cases ts with
    | nil => exact h1 rfl
    | cons t ts => exact h2 t List.mem_cons_self
  | .all [], h => simp only [Ok] at h; exact absurd rfl h.1
  | .all (q :: qs), h =>
    simp only [Ok, OkAll] at h
    simp only [Holds, HoldsAll]
    exact fun h1 => noHolds q h.2.1 h1.1
  | .any l, h =>
    simp only [Ok] at h
    simp only [Holds]
    exact noHoldsAny l h
theorem noHoldsAny (qs : List (Query T)) (h : OkAny qs) : ¬ HoldsAny (fun _ => False) qs := by
  match qs, h with
  | [], _ => simp [HoldsAny]
  | q :: qs, h =>
    simp only [OkAny] at h
    simp only [HoldsAny]
    rintro (h1 | h1)
    · exact noHolds q h.1 h1
    · exact noHoldsAny qs h.2 h1
end

end BaikalDB.Reverse
