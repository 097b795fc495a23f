import Verif.Handover.Replay

/-!
# The entries that are sent
-/

namespace BaikalDB.Handover

open Spec

/-- The requests for the entries behind the first `a` up to the first `b`. -/
def seg (log : List LogEntry) (a b : Nat) : List Entry :=
  (((log.drop a).take (b - a)).map (·.entry)).filter fun e => decide (e ≠ .conf)

theorem seg_append (log : List LogEntry) {a b c : Nat} (h1 : a ≤ b) (h2 : b ≤ c) :
    seg log a b ++ seg log b c = seg log a c := by
  have h : c - a = (b - a) + (c - b) := by omega
  have h3 : log.drop b = (log.drop a).drop (b - a) := by rw [List.drop_drop]; congr 1; omega
  unfold seg
  rw [h, List.take_add, List.map_append, List.filter_append, h3]

theorem seg_self (log : List LogEntry) (a : Nat) : seg log a a = [] := by simp [seg]

/-- The entries behind the first `a` up to the first `b` may be sent. -/
def Clean (term : Nat) (log : List LogEntry) (a b : Nat) : Prop :=
  ∀ x ∈ (log.drop a).take (b - a), x.term = term ∧ x.entry ≠ .admin

theorem Clean.append {term : Nat} {log : List LogEntry} {a b c : Nat} (h1 : a ≤ b) (h2 : b ≤ c)
    (g1 : Clean term log a b) (g2 : Clean term log b c) : Clean term log a c := by
  have h : c - a = (b - a) + (c - b) := by omega
  have h3 : log.drop b = (log.drop a).drop (b - a) := by rw [List.drop_drop]; congr 1; omega
  intro x hx
  rw [h, List.take_add, List.mem_append, ← h3] at hx
  exact hx.elim (g1 x) (g2 x)

theorem getLog_some {term n : Nat} {xs : List LogEntry} {i : Nat} (hi : 1 ≤ i) {es : List Entry}
    {e : Nat} (h : getLog term n xs i = some (es, e)) : ∃ m, m ≤ xs.length ∧ e = i - 1 + m ∧
      es = ((xs.take m).map (·.entry)).filter (fun e => decide (e ≠ .conf)) ∧
      ∀ x ∈ xs.take m, x.term = term ∧ x.entry ≠ .admin := by
  induction n generalizing xs i es e with
  | zero =>
    simp only [getLog, Option.some.injEq, Prod.mk.injEq] at h
    exact ⟨0, by simp, by omega, by simp [← h.1], by simp⟩
  | succ n ih =>
    cases xs with
    | nil =>
      simp only [getLog, Option.some.injEq, Prod.mk.injEq] at h
      exact ⟨0, by simp, by omega, by simp [← h.1], by simp⟩
    | cons x xs =>
      obtain ⟨tm, en⟩ := x
      simp only [getLog] at h
      split at h
      · simp at h
      · rename_i ht
        have ht : tm = term := by simpa using ht
        cases en with
        | admin => simp at h
        | conf =>
          obtain ⟨m, h1, h2, h3, h4⟩ := ih (by omega) h
          refine ⟨m + 1, by simpa using h1, by omega, by simpa using h3, ?_⟩
          intro x hx
          rw [List.take_succ_cons, List.mem_cons] at hx
          rcases hx with rfl | hx
          · exact ⟨ht, by simp⟩
          · exact h4 x hx
        | _ =>
          simp only [Option.map_eq_some_iff, Prod.mk.injEq] at h
          obtain ⟨⟨es', e'⟩, hq, h5, h6⟩ := h
          obtain ⟨m, h1, h2, h3, h4⟩ := ih (by omega) hq
          refine ⟨m + 1, by simpa using h1, by simp only at h6; omega, ?_, ?_⟩
          · rw [← h5]
            simp [h3]
          · intro x hx
            rw [List.take_succ_cons, List.mem_cons] at hx
            rcases hx with rfl | hx
            · exact ⟨ht, by simp⟩
            · exact h4 x hx

theorem pass_some {term : Nat} {log : List LogEntry} {n i : Nat} (hi : 1 ≤ i) {es : List Entry}
    {e : Nat} (h : pass term (log.take n) i = some (es, e)) : i - 1 ≤ e ∧ es = seg log (i - 1) e ∧
      Clean term log (i - 1) e := by
  obtain ⟨m, h1, h2, h3, h4⟩ := getLog_some hi h
  have ht : ((log.take n).drop (i - 1)).take m = (log.drop (i - 1)).take m := by
    rw [List.drop_take, List.take_take]
    congr 1
    rw [List.length_drop, List.length_take] at h1
    omega
  have hm : e - (i - 1) = m := by omega
  refine ⟨by omega, ?_, ?_⟩
  · rw [h3, ht, seg, hm]
  · intro x hx
    rw [hm, ← ht] at hx
    exact h4 x hx

theorem phase1_some {term : Nat} {log : List LogEntry} {ns : List Nat} {i : Nat} (hi : 1 ≤ i)
    {es : List Entry} {j : Nat} (h : phase1 term log ns i = some (es, j)) :
    i ≤ j ∧ es = seg log (i - 1) (j - 1) ∧ Clean term log (i - 1) (j - 1) := by
  induction ns generalizing i es j with
  | nil =>
    simp only [phase1, Option.some.injEq, Prod.mk.injEq] at h
    obtain ⟨h1, h2⟩ := h
    subst h2
    exact ⟨Nat.le_refl _, by rw [seg_self, h1], by intro x hx; simp at hx⟩
  | cons n ns ih =>
    simp only [phase1] at h
    cases hp : pass term (log.take n) i with
    | none => simp [hp] at h
    | some q =>
      obtain ⟨es', e⟩ := q
      simp only [hp, Option.map_eq_some_iff, Prod.mk.injEq] at h
      obtain ⟨⟨es2, j2⟩, hq, h5, h6⟩ := h
      simp only at h5 h6
      subst h6
      obtain ⟨g1, g2, g3⟩ := pass_some hi hp
      obtain ⟨k1, k2, k3⟩ := ih (by omega) hq
      rw [Nat.add_sub_cancel] at k2 k3
      refine ⟨by omega, ?_, Clean.append g1 (by omega) g3 k3⟩
      rw [← h5, g2, k2, seg_append log g1 (by omega)]

theorem phase2_some {term : Nat} {log : List LogEntry} {ms : List (Nat × Nat)} {i : Nat}
    (hi : 1 ≤ i) {es : List Entry} {e : Nat} (h : phase2 term log ms i = some (es, e)) :
    i - 1 ≤ e ∧ es = seg log (i - 1) e ∧ Clean term log (i - 1) e := by
  induction ms generalizing i es e with
  | nil => simp [phase2] at h
  | cons m ms ih =>
    obtain ⟨n, ap⟩ := m
    simp only [phase2] at h
    cases hp : pass term (log.take n) i with
    | none => simp [hp] at h
    | some q =>
      obtain ⟨es', e'⟩ := q
      simp only [hp] at h
      obtain ⟨g1, g2, g3⟩ := pass_some hi hp
      split at h
      · simp only [Option.some.injEq, Prod.mk.injEq] at h
        obtain ⟨rfl, rfl⟩ := h
        exact ⟨g1, g2, g3⟩
      · simp only [Option.map_eq_some_iff, Prod.mk.injEq] at h
        obtain ⟨⟨es2, j2⟩, hq, h5, h6⟩ := h
        simp only at h5 h6
        subst h6
        obtain ⟨k1, k2, k3⟩ := ih (by omega) hq
        rw [Nat.add_sub_cancel] at k1 k2 k3
        refine ⟨by omega, ?_, Clean.append g1 k1 g3 k3⟩
        rw [← h5, g2, k2, seg_append log g1 k1]

theorem sent_some {term : Nat} {log : List LogEntry} {a : Nat} {ns : List Nat}
    {ms : List (Nat × Nat)} {es : List Entry} {e : Nat}
    (h : sent term log a ns ms = some (es, e)) : a ≤ e ∧ es = seg log a e ∧ Clean term log a e := by
  simp only [sent] at h
  cases hp : phase1 term log ns (a + 1) with
  | none => simp [hp] at h
  | some q =>
    obtain ⟨es', j⟩ := q
    simp only [hp, Option.map_eq_some_iff, Prod.mk.injEq] at h
    obtain ⟨⟨es2, j2⟩, hq, h5, h6⟩ := h
    simp only at h5 h6
    subst h6
    obtain ⟨g1, g2, g3⟩ := phase1_some (by omega) hp
    obtain ⟨k1, k2, k3⟩ := phase2_some (by omega) hq
    rw [Nat.add_sub_cancel] at g2 g3
    refine ⟨by omega, ?_, Clean.append (by omega) k1 g3 k3⟩
    rw [← h5, g2, k2, seg_append log (by omega) k1]

theorem applyAll_append (r : Region) (l m : List Entry) :
    r.applyAll (l ++ m) = (r.applyAll l).applyAll m := List.foldl_append

/-- Entries of raft itself change nothing. -/
theorem applyAll_conf (r : Region) (l : List Entry) :
    r.applyAll (l.filter fun e => decide (e ≠ .conf)) = r.applyAll l := by
  induction l generalizing r with
  | nil => rfl
  | cons e l ih =>
    by_cases h : e = .conf
    · subst h
      rw [List.filter_cons_of_neg (by simp)]
      exact ih r
    · rw [List.filter_cons_of_pos (by simpa using h)]
      exact ih (r.apply e)

end BaikalDB.Handover
