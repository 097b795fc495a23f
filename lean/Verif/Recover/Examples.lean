import Verif.Recover.Props
import Mathlib.Tactic.IntervalCases

/-!
# C67: cases that meet the hypotheses
-/

namespace BaikalDB.Recover

open BaikalDB.Recover.Spec (isOpen seen ended lastSeq Follows Valid)

/-- Two transactions around a write; one commits, one rolls back, a third stays open. -/
def demo : List Entry :=
  [.stmt 1 1 [.put 1 10] 1, .write [.put 2 20, .merge 3 1] 2, .stmt 2 1 [.del 2] (-1),
    .stmt 1 2 [.merge 3 4] 0, .prepare 1, .commit 1, .rollback 2, .stmt 3 1 [.put 9 9] 1]

theorem demo_valid : Valid demo := by
  intro n e h
  have hn : n < 8 := (List.getElem?_eq_some_iff.1 h).1
  interval_cases n <;> simp [demo] at h <;> subst h <;> simp [Follows, demo] <;> decide

/-- The region after the five entries before the commit, with a snapshot after the second. -/
def demoAt : Sys := feed (feed init (demo.take 2)).save ((demo.take 5).drop 2)

theorem demoAt_run : Run demo demoAt := by
  refine .step (.step (.step (.save (.step (.step .init ?_) ?_)) ?_) ?_) ?_ <;> rfl

/-- Dying in the middle of the commit, after each of its writes: nothing is lost or done twice. -/
example (k : Nat) : (feed (demoAt.restart demo (demoAt.torn demo k)) (demo.drop 2)).disk.data
    = Spec.data demo := (C67_first_crash demo_valid demoAt_run k).1

/-- The four disks of that commit, and what they become. -/
example : ((List.range 4).map fun k => ((demoAt.torn demo k).data 3, (demoAt.torn demo k).applied,
      (demoAt.restart demo (demoAt.torn demo k)).disk.applied,
      ((demoAt.restart demo (demoAt.torn demo k)).mem.txns 1).isSome))
    = [(some 1, 3, 3, true), (some 1, 3, 3, true), (some 5, 3, 6, false), (some 5, 6, 6, false)] := by
  decide +kernel

example : Spec.data demo 1 = some 10 ∧ Spec.data demo 2 = some 20 ∧ Spec.data demo 3 = some 5 ∧
    Spec.data demo 9 = none ∧ isOpen 3 demo = true := by decide +kernel

/-- After the commit there is a second crash, now while transaction 2 rolls back. -/
def demoTwice : Sys :=
  feed (demoAt.restart demo (demoAt.torn demo 2)) ((demo.drop 2).take 4)

theorem demoTwice_reach : Reach demo false demoTwice := by
  refine .step (.step (.step (.step (.crash 2 demoAt_run.reach ?_ ?_) ?_) ?_) ?_) ?_
  · exact fun t ht => absurd (demoAt_run.marks t) ht
  · intro h; cases h
  all_goals rfl

/-- The second crash meets the condition: no mark is left. -/
theorem demoTwice_safe (k : Nat) : Safe demoTwice demo k := by
  intro t ht
  exfalso
  apply ht
  show upd (upd (upd (fun _ => none) 1 _) 1 none) 1 none t = none
  unfold upd
  split <;> simp_all

example (k : Nat) : ∃ p, 2 ≤ p ∧ p ≤ 8 ∧
    (demoTwice.restart demo (demoTwice.torn demo k)).disk.data = Spec.data (demo.take p) ∧
    Knows (demoTwice.restart demo (demoTwice.torn demo k)).mem (demo.take p) :=
  C67_state_is_a_prefix (s := demoTwice.restart demo (demoTwice.torn demo k)) demo_valid
    (.crash k demoTwice_reach (demoTwice_safe k) (fun h => by cases h))

/-- A quiet crash: between two transactions, with a write half done or not. -/
def calm : List Entry :=
  [.stmt 1 1 [.put 1 10] 1, .prepare 1, .commit 1, .write [.put 2 20] 1, .other]

theorem calm_valid : Valid calm := by
  intro n e h
  have hn : n < 5 := (List.getElem?_eq_some_iff.1 h).1
  interval_cases n <;> simp [calm] at h <;> subst h <;> simp [Follows, calm] <;> decide

def calmAt : Sys := feed init (calm.take 3)

theorem calmAt_run : Run calm calmAt := by
  refine .step (.step (.step .init ?_) ?_) ?_ <;> rfl

theorem calmAt_reach : Reach calm true (calmAt.restart calm (calmAt.torn calm 1)) := by
  refine .crash 1 calmAt_run.reach (fun t ht => absurd (calmAt_run.marks t) ht) ?_
  intro _ t
  show upd (upd (fun _ => none) 1 (some 1)) 1 none t = none
  unfold upd
  split <;> simp_all

example : (feed (calmAt.restart calm (calmAt.torn calm 1)) calm).disk.lines = 2 :=
  (C67_row_count_when_quiet calm_valid calmAt_reach (Or.inl rfl)).1.trans (by decide +kernel)

/-- The stale mark of the counterexample is what `Safe` excludes. -/
example : ¬ Safe staleOnce staleLog 0 := by
  intro h
  have := h 1 (by decide +kernel)
  revert this
  decide +kernel

end BaikalDB.Recover
