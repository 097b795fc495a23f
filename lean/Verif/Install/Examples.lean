import Verif.Install.Props
import Verif.Recover.Examples

/-!
# C70: cases that meet the hypotheses

The log of `Recover.demo`: transaction 1 is open from the first entry to the sixth, transaction 2
from the third to the seventh, transaction 3 from the eighth on.
-/

namespace BaikalDB.Install

open BaikalDB.Recover

/-- The leader has applied five entries and saves a snapshot; transactions 1 and 2 are open. -/
def leader : Node := (upTo demo 5).save

theorem leader_peer : Peer demo leader := .save upTo_calm.peer

theorem leader_begins (t b : Nat) (h : leader.sys.disk.begins t = some b) : 1 ≤ b := by
  have : b ≠ 0 := by
    intro hb
    subst hb
    have hd : leader.sys.disk.begins = upd (upd (fun _ => none) 1 (some 1)) 2 (some 3) := rfl
    rw [hd] at h
    unfold upd at h
    split at h
    · simp at h
    · split at h <;> simp at h
  omega

/-- A new peer joins, dies in the middle of the commit that follows, and goes on. -/
def newcomer : Node := install demo 1 leader blank true 0

theorem newcomer_peer : Peer demo newcomer := .join leader_peer leader_begins

theorem newcomer_dies : Peer demo (newcomer.crash demo 1) := by
  refine .crash 1 newcomer_peer ?_ (by decide +kernel)
  intro t ht
  exact absurd (rfl : newcomer.sys.disk.pre t = none) ht

example : (feed (newcomer.crash demo 1) (demo.drop 5)).sys.disk.data = Spec.data demo ∧
    Knows (feed (newcomer.crash demo 1) (demo.drop 5)).sys.mem demo :=
  C70_rows_after_the_log demo_valid newcomer_dies

example : newcomer.sys.n = 5 ∧ newcomer.sys.disk.data 2 = some 20 ∧
    newcomer.sys.mem.txns 1 = some ⟨2, [.put 1 10, .merge 3 4], 0, true⟩ ∧
    newcomer.sys.disk.begins 2 = some 3 := by decide +kernel

/-- A peer that has applied two entries gets the rows; the transactions 1 and 2 are rebuilt. -/
def laggard : Node := install demo 1 leader (upTo demo 2) false 3

theorem laggard_peer : Peer demo laggard :=
  .install leader_peer upTo_calm.peer (by decide +kernel) (by decide +kernel) leader_begins
    (by decide +kernel)

example : (∃ P, laggard.sys.snap ≤ P ∧ laggard.sys.n ≤ P ∧ P ≤ demo.length ∧
    laggard.sys.disk.data = Spec.data (demo.take P) ∧ Knows laggard.sys.mem (demo.take P)) :=
  C70_state_is_a_prefix demo_valid laggard_peer

example : sends leader 3 = true ∧ laggard.sys.mem.txns 2 = some ⟨1, [.del 2], 0, false⟩ := by
  decide +kernel

/-- A peer to which the rows are not sent: the last two entries changed none. -/
def quietLog : List Entry := [.write [.put 7 5] 1, .other, .other, .other, .write [.put 7 6] 0]

theorem quiet_valid : Recover.Spec.Valid quietLog := by
  intro n e h
  have hn : n < 5 := (List.getElem?_eq_some_iff.1 h).1
  interval_cases n <;> simp [quietLog] at h <;> subst h <;> simp [Recover.Spec.Follows]

example : (install quietLog 1 (upTo quietLog 4).save (upTo quietLog 2) false 3).sys.disk.data
    = (upTo quietLog 4).save.sys.disk.data :=
  (C70_rows_need_not_be_sent quiet_valid (.save upTo_calm.peer) (f := upTo quietLog 2) upTo_calm
    (by decide +kernel) (fun t b h => by
      have : (upTo quietLog 4).save.sys.disk.begins t = none := rfl
      rw [this] at h; cases h)).2

example : sends (upTo quietLog 4).save 3 = false ∧
    (install quietLog 1 (upTo quietLog 4).save (upTo quietLog 2) false 3).sys.disk.data 7 = some 5
    := by decide +kernel

/-- The leader and the peer of the first counterexample are reachable, and its log is valid; only
the condition on what the peer has applied fails. -/
example : Peer behindLog (upTo behindLog 4).save ∧ Peer behindLog (upTo behindLog 1) ∧
    ¬ ((upTo behindLog 4).save.memData < 3 →
      (upTo behindLog 4).save.diskData ≤ (upTo behindLog 1).memData) :=
  ⟨.save upTo_calm.peer, upTo_calm.peer, by decide +kernel⟩

end BaikalDB.Install
