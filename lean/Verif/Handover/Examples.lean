import Verif.Handover.Props

/-!
# A split

Transaction 7 has one statement before the snapshot, one after it, and is prepared during the
split; it commits after the switch. The row 8 is deleted while the first entries are sent.
-/

namespace BaikalDB.Handover

open Spec

def demoLog : List LogEntry :=
  [⟨1, .write [.put (.row 1) 10, .put (.row 8) 80, .put (.row 9) 0, .put (.uniq 5) 9]⟩,
    ⟨1, .stmt 7 2 [.put (.row 9) 90, .put (.row 2) 20]⟩,
    -- the snapshot
    ⟨1, .stmt 7 3 [.put (.key 3 9) 0, .put (.uniq 6) 9]⟩,
    ⟨1, .conf⟩,
    ⟨1, .prepare 7 4⟩,
    ⟨1, .write [.del (.row 8)]⟩,
    -- the switch
    ⟨1, .admin⟩]

/-- The third statement is executed but not applied when the snapshot is taken. -/
def demoPend : Nat → List (Nat × Cmd) :=
  fun t => if t = 7 then [(3, .batch [.put (.key 3 9) 0, .put (.uniq 6) 9])] else []

def demo : Option (Region × Region) :=
  split blank demoLog 5 2 demoPend [7] [1, 3] [(6, 5), (6, 5), (6, 6)] 1 7

example : demo.isSome = true := by decide +kernel

example : demo.map (fun q => (q.2.data (.row 1), q.2.data (.row 8), q.2.data (.row 9),
    q.2.data (.uniq 5))) = some (none, none, some 0, some 9) := by decide +kernel

example : demo.map (fun q => (q.2.txns 7).map fun x => (x.seq, x.ops, x.prepared)) =
    some (some (4, [.put (.row 9) 90, .put (.key 3 9) 0, .put (.uniq 6) 9], true)) := by
  decide +kernel

/-- After the commit each row is where it belongs. -/
example : demo.map (fun q => ((q.1.applyAll [.commit 7]).data (.row 2),
    (q.2.applyAll [.commit 7]).data (.row 9), (q.2.applyAll [.commit 7]).data (.key 3 9))) =
    some (some 20, some 90, some 0) := by decide +kernel

/-- A write between the last entry sent and the switch: the split is given up. -/
example : split blank (demoLog.take 6 ++ [⟨1, .write []⟩, ⟨1, .admin⟩]) 5 2 demoPend [7] [1, 3]
    [(6, 6)] 1 8 = none := rfl

/-- The leader has changed: the split is given up. -/
example : split blank (demoLog.take 5 ++ [⟨2, .write []⟩, ⟨2, .admin⟩]) 5 2 demoPend [7] [1, 3]
    [(6, 6)] 1 7 = none := rfl

theorem demo_valid : Valid ((demoLog.take 6).map (·.entry)) := by
  refine ⟨trivial, ⟨rfl, rfl, ?_⟩, ⟨rfl, rfl, ?_⟩, trivial, ⟨rfl, rfl, ?_⟩, trivial, trivial⟩ <;>
    decide

theorem demo_open (t : Nat) (h : isOpen t ((demoLog.take 2).map (·.entry)) = true) : t ∈ [7] := by
  simp [demoLog, isOpen, seen, of] at h
  simp [h.1]

theorem demo_pend (t : Nat) : ∀ c ∈ demoPend t,
    (if isOpen t ((demoLog.take 2).map (·.entry)) then
      lastSeq t ((demoLog.take 2).map (·.entry)) else 0) < c.1 := by
  intro c hc
  unfold demoPend at hc
  split at hc
  · subst t
    simp only [List.mem_singleton] at hc
    subst hc
    decide
  · simp at hc

/-- The hypotheses of the theorems hold of it. -/
example : ∃ o n, demo = some (o, n) ∧
    (∀ k, isRowOf (Within 5 none) k →
      n.data k = Spec.data blank.data ((demoLog.take 6).map (·.entry)) k) ∧
    (∀ k, isRowOf (Within 5 none) k → (n.applyAll [.commit 7]).data k =
      Spec.data blank.data ((demoLog.take 6).map (·.entry) ++ [.commit 7]) k) := by
  cases h : demo with
  | none => exact absurd h (by
      have : demo.isSome = true := by decide +kernel
      intro hc
      rw [hc] at this
      cases this)
  | some q =>
    obtain ⟨o, n⟩ := q
    refine ⟨o, n, rfl, fun k hk => ?_, fun k hk => ?_⟩
    · exact (C68_rows h (fun _ => rfl) (by decide) demo_valid (by decide) demo_open demo_pend k).1 hk
    · exact (C68_as_without_split h (fun _ => rfl) (by decide) demo_valid (by decide) demo_open
        demo_pend (more := [.commit 7]) (olds := [.commit 7]) ⟨⟨rfl, rfl⟩, trivial⟩
        (.cons (.commit 7) .nil) (.cons (.commit 7) .nil) k).2 hk

example : Inside blank.range.start blank.range.stop 5 := by simp [Inside, blank]

/-- Shares: what the table is told to do, and the part of the region behind the split key. -/
example : Share (isRowOf (Within 5 none)) (.write [.put (.row 1) 1, .put (.row 7) 2])
    (.write [.put (.row 7) 2]) :=
  .write (.left (by simp [isRowOf, about, Within]) (.both _ .nil))

end BaikalDB.Handover
