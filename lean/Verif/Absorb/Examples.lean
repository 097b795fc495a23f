import Verif.Absorb.Props

/-!
C71: the ways in which a merge goes wrong, and runs that meet the hypotheses of the theorems.
-/

namespace BaikalDB.Absorb

open Spec

/-- Two neighbouring regions, `[10, 20)` without rows and `[20, 30)` with one. -/
def s0 : Sys where
  src := { info := ⟨10, some 20, 3⟩, rows := [], txns := [], queue := [],
           views := [⟨10, some 20, 3⟩, ⟨10, some 30, 2⟩], applied := 5 }
  dst := { info := ⟨20, some 30, 1⟩, rows := [(25, 7)], txns := [], queue := [],
           views := [⟨20, some 30, 1⟩], applied := 8 }
  lastcycle := 5
  disabled := false
  dstDoing := false
  passed := []
  phase := .idle
  client := []
  acked := [⟨25, some 7⟩]

theorem s0_before : Before 10 20 (some 30) s0 where
  lt := by decide
  ltc := by intro x h; cases h; decide
  src := ⟨rfl, rfl⟩
  dst := ⟨rfl, rfl⟩
  phase := rfl
  enabled := rfl
  idle := rfl
  srcQueue := rfl
  dstQueue := rfl
  passed := rfl
  srcViews := by decide
  dstViews := by decide
  srcRows := by
    intro k hk
    have h1 : k < 20 := hk.2 20 rfl
    have h2 : ¬ (25 = k) := by
      intro x
      subst x
      exact absurd h1 (by decide)
    refine ⟨fun x => ?_, rfl⟩
    simp [s0, Value, h2]
  dstRows := by
    intro k _
    refine ⟨fun x => ?_, rfl⟩
    by_cases h2 : k = 25
    · subst h2
      simp [s0, Value, eq_comm]
    · have h3 : ¬ (25 = k) := fun y => h2 y.symm
      simp [s0, Value, h2, h3]
  dstOnly := by
    intro k hk
    refine ⟨fun x => ?_, rfl⟩
    have h2 : ¬ (k = 25) := by
      intro x
      subst x
      exact hk ⟨by decide, fun y hy => by cases hy; decide⟩
    simp [s0, h2]

/-- A statement on key 12 for the source. -/
def q12 : Req := ⟨⟨12, some 1⟩, ⟨10, some 20, 3⟩⟩

/-- What the meta server says of the destination. -/
def m0 : Meta := ⟨20, some 30, 1⟩

/-- A statement that has passed the wait of `_disable_write_cond` just before the merge begins,
and is counted in `_real_writing_cond` only after the merge has looked at it, is acknowledged, and
its row is gone: its key belongs to the destination, which does not have it.  Unlike the split
(`split_end_index + 1 != applied_index`), the merge does not check again when its own entry is
applied. -/
theorem C71_late_writer_counterexample : ∃ xs s', run s0 xs = some s' ∧
    (∀ x ∈ xs, x ≠ .lose ∧ x ≠ .failSrc ∧ x ≠ .failDst) ∧ s'.src.txns = [] ∧
    Value s'.acked 12 = some 1 ∧ get s'.dst.rows 12 = none ∧ Covers s'.dst.info 12 ∧
    (∀ k, ¬ Covers s'.src.info k) ∧ s'.src.queue = [] ∧ s'.dst.queue = [] := by
  refine ⟨[.pass q12, .start m0, .check, .ask, .enter q12, .applyDst, .finish, .applySrc,
    .applySrc], _, rfl, by decide, rfl, rfl, rfl, ?_, ?_, rfl, rfl⟩
  · exact ⟨by decide, fun y hy => by cases hy; decide⟩
  · exact fun k hk => absurd (hk.2 10 rfl) (Nat.not_lt.2 hk.1)

/-- A transaction with a statement at the source, then no statement for a while: the region has no
committed row, it is merged, and the COMMIT of the transaction, sent to the destination, succeeds
without the row.  (No row of an open transaction is seen by `has_sst_data`, and nothing else keeps
a region with open transactions from being merged.) -/
theorem C71_open_transaction_counterexample : ∃ xs s', run s0 xs = some s' ∧
    (∀ x ∈ xs, x ≠ .lose ∧ x ≠ .failSrc ∧ x ≠ .failDst ∧ ∀ q, x ≠ .enter q) ∧
    s'.client = [] ∧
    Value s'.acked 12 = some 1 ∧ get s'.dst.rows 12 = none ∧ Covers s'.dst.info 12 ∧
    (∀ k, ¬ Covers s'.src.info k) := by
  refine ⟨[.stmt true 9 q12, .tick, .start m0, .check, .ask, .applyDst, .finish, .applySrc,
    .commit 9], _, rfl, ?_, rfl, rfl, rfl, ?_, ?_⟩
  · intro x hx
    refine ⟨?_, ?_, ?_, ?_⟩
    · rintro rfl; revert hx; decide
    · rintro rfl; revert hx; decide
    · rintro rfl; revert hx; decide
    · rintro q rfl; simp at hx
  · exact ⟨by decide, fun y hy => by cases hy; decide⟩
  · exact fun k hk => absurd (hk.2 10 rfl) (Nat.not_lt.2 hk.1)

/-- The source is no longer leader when it gives its own, empty range to raft: the destination
keeps the keys of the source, and so does the source.  Both take statements, a row written to one
is not found at the other, and the source is not merged any more, since it has a row. -/
theorem C71_failed_source_counterexample : ∃ xs s', run s0 xs = some s' ∧
    (∀ x ∈ xs, x ≠ .lose) ∧ s'.phase = .idle ∧ s'.src.queue = [] ∧ s'.dst.queue = [] ∧
    Covers s'.src.info 12 ∧ Covers s'.dst.info 12 ∧
    accepts s'.src s'.src.info = true ∧ accepts s'.dst s'.dst.info = true ∧
    Value s'.acked 12 = some 1 ∧ get s'.dst.rows 12 = none ∧
    Value s'.acked 13 = some 2 ∧ get s'.src.rows 13 = none := by
  refine ⟨[.start m0, .check, .ask, .applyDst, .finish, .failSrc,
    .pass q12, .enter q12, .applySrc, .dstPut ⟨⟨13, some 2⟩, ⟨10, some 30, 2⟩⟩, .applyDst], _, rfl,
    by decide, rfl, rfl, rfl, ?_, ?_, rfl, rfl, rfl, rfl, rfl, rfl⟩
  · exact ⟨by decide, fun y hy => by cases hy; decide⟩
  · exact ⟨by decide, fun y hy => by cases hy; decide⟩

/-- The same when the answer of the destination is lost. -/
theorem C71_lost_answer_counterexample : ∃ xs s', run s0 xs = some s' ∧
    (∀ x ∈ xs, x ≠ .failSrc ∧ x ≠ .failDst) ∧ s'.phase = .idle ∧ s'.src.queue = [] ∧
    s'.dst.queue = [] ∧ Covers s'.src.info 12 ∧ Covers s'.dst.info 12 ∧
    accepts s'.src s'.src.info = true ∧ accepts s'.dst s'.dst.info = true ∧
    Value s'.acked 12 = some 1 ∧ get s'.dst.rows 12 = none := by
  refine ⟨[.start m0, .check, .ask, .lose, .applyDst, .pass q12, .enter q12, .applySrc], _, rfl,
    by decide, rfl, rfl, rfl, ?_, ?_, rfl, rfl, rfl, rfl⟩
  · exact ⟨by decide, fun y hy => by cases hy; decide⟩
  · exact ⟨by decide, fun y hy => by cases hy; decide⟩

/-- Even if nothing goes wrong: until the source has applied its own, empty range, a client that
still knows the old range of the source reads there, and does not see a row that the destination
has already acknowledged. -/
theorem C71_stale_read_counterexample : ∃ xs s', CleanRun step s0 xs ∧ run s0 xs = some s' ∧
    Value s'.acked 12 = some 2 ∧ get s'.src.rows 12 = none ∧ Covers s'.src.info 12 ∧
    accepts s'.src ⟨10, some 20, 3⟩ = true := by
  refine ⟨[.start m0, .check, .ask, .applyDst, .dstPut ⟨⟨12, some 2⟩, ⟨10, some 30, 2⟩⟩,
    .applyDst], _, ?_, rfl, rfl, rfl, ?_, rfl⟩
  · refine ⟨trivial, ?_⟩; rintro _ ⟨⟩
    refine ⟨trivial, ?_⟩; rintro _ ⟨⟩
    refine ⟨rfl, ?_⟩; rintro _ ⟨⟩
    refine ⟨trivial, ?_⟩; rintro _ ⟨⟩
    refine ⟨trivial, ?_⟩; rintro _ ⟨⟩
    exact ⟨trivial, fun _ _ => trivial⟩
  · exact ⟨by decide, fun y hy => by cases hy; decide⟩

/-- A run in which nothing goes wrong: a row is written to the source and deleted, a transaction
on both regions is committed and its row at the source deleted, the merge is tried too early,
tried again, and a row is written to the destination on a key of the source meanwhile. -/
def good : List Step :=
  [.pass q12, .enter q12, .applySrc, .start m0, .check,
   .pass ⟨⟨12, none⟩, ⟨10, some 20, 3⟩⟩, .enter ⟨⟨12, none⟩, ⟨10, some 20, 3⟩⟩, .applySrc,
   .stmt true 9 ⟨⟨13, some 4⟩, ⟨10, some 20, 3⟩⟩, .stmt false 9 ⟨⟨26, some 5⟩, ⟨20, some 30, 1⟩⟩,
   .commit 9, .start m0, .check,
   .pass ⟨⟨13, none⟩, ⟨10, some 20, 3⟩⟩, .enter ⟨⟨13, none⟩, ⟨10, some 20, 3⟩⟩, .applySrc,
   .tick, .start ⟨20, some 30, 0⟩, .check, .ask, .ask, .failDst, .ask,
   .dstPut ⟨⟨25, some 8⟩, ⟨20, some 30, 1⟩⟩, .applyDst,
   .dstPut ⟨⟨12, some 2⟩, ⟨10, some 30, 2⟩⟩, .applyDst, .applyDst, .finish, .applySrc,
   .stmt false 10 ⟨⟨13, some 6⟩, ⟨10, some 30, 2⟩⟩]

/-- `Clean` can be decided. -/
def cleanB (s : Sys) : Step → Bool
  | .enter _ => s.disabled == false
  | .ask => s.src.txns == []
  | .lose => false
  | .failSrc => match s.src.queue with
    | .adjust _ :: _ => false
    | _ => true
  | _ => true

def cleanRunB : Sys → List Step → Bool
  | _, [] => true
  | s, x :: xs => cleanB s x && (match step s x with
      | none => true
      | some s' => cleanRunB s' xs)

theorem cleanB_sound {s : Sys} {x : Step} (h : cleanB s x = true) : Clean s x := by
  cases x <;> simp_all [cleanB, Clean]
  intro i q hq
  simp [hq] at h

theorem cleanRunB_sound : ∀ {xs : List Step} {s : Sys}, cleanRunB s xs = true →
    CleanRun step s xs
  | [], _, _ => trivial
  | x :: xs, s, h => by
    simp only [cleanRunB, Bool.and_eq_true] at h
    refine ⟨cleanB_sound h.1, ?_⟩
    intro s' hs
    rw [hs] at h
    exact cleanRunB_sound h.2

example : CleanRun step s0 good ∧ ∃ s', run s0 good = some s' ∧
    s'.src.info = ⟨10, some 10, 4⟩ ∧ s'.dst.info = ⟨10, some 30, 2⟩ ∧
    get s'.dst.rows 12 = some 2 ∧ get s'.dst.rows 13 = none ∧ get s'.dst.rows 25 = some 8 ∧
    get s'.dst.rows 26 = some 5 ∧ Open s'.dst.txns 13 = [⟨10, ⟨13, some 6⟩⟩] :=
  ⟨cleanRunB_sound (by decide +kernel), _, rfl, by decide +kernel, by decide +kernel,
    by decide +kernel, by decide +kernel, by decide +kernel, by decide +kernel,
    by decide +kernel⟩

/-- The hypotheses of `C71_one_writer` and `C71_only_empty`. -/
example : ∃ s', run s0 [.start m0, .check, .ask, .applyDst] = some s' ∧
    CleanRun step s0 [.start m0, .check, .ask, .applyDst] ∧
    Covers s'.src.info 12 ∧ Covers s'.dst.info 12 :=
  ⟨_, rfl, cleanRunB_sound (by decide +kernel),
    ⟨by decide, fun y hy => by cases hy; decide⟩, ⟨by decide, fun y hy => by cases hy; decide⟩⟩

example : ∃ s s', run s0 [.start m0] = some s ∧ step s .check = some s' ∧
    s'.phase = .asking 1 0 ∧ s.src.info.stop = some 20 := ⟨_, _, rfl, rfl, rfl, rfl⟩

/-- The hypotheses of `C71_completes` and `C71_not_merged`. -/
example : (∀ p ∈ s0.src.rows, ¬ p.1 < 20) ∧ s0.src.applied = s0.lastcycle := ⟨by decide, rfl⟩

example : Before 10 20 (some 30) { s0 with lastcycle := 4 } ∧
    ({ s0 with lastcycle := 4 } : Sys).src.applied ≠ ({ s0 with lastcycle := 4 } : Sys).lastcycle :=
  ⟨{ s0_before with }, by decide⟩

end BaikalDB.Absorb
