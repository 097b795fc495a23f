import Verif.Alter.Props

/-! Concrete tables for the hypotheses of C72, and the cases in which the code differs from the table that
its user expects. -/

namespace BaikalDB.Alter

instance (l : List Name) : Decidable (Distinct l) := by unfold Distinct; infer_instance

instance (s : State) (i : Nat) : Decidable (HasColumn s i) := by unfold HasColumn; infer_instance

/-- All requests in turn; `none` if one is refused. -/
def runAll (s : State) : List Op → Option State
  | [] => some s
  | op :: ops => (step s op).bind (fun s' => runAll s' ops)

theorem runAll_any : ∀ {ops : List Op} {s0 s s' : State}, Any s0 s → runAll s ops = some s' → Any s0 s'
  | [], s0, s, s', h, hr => by
    simp only [runAll, Option.some.injEq] at hr
    exact hr ▸ h
  | op :: ops, s0, s, s', h, hr => by
    simp only [runAll] at hr
    cases hs : step s op with
    | none => rw [hs] at hr; simp at hr
    | some s1 =>
      rw [hs] at hr
      exact runAll_any (h.tail hs) (by simpa using hr)

/-- Names `a`, `b`, `c`, `d`, `e`, `A`. -/
def nmA : Name := [97]
def nmB : Name := [98]
def nmC : Name := [99]
def nmD : Name := [100]
def nmE : Name := [101]
def nmUpperA : Name := [65]

/-- `t (a, b DEFAULT 5, c)`: an index on `b`, partitions by `a`, TTL on `c`. -/
def demo (columnar : Bool) : Option State :=
  create [(nmA, none), (nmB, some 5), (nmC, none)] [[nmB]] (some nmA) (some nmC) none columnar

/-- The start state of the examples. -/
def demo0 (columnar : Bool) : State :=
  { schema :=
      { fields := [⟨1, nmA, false, none⟩, ⟨2, nmB, false, some 5⟩, ⟨3, nmC, false, none⟩]
        maxId := 3
        indexes := [⟨[nmB], [2], false⟩]
        part := some (nmA, 1)
        ttl := some (nmC, 3)
        link := none }
    map := [(nmC, 3), (nmB, 2), (nmA, 1)]
    rows := []
    columnar := columnar }

example : demo false = some (demo0 false) := by decide +kernel
example : demo true = some (demo0 true) := by decide +kernel

/-- The hypotheses of the theorems are met by an execution in which a column is added to a table with a row,
renamed, dropped, and a column of the same name is added again: the value of the dropped column does not
come back. -/
def script : List Op :=
  [.insert [(nmA, some 1)], .add [(nmD, some 9)], .update 0 nmD (some 4), .restart, .drop nmD,
   .add [(nmD, some 8)], .insert [(nmUpperA, some 2)], .rename nmB nmE]

/-- Both sides of an execution. -/
def runBoth (s : State) (t : Table) : List Op → Option (State × Table)
  | [] => some (s, t)
  | op :: ops => (step s op).bind (fun s' => runBoth s' (t.apply op) ops)

instance (t : Table) (op : Op) : Decidable (Proper t op) := by
  cases op <;> unfold Proper <;> infer_instance

/-- All requests are proper. -/
def properAll (s : State) (t : Table) : List Op → Bool
  | [] => true
  | op :: ops =>
    decide (Proper t op) &&
      (match step s op with | some s' => properAll s' (t.apply op) ops | none => false)

theorem runBoth_exec : ∀ {ops : List Op} {s0 s s' : State} {t0 t t' : Table}, Exec s0 t0 s t →
    properAll s t ops = true → runBoth s t ops = some (s', t') → Exec s0 t0 s' t'
  | [], s0, s, s', t0, t, t', h, _, hr => by
    simp only [runBoth, Option.some.injEq, Prod.mk.injEq] at hr
    obtain ⟨rfl, rfl⟩ := hr
    exact h
  | op :: ops, s0, s, s', t0, t, t', h, hp, hr => by
    simp only [runBoth] at hr
    simp only [properAll, Bool.and_eq_true, decide_eq_true_eq] at hp
    cases hs : step s op with
    | none => rw [hs] at hr; simp at hr
    | some s1 =>
      rw [hs] at hr hp
      exact runBoth_exec (h.tail hp.1 hs) hp.2 (by simpa using hr)

example : properAll (demo0 false) ⟨[(nmA, none), (nmB, some 5), (nmC, none)], []⟩ script = true := by
  decide +kernel
example : ((runAll (demo0 false) script).map selectAll) =
    some [[(nmA, some 1), (nmE, some 5), (nmC, none), (nmD, some 8)],
      [(nmA, some 2), (nmE, some 5), (nmC, none), (nmD, some 8)]] := by decide +kernel
example : ((runAll (demo0 true) script).map selectAll) =
    some [[(nmA, some 1), (nmE, some 5), (nmC, none), (nmD, some 8)],
      [(nmA, some 2), (nmE, some 5), (nmC, none), (nmD, some 8)]] := by decide +kernel

/-- The hypotheses of `C72_in_use` are met by the rename of a column of an index. -/
example : ∃ s' t', Calm (demo0 false) ⟨[(nmA, none), (nmB, some 5), (nmC, none)], []⟩ s' t' ∧
    s'.schema.indexes = [⟨[nmE], [2], false⟩] ∧ step s' (.drop nmE) = none :=
  ⟨_, _, .tail (op := .rename nmB nmE) (.refl _ _) (by decide +kernel)
    ⟨by decide +kernel, by decide +kernel⟩ rfl, by decide +kernel, by decide +kernel⟩

/-- A column in use cannot be dropped. -/
example : step (demo0 false) (.drop nmA) = none ∧ step (demo0 false) (.drop nmB) = none ∧
    step (demo0 false) (.drop nmC) = none := by decide +kernel
example : Used (demo0 false) 1 ∧ Used (demo0 false) 2 ∧ Used (demo0 false) 3 :=
  ⟨Or.inl ⟨(nmA, 1), rfl, rfl⟩, Or.inr (Or.inr (Or.inr ⟨⟨[nmB], [2], false⟩, by decide, rfl, by decide⟩)),
    Or.inr (Or.inl ⟨(nmC, 3), rfl, rfl⟩)⟩

/-- **C72 counterexample.** MODIFY or CHANGE without a DEFAULT clause removes the default, and rows from
before ADD COLUMN, which read as the default, then read as NULL. -/
theorem C72_lost_default_counterexample :
    ∃ s s', Any (demo0 false) s ∧ step s (.modify nmD none none) = some s' ∧
      selectOne s 0 nmD = some (some 9) ∧ selectOne s' 0 nmD = some none := by
  obtain ⟨s, hs⟩ : ∃ s, runAll (demo0 false) [.insert [(nmA, some 1)], .add [(nmD, some 9)]] = some s :=
    ⟨_, rfl⟩
  obtain ⟨s', hs'⟩ : ∃ s', runAll (demo0 false)
      [.insert [(nmA, some 1)], .add [(nmD, some 9)], .modify nmD none none] = some s' := ⟨_, rfl⟩
  refine ⟨s, s', runAll_any (.refl _) hs, ?_, ?_, ?_⟩
  · have h1 := Option.some.inj hs
    have h2 := Option.some.inj hs'
    subst h1 h2
    decide +kernel
  · have h1 := Option.some.inj hs
    subst h1
    decide +kernel
  · have h2 := Option.some.inj hs'
    subst h2
    decide +kernel

/-- **C72 counterexample.** In a columnar table a value that was written explicitly and equals the default
changes with the default. -/
theorem C72_columnar_default_counterexample :
    ∃ s s', Any (demo0 true) s ∧ step s (.modify nmB none (some 6)) = some s' ∧
      selectOne s 0 nmB = some (some 5) ∧ selectOne s' 0 nmB = some (some 6) ∧
      (∃ r, step (demo0 true) (.insert [(nmB, some 5)]) = some r ∧ r = s) := by
  obtain ⟨s, hs⟩ : ∃ s, runAll (demo0 true) [.insert [(nmB, some 5)]] = some s := ⟨_, rfl⟩
  obtain ⟨s', hs'⟩ : ∃ s', runAll (demo0 true)
      [.insert [(nmB, some 5)], .modify nmB none (some 6)] = some s' := ⟨_, rfl⟩
  have h1 := Option.some.inj hs
  have h2 := Option.some.inj hs'
  refine ⟨s, s', runAll_any (.refl _) hs, ?_, ?_, ?_, s, ?_, rfl⟩
  · subst h1 h2; decide +kernel
  · subst h1; decide +kernel
  · subst h2; decide +kernel
  · subst h1; decide +kernel

/-- **C72 counterexample.** One ALTER TABLE can add two columns of the same name. -/
theorem C72_same_name_counterexample :
    ∃ s', step (demo0 false) (.add [(nmD, some 1), (nmD, some 2)]) = some s' ∧
      columns s' = columns (demo0 false) ++ [(nmD, some 1), (nmD, some 2)] :=
  ⟨_, rfl, by decide +kernel⟩

/-- **C72 counterexample.** A column may be added whose name differs from another one only by case; a
statement that names it works on the other. -/
theorem C72_case_counterexample :
    ∃ s1 s2, step (demo0 false) (.add [(nmUpperA, some 7)]) = some s1 ∧
      (nmUpperA, some 7) ∈ columns s1 ∧ step s1 (.insert [(nmUpperA, some 3)]) = some s2 ∧
      step s2 (.update 0 nmUpperA (some 4)) ≠ none ∧
      ((step s2 (.update 0 nmUpperA (some 4))).map selectAll) =
        some [[(nmA, some 4), (nmB, some 5), (nmC, none), (nmUpperA, some 3)]] :=
  ⟨_, _, rfl, by decide +kernel, rfl, by decide +kernel, by decide +kernel⟩

/-- **C72 counterexample.** CHANGE COLUMN renames a column of an index without the index, and then the
column can be dropped. -/
theorem C72_dropped_index_column_counterexample :
    ∃ s s', Any (demo0 false) s ∧ step s (.drop nmD) = some s' ∧ Used s' 2 ∧ ¬ HasColumn s' 2 := by
  obtain ⟨s, hs⟩ : ∃ s, runAll (demo0 false) [.modify nmB (some nmD) (some 5)] = some s := ⟨_, rfl⟩
  have h1 := Option.some.inj hs
  refine ⟨s, _, runAll_any (.refl _) hs, by subst h1; rfl, ?_, by decide +kernel⟩
  exact Or.inr (Or.inr (Or.inr ⟨⟨[nmB], [2], false⟩, by decide, rfl, by decide⟩))

/-- **C72 counterexample.** RENAME COLUMN of the partition column leaves its old name with the partitions,
and then the column can be dropped. -/
theorem C72_dropped_partition_column_counterexample :
    ∃ s s', Any (demo0 false) s ∧ step s (.drop nmD) = some s' ∧ Used s' 1 ∧ ¬ HasColumn s' 1 := by
  obtain ⟨s, hs⟩ : ∃ s, runAll (demo0 false) [.rename nmA nmD] = some s := ⟨_, rfl⟩
  have h1 := Option.some.inj hs
  refine ⟨s, _, runAll_any (.refl _) hs, by subst h1; rfl, ?_, by decide +kernel⟩
  exact Or.inl ⟨(nmA, 1), rfl, rfl⟩

/-- **C72 counterexample.** The same holds for the TTL column. -/
theorem C72_dropped_ttl_column_counterexample :
    ∃ s s', Any (demo0 false) s ∧ step s (.drop nmD) = some s' ∧ Used s' 3 ∧ ¬ HasColumn s' 3 := by
  obtain ⟨s, hs⟩ : ∃ s, runAll (demo0 false) [.rename nmC nmD] = some s := ⟨_, rfl⟩
  have h1 := Option.some.inj hs
  refine ⟨s, _, runAll_any (.refl _) hs, by subst h1; rfl, ?_, by decide +kernel⟩
  exact Or.inr (Or.inl ⟨(nmC, 3), rfl, rfl⟩)

end BaikalDB.Alter
