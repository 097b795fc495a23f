import Verif.Global.OnDupMany
/-! # C61: examples and counterexamples -/
namespace BaikalDB.Global
open BaikalDB.Dml

/-- A table with primary key 0, UNIQUE global indexes on the fields 1 and 2 and a global KEY on field 3. -/
def tbl : Table Nat := ⟨[0, 1, 2, 3], [0], [⟨true, [1]⟩, ⟨true, [2]⟩, ⟨false, [3]⟩], fun _ => none, false, false⟩

/-- A row of four values. -/
def row (a b c d : Nat) : Rec Nat := fun f => if f = 0 then some a else if f = 1 then some b else if f = 2 then some c else if f = 3 then some d else none

/-- The values of a row. -/
def vals (r : Option (Rec Nat)) : Option (List (Option Nat)) := r.map fun r => [r 0, r 1, r 2, r 3]

/-- What a statement leaves under a primary key. -/
def rowAt (S : Option (Store Nat)) (k : Nat) : Option (List (Option Nat)) := S.bind fun S => vals (S.rows [some k])

/-- Two rows. -/
def two : Store Nat := ((basicInsert tbl empty true tbl.all [row 1 5 7 3, row 2 6 8 3]).map (·.1)).getD empty

theorem two_exec : exec tbl empty (.insert [row 1 5 7 3, row 2 6 8 3]) = some two := by
  have h : (basicInsert tbl empty true tbl.all [row 1 5 7 3, row 2 6 8 3]).isSome = true := by decide
  obtain ⟨p, hp⟩ := Option.isSome_iff_exists.1 h
  simp only [two, exec, hp, Option.map_some, Option.getD_some]

theorem two_reach : Reach tbl two := .exec _ .empty two_exec
theorem two_agree : Agree tbl two := reach_agree two_reach

example : rowAt (some two) 1 = some [some 1, some 5, some 7, some 3] ∧ two.idx 0 [some 6] = some [some 2] ∧
    two.idx 2 [some 3, some 1] = some [some 1] := by decide

/-- INSERT: a UNIQUE value that is taken is an error, and so are two records with the same one. -/
example : (basicInsert tbl two true tbl.all [row 3 9 8 0]).isNone = true ∧ (basicInsert tbl two true tbl.all [row 3 9 9 0, row 4 9 10 0]).isNone = true ∧
    (basicInsert tbl two true tbl.all [row 3 9 9 0, row 4 10 10 0]).isSome = true := by decide

/-- REPLACE of a record that has two rows in its way, and of one with another record in its way. -/
example : rowAt (insertReplace tbl two [row 9 5 8 1]) 1 = none ∧ rowAt (insertReplace tbl two [row 9 5 8 1]) 2 = none ∧
    rowAt (insertReplace tbl two [row 9 5 8 1, row 10 5 11 1]) 9 = none ∧
    rowAt (insertReplace tbl two [row 9 5 8 1, row 10 5 11 1]) 10 = some [some 10, some 5, some 11, some 1] := by decide

/-- UPDATE that exchanges the UNIQUE values 5 and 6 of two rows (field 1 := 11 - field 1). -/
def swap : List (Assign Nat) := [⟨1, [1], [], fun vs _ => (vs.head?.join).map fun v => 11 - v⟩]

example : rowAt ((globalUpdate tbl two swap [[some 1], [some 2]]).map (·.1)) 1 = some [some 1, some 6, some 7, some 3] ∧
    rowAt ((globalUpdate tbl two swap [[some 1], [some 2]]).map (·.1)) 2 = some [some 2, some 5, some 8, some 3] ∧
    (globalUpdate tbl two swap [[some 1]]).isNone = true := by decide

/-- DELETE of a row, and of a primary key without one. -/
example : rowAt ((globalDelete tbl two tbl.all [[some 1], [some 7]]).map (·.1)) 1 = none ∧
    ((globalDelete tbl two tbl.all [[some 1], [some 7]]).map (·.2.length)) = some 1 := by decide

/-- The hypotheses of `C61_on_dup_update` can be met: the record has the rows 1 and 2 in its way, by the UNIQUE indexes. -/
example : FirstInWay tbl two.rows (row 9 5 8 0) [some 1] ((two.rows [some 1]).getD fun _ => none) := by
  refine ⟨[[0]], [1], [[2]], rfl, ?_, by decide, ?_⟩
  · have h : (two.rows [some 1]).isSome = true := by decide
    obtain ⟨r, hr⟩ := Option.isSome_iff_exists.1 h
    rw [hr]; rfl
  · intro g hg k o ho e
    rw [show g = [0] by simpa using hg] at e
    have hk : [o 0] = k := two_agree.own k o ho
    have e0 : o 0 = some 9 := by simpa [row] using e
    rw [e0] at hk
    have : (two.rows [some 9]).isSome = false := by decide
    rw [hk, ho] at this
    exact nomatch this

/-- **C61.** INSERT IGNORE can lose a record that nothing is in the way of: VALUES (1,'a'), (2,'a'), (2,'b') with a UNIQUE second
field.  The second record gives way to the first, and the third one to the second, though it is not inserted; taken one after the
other the third record is inserted. -/
theorem C61_ignore_counterexample :
    ∃ (T : Table Nat) (S S' : Store Nat) (rs : List (Rec Nat)) (n : Nat) (R : Rows Nat), Agree T S ∧
      insertIgnore T S rs = some (S', n) ∧ Ignores T S.rows rs R ∧ ∃ k, S'.rows k = none ∧ R k ≠ none := by
  have hA : Agree tbl (empty : Store Nat) := reach_agree .empty
  obtain ⟨S', left, h1, _, h2, h3, _⟩ := C61_ignore hA [row 1 5 1 0, row 2 5 2 0, row 2 6 3 0]
  have f1 : Free tbl (empty : Store Nat).rows (row 1 5 1 0) := fun k old h => nomatch h
  have only : ∀ k old, put tbl (empty : Store Nat).rows (row 1 5 1 0) k = some old → old = row 1 5 1 0 := by
    intro k old h
    unfold put at h
    split at h
    · exact (Option.some.inj h).symm
    · exact nomatch h
  have c12 : Conf tbl (row 1 5 1 0) (row 2 5 2 0) := by decide
  have c13 : ¬Conf tbl (row 1 5 1 0) (row 2 6 3 0) := by decide
  have c23 : Conf tbl (row 2 5 2 0) (row 2 6 3 0) := by decide
  refine ⟨tbl, empty, S', _, _, put tbl (put tbl (empty : Store Nat).rows (row 1 5 1 0)) (row 2 6 3 0), hA, h1, ?_, [some 2], ?_, ?_⟩
  · refine Each.cons (Or.inl ⟨f1, rfl⟩) (Each.cons (Or.inr ⟨fun h => h [some 1] (row 1 5 1 0) rfl c12, rfl⟩)
      (Each.cons (Or.inl ⟨?_, rfl⟩) (Each.nil _)))
    intro k old h
    rw [only k old h]
    exact c13
  · cases hr : S'.rows [some 2] with
    | none => rfl
    | some r =>
      exfalso
      rcases (h3 _ _).1 hr with ⟨h4, h5⟩ | h4
      · obtain ⟨n, h6, _, h7⟩ := (h2 r).1 h4
        match n, h6, h7 with
        | 0, h6, _ =>
          cases h6
          exact absurd h5 (by decide)
        | 1, h6, h7 =>
          cases h6
          exact h7 0 (by omega) _ rfl c12
        | 2, h6, h7 =>
          cases h6
          exact h7 1 (by omega) _ rfl c23
        | n + 3, h6, _ => exact nomatch h6
      · exact nomatch h4
  · intro h
    exact nomatch h

/-- Adds 1 to the last field of the row. -/
def addOne (old _new : Rec Nat) : Rec Nat := fun f => if f = 3 then (old 3).map (· + 1) else old f

example : rowAt ((insertDup tbl two addOne [row 9 5 8 0]).join) 1 = some [some 1, some 5, some 7, some 4] ∧
    rowAt ((insertDup tbl two addOne [row 9 5 8 0]).join) 2 = some [some 2, some 6, some 8, some 3] ∧
    rowAt ((insertDup tbl two addOne [row 9 5 8 0]).join) 9 = none := by decide

/-- **C61.** ON DUPLICATE KEY UPDATE follows a null pointer: two records of the statement have the same row in their way, by
different UNIQUE indexes, and the primary key of the row is not among those of the records. -/
theorem C61_on_dup_crash_counterexample :
    ∃ (T : Table Nat) (S : Store Nat) (up : Rec Nat → Rec Nat → Rec Nat) (rs : List (Rec Nat)), Reach T S ∧ insertDup T S up rs = none := by
  refine ⟨tbl, two, addOne, [row 9 5 10 0, row 11 12 7 0], two_reach, ?_⟩
  have h : (insertDup tbl two addOne [row 9 5 10 0, row 11 12 7 0]).isNone = true := by decide
  exact Option.isNone_iff_eq_none.1 h

/-- **C61.** ON DUPLICATE KEY UPDATE can lose a record: the first record has a row in its way, which is updated; the second has
nothing but the first record in its way, which is not in the table.  The same records in two statements insert the second. -/
theorem C61_on_dup_lost_counterexample :
    ∃ (T : Table Nat) (S S1 S2 S' : Store Nat) (up : Rec Nat → Rec Nat → Rec Nat) (r1 r2 : Rec Nat), Reach T S ∧
      insertDup T S up [r1] = some (some S1) ∧ insertDup T S1 up [r2] = some (some S2) ∧
      insertDup T S up [r1, r2] = some (some S') ∧ S2.rows (T.pk.map r2) ≠ none ∧ S'.rows (T.pk.map r2) = none := by
  have h1 : (insertDup tbl two addOne [row 1 20 21 0]).join.isSome = true := by decide
  obtain ⟨S1, e1⟩ := Option.isSome_iff_exists.1 h1
  have h2 : ((insertDup tbl two addOne [row 1 20 21 0]).join.bind fun S1 => (insertDup tbl S1 addOne [row 9 20 22 0]).join).isSome = true := by decide
  have h3 : (insertDup tbl two addOne [row 1 20 21 0, row 9 20 22 0]).join.isSome = true := by decide
  obtain ⟨S', e3⟩ := Option.isSome_iff_exists.1 h3
  have h4 : (((insertDup tbl two addOne [row 1 20 21 0]).join.bind fun S1 => (insertDup tbl S1 addOne [row 9 20 22 0]).join).bind
    fun S => S.rows [some 9]).isSome = true := by decide
  have h5 : ((insertDup tbl two addOne [row 1 20 21 0, row 9 20 22 0]).join.bind fun S => S.rows [some 9]).isNone = true := by decide
  rw [e1, Option.bind_some] at h2 h4
  obtain ⟨S2, e2⟩ := Option.isSome_iff_exists.1 h2
  rw [e2, Option.bind_some] at h4
  rw [e3, Option.bind_some] at h5
  refine ⟨tbl, two, S1, S2, S', addOne, row 1 20 21 0, row 9 20 22 0, two_reach, Option.join_eq_some_iff.1 e1, Option.join_eq_some_iff.1 e2,
    Option.join_eq_some_iff.1 e3, ?_, Option.isNone_iff_eq_none.1 h5⟩
  intro h
  rw [show tbl.pk.map (row 9 20 22 0) = [some 9] from rfl] at h
  rw [h] at h4
  exact nomatch h4

/-- A table with global KEYs only; a row; and an update that adds the last field of the record to that of the row. -/
def plain : Table Nat := ⟨[0, 1, 2, 3], [0], [⟨false, [1]⟩, ⟨false, [3]⟩], fun _ => none, false, false⟩
def single : Store Nat := ((basicInsert plain empty true plain.all [row 1 5 7 3]).map (·.1)).getD empty
def addLast (old new : Rec Nat) : Rec Nat := fun f => if f = 3 then (old 3).bind fun a => (new 3).map fun b => 2 * a + b else old f

/-- The hypotheses of `C61_on_dup_many` can be met; two records meet the row, three meet each other. -/
example : Agree plain single ∧ (∀ i ∈ plain.indexes, i.uniq = false) ∧ (∀ o r, plain.pk.map (addLast o r) = plain.pk.map o) ∧
    rowAt ((insertDup plain single addLast [row 9 5 5 1, row 1 0 0 4, row 9 0 0 5, row 9 0 0 7, row 1 0 0 1]).join) 1 =
      some [some 1, some 5, some 7, some 21] ∧
    rowAt ((insertDup plain single addLast [row 9 5 5 1, row 1 0 0 4, row 9 0 0 5, row 9 0 0 7, row 1 0 0 1]).join) 9 =
      some [some 9, some 5, some 5, some 21] := by
  refine ⟨?_, by decide, fun o r => rfl, by decide, by decide⟩
  refine reach_agree (.exec (.insert [row 1 5 7 3]) .empty ?_)
  have h : (basicInsert plain empty true plain.all [row 1 5 7 3]).isSome = true := by decide
  obtain ⟨p, hp⟩ := Option.isSome_iff_exists.1 h
  simp only [single, exec, hp, Option.map_some, Option.getD_some]

end BaikalDB.Global
