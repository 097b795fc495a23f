import Verif.Part.Props

/-! Concrete partitioned tables. -/

namespace BaikalDB.Part

/-- The statement `PARTITION BY RANGE (a) (p0 LESS THAN 5, p1 LESS THAN 10, p2 LESS THAN MAXVALUE)`
with a second copy of the middle range, an additional partition and a cold one, on a `TINYINT`. -/
def stmt : List PSpec :=
  [⟨"p1", .dflt, false, .less (.num 10)⟩, ⟨"p0", .dflt, false, .less (.num 5)⟩,
    ⟨"q1", .newStats, false, .range (.num 5) (.num 10)⟩, ⟨"x", .additional, false, .less (.num 100)⟩,
    ⟨"c", .newStats, true, .range (.num 20) .max⟩]

def tiny : ColType := ⟨-128, 127⟩

/-- The table of the statement. -/
def tab : Schema :=
  ⟨[⟨.dflt, "p0", 0, .num (-128), .num 5, false⟩, ⟨.dflt, "p1", 1, .num 5, .num 10, false⟩,
    ⟨.newStats, "q1", 2, .num 5, .num 10, false⟩,
    ⟨.additional, "x", 3, .num (-128), .num 100, false⟩,
    ⟨.newStats, "c", 4, .num 20, .max, true⟩], 4, .dflt, none, none⟩

theorem create_tab : create tiny .dflt none none stmt = some tab := by
  have h : (create tiny .dflt none none stmt).map (fun s => (s.parts, s.maxId)) =
      some (tab.parts, tab.maxId) := by decide +kernel
  rcases hc : create tiny .dflt none none stmt with _ | s
  · rw [hc] at h; cases h
  · rw [hc] at h
    obtain ⟨_, _, _, _, _, h1, h2, h3⟩ := create_spec hc
    simp only [Option.map_some, Option.some.injEq, Prod.mk.injEq] at h
    obtain ⟨p, m, a, b, c⟩ := s
    simp only at h h1 h2 h3
    rw [h.1, h.2, h1, h2, h3]
    rfl

theorem ok_tab : Ok tab := C74_create create_tab

/-- Accounts: without settings, of the other copy, of the additional partitions. -/
def u0 : User := ⟨false, .dflt, false⟩
def u1 : User := ⟨false, .newStats, false⟩
def u2 : User := ⟨true, .dflt, false⟩

/-- The same value goes to three partitions, one for each account; no partition holds `NULL` or, for
the first account, 15. -/
example : writePartition tab u0 (.num 7) = some 1 ∧ writePartition tab u1 (.num 7) = some 2 ∧
    writePartition tab u2 (.num 7) = some 3 ∧ writePartition tab u0 .null = none ∧
    writePartition tab u0 (.num 15) = none ∧ writePartition tab u0 (.num 30) = some 4 := by
  decide +kernel

example : ∃ p, Visible tab u0 false p ∧ Holds tab p (some 7) ∧ p.id = 1 :=
  (C74_write ok_tab (fun g h => by cases h) rfl (some 7) 1).1 (by decide +kernel)

/-- `WHERE a >= 5 AND a < 10 AND (a, b) >= (6, 1)` by the first account: its partition and the
additional one. -/
example : selectRange tab u0 true 0
      [.cmp 0 .ge 5, .cmp 0 .lt 10, .rowCmp [0, 1] .ge [6, 1]] = some [1, 3] ∧
    selectRange tab u0 false 0 [.cmp 0 .ge 5, .cmp 0 .lt 10] = some [1] ∧
    selectRange tab u0 true 0 [.inl 0 [1, 7, 8]] = some [0, 3, 1] ∧
    selectRange tab u1 false 0 [.cmp 0 .gt 5] = some [2, 4] ∧
    selectRange tab u0 true 0 [.cmp 1 .eq 5] = some [0, 1, 4, 3] ∧
    selectRange tab u0 true 0 [.like 0 .other [] fun _ => true] = some [0, 1, 4, 3] ∧
    selectRange tab u0 false 0 [.rowIn [1, 0] [[3, 7], [4, 1]]] = some [1, 0] := by
  decide +kernel

/-- The row `(7, 3)` is found again under conditions it meets. -/
example : ∃ ids, selectRange tab u0 false 0 [.cmp 0 .ge 5, .rowCmp [0, 1] .le [7, 4]] = some ids ∧
    (1 : Int) ∈ ids := by
  refine C74_readback ok_tab (fun g h => by cases h) (u := u0) rfl false
    (r := fun i => if i = 0 then some 7 else some 3) ?_ ?_ (Or.inl rfl) (by decide +kernel)
  · intro c hc
    simp only [List.mem_cons, List.not_mem_nil, or_false] at hc
    rcases hc with rfl | rfl
    · exact ⟨7, rfl, show (5 : Int) ≤ 7 by decide⟩
    · exact ⟨7, rfl, Or.inr ⟨rfl, 3, rfl, Or.inl ⟨by decide, show (3 : Int) ≤ 4 by decide⟩⟩⟩
  · intro c hc
    simp only [List.mem_cons, List.not_mem_nil, or_false] at hc
    rcases hc with rfl | rfl <;> trivial

/-- A table under switch with an isolation date reads the primary copy up to the date and the other
copy after it. -/
def dated : Schema :=
  ⟨[⟨.dflt, "a0", 0, .num 0, .num 5, false⟩, ⟨.newStats, "b0", 1, .num 0, .num 5, false⟩,
    ⟨.dflt, "a1", 2, .num 5, .num 10, false⟩, ⟨.newStats, "b1", 3, .num 5, .num 10, false⟩],
    3, .dflt, some 5, none⟩

example : selectRange dated ⟨false, .dflt, true⟩ true 0 [] = some [0, 3] ∧
    selectRange dated ⟨false, .newStats, true⟩ true 0 [.cmp 0 .ge 3] = some [0, 2] ∧
    selectRange dated ⟨false, .dflt, true⟩ false 0 [] = none ∧
    writePartition dated ⟨false, .dflt, true⟩ (.num 7) = none ∧
    selectRange dated ⟨false, .dflt, false⟩ true 0 [.cmp 0 .ge 3] = some [0, 2] := by decide +kernel

example : Visible dated ⟨false, .dflt, true⟩ true ⟨.newStats, "b1", 3, .num 5, .num 10, false⟩ := by
  refine ⟨by decide +kernel, ?_⟩
  simp only [Bool.false_eq_true, if_false]
  refine Or.inl ⟨by decide, Or.inr (Or.inr (Or.inr ⟨rfl, ?_, Or.inl ⟨rfl, rfl⟩⟩))⟩
  rintro ⟨d, b, h1, h2, h3⟩
  cases h1
  cases h2
  omega

/-- Statements on the table: one that is accepted, one that overlaps, one that names a partition
that is not there, and one that would leave nothing. -/
example : ((addPartition tiny tab false [⟨"p2", .dflt, false, .range (.num 10) (.num 20)⟩]).map
      fun s => (s.parts.map (·.id), s.maxId)) = some ([0, 1, 2, 5, 3, 4], 5) ∧
    (addPartition tiny tab false [⟨"p2", .dflt, false, .range (.num 9) (.num 20)⟩]).isNone ∧
    (addPartition tiny tab false [⟨"p1", .dflt, false, .range (.num 10) (.num 20)⟩]).isNone ∧
    (addPartition tiny tab false [⟨"p2", .dflt, false, .range (.num 10) (.num 21)⟩]).isNone ∧
    (addPartition tiny tab false [⟨"p2", .dflt, false, .range (.num 10) (.num 200)⟩]).isNone ∧
    ((addPartition tiny tab true [⟨"p1", .dflt, false, .range (.num 10) (.num 20)⟩,
      ⟨"p2", .dflt, false, .range (.num 9) (.num 20)⟩,
      ⟨"p3", .dflt, false, .range (.num 10) (.num 20)⟩]).map fun s => s.parts.map (·.name)) =
        some ["p0", "p1", "q1", "p3", "x", "c"] ∧
    ((dropPartition tab false ["p1", "x"]).map fun s => s.parts.map (·.id)) = some [0, 2, 4] ∧
    (dropPartition tab false ["p1", "y"]).isNone ∧
    ((dropPartition tab true ["p1", "y"]).map fun s => s.parts.map (·.id)) = some [0, 2, 3, 4] ∧
    (dropPartition tab false ["p0", "p1", "q1", "x", "c"]).isNone := by decide +kernel

/-- A partition that is dropped and added again has a new id. -/
example : (runOps tiny tab [.drop false ["p1"],
      .add false [⟨"p1", .dflt, false, .range (.num 5) (.num 10)⟩]]).parts.map
        (fun p => (p.name, p.id)) = [("p0", 0), ("p1", 5), ("q1", 2), ("x", 3), ("c", 4)] := by
  decide +kernel

example : ∃ s', addPartition tiny tab false [⟨"p2", .dflt, false, .range (.num 10) (.num 20)⟩] =
    some s' ∧ ⟨.dflt, "p2", 5, .num 10, .num 20, false⟩ ∈ s'.parts := by
  refine C74_add_accepted (a := 10) (b := 20) rfl (by decide) (by decide) (by decide)
    (by decide +kernel) ?_
  intro p hp hk n h1 h2 hc
  simp only [tab, List.mem_cons, List.not_mem_nil, or_false] at hp
  rcases hp with rfl | rfl | rfl | rfl | rfl
  · have := hc.2 5 rfl; omega
  · have := hc.2 10 rfl; omega
  · have := hc.2 10 rfl; omega
  · rcases hk with ⟨_, h⟩ | ⟨h, _⟩
    · cases h
    · exact h rfl
  · obtain ⟨⟨a, ha, han⟩, _⟩ := hc
    cases ha
    omega

example : ∃ s', dropPartition tab false ["p1", "x"] = some s' :=
  C74_drop_accepted ok_tab (by decide +kernel)
    ⟨⟨.dflt, "p0", 0, .num (-128), .num 5, false⟩, by decide +kernel, by decide +kernel⟩

/-- The value 7 of the statement is in `p1`, whose bound is the least above it. -/
example : ∃ p ∈ tab.parts, p.ptype = .dflt ∧ Covers p 7 ∧ BoundLe p.right (.num 10) := by
  obtain ⟨p, hp, ht, hc, _, hl⟩ := C74_create_cover create_tab .dflt (n := 7) (by decide)
    (sp := ⟨"p1", .dflt, false, .less (.num 10)⟩) (by simp [stmt]) rfl rfl (by simp [Below])
  exact ⟨p, hp, ht, hc, hl ⟨"p1", .dflt, false, .less (.num 10)⟩ (by simp [stmt]) rfl _ rfl
    (by simp [Below])⟩

/-- Bounds below the type or in the wrong order, and a name twice, are refused. -/
example : (create tiny .dflt none none [⟨"a", .dflt, false, .less (.num (-128))⟩]).isNone ∧
    (create tiny .dflt none none [⟨"a", .dflt, false, .range (.num 5) (.num 5)⟩]).isNone ∧
    (create tiny .dflt none none [⟨"a", .dflt, false, .less (.num 5)⟩,
      ⟨"a", .dflt, false, .less (.num 6)⟩]).isNone ∧
    (create tiny .dflt none none [⟨"a", .dflt, false, .less (.num 5)⟩,
      ⟨"b", .dflt, false, .range (.num 4) (.num 6)⟩]).isNone ∧
    (create tiny .dflt none none []).isNone := by decide +kernel

/-- Hash partitions: 10 and -8 of 4, an `IN`, a range, and a table of one partition. -/
example : writeHash ⟨4, true, fun _ => 6, id⟩ (.num 10) = some 2 ∧
    writeHash ⟨4, true, fun _ => 6, id⟩ (.num (-8)) = some 0 ∧
    writeHash ⟨4, true, fun _ => 6, id⟩ .null = some 2 ∧
    selectHash ⟨4, true, fun _ => 6, id⟩ 0 [.inl 0 [10, 3, 6]] = some [2, 3] ∧
    selectHash ⟨4, true, fun _ => 6, id⟩ 0 [.cmp 0 .gt 10] = some [0, 1, 2, 3] ∧
    selectHash ⟨1, true, fun _ => 6, id⟩ 0 [.cmp 0 .eq (-3)] = some [0] := by decide +kernel

example : (2 : Int) ∈ [2, 3] :=
  C74_hash_prune (t := ⟨4, true, fun _ => 6, id⟩) (by decide) (f := 0) (cs := [.inl 0 [10, 3, 6]])
    (r := fun _ => some 6)
    (fun c hc => by
      rw [List.mem_singleton] at hc
      subst hc
      exact ⟨6, rfl, by decide⟩)
    (fun c hc => by rw [List.mem_singleton] at hc; subst hc; trivial) (by decide +kernel)
    (by decide +kernel)

end BaikalDB.Part
