import Verif.Cond.Props

/-!
# CASE, IF, IFNULL and NULLIF: cases that meet the hypotheses
-/

namespace BaikalDB.Cond

/-- Whole numbers in place of the doubles. -/
def demo : Ops Int where
  eq a b := decide (a = b)
  isZero a := decide (a = 0)
  ofInt n := n
  ofStr s := s.toInt?.getD 0
  toInt _ d := d
  strInt s := s.toInt?.getD 0
  strOfInt _ n := toString n
  strOfDbl d := toString d

/-- `CASE WHEN NULL THEN 1 WHEN 3 THEN 200 ELSE -5 END`, with `TINYINT UNSIGNED` and `INT`. -/
def demoBranches : List ((Ty × Val Int) × (Ty × Val Int)) :=
  [((.null, .null), (.int .u8, .int .u8 1)), ((.int .i64, .int .i64 3), (.int .u8, .int .u8 200))]

theorem demo_chosen :
    Chosen (IsTrue demo) demoBranches (some (.int .i32, .int .i32 (-5))) (.int .u8 200) :=
  .skip _ _ _ _ _ (by rintro ⟨⟩) (.hit _ _ _ _ (.int _ _ (by decide)))

/-- `C75_case_when`: the second branch, as `BIGINT`. -/
example : call demo .caseWhen (flat demoBranches (some (.int .i32, .int .i32 (-5)))) =
    .int .i64 200 := by
  have h := C75_case_when demo demoBranches (some (.int .i32, .int .i32 (-5))) _ (by
      simp [demoBranches]) (by
      intro b hb
      simp only [demoBranches, List.mem_cons, List.not_mem_nil, or_false] at hb
      rcases hb with rfl | rfl
      · exact .int _ _ (by simp [InRange])
      · exact .int _ _ (by simp [InRange])) (by
      intro x hx; cases hx; exact .int _ _ (by simp [InRange])) demo_chosen
  have hw : ∀ t ∈ branchTypes demoBranches (some (.int .i32, .int .i32 (-5))), Whole t := by
    intro t ht
    simp only [branchTypes, demoBranches, List.map_cons, List.map_nil, List.cons_append,
      List.nil_append, List.mem_cons, List.not_mem_nil, or_false] at ht
    rcases ht with rfl | rfl | rfl <;> exact .int _
  have h64 : Ty.int .u64 ∉ branchTypes demoBranches (some (.int .i32, .int .i32 (-5))) := by
    decide
  have := h.wholeTy .u8 200 hw (fun hc => h64 hc.1) (by
    rintro ⟨t, ht⟩
    rcases ht (.int .u8) (by decide) with h1 | h1
    · cases h1
    · rcases ht (.int .i32) (by decide) with h2 | h2
      · cases h2
      · rw [← h1] at h2; cases h2) rfl
  rw [if_neg h64] at this
  exact this

/-- `C75_case_expr`: `CASE 7 WHEN 5 THEN 'a' WHEN 7 THEN 'b' END` with numbers of different
types. -/
example : call demo .caseExpr ((.int .i32, .int .i32 7) ::
    flat [((.int .u8, .int .u8 5), (.str, .str "a")), ((.int .i64, .int .i64 7), (.str, .str "b"))]
      none) = .str "b" := by
  have h := C75_case_expr demo (.int .i32, .int .i32 7)
    [((.int .u8, .int .u8 5), (.str, .str "a")), ((.int .i64, .int .i64 7), (.str, .str "b"))]
    none (.str "b") (by
      intro b hb
      simp only [List.mem_cons, List.not_mem_nil, or_false] at hb
      rcases hb with rfl | rfl <;> exact .str _) (by intro y hy; cases hy) (by
      refine Or.inr (Or.inr (Or.inr (Or.inr (Or.inl ?_))))
      intro w hw
      simp only [List.map_cons, List.map_nil, List.mem_cons, List.not_mem_nil, or_false] at hw
      rcases hw with rfl | rfl | rfl
      · exact ⟨_, _, rfl, by decide, by simp [InRange], by decide⟩
      · exact ⟨_, _, rfl, by decide, by simp [InRange], by decide⟩
      · exact ⟨_, _, rfl, by decide, by simp [InRange], by decide⟩)
    (.skip _ _ _ _ _ (by rintro ⟨⟩) (.hit _ _ _ _ (.int _ _ _)))
  exact h.one .str (by intro x hx; simp [branchTypes] at hx; exact Or.inr hx)

/-- `C75_if`, `C75_ifnull`: a number beside a text. -/
example : call demo .iff [(.null, .null), (.int .i64, .int .i64 1), (.str, .str "x")] = .str "x" :=
  (((C75_if demo (.null, .null) (.int .i64, .int .i64 1) (.str, .str "x")
    (.int _ _ (by simp [InRange])) (.str _)).2 (by rintro ⟨⟩)).text (by decide)).2.2 _ rfl

example : call demo .ifnull [(.int .i64, .null), (.int .i64, .int .i64 4)] = .int .i64 4 :=
  ((C75_ifnull demo (.int .i64, .null) (.int .i64, .int .i64 4) (.null _)
    (.int _ _ (by simp [InRange]))).2 rfl).one (.int .i64) (by
      intro x hx; simp at hx; exact Or.inr hx)

/-- `C75_nullif`: the same number in two types. -/
example : call demo .nullif [(.int .i8, .int .i8 (-3)), (.int .i64, .int .i64 (-3))] = .null :=
  (C75_nullif demo (.int .i8, .int .i8 (-3)) (.int .i64, .int .i64 (-3))
    (.int _ _ (by simp [InRange])) (by
      refine Or.inr (Or.inr (Or.inr (Or.inr (Or.inr ?_))))
      intro w hw
      simp only [List.mem_cons, List.not_mem_nil, or_false] at hw
      rcases hw with rfl | rfl
      · exact ⟨_, _, rfl, .i8, by simp [InRange]⟩
      · exact ⟨_, _, rfl, .i64, by simp [InRange]⟩)).1 (.int _ _ _)

/-- `C75_nullif_null`. -/
example : call demo .nullif [(.int .i64, .int .i64 4), (.null, .null)] = .int .i64 4 :=
  (C75_nullif_null demo (.int .i64, .int .i64 4) .null (.int _ _ (by simp [InRange]))
    (by intro s n h _; cases h; decide) (by intro n h; cases h) (by intro d h; cases h)
    (by intro h; cases h)).one (.int .i64) (by intro x hx; simp at hx; tauto)

/-- The hypotheses of the counterexamples. -/
example : demo.isZero (demo.ofInt 0) = true ∧ demo.isZero 1 = false := by decide

/-- Doubles that keep even numbers only, and texts of one digit. -/
def coarse : Ops Int :=
  { demo with
    ofInt := fun n => n / 2 * 2
    ofStr := fun s => if s = "01" ∨ s = "1" then 1 else 0
    strInt := fun s => if s = "0.5" then 0 else 1 }

example : coarse.ofInt 9007199254740993 = coarse.ofInt 9007199254740992 ∧
    coarse.eq (coarse.ofStr "01") (coarse.ofInt 5) = false ∧
    coarse.eq (coarse.ofStr "01") (coarse.ofStr "1") = true ∧ coarse.strInt "0.5" = 0 ∧
    coarse.isZero 1 = false := by decide

end BaikalDB.Cond
