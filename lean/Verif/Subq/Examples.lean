import Verif.Subq.Props

/-! # C63: where the results are wrong, and cases that meet the hypotheses -/

namespace BaikalDB.Subq
open BaikalDB.Expr (VTy EV)
open BaikalDB.Expr.Spec
open BaikalDB.Pred
open BaikalDB.Pred.Spec
open BaikalDB.Subq.Spec

/-- An INT value. -/
def exI (n : Int) : EV := ⟨.int32, BitVec.ofInt 64 n, []⟩
/-- A row whose columns all hold this INT. -/
def exRow (n : Int) : Row := fun _ => exI n

theorem keep_null (E : Env) {r : Row} {e : PE} (h : eval E r e = nullV) : keep E r [e] = false := by
  simp only [keep, List.all_cons, List.all_nil, Bool.and_true, h]
  rfl

/-- `1 <> ANY (1, 2)` is true, but the row is not selected. -/
theorem C63_ne_any_counterexample (E : Env) (p : Path) :
    keep E (exRow 1) [prepare E (quantSub E p .ne false (.slot 0 .int32) [exI 1, exI 2])] = false ∧
    anyVal .ne (sem (exRow 1 0)) ([exI 1, exI 2].map sem) = some true :=
  ⟨keep_bool E rfl, by decide +kernel⟩

def exSchema : Schema := fun _ => (.int32, true)

theorem exRowOk (n : Int) : RowOk exSchema (exRow n) := fun _ => .inr ⟨rfl, by simp [exRow, exI], by simp [exRow, exI]⟩

theorem exFitV (n : Int) (h : Fits .int32 (numOf (exI n)) ∧ Fits .int64 (numOf (exI n))) : FitV .int32 .int32 (exI n) :=
  ⟨.inl ⟨by decide, by decide⟩, .inr ⟨rfl, ⟨by simp [exI], by simp [exI]⟩, fun _ => h⟩⟩

/-- `0 = ALL (0, NULL)` is unknown, but the row is selected. -/
theorem C63_eq_all_null_counterexample (E : Env) (p : Path) :
    keep E (exRow 0) [prepare E (quantSub E p .eq true (.slot 0 .int32) [exI 0, nullV])] = true ∧
    allVal .eq (sem (exRow 0 0)) ([exI 0, nullV].map sem) = none := by
  refine ⟨?_, by decide +kernel⟩
  have hd : differ [exI 0, nullV] = false := by decide +kernel
  have e : quantSub E p .eq true (.slot 0 .int32) [exI 0, nullV] = .isIn (.slot 0 .int32) ([exI 0].map (lit E)) false := by
    show (if differ [exI 0, nullV] = true then boolLit false else PE.isIn (.slot 0 .int32) [lit E (exI 0)] false) = _
    rw [hd]; rfl
  rw [e]
  refine (selects_of_rep (in_rep' E (exRowOk 0) 0 (by decide) (by simp) ?_).1).2 (by decide +kernel)
  intro v hv
  simp only [List.mem_cons, List.not_mem_nil, or_false] at hv
  subst hv
  exact ⟨_, exFitV 0 (by decide +kernel)⟩

/-- `9 > ALL (5, NULL)` is unknown, but the row is selected; so is `9 > ALL (NULL)`. -/
theorem C63_gt_all_null_counterexample (E : Env) (p : Path) :
    (keep E (exRow 9) [prepare E (quantSub E p .gt true (.slot 0 .int32) [exI 5, nullV])] = true ∧
      allVal .gt (sem (exRow 9 0)) ([exI 5, nullV].map sem) = none) ∧
    (keep E (exRow 9) [prepare E (quantSub E p .gt true (.slot 0 .int32) [nullV])] = true ∧
      allVal .gt (sem (exRow 9 0)) ([nullV].map sem) = none) := by
  refine ⟨⟨?_, by decide +kernel⟩, ⟨?_, by decide +kernel⟩⟩
  · have hm : minmax p true [exI 5, nullV] = [exI 5] := by cases p <;> decide +kernel
    have e : quantSub E p .gt true (.slot 0 .int32) [exI 5, nullV] = .cmp .gt .invalid (.slot 0 .int32) (.lit (lit E (exI 5))) := by
      show cmpSub E .gt true _ (minmax p true [exI 5, nullV]) = _
      rw [hm]; rfl
    rw [e]
    exact (selects_of_rep (cmp_lit_rep E (exRowOk 9) .gt 0 (exFitV 5 (by decide +kernel)))).2 (by decide +kernel)
  · have hm : minmax p true [nullV] = [nullV] := by cases p <;> decide +kernel
    have e : quantSub E p .gt true (.slot 0 .int32) [nullV] = boolLit true := by
      show cmpSub E .gt true _ (minmax p true [nullV]) = _
      rw [hm]; rfl
    rw [e]
    exact (selects_of_rep (boolLit_rep E (exRow 9) true)).2 rfl

/-- `1 < ALL (SELECT ...)` is true if the subquery returns nothing, but the row is not selected. -/
theorem C63_lt_all_empty_counterexample (E : Env) (p : Path) (hp : p ≠ .window) :
    keep E (exRow 1) [prepare E (quantSub E p .lt true (.slot 0 .int32) [])] = false ∧
    allVal .lt (sem (exRow 1 0)) [] = some true := by
  refine ⟨?_, by decide +kernel⟩
  cases p
  · exact keep_null E rfl
  · exact keep_null E rfl
  · exact absurd rfl hp

/-- `SELECT MIN(a)` over 5 and NULL is NULL; so `9 > ANY (SELECT a ...)` selects nothing although 9 > 5. -/
theorem C63_select_min_counterexample (E : Env) :
    minmax .sort false [exI 5, nullV] = [nullV] ∧ ¬ MinMax false [exI 5, nullV] nullV ∧
    keep E (exRow 9) [prepare E (quantSub E .sort .gt false (.slot 0 .int32) [exI 5, nullV])] = false ∧
    anyVal .gt (sem (exRow 9 0)) ([exI 5, nullV].map sem) = some true := by
  refine ⟨by decide +kernel, ?_, keep_null E rfl, by decide +kernel⟩
  intro h
  obtain ⟨_, z, hz, _⟩ := h.2 ⟨exI 5, by simp, by decide +kernel⟩
  simp [sem, nullV, intShape] at hz

/-! ## The hypotheses can be met -/

theorem exFit : Fitting .int32 .int32 [exI 5, nullV, exI 7] := by
  refine ⟨.inl ⟨by decide, by decide⟩, ?_⟩
  intro v hv
  simp only [List.mem_cons, List.not_mem_nil, or_false] at hv
  rcases hv with rfl | rfl | rfl
  · exact .inr ⟨rfl, by decide +kernel, fun _ => by decide +kernel⟩
  · exact .inl rfl
  · exact .inr ⟨rfl, by decide +kernel, fun _ => by decide +kernel⟩

theorem exFit2 : Fitting .int32 .int32 [exI 5, exI 7] :=
  ⟨exFit.1, fun v hv => exFit.2 v (by simp at hv ⊢; rcases hv with rfl | rfl <;> simp)⟩

theorem exNoNull : NoNull [exI 5, exI 7] := by
  intro v hv
  simp only [List.mem_cons, List.not_mem_nil, or_false] at hv
  rcases hv with rfl | rfl <;> decide +kernel

/-- 5 IN (5, NULL, 7); 6 is neither in nor not in. -/
example (E : Env) : keep E (exRow 5) [prepare E (inSub E false (.slot 0 .int32) [exI 5, nullV, exI 7])] = true :=
  (C63_in E (exRowOk 5) 0 exFit).2 (by decide +kernel)
example (E : Env) : ¬ keep E (exRow 6) [prepare E (inSub E true (.slot 0 .int32) [exI 5, nullV, exI 7])] = true := fun h =>
  absurd ((C63_not_in E (exRowOk 6) 0 exFit (by simp)).1 h) (by decide +kernel)
/-- 6 > ANY (5, NULL, 7) by the aggregate. -/
example (E : Env) : keep E (exRow 6) [prepare E (quantSub E .agg .gt false (.slot 0 .int32) [exI 5, nullV, exI 7])] = true :=
  (C63_cmp_any E (exRowOk 6) 0 .agg .gt (by simp) exFit (by simp)).2 (by decide +kernel)
/-- 8 > ALL (5, 7), 6 not. -/
example (E : Env) : keep E (exRow 8) [prepare E (quantSub E .sort .gt true (.slot 0 .int32) [exI 5, exI 7])] = true :=
  (C63_cmp_all E (exRowOk 8) 0 .sort .gt (by simp) exFit2 exNoNull (by simp)).2 (by decide +kernel)
example (E : Env) : ¬ keep E (exRow 6) [prepare E (quantSub E .sort .gt true (.slot 0 .int32) [exI 5, exI 7])] = true := fun h =>
  absurd ((C63_cmp_all E (exRowOk 6) 0 .sort .gt (by simp) exFit2 exNoNull (by simp)).1 h) (by decide +kernel)
example (E : Env) : ¬ keep E (exRow 5) [prepare E (quantSub E .sort .eq true (.slot 0 .int32) [exI 5, exI 7])] = true := fun h =>
  absurd ((C63_eq_all E (exRowOk 5) 0 .sort exFit2 exNoNull).1 h) (by decide +kernel)
example (E : Env) : scalarSub E .lt (.slot 0 .int32) [exI 5, exI 7] = none :=
  (C63_scalar E (exRowOk 5) .lt 0 exFit2).1.2 (by decide)
example : ∃ m, minmax .sort true [exI 5, nullV, exI 7] = [m] ∧ MinMax true [exI 5, nullV, exI 7] m :=
  C63_select_max (u := .int32) ⟨by decide, fun v hv => (exFit.2 v hv).imp id fun h => ⟨h.1, h.2.1⟩⟩
example : ∃ m, minmax .sort false [exI 5, exI 7] = [m] ∧ MinMax false [exI 5, exI 7] m :=
  C63_select_min_partial (u := .int32) ⟨by decide, fun v hv => (exFit2.2 v hv).imp id fun h => ⟨h.1, h.2.1⟩⟩ exNoNull

end BaikalDB.Subq
