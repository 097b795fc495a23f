import Verif.Subq.MinMax

/-!
# C63: conditions with a subquery that does not refer to the outer query

`i` is a column of the outer query, `r` a row of it, `vals` the values the subquery selects.
-/

namespace BaikalDB.Subq
open BaikalDB.Expr (VTy EV)
open BaikalDB.Expr.Spec
open BaikalDB.Pred
open BaikalDB.Pred.Spec
open BaikalDB.Subq.Spec

theorem fitV_mem {t u : VTy} {vals : List EV} (h : Fitting t u vals) : ∀ v ∈ vals, ∃ u, FitV t u v :=
  fun _ hv => ⟨u, Fitting.mem h hv⟩

theorem fitting_typed {t u : VTy} {vals : List EV} (h : Fitting t u vals) : Typed u vals :=
  ⟨(ordered_of h.1).2, fun v hv => (h.2 v hv).imp id (fun h => ⟨h.1, h.2.1⟩)⟩

theorem fitting_ordered {t u : VTy} {vals : List EV} (h : Fitting t u vals) : Ordered t := (ordered_of h.1).1

/-! ## EXISTS -/

/-- **C63.** EXISTS is true exactly if the subquery returns a row, NOT EXISTS exactly if it does not. -/
theorem C63_exists (E : Env) (r : Row) (isNot : Bool) (vals : List EV) :
    Means E r (existsSub isNot vals) (some (decide (vals ≠ []) != isNot)) := by
  have e : ((!vals.isEmpty && !isNot) || (vals.isEmpty && isNot)) = (decide (vals ≠ []) != isNot) := by
    cases vals <;> cases isNot <;> rfl
  unfold existsSub
  rw [e]
  exact means_of_rep (boolLit_rep E r _)

/-! ## Comparison with the only row of a subquery -/

/-- **C63.** `column op (subquery)`: the comparison with the value of the only row, with NULL if there is no row; an error
if there are more. -/
theorem C63_scalar (E : Env) {S : Schema} {r : Row} (hr : RowOk S r) (op : Op) (i : Nat) {u : VTy} {vals : List EV}
    (hv : Fitting (S i).1 u vals) :
    (scalarSub E op (.slot i (S i).1) vals = none ↔ 1 < vals.length) ∧
    ∀ e, scalarSub E op (.slot i (S i).1) vals = some e →
      Means E r e (cmp3 op (sem (r i)) (vals.head?.elim none sem)) := by
  refine ⟨?_, ?_⟩
  · rcases vals with _ | ⟨v, _ | ⟨w, vs⟩⟩ <;> simp [scalarSub]
  · intro e he
    rcases vals with _ | ⟨v, _ | ⟨w, vs⟩⟩ <;> simp only [scalarSub, Option.some.injEq, reduceCtorEq] at he
    · subst he
      have hn : FitV (S i).1 u nullV := ⟨hv.1, .inl rfl⟩
      have := cmp_lit_rep E hr op i hn
      rw [lit_null rfl] at this
      exact means_of_rep this
    · subst he
      exact means_of_rep (cmp_lit_rep E hr op i (Fitting.mem hv List.mem_cons_self))

/-! ## IN -/

/-- **C63.** `column IN (subquery)` selects the rows whose value the subquery returned. -/
theorem C63_in (E : Env) {S : Schema} {r : Row} (hr : RowOk S r) (i : Nat) {u : VTy} {vals : List EV}
    (hv : Fitting (S i).1 u vals) :
    Selects E r (inSub E false (.slot i (S i).1) vals) (anyVal .eq (sem (r i)) (vals.map sem)) := by
  cases vals with
  | nil => exact (selects_of_rep (prepare_null_in_rep E hr i (fitting_ordered hv)).1).trans (by simp [anyVal])
  | cons v vs => exact selects_of_rep (in_rep' E hr i (fitting_ordered hv) (by simp) (fitV_mem hv)).1

/-- **C63.** If the subquery returns a row, IN and NOT IN have the truth value of the chain of comparisons, also below other
conditions. -/
theorem C63_in_value (E : Env) {S : Schema} {r : Row} (hr : RowOk S r) (i : Nat) {u : VTy} {vals : List EV}
    (hv : Fitting (S i).1 u vals) (hne : vals ≠ []) :
    Means E r (inSub E false (.slot i (S i).1) vals) (anyVal .eq (sem (r i)) (vals.map sem)) ∧
    Means E r (inSub E true (.slot i (S i).1) vals) (allVal .ne (sem (r i)) (vals.map sem)) := by
  cases vals with
  | nil => exact absurd rfl hne
  | cons v vs =>
    obtain ⟨h1, h2⟩ := in_rep' E hr i (fitting_ordered hv) hne (fitV_mem hv)
    exact ⟨means_of_rep h1, means_of_rep h2⟩

/-- **C63.** `column NOT IN (subquery)` selects the rows whose value differs from all values returned, if the subquery
returns a row. -/
theorem C63_not_in (E : Env) {S : Schema} {r : Row} (hr : RowOk S r) (i : Nat) {u : VTy} {vals : List EV}
    (hv : Fitting (S i).1 u vals) (hne : vals ≠ []) :
    Selects E r (inSub E true (.slot i (S i).1) vals) (allVal .ne (sem (r i)) (vals.map sem)) := by
  cases vals with
  | nil => exact absurd rfl hne
  | cons v vs => exact selects_of_rep (in_rep' E hr i (fitting_ordered hv) hne (fitV_mem hv)).2

/-- `column NOT IN (subquery)` with a subquery without rows selects no row; it should select every row. -/
theorem C63_not_in_empty_counterexample (E : Env) {S : Schema} {r : Row} (hr : RowOk S r) (i : Nat) (ho : Ordered (S i).1) :
    keep E r [prepare E (inSub E true (.slot i (S i).1) [])] = false ∧ allVal .ne (sem (r i)) [] = some true := by
  refine ⟨?_, by simp [allVal]⟩
  have := selects_of_rep (prepare_null_in_rep E hr i ho).2
  unfold Selects at this
  rw [← Bool.not_eq_true]
  exact fun h => absurd (this.1 h) (by simp)

/-! ## = and <> with ANY and ALL -/

/-- **C63.** `column = ANY (subquery)` and `column <> ALL (subquery)` have the truth value of the chain of comparisons. -/
theorem C63_eq_any_ne_all (E : Env) {S : Schema} {r : Row} (hr : RowOk S r) (i : Nat) (p : Path) {u : VTy} {vals : List EV}
    (hv : Fitting (S i).1 u vals) :
    Means E r (quantSub E p .eq false (.slot i (S i).1) vals) (anyVal .eq (sem (r i)) (vals.map sem)) ∧
    Means E r (quantSub E p .ne true (.slot i (S i).1) vals) (allVal .ne (sem (r i)) (vals.map sem)) := by
  cases vals with
  | nil =>
    refine ⟨?_, ?_⟩
    · have : anyVal .eq (sem (r i)) [] = some false := by simp [anyVal]
      simp only [quantSub, rewrite, cmpSub, List.map_nil, this]
      exact means_of_rep (boolLit_rep E r _)
    · have : allVal .ne (sem (r i)) [] = some true := by simp [allVal]
      simp only [quantSub, rewrite, cmpSub, List.map_nil, this]
      exact means_of_rep (boolLit_rep E r _)
  | cons v vs =>
    obtain ⟨h1, h2⟩ := in_rep' E hr i (fitting_ordered hv) (by simp) (fitV_mem hv)
    exact ⟨means_of_rep h1, means_of_rep h2⟩

/-- Whether the values differ. -/
theorem differ_iff {u : VTy} {v : EV} {vs : List EV} (ht : Typed u (v :: vs)) (hn : NoNull (v :: vs)) :
    differ (v :: vs) = true ↔ ∃ w ∈ vs, sem w ≠ sem v := by
  have hty : ∀ w ∈ v :: vs, w.ty = u ∧ NotNaN w := fun w hw => (ht.2 w hw).resolve_left (hn w hw)
  obtain ⟨v1, v2⟩ := hty v List.mem_cons_self
  simp only [differ, List.any_eq_true, bne_iff_ne, ne_eq]
  constructor
  · rintro ⟨w, hw, h⟩
    refine ⟨w, hw, fun e => h ?_⟩
    obtain ⟨w1, w2⟩ := hty w (List.mem_cons_of_mem _ hw)
    obtain ⟨x, y, e1, e2, e3⟩ := Expr.C28_compare_is_value_order (a := v) (b := w) (v1.trans w1.symm) (by rw [v1]; exact ht.1) v2 w2
    rw [e1, e2] at e
    injection e with e
    subst e
    have : sgn (Expr.compare v w) = .eq := by rw [e3]; exact Expr.SVal.cmp_eq.2 rfl
    exact (Int.compare_eq_eq).1 this
  · rintro ⟨w, hw, h⟩
    refine ⟨w, hw, fun e => h ?_⟩
    obtain ⟨w1, w2⟩ := hty w (List.mem_cons_of_mem _ hw)
    obtain ⟨x, y, e1, e2, e3⟩ := Expr.C28_compare_is_value_order (a := v) (b := w) (v1.trans w1.symm) (by rw [v1]; exact ht.1) v2 w2
    rw [e] at e3
    rw [e1, e2, Expr.SVal.cmp_eq.1 e3.symm]

/-- The values are all equal: one of them stands for all. -/
theorem same_vals {v : EV} {vs : List EV} (h : ¬ ∃ w ∈ vs, sem w ≠ sem v) (op : Op) (x : Option SVal) (b : Option Bool) :
    (∀ y ∈ (v :: vs).map sem, cmp3 op x y = b) ↔ ∀ y ∈ [v].map sem, cmp3 op x y = b := by
  constructor
  · intro h' y hy
    simp only [List.map_cons, List.map_nil, List.mem_cons, List.not_mem_nil, or_false] at hy
    subst hy
    exact h' _ (by simp)
  · intro h' y hy
    obtain ⟨w, hw, rfl⟩ := List.mem_map.1 hy
    rcases List.mem_cons.1 hw with rfl | hw
    · exact h' _ (by simp)
    · have : sem w = sem v := Classical.byContradiction fun hc => h ⟨w, hw, hc⟩
      rw [this]
      exact h' _ (by simp)

theorem same_vals_any {v : EV} {vs : List EV} (h : ¬ ∃ w ∈ vs, sem w ≠ sem v) (op : Op) (x : Option SVal) (b : Option Bool) :
    (∃ y ∈ (v :: vs).map sem, cmp3 op x y = b) ↔ ∃ y ∈ [v].map sem, cmp3 op x y = b := by
  constructor
  · rintro ⟨y, hy, h'⟩
    obtain ⟨w, hw, rfl⟩ := List.mem_map.1 hy
    rcases List.mem_cons.1 hw with rfl | hw
    · exact ⟨_, by simp, h'⟩
    · have : sem w = sem v := Classical.byContradiction fun hc => h ⟨w, hw, hc⟩
      rw [this] at h'
      exact ⟨_, by simp, h'⟩
  · rintro ⟨y, hy, h'⟩
    simp only [List.map_cons, List.map_nil, List.mem_cons, List.not_mem_nil, or_false] at hy
    subst hy
    exact ⟨_, by simp, h'⟩

theorem fitting_one {t u : VTy} {v : EV} {vs : List EV} (h : Fitting t u (v :: vs)) : ∀ w ∈ [v], ∃ u, FitV t u w := by
  intro w hw
  simp only [List.mem_cons, List.not_mem_nil, or_false] at hw
  subst hw
  exact ⟨u, Fitting.mem h List.mem_cons_self⟩

/-- **C63.** `column = ALL (subquery)` selects the rows that equal all values, if the subquery returns no NULL. -/
theorem C63_eq_all (E : Env) {S : Schema} {r : Row} (hr : RowOk S r) (i : Nat) (p : Path) {u : VTy} {vals : List EV}
    (hv : Fitting (S i).1 u vals) (hn : NoNull vals) :
    Selects E r (quantSub E p .eq true (.slot i (S i).1) vals) (allVal .eq (sem (r i)) (vals.map sem)) := by
  cases vals with
  | nil =>
    have : allVal .eq (sem (r i)) [] = some true := by simp [allVal]
    simp only [quantSub, rewrite, cmpSub, List.map_nil, this]
    exact selects_of_rep (boolLit_rep E r _)
  | cons v vs =>
    have hd := differ_iff (fitting_typed hv) hn
    show Selects E r (if differ (v :: vs) = true then boolLit false else .isIn (.slot i (S i).1) [lit E v] false) _
    by_cases h : differ (v :: vs) = true
    · rw [if_pos h]
      refine selects_congr (selects_of_rep (boolLit_rep E r false)) ?_
      simp only [Option.some.injEq, Bool.false_eq_true, false_iff]
      rw [allVal_true]
      intro hall
      obtain ⟨w, hw, hne⟩ := hd.1 h
      have h1 := hall (sem v) (by simp)
      have h2 := hall (sem w) (List.mem_map.2 ⟨w, List.mem_cons_of_mem _ hw, rfl⟩)
      revert h1 h2 hne
      cases sem (r i) <;> cases sem v <;> cases sem w <;> simp [cmp3, rel]
      rintro h1 h2 h3
      rw [h2] at h3
      exact h1 h3.symm
    · rw [if_neg h]
      have hs : ¬ ∃ w ∈ vs, sem w ≠ sem v := fun hc => h (hd.2 hc)
      refine selects_congr (selects_of_rep (in_rep' E hr i (fitting_ordered hv) (by simp) (fitting_one hv)).1) ?_
      rw [allVal_true, same_vals hs, anyVal_true]
      simp

/-- **C63.** `column <> ANY (subquery)` selects the rows that differ from some value, if the values returned are all equal
and not NULL. -/
theorem C63_ne_any_partial (E : Env) {S : Schema} {r : Row} (hr : RowOk S r) (i : Nat) (p : Path) {u : VTy} {vals : List EV}
    (hv : Fitting (S i).1 u vals) (hn : NoNull vals) (hs : ∀ v ∈ vals, ∀ w ∈ vals, sem v = sem w) :
    Selects E r (quantSub E p .ne false (.slot i (S i).1) vals) (anyVal .ne (sem (r i)) (vals.map sem)) := by
  cases vals with
  | nil =>
    have : anyVal .ne (sem (r i)) [] = some false := by simp [anyVal]
    simp only [quantSub, rewrite, cmpSub, List.map_nil, this]
    exact selects_of_rep (boolLit_rep E r _)
  | cons v vs =>
    have hs' : ¬ ∃ w ∈ vs, sem w ≠ sem v := by
      rintro ⟨w, hw, h⟩
      exact h (hs w (List.mem_cons_of_mem _ hw) v List.mem_cons_self)
    have hd : ¬ differ (v :: vs) = true := fun h => hs' ((differ_iff (fitting_typed hv) hn).1 h)
    show Selects E r (if differ (v :: vs) = true then boolLit false else .not (.isIn (.slot i (S i).1) [lit E v] false)) _
    rw [if_neg hd]
    refine selects_congr (selects_of_rep (in_rep' E hr i (fitting_ordered hv) (by simp) (fitting_one hv)).2) ?_
    rw [anyVal_true, same_vals_any hs', allVal_true]
    simp

/-! ## Comparison with ANY and ALL -/

/-- The side of the extreme value that decides. -/
theorem minMax_rel {isMax : Bool} {vals : List EV} {m : EV} {z : SVal} (h : MinMax isMax vals m) (hz : sem m = some z) {op : Op}
    {x y : SVal} {w : EV} (hw : w ∈ vals) (hy : sem w = some y) (ho : op ≠ .eq ∧ op ≠ .ne)
    (hr : rel op x (if (op = .lt ∨ op = .le) = (isMax = true) then y else z) = true) :
    rel op x (if (op = .lt ∨ op = .le) = (isMax = true) then z else y) = true := by
  obtain ⟨_, z', hz', hall⟩ := h.2 ⟨w, hw, by rw [hy]; simp⟩
  rw [hz] at hz'
  injection hz' with hz'
  subst hz'
  have hle := hall w hw y hy
  refine rel_mono ho ?_ hr
  cases op <;> cases isMax <;> simp at ho hle ⊢ <;> exact hle

/-- **C63.** `column op ANY (subquery)` for `<`, `<=`, `>`, `>=` selects the rows for which the comparison holds with some
value returned.  If the subquery selects a bare column and the smallest value is needed, it must return no NULL. -/
theorem C63_cmp_any (E : Env) {S : Schema} {r : Row} (hr : RowOk S r) (i : Nat) (p : Path) (op : Op) (ho : op ≠ .eq ∧ op ≠ .ne)
    {u : VTy} {vals : List EV} (hv : Fitting (S i).1 u vals) (hn : p = .sort → op = .gt ∨ op = .ge → NoNull vals) :
    Selects E r (quantSub E p op false (.slot i (S i).1) vals) (anyVal op (sem (r i)) (vals.map sem)) := by
  have hrw : rewrite p op false vals = minmax p (decide (op = .lt ∨ op = .le)) vals := by
    cases op <;> simp at ho <;> rfl
  have hmm := minmax_ok (fitting_typed hv) p (decide (op = .lt ∨ op = .le)) (fun hp => by
    rcases op with _ | _ | _ | _ | _ | _ <;> simp at ho ⊢
    · exact hn hp (.inl rfl)
    · exact hn hp (.inr rfl))
  unfold quantSub
  rw [hrw]
  rcases hmm with ⟨_, rfl, h2⟩ | ⟨_, m, h2, h3⟩
  · rw [h2]
    have : anyVal op (sem (r i)) [] = some false := by simp [anyVal]
    rw [List.map_nil, this]
    exact selects_of_rep (boolLit_rep E r _)
  · rw [h2]
    have hc : cmpSub E op false (.slot i (S i).1) [m] = .cmp op .invalid (.slot i (S i).1) (.lit (lit E m)) := by
      cases op <;> simp [cmpSub] at ho ⊢
    rw [hc]
    have hfit : FitV (S i).1 u m := by
      by_cases hx : ∃ v ∈ vals, sem v ≠ none
      · exact Fitting.mem hv (h3.2 hx).1
      · exact ⟨hv.1, .inl (h3.1 fun v hvm => Classical.byContradiction fun hc => hx ⟨v, hvm, hc⟩)⟩
    refine selects_congr (selects_of_rep (cmp_lit_rep E hr op i hfit)) ?_
    rw [anyVal_true]
    constructor
    · intro h
      by_cases hx : ∃ v ∈ vals, sem v ≠ none
      · exact ⟨sem m, List.mem_map.2 ⟨m, (h3.2 hx).1, rfl⟩, h⟩
      · have := sem_null (h3.1 fun v hvm => Classical.byContradiction fun hc => hx ⟨v, hvm, hc⟩)
        rw [this] at h
        cases hs : sem (r i) <;> rw [hs] at h <;> simp [cmp3] at h
    · rintro ⟨y, hy, h⟩
      obtain ⟨w, hw, rfl⟩ := List.mem_map.1 hy
      cases hs : sem (r i) with
      | none => rw [hs] at h; simp [cmp3] at h
      | some x =>
        cases hw' : sem w with
        | none => rw [hs, hw'] at h; simp [cmp3] at h
        | some y =>
          rw [hs, hw'] at h
          simp only [cmp3, Option.some.injEq] at h
          obtain ⟨_, z, hz, _⟩ := h3.2 ⟨w, hw, by rw [hw']; simp⟩
          have := minMax_rel h3 hz hw hw' (x := x) ho (by
            rw [if_pos (by simp)]; exact h)
          rw [if_pos (by simp)] at this
          rw [hz]
          simp only [cmp3, this]

/-- **C63.** `column op ALL (subquery)` for `<`, `<=`, `>`, `>=` selects the rows for which the comparison holds with all
values returned, if the subquery returns no NULL and, for `<` and `<=`, at least one row. -/
theorem C63_cmp_all (E : Env) {S : Schema} {r : Row} (hr : RowOk S r) (i : Nat) (p : Path) (op : Op) (ho : op ≠ .eq ∧ op ≠ .ne)
    {u : VTy} {vals : List EV} (hv : Fitting (S i).1 u vals) (hn : NoNull vals)
    (hne : op = .lt ∨ op = .le → p ≠ .window → vals ≠ []) :
    Selects E r (quantSub E p op true (.slot i (S i).1) vals) (allVal op (sem (r i)) (vals.map sem)) := by
  have hrw : rewrite p op true vals = minmax p (decide (op = .gt ∨ op = .ge)) vals := by
    cases op <;> simp at ho <;> rfl
  have hmm := minmax_ok (fitting_typed hv) p (decide (op = .gt ∨ op = .ge)) (fun _ => .inr hn)
  unfold quantSub
  rw [hrw]
  rcases hmm with ⟨_, rfl, h2⟩ | ⟨hw, m, h2, h3⟩
  · rw [h2]
    have : allVal op (sem (r i)) [] = some true := by simp [allVal]
    rw [List.map_nil, this]
    exact selects_of_rep (boolLit_rep E r _)
  · rw [h2]
    cases vals with
    | nil =>
      have hm : m.ty = .null := h3.1 (by simp)
      have hgt : op = .gt ∨ op = .ge := by
        cases op <;> simp at ho hne ⊢
        · exact hw hne rfl
        · exact hw hne rfl
      have hc : cmpSub E op true (.slot i (S i).1) [m] = boolLit true := by
        rcases hgt with rfl | rfl <;> simp [cmpSub, isNull_of hm]
      rw [hc]
      have : allVal op (sem (r i)) [] = some true := by simp [allVal]
      rw [List.map_nil, this]
      exact selects_of_rep (boolLit_rep E r _)
    | cons v vs =>
      have ht := fitting_typed hv
      have hx : ∃ w ∈ v :: vs, sem w ≠ none :=
        ⟨v, List.mem_cons_self, fun h => hn v List.mem_cons_self ((typed_sem ht List.mem_cons_self).1 h)⟩
      obtain ⟨hm, z, hz, _⟩ := h3.2 hx
      have hmn : m.isNull = false := by
        rw [← Bool.not_eq_true, isNull_typed ht.1 (ht.2 m hm)]
        exact hn m hm
      have hc : cmpSub E op true (.slot i (S i).1) [m] = .cmp op .invalid (.slot i (S i).1) (.lit (lit E m)) := by
        cases op <;> simp [cmpSub, hmn] at ho ⊢
      rw [hc]
      refine selects_congr (selects_of_rep (cmp_lit_rep E hr op i (Fitting.mem hv hm))) ?_
      rw [allVal_true]
      constructor
      · intro h y hy
        obtain ⟨w, hw, rfl⟩ := List.mem_map.1 hy
        cases hs : sem (r i) with
        | none => rw [hs] at h; simp [cmp3] at h
        | some x =>
          cases hw' : sem w with
          | none => exact absurd ((typed_sem ht hw).1 hw') (hn w hw)
          | some y =>
            rw [hs, hz] at h
            simp only [cmp3, Option.some.injEq] at h
            have := minMax_rel h3 hz hw hw' (x := x) ho (by
              rw [if_neg (by cases op <;> simp at ho ⊢)]; exact h)
            rw [if_neg (by cases op <;> simp at ho ⊢)] at this
            simp only [cmp3, this]
      · intro h
        exact h (sem m) (List.mem_map.2 ⟨m, hm, rfl⟩)

/-! ## SELECT MIN and SELECT MAX -/

/-- **C63.** `SELECT MAX(column)`, planned as ORDER BY ... DESC LIMIT 1, returns one row: the largest value that is not NULL, or
NULL. -/
theorem C63_select_max {u : VTy} {vals : List EV} (ht : Typed u vals) :
    ∃ m, minmax .sort true vals = [m] ∧ MinMax true vals m :=
  ⟨_, rfl, first_ok ht true (.inl rfl)⟩

/-- **C63.** `SELECT MIN(column)`, planned as ORDER BY ... LIMIT 1, returns one row: the smallest value, or NULL if there is none,
if there are no NULLs. -/
theorem C63_select_min_partial {u : VTy} {vals : List EV} (ht : Typed u vals) (hn : NoNull vals) :
    ∃ m, minmax .sort false vals = [m] ∧ MinMax false vals m :=
  ⟨_, rfl, first_ok ht false (.inr hn)⟩

end BaikalDB.Subq
