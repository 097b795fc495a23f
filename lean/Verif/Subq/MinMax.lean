import Verif.Subq.Lemmas

/-! # MIN and MAX as the rewritten subquery computes them -/

namespace BaikalDB.Subq
open BaikalDB.Expr (VTy EV)
open BaikalDB.Expr.Spec
open BaikalDB.Pred
open BaikalDB.Pred.Spec
open BaikalDB.Subq.Spec
open BaikalDB.Window.Spec (args)
open BaikalDB.Sort (rowCompare)

theorem isNull_of {v : EV} (h : v.ty = .null) : v.isNull = true := by simp [EV.isNull, h]

theorem isNull_typed {u : VTy} (ho : Ordered u) {v : EV} (h : v.ty = .null ∨ (v.ty = u ∧ NotNaN v)) :
    v.isNull = true ↔ v.ty = .null := by
  rcases h with h | ⟨h, _⟩
  · simp [h, isNull_of h]
  · have := not_null_of_ordered (v := v) (by rw [h]; exact ho)
    rw [this]
    constructor
    · simp
    · intro h'; rw [isNull_of h'] at this; simp at this

theorem mem_args {u : VTy} {vals : List EV} (ht : Typed u vals) {v : EV} : v ∈ args id vals ↔ v ∈ vals ∧ v.ty ≠ .null := by
  simp only [args, List.map_id, List.mem_filter, Bool.not_eq_true']
  constructor
  · rintro ⟨h1, h2⟩
    exact ⟨h1, fun h => by rw [isNull_of h] at h2; simp at h2⟩
  · rintro ⟨h1, h2⟩
    refine ⟨h1, ?_⟩
    rw [← Bool.not_eq_true, isNull_typed ht.1 (ht.2 v h1)]
    exact h2

theorem typed_sem {u : VTy} {vals : List EV} (ht : Typed u vals) {v : EV} (hv : v ∈ vals) : sem v = none ↔ v.ty = .null := by
  rcases ht.2 v hv with h | ⟨h, _⟩
  · simp [h, sem_null h]
  · obtain ⟨x, hx⟩ := sem_of_ordered (v := v) (by rw [h]; exact ht.1)
    have := not_null_of_ordered (v := v) (by rw [h]; exact ht.1)
    constructor
    · intro h'; rw [hx] at h'; simp at h'
    · intro h'; rw [isNull_of h'] at this; simp at this

theorem typed_tail {u : VTy} {v : EV} {vs : List EV} (h : Typed u (v :: vs)) : Typed u vs :=
  ⟨h.1, fun w hw => h.2 w (List.mem_cons_of_mem _ hw)⟩

/-- From the values that are not NULL to all values. -/
theorem minMax_of_args {u : VTy} {vals : List EV} (ht : Typed u vals) {isMax : Bool} {m : EV}
    (h1 : args id vals = [] → m.ty = .null)
    (h2 : args id vals ≠ [] → m ∈ args id vals ∧ ∃ z, sem m = some z ∧ ∀ w ∈ args id vals, ∃ y, sem w = some y ∧
      if isMax then SVal.cmp y z ≠ .gt else SVal.cmp z y ≠ .gt) : MinMax isMax vals m := by
  constructor
  · intro h
    apply h1
    rw [List.eq_nil_iff_forall_not_mem]
    intro v hv
    rw [mem_args ht] at hv
    exact hv.2 ((typed_sem ht hv.1).1 (h v hv.1))
  · rintro ⟨v, hv, hs⟩
    have hm : v ∈ args id vals := (mem_args ht).2 ⟨hv, fun hn => hs ((typed_sem ht hv).2 hn)⟩
    obtain ⟨h3, z, h4, h5⟩ := h2 (List.ne_nil_of_mem hm)
    refine ⟨((mem_args ht).1 h3).1, z, h4, fun w hw x hx => ?_⟩
    have hw' : w ∈ args id vals := (mem_args ht).2 ⟨hw, fun hn => by rw [sem_null hn] at hx; simp at hx⟩
    obtain ⟨y, hy, hle⟩ := h5 w hw'
    rw [hy] at hx
    injection hx with hx
    subst hx
    exact hle

theorem foldMinMax_ok {u : VTy} {vals : List EV} (ht : Typed u vals) (isMax : Bool) : MinMax isMax vals (foldMinMax isMax vals) := by
  have ht' : ∀ r ∈ vals, (id r : EV).isNull = true ∨ ((id r : EV).ty = u ∧ NotNaN (id r : EV)) := by
    intro r hr
    rcases ht.2 r hr with h | h
    · exact .inl (isNull_of h)
    · exact .inr h
  have fp : Window.Fp := ⟨fun _ _ => 0, fun _ _ => 0, fun _ => 0, fun _ => 0⟩
  cases isMax with
  | false =>
    have := Window.min_value (fp := fp) (ks := []) ht.1 ht' vals nullV 0
    simp only [Window.Spec.Value] at this
    exact minMax_of_args ht this.1 this.2
  | true =>
    have := Window.max_value (fp := fp) (ks := []) ht.1 ht' vals nullV 0
    simp only [Window.Spec.Value] at this
    exact minMax_of_args ht this.1 this.2

/-- Comparison of two values by the ORDER BY of `minmax_remove`. -/
theorem sorted_cmp (isMax : Bool) {w m : EV} (hw : w.isNull = false) (hm : m.isNull = false) :
    rowCompare [sortKey isMax] w m < 0 ↔ if isMax then 0 < Expr.compare w m else Expr.compare w m < 0 := by
  cases isMax <;> simp [rowCompare, sortKey, hw, hm] <;> split <;> simp_all

theorem first_fold (isMax : Bool) (vs : List EV) : ∀ m : EV,
    (isMax = true ∨ (m.isNull = false ∧ ∀ w ∈ vs, w.isNull = false)) →
    vs.foldl (fun m w => if rowCompare [sortKey isMax] w m < 0 then w else m) m =
      (args id vs).foldl (fun m w => if m.isNull = true ∨ decide (rowCompare [sortKey isMax] w m < 0) = true then w else m) m := by
  induction vs with
  | nil => intro m _; rfl
  | cons w vs ih =>
    intro m h
    rw [List.foldl_cons, Window.args_cons]
    cases hw : w.isNull with
    | true =>
      have hmax : isMax = true := by
        rcases h with h | ⟨_, h⟩
        · exact h
        · have := h w List.mem_cons_self
          rw [hw] at this
          simp at this
      subst hmax
      have : ¬ rowCompare [sortKey true] w m < 0 := by
        cases hm : m.isNull <;> simp [rowCompare, sortKey, hw, hm]
      rw [if_neg this, ih m (.inl rfl)]
      simp [hw]
    | false =>
      have hstep : (if rowCompare [sortKey isMax] w m < 0 then w else m) =
          if m.isNull = true ∨ decide (rowCompare [sortKey isMax] w m < 0) = true then w else m := by
        rcases h with h | ⟨h, _⟩
        · subst h
          cases hm : m.isNull with
          | true =>
            have : rowCompare [sortKey true] w m < 0 := by simp [rowCompare, sortKey, hw, hm]
            simp [this]
          | false => simp
        · simp [h]
      have hnext : isMax = true ∨ ((if m.isNull = true ∨ decide (rowCompare [sortKey isMax] w m < 0) = true then w else m).isNull = false ∧
          ∀ w ∈ vs, w.isNull = false) := by
        rcases h with h | ⟨h, h'⟩
        · exact .inl h
        · refine .inr ⟨?_, fun w hw => h' w (List.mem_cons_of_mem _ hw)⟩
          split
          · exact hw
          · exact h
      rw [hstep, ih _ hnext]
      simp [hw]

theorem first_ok {u : VTy} {vals : List EV} (ht : Typed u vals) (isMax : Bool) (hn : isMax = true ∨ NoNull vals) :
    MinMax isMax vals ((firstSorted isMax vals).getD nullV) := by
  cases vals with
  | nil => exact ⟨fun _ => rfl, fun ⟨_, h, _⟩ => absurd h (by simp)⟩
  | cons v vs =>
    have hn' : isMax = true ∨ (v.isNull = false ∧ ∀ w ∈ vs, w.isNull = false) := by
      rcases hn with h | h
      · exact .inl h
      · refine .inr ⟨?_, fun w hw => ?_⟩
        · rw [← Bool.not_eq_true, isNull_typed ht.1 (ht.2 v List.mem_cons_self)]
          exact h v List.mem_cons_self
        · rw [← Bool.not_eq_true, isNull_typed ht.1 (ht.2 w (List.mem_cons_of_mem _ hw))]
          exact h w (List.mem_cons_of_mem _ hw)
    simp only [firstSorted, Option.getD_some]
    rw [first_fold isMax vs v hn']
    have hty : ∀ w ∈ args id vs, w.ty = u ∧ NotNaN w := by
      intro w hw
      rw [mem_args (typed_tail ht)] at hw
      rcases ht.2 w (List.mem_cons_of_mem _ hw.1) with h | h
      · exact absurd h hw.2
      · exact h
    have hbest : ∀ m, m.ty = u → NotNaN m → ∀ ws : List EV, (∀ w ∈ ws, w.ty = u ∧ NotNaN w) →
        ∃ b, ws.foldl (fun m w => if m.isNull = true ∨ decide (rowCompare [sortKey isMax] w m < 0) = true then w else m) m = b ∧
          b ∈ m :: ws ∧ b.ty = u ∧ ∃ x, sem b = some x ∧ ∀ w ∈ m :: ws, ∃ y, sem w = some y ∧
            (if isMax then SVal.cmp y x ≠ .gt else SVal.cmp x y ≠ .gt) := by
      intro m hm hmn ws hws
      refine Window.best_fold ht.1 (fun m w => decide (rowCompare [sortKey isMax] w m < 0))
        (fun x y => if isMax then SVal.cmp y x ≠ .gt else SVal.cmp x y ≠ .gt) ?_ ?_ ?_ ws hws m hm hmn
      · intro x
        cases isMax <;> exact Window.cmp_refl x
      · intro x y z h1 h2
        cases isMax
        · exact Expr.SVal.cmp_trans h1 h2
        · exact Expr.SVal.cmp_trans h2 h1
      · intro a b h1 h2 h3 h4
        obtain ⟨x, y, e1, e2, e3⟩ := Expr.C28_compare_is_value_order (a := b) (b := a) (h3.trans h1.symm) (by rw [h3]; exact ht.1) h4 h2
        have hc := sorted_cmp isMax (Window.isNull_ordered h3 ht.1) (Window.isNull_ordered h1 ht.1)
        refine ⟨y, x, e2, e1, fun hp => ?_, fun hp => ?_⟩
        · have hp := hc.1 (of_decide_eq_true hp)
          cases isMax
          · have : sgn (Expr.compare b a) = .lt := (Expr.int_compare_lt _ _).2 (by simpa using hp)
            rw [e3] at this
            simp [this]
          · have : sgn (Expr.compare b a) = .gt := (Expr.int_compare_gt _ _).2 (by simpa using hp)
            rw [e3] at this
            simp only [if_true]
            rw [← Expr.SVal.cmp_swap, this]
            simp
        · have hp : ¬ rowCompare [sortKey isMax] b a < 0 := of_decide_eq_false hp
          rw [hc] at hp
          cases isMax
          · simp only [Bool.false_eq_true, if_false] at hp ⊢
            rw [← Expr.SVal.cmp_swap, ← e3]
            intro hg
            have h5 : sgn (Expr.compare b a) = .lt := by
              revert hg
              cases sgn (Expr.compare b a) <;> simp
            exact hp ((Expr.int_compare_lt _ _).1 h5)
          · simp only [if_true] at hp ⊢
            rw [← e3]
            intro hg
            exact hp ((Expr.int_compare_gt _ _).1 hg)
    by_cases hv : v.ty = .null
    · have ha : args id (v :: vs) = args id vs := by
        rw [Window.args_cons]
        simp [EV.isNull, hv]
      cases hvs : args id vs with
      | nil =>
        refine minMax_of_args ht (fun _ => hv) (fun h => absurd (ha.trans hvs) h)
      | cons w ws =>
        rw [List.foldl_cons, if_pos (Or.inl (isNull_of hv))]
        rw [hvs] at hty
        obtain ⟨wt, wn⟩ := hty w List.mem_cons_self
        obtain ⟨b, e, hb, _, z, hz, hall⟩ := hbest w wt wn ws (fun w hw => hty w (List.mem_cons_of_mem _ hw))
        rw [e]
        refine minMax_of_args ht (fun h => by rw [ha, hvs] at h; simp at h) (fun _ => ?_)
        rw [ha, hvs]
        exact ⟨hb, z, hz, hall⟩
    · have ha : args id (v :: vs) = v :: args id vs := by
        have h0 : v.isNull = false := by
          rw [← Bool.not_eq_true, isNull_typed ht.1 (ht.2 v List.mem_cons_self)]
          exact hv
        rw [Window.args_cons]
        simp [h0]
      have hvt : v.ty = u ∧ NotNaN v := by
        rcases ht.2 v List.mem_cons_self with h | h
        · exact absurd h hv
        · exact h
      obtain ⟨b, e, hb, _, z, hz, hall⟩ := hbest v hvt.1 hvt.2 (args id vs) hty
      rw [e]
      refine minMax_of_args ht (fun h => by rw [ha] at h; simp at h) (fun _ => ?_)
      rw [ha]
      exact ⟨hb, z, hz, hall⟩

/-- What the rewritten subquery returns. -/
theorem minmax_ok {u : VTy} {vals : List EV} (ht : Typed u vals) (p : Path) (isMax : Bool)
    (hn : p = .sort → isMax = true ∨ NoNull vals) :
    (p = .window ∧ vals = [] ∧ minmax p isMax vals = []) ∨
    ((p = .window → vals ≠ []) ∧ ∃ m, minmax p isMax vals = [m] ∧ MinMax isMax vals m) := by
  cases p with
  | sort => exact .inr ⟨by simp, _, rfl, first_ok ht isMax (hn rfl)⟩
  | agg => exact .inr ⟨by simp, _, rfl, foldMinMax_ok ht isMax⟩
  | window =>
    cases vals with
    | nil => exact .inl ⟨rfl, rfl, rfl⟩
    | cons v vs => exact .inr ⟨by simp, _, rfl, foldMinMax_ok ht isMax⟩

/-! ## Comparison with the extreme value -/

theorem cmp_lt_of_le {x y z : SVal} (h : x.cmp y = .lt) (h' : y.cmp z ≠ .gt) : x.cmp z = .lt := by
  have h1 : x.cmp z ≠ .gt := Expr.SVal.cmp_trans (by rw [h]; simp) h'
  cases hc : x.cmp z with
  | lt => rfl
  | gt => exact absurd hc h1
  | eq =>
    have := Expr.SVal.cmp_eq.1 hc
    subst this
    rw [← Expr.SVal.cmp_swap, h] at h'
    simp at h'

theorem cmp_lt_of_lt {x y z : SVal} (h : x.cmp y ≠ .gt) (h' : y.cmp z = .lt) : x.cmp z = .lt := by
  have h1 : x.cmp z ≠ .gt := Expr.SVal.cmp_trans h (by rw [h']; simp)
  cases hc : x.cmp z with
  | lt => rfl
  | gt => exact absurd hc h1
  | eq =>
    have := Expr.SVal.cmp_eq.1 hc
    subst this
    rw [← Expr.SVal.cmp_swap, h'] at h
    simp at h

theorem cmp_le_iff {x y : SVal} : x.cmp y ≠ .gt ↔ x.cmp y = .lt ∨ x = y := by
  rw [← Expr.SVal.cmp_eq]
  cases x.cmp y <;> simp

/-- A larger right side keeps `<` and `<=` true, a smaller one `>` and `>=`. -/
theorem rel_mono {op : Op} {x y z : SVal} (ho : op ≠ .eq ∧ op ≠ .ne)
    (hz : if op = .lt ∨ op = .le then SVal.cmp y z ≠ .gt else SVal.cmp z y ≠ .gt) (h : rel op x y = true) : rel op x z = true := by
  cases op <;> simp only [rel, decide_eq_true_eq, reduceCtorEq, or_false, or_true, or_self, if_true, if_false, ne_eq, not_true_eq_false,
    false_and, and_false] at *
  · exact cmp_lt_of_le h hz
  · rw [← cmp_le_iff] at h ⊢
    exact Expr.SVal.cmp_trans h hz
  · exact cmp_lt_of_lt hz h
  · have h' : SVal.cmp y x ≠ .gt := cmp_le_iff.2 (h.imp id Eq.symm)
    exact (cmp_le_iff.1 (Expr.SVal.cmp_trans hz h')).imp id Eq.symm

end BaikalDB.Subq
