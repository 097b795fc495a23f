import Verif.Derived.Spec
import Verif.Corr.Regions

namespace BaikalDB.Derived
open BaikalDB.Expr (EV)
open BaikalDB.Pred (Row noRow nullV)
open BaikalDB.Corr (groupRows)
open Spec

variable {κ : Type} [DecidableEq κ]

/-! ### Expressions -/

mutual
theorem eval_congr (r r' : Row) : ∀ e : Ex, (∀ s ∈ e.slots, r s = r' s) → e.eval r = e.eval r'
  | .slot s, h => h s (by simp [Ex.slots])
  | .lit _, _ => rfl
  | .fn f args, h => by
    rw [Ex.eval, Ex.eval, evals_congr r r' args h]
theorem evals_congr (r r' : Row) : ∀ es : List Ex, (∀ s ∈ slotsL es, r s = r' s) → evals r es = evals r' es
  | [], _ => rfl
  | e :: es, h => by
    rw [slotsL] at h
    rw [evals, evals, eval_congr r r' e fun s hs => h s (List.mem_append_left _ hs),
      evals_congr r r' es fun s hs => h s (List.mem_append_right _ hs)]
end

mutual
theorem eval_subst (d : Derived) (r : Row) : ∀ e : Ex, (∀ s ∈ e.slots, tupleOf s = d.tuple) →
    e.eval (d.outerRow r) = (e.subst d.tuple d.mapping d.sub.projs).eval r
  | .slot s, h => by
    have := h s (by simp [Ex.slots])
    simp [Ex.eval, Ex.subst, Derived.outerRow, this]
  | .lit _, _ => rfl
  | .fn f args, h => by
    rw [Ex.eval, Ex.subst, Ex.eval, evals_subst d r args h]
theorem evals_subst (d : Derived) (r : Row) : ∀ es : List Ex, (∀ s ∈ slotsL es, tupleOf s = d.tuple) →
    evals (d.outerRow r) es = evals r (substL d.tuple d.mapping d.sub.projs es)
  | [], _ => rfl
  | e :: es, h => by
    rw [slotsL] at h
    rw [evals, substL, evals, eval_subst d r e fun s hs => h s (List.mem_append_left _ hs),
      evals_subst d r es fun s hs => h s (List.mem_append_right _ hs)]
end

/-! The slots of an expression after replacement come from the projections. -/
mutual
theorem slots_subst (t : Nat) (m : List (Nat × Nat)) (ps : List Ex) : ∀ e : Ex, (∀ s ∈ e.slots, tupleOf s = t) →
    ∀ s ∈ (e.subst t m ps).slots, ∃ o ∈ e.slots, s ∈ (projOf m ps o).slots
  | .slot o, h, s, hs => by
    have := h o (by simp [Ex.slots])
    rw [Ex.subst, if_pos this] at hs
    exact ⟨o, by simp [Ex.slots], hs⟩
  | .lit _, _, s, hs => by simp [Ex.subst, Ex.slots] at hs
  | .fn f args, h, s, hs => slotsL_subst t m ps args h s hs
theorem slotsL_subst (t : Nat) (m : List (Nat × Nat)) (ps : List Ex) : ∀ es : List Ex, (∀ s ∈ slotsL es, tupleOf s = t) →
    ∀ s ∈ slotsL (substL t m ps es), ∃ o ∈ slotsL es, s ∈ (projOf m ps o).slots
  | [], _, s, hs => by simp [substL, slotsL] at hs
  | e :: es, h, s, hs => by
    rw [slotsL] at h
    rw [substL, slotsL, List.mem_append] at hs
    rcases hs with hs | hs
    · obtain ⟨o, ho, h'⟩ := slots_subst t m ps e (fun s hs => h s (List.mem_append_left _ hs)) s hs
      exact ⟨o, by rw [slotsL]; exact List.mem_append_left _ ho, h'⟩
    · obtain ⟨o, ho, h'⟩ := slotsL_subst t m ps es (fun s hs => h s (List.mem_append_right _ hs)) s hs
      exact ⟨o, by rw [slotsL]; exact List.mem_append_right _ ho, h'⟩
end

/-- The slots found for a condition that is more than a slot are those it has after replacement. -/
theorem mem_innerSlotsL_slot (t : Nat) (m : List (Nat × Nat)) (ps : List Ex) (o : Nat) (es : List Ex) :
    innerSlotsL t m ps (.slot o :: es) = (if tupleOf o = t then (projOf m ps o).slots else []) ++ innerSlotsL t m ps es := by
  rw [innerSlotsL]

mutual
theorem innerSlots_fn (t : Nat) (m : List (Nat × Nat)) (ps : List Ex) : ∀ e : Ex, (∀ o, e ≠ .slot o) →
    (∀ s ∈ e.slots, tupleOf s = t) → ∀ s, s ∈ e.innerSlots t m ps ↔ s ∈ (e.subst t m ps).slots
  | .slot o, hc, _, _ => (hc o rfl).elim
  | .lit _, _, _, s => by simp [Ex.innerSlots, Ex.subst, Ex.slots]
  | .fn f args, _, h, s => by
    rw [Ex.innerSlots, Ex.subst, Ex.slots]
    exact innerSlotsL_iff t m ps args h s
theorem innerSlotsL_iff (t : Nat) (m : List (Nat × Nat)) (ps : List Ex) : ∀ es : List Ex,
    (∀ s ∈ slotsL es, tupleOf s = t) → ∀ s, s ∈ innerSlotsL t m ps es ↔ s ∈ slotsL (substL t m ps es)
  | [], _, s => by simp [innerSlotsL, substL, slotsL]
  | .slot o :: es, h, s => by
    rw [slotsL] at h
    have ho : tupleOf o = t := h o (by simp [Ex.slots])
    rw [innerSlotsL, substL, slotsL, List.mem_append, List.mem_append, if_pos ho, Ex.subst, if_pos ho,
      innerSlotsL_iff t m ps es (fun s hs => h s (List.mem_append_right _ hs)) s]
  | .lit v :: es, h, s => by
    rw [slotsL] at h
    rw [innerSlotsL, substL, slotsL, List.mem_append, List.mem_append,
      innerSlotsL_iff t m ps es (fun s hs => h s (List.mem_append_right _ hs)) s]
    · simp [Ex.innerSlots, Ex.subst, Ex.slots]
    · intro o e; cases e
  | .fn f args :: es, h, s => by
    rw [slotsL] at h
    rw [innerSlotsL, substL, slotsL, List.mem_append, List.mem_append,
      innerSlotsL_iff t m ps es (fun s hs => h s (List.mem_append_right _ hs)) s,
      innerSlots_fn t m ps (.fn f args) (fun o e => by cases e) (fun s hs => h s (List.mem_append_left _ hs)) s]
    intro o e; cases e
end

theorem mem_bareSlots (es : List Ex) (s : Nat) : s ∈ bareSlots es ↔ Ex.slot s ∈ es := by
  induction es with
  | nil => simp [bareSlots]
  | cons e es ih => cases e <;> simp [bareSlots, ih]

theorem mem_partitionSlots {ws : List Win} {s : Nat} (h : s ∈ partitionSlots ws) : ∀ w ∈ ws, Ex.slot s ∈ w.parts := by
  induction ws with
  | nil => simp
  | cons w ws ih =>
    cases ws with
    | nil =>
      intro w' hw'
      have : w' = w := by simpa using hw'
      subst this
      exact (mem_bareSlots _ _).1 h
    | cons w2 ws =>
      rw [partitionSlots, List.mem_filter] at h
      · intro w' hw'
        rcases List.mem_cons.1 hw' with rfl | hw'
        · exact (mem_bareSlots _ _).1 h.1
        · exact ih (by simpa using h.2) w' hw'
      · intro e; cases e

/-! ### The rows are those of the specification -/

theorem passes_eq (truth : EV → Bool) (cs : List Ex) : passes truth cs = holds truth cs := by
  funext r
  rw [Bool.eq_iff_iff]
  simp [passes, holds]

theorem agree_eq (key : EV → κ) (es : List Ex) :
    agree key es = fun a b => decide (exKey key es a = exKey key es b) := by
  funext a b
  simp only [agree, exKey]
  congr 1
  rw [List.map_inj_left]

theorem firsts_eq (same : Row → Row → Bool) (l : List Row) : firsts same l = Corr.Spec.firsts same l := by
  induction l with
  | nil => rfl
  | cons x t ih => rw [firsts, Corr.Spec.firsts, ih]

theorem aggRow_eq (funcs : List AggF) (first : Row) (rows : List Row) :
    aggRow funcs first rows = aggregateRow funcs first rows := by
  funext s
  have : (fun f : AggF => f.out == s) = fun f => decide (f.out = s) := by
    funext f; rw [Bool.eq_iff_iff]; simp
  simp only [aggRow, aggregateRow, this]
  cases funcs.find? fun f => decide (f.out = s) <;> rfl

theorem groupRows_firsts {β : Type} [DecidableEq β] (k : Row → β) (l : List Row) :
    (groupRows k l).map (fun m => (m.headD noRow, m)) =
      (Corr.Spec.firsts (fun a b => decide (k a = k b)) l).map fun x => (x, l.filter fun a => decide (k a = k x)) := by
  unfold groupRows
  rw [Corr.map_firsts k l, List.map_map, List.map_map]
  apply List.map_congr_left
  intro x hx
  simp only [Function.comp_apply]
  rw [Corr.head_firsts k l x hx]

theorem agg_eq (key : EV → κ) (g : AggE) (rows : List Row) : g.run key rows = aggregate key g rows := by
  unfold AggE.run aggregate
  split
  · rw [aggRow_eq]; rfl
  · have h : (groupRows (exKey key g.groups) rows).map (fun m => aggRow g.funcs (m.headD noRow) m) =
        ((groupRows (exKey key g.groups) rows).map fun m => (m.headD noRow, m)).map fun p => aggRow g.funcs p.1 p.2 := by
      rw [List.map_map]; rfl
    rw [h, groupRows_firsts, List.map_map, firsts_eq, agree_eq]
    apply List.map_congr_left
    intro x _
    simp only [Function.comp_apply, aggRow_eq]

theorem window_gen (key : EV → κ) (w : Win) (before rest all : List Row) (h : all = before ++ rest) :
    ((rest.zipIdx before.length).map fun (p : Row × Nat) => (fun s => if s = w.out then
        w.f (all.filter fun y => decide (exKey key w.parts y = exKey key w.parts p.1))
          ((all.take p.2).filter fun y => decide (exKey key w.parts y = exKey key w.parts p.1)).length
        else p.1 s : Row)) = window key w before rest all := by
  induction rest generalizing before with
  | nil => rfl
  | cons x t ih =>
    rw [List.zipIdx_cons, List.map_cons, window]
    congr 1
    · funext s
      rw [agree_eq]
      have : all.take before.length = before := by rw [h]; simp
      simp only [this]
    · have := ih (before ++ [x]) (by rw [h]; simp)
      rw [← this]
      simp

theorem window_eq (key : EV → κ) (w : Win) (rows : List Row) : w.run key rows = window key w [] rows rows := by
  rw [← window_gen key w [] rows rows rfl]
  rfl

theorem windows_eq (key : EV → κ) (ws : List Win) (rows : List Row) :
    ws.foldl (fun rows w => w.run key rows) rows = windows key ws rows := by
  induction ws generalizing rows with
  | nil => rfl
  | cons w ws ih => rw [List.foldl_cons, ih, windows, window_eq]

theorem limit_eq {α : Type} (l : List α) (off n : Nat) : (l.drop off).take n = (List.range n).filterMap fun i => l[off + i]? := by
  induction n with
  | zero => simp
  | succ n ih =>
    rw [List.take_add_one, ih, List.range_succ, List.filterMap_append]
    congr 1
    rw [List.getElem?_drop]
    cases h : l[off + n]? <;> simp [h]

theorem sub_rows_eq (key : EV → κ) (truth : EV → Bool) (q : Sub) : q.rows key truth = subRows key truth q := by
  unfold Sub.rows subRows
  simp only [windows_eq, passes_eq]
  cases q.agg with
  | none =>
    simp only [Option.elim]
    cases q.limit with
    | none => rfl
    | some l => exact limit_eq _ _ _
  | some g =>
    simp only [Option.elim, agg_eq]
    cases q.limit with
    | none => rfl
    | some l => exact limit_eq _ _ _

theorem projOf_eval (m : List (Nat × Nat)) (ps : List Ex) (s : Nat) (r : Row) : (projOf m ps s).eval r =
    (match m.lookup (s % 2 ^ 16) with
    | some i => match ps[i]? with
      | some e => e.eval r
      | none => nullV
    | none => nullV) := by
  unfold projOf idOf
  rw [show (2 : Nat) ^ 16 = 65536 from rfl]
  cases m.lookup (s % 65536) with
  | none => rfl
  | some i =>
    simp only [Option.bind_some]
    cases ps[i]? <;> rfl

theorem outerRow_eq (d : Derived) : d.outerRow = project d := by
  funext r s
  unfold Derived.outerRow project tupleOf
  rw [show (2 : Nat) ^ 16 = 65536 from rfl]
  split
  · rw [projOf_eval]; rfl
  · rfl

theorem table_eq (key : EV → κ) (truth : EV → Bool) (d : Derived) : d.rows key truth = table key truth d := by
  unfold Derived.rows table
  rw [sub_rows_eq, outerRow_eq]

/-! ### Filters commute -/

theorem firsts_filter (same : Row → Row → Bool) (P : Row → Bool) (h : ∀ a b, same a b = true → P a = P b) (l : List Row) :
    firsts same (l.filter P) = (firsts same l).filter P := by
  induction l with
  | nil => rfl
  | cons x t ih =>
    by_cases hx : P x = true
    · rw [List.filter_cons_of_pos hx, firsts, firsts, List.filter_cons_of_pos hx, ih, List.filter_filter, List.filter_filter]
      congr 2
      funext y
      exact Bool.and_comm _ _
    · rw [List.filter_cons_of_neg hx, ih, firsts, List.filter_cons_of_neg hx, List.filter_filter]
      apply List.filter_congr
      intro y _
      cases hs : same y x
      · simp
      · rw [h y x hs]
        simp [hx]

theorem filter_same (same : Row → Row → Bool) (P : Row → Bool) (h : ∀ a b, same a b = true → P a = P b) (l : List Row) (x : Row)
    (hx : P x = true) : ((l.filter P).filter fun y => same y x) = l.filter fun y => same y x := by
  rw [List.filter_filter]
  apply List.filter_congr
  intro y _
  cases hs : same y x
  · rfl
  · rw [h y x hs, hx]; rfl

theorem aggregate_filter (key : EV → κ) (g : AggE) (P : Row → Bool) (h : ∀ a b, agree key g.groups a b = true → P a = P b)
    (hf : ∀ x rows, P (aggregateRow g.funcs x rows) = P x) (hs : g.groups = [] → ∀ x, P x = true) (l : List Row) :
    aggregate key g (l.filter P) = (aggregate key g l).filter P := by
  by_cases hg : g.groups = []
  · have hall : ∀ l : List Row, l.filter P = l := fun l => List.filter_eq_self.2 fun x _ => hs hg x
    rw [hall, hall]
  · unfold aggregate
    rw [if_neg (fun e => hg e.1), if_neg (fun e => hg e.1), firsts_filter _ P h, List.filter_map]
    have hcomp : (P ∘ fun x => aggregateRow g.funcs x (l.filter fun y => agree key g.groups y x)) = P := by
      funext x
      exact hf x _
    rw [hcomp]
    apply List.map_congr_left
    intro x hx
    rw [filter_same _ P h l x (List.mem_filter.1 hx).2]

theorem window_filter (key : EV → κ) (w : Win) (P : Row → Bool) (h : ∀ a b, agree key w.parts a b = true → P a = P b)
    (hw : ∀ x v, P (fun s => if s = w.out then v else x s) = P x) (before rest all : List Row) :
    window key w (before.filter P) (rest.filter P) (all.filter P) = (window key w before rest all).filter P := by
  induction rest generalizing before with
  | nil => rfl
  | cons x t ih =>
    rw [window]
    have ih := ih (before ++ [x])
    by_cases hx : P x = true
    · rw [List.filter_cons_of_pos hx, window, List.filter_cons_of_pos (by rw [hw]; exact hx),
        filter_same _ P h all x hx, filter_same _ P h before x hx]
      rw [List.filter_append, List.filter_cons_of_pos hx] at ih
      rw [← ih]
      rfl
    · rw [List.filter_cons_of_neg hx, List.filter_cons_of_neg (by rw [hw]; exact hx)]
      rw [List.filter_append, List.filter_cons_of_neg hx] at ih
      rw [← ih, List.filter_nil, List.append_nil]

theorem windows_filter (key : EV → κ) (ws : List Win) (P : Row → Bool)
    (h : ∀ w ∈ ws, ∀ a b, agree key w.parts a b = true → P a = P b)
    (hw : ∀ w ∈ ws, ∀ x v, P (fun s => if s = w.out then v else x s) = P x) (l : List Row) :
    windows key ws (l.filter P) = (windows key ws l).filter P := by
  induction ws generalizing l with
  | nil => rfl
  | cons w ws ih =>
    rw [windows, windows]
    have := window_filter key w P (h w List.mem_cons_self) (hw w List.mem_cons_self) [] l l
    rw [List.filter_nil] at this
    rw [this]
    exact ih (fun w' hw' => h w' (List.mem_cons_of_mem _ hw')) (fun w' hw' => hw w' (List.mem_cons_of_mem _ hw')) _

end BaikalDB.Derived
