import Verif.Plan.Examples

/-!
# A condition that cannot hold empties the query

`src/exec/filter_node.cpp`:500-538, `src/physical_plan/index_selector.cpp`:121-124, `src/physical_plan/physical_planner.cpp`:118.
-/

namespace BaikalDB.Plan

variable {F : Fns} {D : Nat → List (Nat → Val)} {ρ : Row}

/-- A filter of which some pass finds that no row meets it: a constant that is not TRUE (filter_node.cpp:520-534), bounds that
exclude each other (:500-508), a key column compared with NULL (index_selector.cpp:121-124).  `dead` is what those passes
find; the flag they set is one for the whole query. -/
def anyDead (dead : List Expr → Bool) : Tree → Bool
  | .scan _ => false
  | .filter cs p => dead cs || anyDead dead p
  | .join _ _ l r => anyDead dead l || anyDead dead r

/-- exec_node.h:305-310 `set_return_empty`: then every node gives nothing. -/
def result (F : Fns) (D : Nat → List (Nat → Val)) (ρ : Row) (dead : List Expr → Bool) (p : Tree) : List Row :=
  if anyDead dead p then [] else sem F D ρ p

/-- The passes are right about a filter. -/
def DeadOk (F : Fns) (dead : List Expr → Bool) : Prop := ∀ cs, dead cs = true → ∀ r, holdsAll F cs r = false

/-- filter_node.cpp:520-534: a condition without columns that is not TRUE. -/
def deadConst (F : Fns) (cs : List Expr) : Bool := cs.any fun e => (tupsE e).isEmpty && !holds F (fun _ _ => none) e

theorem deadConst_ok : DeadOk F (deadConst F) := by
  intro cs h r
  obtain ⟨e, he, h⟩ := List.any_eq_true.mp h
  simp only [Bool.and_eq_true, List.isEmpty_iff, Bool.not_eq_true'] at h
  rw [← Bool.not_eq_true, holdsAll_iff]
  intro hc
  have := hc e he
  rw [holds_congr (r' := fun _ _ => none) (by rw [h.1]; intro t ht; cases ht), h.2] at this
  cases this

/-- Such a filter is where no row can get around it. -/
def gone (dead : List Expr → Bool) : Tree → Bool
  | .scan _ => false
  | .filter cs p => dead cs || gone dead p
  | .join .inner _ l r => gone dead l || gone dead r
  | .join .left _ l _ => gone dead l
  | .join .right _ _ r => gone dead r
  | .join .full _ l r => gone dead l && gone dead r

theorem gone_empty {dead : List Expr → Bool} (hd : DeadOk F dead) {p : Tree} (h : gone dead p = true) : sem F D ρ p = [] := by
  induction p with
  | scan t => cases h
  | filter cs p ih =>
    simp only [gone, Bool.or_eq_true] at h
    rw [sem]
    rcases h with h | h
    · rw [List.filter_eq_nil_iff]
      intro r _ hc
      rw [hd cs h r] at hc
      cases hc
    · rw [ih h]; rfl
  | join ty cs l r ihl ihr =>
    rw [sem]
    cases ty with
    | inner =>
      simp only [gone, Bool.or_eq_true] at h
      rcases h with h | h
      · rw [ihl h]; rfl
      · rw [ihr h]; simp [joinRows, joinI]
    | left => rw [ihl h]; rfl
    | right => rw [ihr h]; rfl
    | full =>
      simp only [gone, Bool.and_eq_true] at h
      rw [ihl h.1, ihr h.2]; rfl

/-- **C50.** With conditions found never to hold: the query is answered as it should be if no row can get around one of
them. -/
theorem C50_never {nf : Bool} {p : Tree} (hw : Wf p) (hf : nf = true → noFull p = true) (hp : ∀ e ∈ conds p, Fit F nf e)
    {dead : List Expr → Bool} (hd : DeadOk F dead) (hg : anyDead dead (pushDown p) = true → gone dead (pushDown p) = true)
    (D : Nat → List (Nat → Val)) (ρ : Row) : (result F D ρ dead (pushDown p)).Perm (sem F D ρ p) := by
  unfold result
  split
  · rename_i h
    have := C50_pushdown hw hf hp D ρ
    rwa [gone_empty hd (hg h)] at this
  · exact C50_pushdown hw hf hp D ρ

theorem anyDead_inner {dead : List Expr → Bool} {p : Tree} (h : allInner p = true) : anyDead dead p = gone dead p := by
  induction p with
  | scan t => rfl
  | filter cs p ih => simp only [anyDead, gone, ih h]
  | join ty cs l r ihl ihr =>
    simp only [allInner, Bool.and_eq_true, decide_eq_true_eq] at h
    obtain ⟨⟨rfl, hl⟩, hr⟩ := h
    simp only [anyDead, gone, ihl hl, ihr hr]

theorem allInner_wrap {es : List Expr} {p : Tree} : allInner (wrap es p) = allInner p := by unfold wrap; split <;> rfl

theorem allInner_push (pf : Bool) (es : List Expr) : (p : Tree) → allInner p = true → allInner (push pf es p).1 = true
  | .scan t, _ => by
    rw [push]; split
    · rfl
    · rw [allInner_wrap]; rfl
  | .filter cs p, h => by rw [push]; exact allInner_push true (es ++ cs) p h
  | .join ty cs l r, h => by
    simp only [allInner, Bool.and_eq_true, decide_eq_true_eq] at h
    obtain ⟨⟨rfl, hl⟩, hr⟩ := h
    have hn : newType es (tups l) (tups r) .inner = .inner := rfl
    rw [push_join, hn, if_neg (by decide), conv_inner hl, conv_inner hr]
    simp only [pushJoin, allInner, allInner_wrap, Bool.and_eq_true, decide_eq_true_eq]
    exact ⟨⟨trivial, allInner_push _ _ l hl⟩, allInner_push _ _ r hr⟩
termination_by p => size p
decreasing_by
  all_goals simp only [size]; omega

/-- **C50.** With INNER JOINs only, also then nothing is asked of the conditions. -/
theorem C50_never_inner {p : Tree} (hi : allInner p = true) (hn : (tups p).Nodup) {dead : List Expr → Bool} (hd : DeadOk F dead)
    (D : Nat → List (Nat → Val)) (ρ : Row) : (result F D ρ dead (pushDown p)).Perm (sem F D ρ p) := by
  unfold result
  split
  · rename_i h
    have h' : allInner (pushDown p) = true := by
      unfold pushDown; rw [allInner_wrap]; exact allInner_push _ _ p hi
    rw [anyDead_inner h'] at h
    have := C50_inner (F := F) hi hn D ρ
    rwa [gone_empty hd h] at this
  · exact C50_inner hi hn D ρ

namespace Examples

/-- `a LEFT JOIN b ON a.0 = b.0 WHERE 1 = 2` -/
def p2 : Tree := .filter [eq (n 1) (n 2)] ab

example : anyDead (deadConst Examples.F) (pushDown p2) = true ∧ gone (deadConst Examples.F) (pushDown p2) = true := by decide +kernel

/-- `a LEFT JOIN b ON a.0 = b.0 AND 1 = 2`: the rows of `a` are lost. -/
theorem C50_never_counterexample :
    count D1 none' (.join .left [eq (a 0) (b 0), eq (n 1) (n 2)] (.scan 0) (.scan 1)) = 1 ∧
      (result Examples.F D1 none' (deadConst Examples.F) (pushDown (.join .left [eq (a 0) (b 0), eq (n 1) (n 2)] (.scan 0) (.scan 1)))).length = 0 := by
  decide +kernel

end Examples

end BaikalDB.Plan
