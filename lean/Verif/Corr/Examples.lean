import Verif.Corr.Regions

/-!
# Examples and counterexamples for C51

The outer table has the columns `a` and `x`.  The subquery reads table `b` (tuple 1); its aggregate function writes slot 1 of
tuple 2.
-/

namespace BaikalDB.Corr
open BaikalDB.Expr (EV)
open BaikalDB.Pred (Row noRow nullV)
open Spec

/-- An outer row. -/
structure ORow where
  a : Nat
  x : Nat

def num (n : Nat) : EV := ⟨.int64, BitVec.ofNat 64 n, []⟩

def slot (tuple id : Nat) : Nat := tuple * 65536 + id

/-- A row of table `b` with values in the slots 1 and 2. -/
def bRow (v1 v2 : Nat) : Row := fun s => if s = slot 1 1 then num v1 else if s = slot 1 2 then num v2 else nullV

/-- `slot = f(outer row)`. -/
def eqConj (s : Nat) (f : ORow → Nat) : Conj ORow :=
  ⟨fun o r => if r s = nullV then none else some (decide (r s = num (f o))), true, [s], true⟩

/-- `agg = f(outer row)`: the condition with the subquery in it. -/
def theta (f : ORow → Nat) : Conj ORow :=
  ⟨fun o r => if r (slot 2 1) = nullV then none else some (decide (r (slot 2 1) = num (f o))), true, [], false⟩

/-- MAX and COUNT of a slot. -/
def maxOf (s : Nat) (rows : List Row) : EV :=
  rows.foldl (fun m r => if r s = nullV then m else if m = nullV ∨ m.u.toNat < (r s).u.toNat then r s else m) nullV
def countOf (s : Nat) (rows : List Row) : EV := num (rows.filter fun r => r s ≠ nullV).length

def aggOf (f : List Row → EV) (groups : List Nat := []) : Agg := ⟨groups, groups, [(slot 2 1, f)], false⟩

theorem eqConj_equates (s : Nat) (f : ORow → Nat) : Equates (id : EV → EV) (eqConj s f) where
  determined := by
    intro o r r' h
    have : r s = r' s := h s (by simp [eqConj])
    simp [eqConj, this]
  pins := by
    intro o r r' h h' t ht
    have ht : t = s := by simpa [eqConj] using ht
    subst ht
    simp only [eqConj] at h h'
    split at h
    · cases h
    · split at h'
      · cases h'
      · simp only [Option.some.injEq, decide_eq_true_eq] at h h'
        rw [h, h']

/-- `x = (SELECT MAX(b.y) FROM b WHERE b.a = t.a ORDER BY b.y LIMIT 1)`: `y` is slot 1, `a` slot 2. -/
def maxQuery (rows : List Row) : Apply ORow :=
  ⟨[theta ORow.x], ⟨[.limit 0 1, .sort id], some (aggOf (maxOf (slot 1 1))), [.filter [eqConj (slot 1 2) ORow.a]], rows⟩, true, false⟩

/-- The hypotheses of `C51_aggregate` hold. -/
example (rows : List Row) (o : ORow) : (decorrelate (maxQuery rows)).matches id o = meaning id (maxQuery rows) o := by
  refine C51_aggregate id (maxQuery rows) o (aggOf (maxOf (slot 1 1))) rfl rfl rfl rfl ?_ ?_ ?_ ?_ ?_ ?_ ?_ ?_
  · intro n hn
    simp only [maxQuery, List.mem_singleton] at hn
    subst hn
    trivial
  · intro c hc _
    have : c = eqConj (slot 1 2) ORow.a := by simpa [maxQuery, conjs] using hc
    subst this
    exact eqConj_equates _ _
  · constructor
    · intro s hs f hf
      simp [maxQuery, conjs, eqConj] at hs
      simp [aggOf] at hf
      subst hs hf
      simp [slot]
    · intro s hs t ht _
      simp [maxQuery, conjs, eqConj] at hs ht
      rw [hs, ht]
  · intro n hn
    simp only [maxQuery, List.mem_cons, List.not_mem_nil, or_false] at hn
    rcases hn with rfl | rfl
    · trivial
    · exact fun l => List.Perm.refl l
  · intro c hc
    simp [maxQuery, conjs] at hc
  · right
    refine ⟨fun n hn => ?_, rfl⟩
    simp only [maxQuery, List.mem_cons, List.not_mem_nil, or_false] at hn
    rcases hn with rfl | rfl
    · exact ⟨rfl, Nat.one_pos⟩
    · trivial
  · exact fun _ => rfl
  · intro _ _
    exact ⟨theta ORow.x, by simp [maxQuery], by simp [theta, finish, aggOf, maxOf]⟩

example : (decorrelate (maxQuery [bRow 4 1, bRow 7 1, bRow 9 2])).matches id ⟨1, 7⟩ = some true ∧
    (decorrelate (maxQuery [bRow 4 1, bRow 7 1, bRow 9 2])).matches id ⟨1, 9⟩ = some false := by decide +kernel

/-- `x IN (SELECT b.y FROM b WHERE b.a = t.a)`. -/
def inQuery (nodes : List (Node ORow)) (rows : List Row) : Apply ORow :=
  ⟨[eqConj (slot 1 1) ORow.x], ⟨nodes, none, [.filter [eqConj (slot 1 2) ORow.a]], rows⟩, false, false⟩

example (rows : List Row) (o : ORow) : (decorrelate (inQuery [] rows)).matches id o = meaning id (inQuery [] rows) o := by
  refine C51_without_aggregate id _ o rfl ?_ ?_ (fun h => by cases h)
  · intro n hn
    simp only [inQuery, List.nil_append, List.mem_singleton] at hn
    subst hn
    trivial
  · exact ⟨trivial, Or.inl trivial⟩

/-- `1 = (SELECT COUNT(*) FROM b WHERE b.a = t.a)`: nothing is lifted. -/
def countStarQuery (rows : List Row) : Apply ORow :=
  ⟨[theta fun _ => 1], ⟨[], some { aggOf (countOf (slot 1 1)) with countStar := true }, [.filter [eqConj (slot 1 2) ORow.a]], rows⟩,
    true, false⟩

example (rows : List Row) (o : ORow) :
    (decorrelate (countStarQuery rows)).matches id o = meaning id (countStarQuery rows) o :=
  C51_aggregate_kept id _ o _ rfl (Or.inr rfl) rfl (by simp [countStarQuery]) (by simp [countStarQuery, conjs])
    (Or.inl (by simp [countStarQuery])) (fun _ => rfl)

example (rows : List Row) (o o' : ORow) :
    (decorrelate (maxQuery rows)).plan.rows id o = (decorrelate (maxQuery rows)).plan.rows id o' := by
  refine C51_once id _ ?_ ?_ o o'
  · intro c hc h
    have : c = eqConj (slot 1 2) ORow.a := by simpa [maxQuery, conjs] using hc
    subst this
    cases h
  · intro g hg
    cases hg
    exact ⟨rfl, rfl⟩

example : ((aggOf (maxOf (slot 1 1)) [slot 1 2]).merged id
    ([[bRow 4 1, bRow 9 2], [], [bRow 7 1]].flatMap ((aggOf (maxOf (slot 1 1)) [slot 1 2]).partials id))).map (fun r => r (slot 2 1)) =
    [num 7, num 9] := by
  rw [C51_regions id _ rfl]
  decide +kernel

/-! ### Where the rows selected are not those of the query -/

/-- `x = (SELECT MAX(b.a) FROM b WHERE b.a = t.a)`: `b.a` is slot 1 of its table and MAX slot 1 of the aggregation, so `b.a` is not
added as a group expression; the rows of `b` are aggregated together.  The outer row (1, 1) has the match MAX = 1 and is not
selected. -/
theorem C51_slot_clash_counterexample :
    ∃ (a : Apply ORow) (o : ORow), a.plan.agg.isSome ∧ (∀ c ∈ conjs a.plan.bottom, c.outer = true → Equates (id : EV → EV) c) ∧
      meaning id a o = some true ∧ (decorrelate a).matches id o = some false := by
  refine ⟨⟨[theta ORow.x], ⟨[], some (aggOf (maxOf (slot 1 1))), [.filter [eqConj (slot 1 1) ORow.a]],
    [bRow 1 0, bRow 5 0]⟩, true, false⟩, ⟨1, 1⟩, rfl, ?_, by decide +kernel, by decide +kernel⟩
  intro c hc _
  have : c = eqConj (slot 1 1) ORow.a := by simpa [conjs] using hc
  subst this
  exact eqConj_equates _ _

/-- The same with the columns of two tables: `WHERE b.y = t.a AND c.y = t.x` where both have slot id 2: only `b.y` is added, and rows
of different groups are aggregated together. -/
theorem C51_two_tables_counterexample :
    ∃ (a : Apply ORow) (o : ORow), a.plan.agg.isSome ∧ (∀ c ∈ conjs a.plan.bottom, c.outer = true → Equates (id : EV → EV) c) ∧
      meaning id a o = some true ∧ (decorrelate a).matches id o = some false := by
  refine ⟨⟨[theta fun _ => 4], ⟨[], some (aggOf (maxOf (slot 1 1))), [.filter [eqConj (slot 1 2) ORow.a, eqConj (slot 3 2) ORow.x]],
    [fun s => if s = slot 3 2 then num 1 else bRow 4 1 s, fun s => if s = slot 3 2 then num 2 else bRow 9 1 s]⟩, true, false⟩,
    ⟨1, 1⟩, rfl, ?_, by decide +kernel, by decide +kernel⟩
  intro c hc _
  have : c = eqConj (slot 1 2) ORow.a ∨ c = eqConj (slot 3 2) ORow.x := by simpa [conjs] using hc
  rcases this with rfl | rfl <;> exact eqConj_equates _ _

/-- `0 = (SELECT COUNT(b.y) FROM b WHERE b.a = t.a)` is TRUE for an outer row without rows in `b`; after decorrelation there is no group
for it. -/
theorem C51_count_counterexample :
    ∃ (a : Apply ORow) (o : ORow), a.conds = [theta fun _ => 0] ∧ meaning id a o = some true ∧
      (decorrelate a).matches id o = some false :=
  ⟨⟨[theta fun _ => 0], ⟨[], some (aggOf (countOf (slot 1 1))), [.filter [eqConj (slot 1 2) ORow.a]], [bRow 4 1]⟩, true, false⟩,
    ⟨2, 0⟩, rfl, by decide +kernel, by decide +kernel⟩

/-- `EXISTS (SELECT MAX(b.y) FROM b WHERE b.a = t.a)` is TRUE for every outer row, since the subquery always has one row. -/
theorem C51_exists_counterexample :
    ∃ (a : Apply ORow) (o : ORow), a.conds = [] ∧ (∀ o', meaning id a o' = some true) ∧
      (decorrelate a).matches id o = some false := by
  refine ⟨⟨[], ⟨[], some (aggOf (maxOf (slot 1 1))), [.filter [eqConj (slot 1 2) ORow.a]], [bRow 4 1]⟩, false, false⟩, ⟨2, 0⟩, rfl, ?_,
    by decide +kernel⟩
  intro o'
  unfold meaning
  rw [if_neg (by simp)]
  simp only [Spec.rows, clauses, aggregated, aggOf]
  by_cases h : (clause o' [bRow 4 1] (Node.filter [eqConj (slot 1 2) ORow.a])) = []
  · simp [h]
  · rw [if_neg (by simp [h])]
    cases hc : (clause o' [bRow 4 1] (Node.filter [eqConj (slot 1 2) ORow.a])) with
    | nil => exact (h hc).elim
    | cons x t => simp [firsts]

/-- A condition that is no equality with a column, `x = (SELECT MAX(b.y) FROM b WHERE b.a < t.a)`, is tested on the row of MAX over all
rows of `b`. -/
theorem C51_inequality_counterexample :
    ∃ (a : Apply ORow) (o : ORow), (∀ c ∈ conjs a.plan.bottom, c.eqSlots = []) ∧ meaning id a o = some true ∧
      (decorrelate a).matches id o = some false :=
  ⟨⟨[theta ORow.x], ⟨[], some (aggOf (maxOf (slot 1 1))),
    [.filter [⟨fun o r => some (decide ((r (slot 1 2)).u.toNat < o.a)), true, [], false⟩]], [bRow 4 1, bRow 9 2]⟩, true, false⟩,
    ⟨2, 4⟩, by simp [conjs], by decide +kernel, by decide +kernel⟩

/-- `x IN (SELECT b.y FROM b WHERE b.a = t.a LIMIT 1)`: the limit counts the rows of all outer rows. -/
theorem C51_limit_counterexample :
    ∃ (rows : List Row) (o : ORow), meaning id (inQuery [.limit 0 1] rows) o = some true ∧
      (decorrelate (inQuery [.limit 0 1] rows)).matches id o = some false :=
  ⟨[bRow 4 1, bRow 9 2], ⟨2, 9⟩, by decide +kernel, by decide +kernel⟩

/-- `x IN (SELECT MAX(b.y) FROM b WHERE b.a = t.a GROUP BY b.y LIMIT 1)`: the limit is deleted. -/
theorem C51_group_limit_counterexample :
    ∃ (a : Apply ORow) (o : ORow), a.plan.top = [.limit 0 1] ∧ meaning id a o = some false ∧
      (decorrelate a).matches id o = some true :=
  ⟨⟨[theta ORow.x], ⟨[.limit 0 1], some (aggOf (maxOf (slot 1 1)) [slot 1 1]), [.filter [eqConj (slot 1 2) ORow.a]],
    [bRow 4 1, bRow 9 1]⟩, false, false⟩, ⟨1, 9⟩, rfl, by decide +kernel, by decide +kernel⟩

/-- `x = (SELECT b.y FROM b WHERE b.a = t.a)`: only the rows with `b.y = x` are fetched and counted, so that the statement does not
fail although the subquery has two rows. -/
theorem C51_two_rows_counterexample :
    ∃ (a : Apply ORow) (o : ORow), a.maxOne = true ∧ a.plan.agg = none ∧ meaning id a o = none ∧
      (decorrelate a).matches id o = some true :=
  ⟨{ inQuery [] [bRow 4 1, bRow 9 1] with maxOne := true }, ⟨1, 9⟩, rfl, rfl, by decide +kernel, by decide +kernel⟩

/-- `x > (SELECT b.y FROM b WHERE b.a < t.a)`: the rows of all outer rows are counted, so that the statement fails although the
subquery has one row. -/
theorem C51_one_row_counterexample :
    ∃ (a : Apply ORow) (o : ORow), a.maxOne = true ∧ a.plan.agg = none ∧ meaning id a o = some true ∧
      (decorrelate a).matches id o = none :=
  ⟨⟨[⟨fun o r => some (decide ((r (slot 1 1)).u.toNat < o.x)), true, [], false⟩],
    ⟨[], none, [.filter [⟨fun o r => some (decide ((r (slot 1 2)).u.toNat < o.a)), true, [], false⟩]], [bRow 4 1, bRow 9 2]⟩, true, false⟩,
    ⟨2, 9⟩, rfl, rfl, by decide +kernel, by decide +kernel⟩

/-- `x = (SELECT MAX(b.y) FROM b WHERE b.a = t.a GROUP BY b.y)`: several groups are no error. -/
theorem C51_group_rows_counterexample :
    ∃ (a : Apply ORow) (o : ORow), a.maxOne = true ∧ meaning id a o = none ∧ (decorrelate a).matches id o = some true :=
  ⟨⟨[theta ORow.x], ⟨[], some (aggOf (maxOf (slot 1 1)) [slot 1 1]), [.filter [eqConj (slot 1 2) ORow.a]],
    [bRow 4 1, bRow 9 1]⟩, true, false⟩, ⟨1, 9⟩, rfl, by decide +kernel, by decide +kernel⟩

end BaikalDB.Corr
