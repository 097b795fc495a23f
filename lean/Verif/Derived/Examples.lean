import Verif.Derived.Aggs
import Verif.Corr.Examples

/-!
# Examples and counterexamples for C56

The subqueries read table `b` (tuple 1, slots 1 and 2); aggregate functions inside write slots of tuple 2, windows of tuple 3;
the derived table is tuple 4, and an aggregation over it writes slots of tuple 5.
-/

namespace BaikalDB.Derived
open BaikalDB.Expr (EV)
open BaikalDB.Pred (Row noRow nullV)
open BaikalDB.Corr (num slot bRow)
open Spec

def isTrue (v : EV) : Bool := decide (v ≠ nullV ∧ v.u ≠ 0)

def gtFn : List EV → EV
  | [a, b] => if a = nullV ∨ b = nullV then nullV else num (if b.u.toNat < a.u.toNat then 1 else 0)
  | _ => nullV

def eqFn : List EV → EV
  | [a, b] => if a = nullV ∨ b = nullV then nullV else num (if a = b then 1 else 0)
  | _ => nullV

def gt (e : Ex) (n : Nat) : Ex := .fn gtFn [e, .lit (num n)]
def eqTo (e : Ex) (n : Nat) : Ex := .fn eqFn [e, .lit (num n)]

def countF (out : Nat) (arg : Ex) : AggF := ⟨out, fun vs => num (vs.filter fun v => v ≠ nullV).length, arg⟩

def rows4 : List Row := [bRow 1 10, bRow 2 20, bRow 1 30, bRow 3 40]

/-- `SELECT b1, COUNT(b2), ROW_NUMBER() OVER (PARTITION BY b1) FROM b WHERE b2 > 5 GROUP BY b1`. -/
def grouped : Derived where
  tuple := 4
  mapping := [(1, 0), (2, 1), (3, 2)]
  sub :=
    { base := rows4
      wher := [gt (.slot (slot 1 2)) 5]
      agg := some ⟨[.slot (slot 1 1)], [countF (slot 2 1) (.slot (slot 1 2))]⟩
      having := [gt (.slot (slot 2 1)) 0]
      wins := [⟨[.slot (slot 1 1)], slot 3 1, fun _ i => num (i + 1)⟩]
      limit := none
      projs := [.slot (slot 1 1), .slot (slot 2 1), .slot (slot 3 1)]
      special := [false, true, true] }

theorem grouped_marked : Marked grouped.sub := by
  intro i e he hs
  match i with
  | 0 =>
    cases he
    refine ⟨fun g hg f hf => ?_, fun w hw => ?_⟩
    · cases hg
      have : f = countF (slot 2 1) (.slot (slot 1 2)) := by simpa using hf
      subst this
      decide
    · have : w.out = slot 3 1 := by
        have := List.mem_singleton.1 hw
        rw [this]
      rw [this]
      decide
  | 1 => simp [grouped] at hs
  | 2 => simp [grouped] at hs
  | _ + 3 => simp [grouped] at he

/-- `WHERE t.c1 > 1 AND t.c2 = 1`: the first condition goes into the subquery, the second stays; two rows are left. -/
example :
    ((cs : List Ex) → cs = [gt (.slot (slot 4 1)) 1, eqTo (.slot (slot 4 2)) 1] →
      scanDerived id isTrue grouped cs = (table id isTrue grouped).filter (holds isTrue cs) ∧
      (pushInto grouped cs).2.length = 1 ∧
      (scanDerived id isTrue grouped cs).map (fun r => (r (slot 4 1), r (slot 4 2), r (slot 4 3))) =
        [(num 2, num 1, num 1), (num 3, num 1, num 1)]) := by
  rintro _ rfl
  refine ⟨C56_pushdown id (fun _ _ h => h) isTrue grouped _ grouped_marked (.inr ?_) ?_, ?_, ?_⟩
  · intro e he
    simp only [List.mem_cons, List.not_mem_nil, or_false] at he
    rcases he with rfl | rfl <;> exact ⟨_, _, rfl⟩
  · intro g hg h0
    cases hg
    cases h0
  · decide +kernel
  · decide +kernel

/-- `SELECT b1, b2 FROM b`, and the same with `b2 > 15`. -/
def plain (cs : List Ex) : Derived where
  tuple := 4
  mapping := [(1, 0), (2, 1)]
  sub :=
    { base := rows4, wher := cs, agg := none, having := [], wins := [], limit := none
      projs := [.slot (slot 1 1), .slot (slot 1 2)], special := [false, false] }

theorem plain_marked (cs : List Ex) : Marked (plain cs).sub := by
  intro i e _ _
  exact ⟨fun g hg => (by cases hg), fun w hw => (by cases hw)⟩

def branches : List Derived := [plain [], plain [gt (.slot (slot 1 2)) 15]]

example : scanUnion id isTrue branches [gt (.slot (slot 4 1)) 1] =
      (branches.flatMap (table id isTrue)).filter (holds isTrue [gt (.slot (slot 4 1)) 1]) ∧
    (scanUnion id isTrue branches [gt (.slot (slot 4 1)) 1]).map (fun r => r (slot 4 2)) = [num 20, num 40, num 20, num 40] := by
  refine ⟨C56_union id (fun _ _ h => h) isTrue branches _ ?_ ?_ ?_, by decide +kernel⟩
  · intro d hd
    simp only [branches, List.mem_cons, List.not_mem_nil, or_false] at hd
    rcases hd with rfl | rfl <;> exact plain_marked _
  · intro d hd
    simp only [branches, List.mem_cons, List.not_mem_nil, or_false] at hd
    rcases hd with rfl | rfl <;> exact .inl ⟨rfl, rfl⟩
  · intro d hd g hg
    simp only [branches, List.mem_cons, List.not_mem_nil, or_false] at hd
    rcases hd with rfl | rfl <;> cases hg

/-- `SELECT c1, COUNT(c2) … GROUP BY c1` and `SELECT COUNT(c2) …` over the derived table. -/
def byC1 : AggE := ⟨[.slot (slot 4 1)], [countF (slot 5 1) (.slot (slot 4 2))]⟩
def scalar : AggE := ⟨[], [countF (slot 5 1) (.slot (slot 4 2))]⟩

theorem over_byC1 : Over 4 byC1 := by
  refine ⟨?_, ?_, ?_⟩ <;> simp [byC1, countF, Ex.slots, slot]

theorem over_scalar : Over 4 scalar := by
  refine ⟨?_, ?_, ?_⟩ <;> simp [scalar, countF, Ex.slots, slot]

example : aggOne id isTrue (plain []) [gt (.slot (slot 4 2)) 15] byC1 =
      aggregate id byC1 ((table id isTrue (plain [])).filter (holds isTrue [gt (.slot (slot 4 2)) 15])) ∧
    (aggOne id isTrue (plain []) [gt (.slot (slot 4 2)) 15] byC1).map (fun r => (r (slot 4 1), r (slot 5 1))) =
      [(num 2, num 1), (num 1, num 1), (num 3, num 1)] :=
  ⟨C56_agg_one id (fun _ _ h => h) isTrue _ _ _ (plain_marked _) (by simp [byC1]) over_byC1 (by decide +kernel), by decide +kernel⟩

example : (aggOne id isTrue (plain []) [gt (.slot (slot 4 2)) 15] scalar).map (fun r => scalar.funcs.map fun f => r f.out) =
      (aggregate id scalar ((table id isTrue (plain [])).filter (holds isTrue [gt (.slot (slot 4 2)) 15]))).map
        fun r => scalar.funcs.map fun f => r f.out :=
  C56_agg_scalar id (fun _ _ h => h) isTrue _ _ _ (plain_marked _) rfl over_scalar
    (by intro c hc; rw [List.mem_singleton.1 hc]; decide) (by decide +kernel)

example : (aggOne id isTrue (plain []) [gt (.slot (slot 4 2)) 15] scalar).map (fun r => r (slot 5 1)) = [num 3] ∧
    (aggOne id isTrue (plain []) [gt (.slot (slot 4 2)) 50] scalar).map (fun r => r (slot 5 1)) = [num 0] := by decide +kernel

example (g : AggE) (hg : g = byC1 ∨ g = scalar) : aggUnion id isTrue branches [gt (.slot (slot 4 2)) 15] g =
    aggregate id g ((branches.flatMap (table id isTrue)).filter (holds isTrue [gt (.slot (slot 4 2)) 15])) := by
  apply C56_agg_union id (fun _ _ h => h)
  · intro d hd
    simp only [branches, List.mem_cons, List.not_mem_nil, or_false] at hd
    rcases hd with rfl | rfl <;> exact plain_marked _
  · intro d hd
    simp only [branches, List.mem_cons, List.not_mem_nil, or_false] at hd
    rcases hd with rfl | rfl <;> rcases hg with rfl | rfl <;> first | exact over_byC1 | exact over_scalar
  · intro h
    rcases hg with rfl | rfl
    · cases h
    · exact ⟨by simp [scalar], by intro c hc; rw [List.mem_singleton.1 hc]; decide⟩
  · intro d hd
    simp only [branches, List.mem_cons, List.not_mem_nil, or_false] at hd
    rcases hd with rfl | rfl <;> rcases hg with rfl | rfl <;> decide +kernel

example : (aggUnion id isTrue branches [gt (.slot (slot 4 2)) 15] byC1).map (fun r => (r (slot 4 1), r (slot 5 1))) =
      [(num 2, num 2), (num 1, num 2), (num 3, num 2)] ∧
    (aggUnion id isTrue branches [gt (.slot (slot 4 2)) 15] scalar).map (fun r => r (slot 5 1)) = [num 6] ∧
    (aggUnion id isTrue branches [gt (.slot (slot 4 2)) 35] scalar).map (fun r => r (slot 5 1)) = [num 2] ∧
    (aggUnion id isTrue branches [gt (.slot (slot 4 2)) 50] scalar).map (fun r => r (slot 5 1)) = [num 0] := by decide +kernel

/-- `SELECT * FROM (SELECT b1, b2, COUNT(b1) FROM b GROUP BY b1) t WHERE b2`: without ONLY_FULL_GROUP_BY `b2` is a value of some
row of the group; the condition is moved although `b2` is not in GROUP BY, and then counts other rows. -/
def bare : Derived where
  tuple := 4
  mapping := [(1, 0), (2, 1), (3, 2)]
  sub :=
    { base := [bRow 1 10, bRow 1 0, bRow 2 0], wher := []
      agg := some ⟨[.slot (slot 1 1)], [countF (slot 2 1) (.slot (slot 1 1))]⟩
      having := [], wins := [], limit := none
      projs := [.slot (slot 1 1), .slot (slot 1 2), .slot (slot 2 1)], special := [false, false, true] }

/-- **C56** fails for a condition that is just a column: its slot is not looked at. -/
theorem C56_bare_column_counterexample :
    canPush bare (.slot (slot 4 2)) = true ∧ canPush bare (gt (.slot (slot 4 2)) 0) = false ∧
    ((table id isTrue bare).filter (holds isTrue [.slot (slot 4 2)])).map (fun r => r (slot 4 3)) = [num 2] ∧
    (scanDerived id isTrue bare [.slot (slot 4 2)]).map (fun r => r (slot 4 3)) = [num 1] := by decide +kernel

/-- The same with a window: `SELECT b1, ROW_NUMBER() OVER () FROM b` and `WHERE b1`: rows are numbered after the condition. -/
def bareWin : Derived where
  tuple := 4
  mapping := [(1, 0), (2, 1)]
  sub :=
    { base := [bRow 0 10, bRow 1 20], wher := [], agg := none, having := []
      wins := [⟨[], slot 3 1, fun _ i => num (i + 1)⟩], limit := none
      projs := [.slot (slot 1 1), .slot (slot 3 1)], special := [false, true] }

theorem C56_bare_column_window_counterexample :
    ((table id isTrue bareWin).filter (holds isTrue [.slot (slot 4 1)])).map (fun r => r (slot 4 2)) = [num 2] ∧
    (scanDerived id isTrue bareWin [.slot (slot 4 1)]).map (fun r => r (slot 4 2)) = [num 1] := by decide +kernel

/-- `SELECT * FROM (SELECT 7 AS c, COUNT(b1) FROM b) t WHERE c = 8`. -/
def constScalar : Derived where
  tuple := 4
  mapping := [(1, 0), (2, 1)]
  sub :=
    { base := rows4, wher := [], agg := some ⟨[], [countF (slot 2 1) (.slot (slot 1 1))]⟩
      having := [], wins := [], limit := none
      projs := [.lit (num 7), .slot (slot 2 1)], special := [false, true] }

/-- **C56** fails for a condition on a constant column of an aggregation without GROUP BY: there is no row, but one is returned,
with `c = 7` and the count of no rows. -/
theorem C56_constant_column_counterexample :
    (table id isTrue constScalar).filter (holds isTrue [eqTo (.slot (slot 4 1)) 8]) = [] ∧
    (scanDerived id isTrue constScalar [eqTo (.slot (slot 4 1)) 8]).map (fun r => (r (slot 4 1), r (slot 4 2))) =
      [(num 7, num 0)] := by decide +kernel

/-- **C56** fails for an aggregation without GROUP BY and a condition without columns that stays above it: `SELECT COUNT(c2) FROM
(SELECT b1, b2 FROM b) t WHERE 0` has the row `0`, but when the aggregation is moved below the condition there is none. -/
theorem C56_agg_constant_condition_counterexample :
    canPushAgg [plain []] (pushInto (plain []) [.lit (num 0)]).2 scalar = true ∧
    (aggregate id scalar ((table id isTrue (plain [])).filter (holds isTrue [.lit (num 0)]))).map (fun r => r (slot 5 1)) =
      [num 0] ∧
    aggOne id isTrue (plain []) [.lit (num 0)] scalar = [] := by decide +kernel

end BaikalDB.Derived
