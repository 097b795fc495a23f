import Verif.Limit.Props
/-! # LIMIT in the plan: examples and counterexamples -/
namespace BaikalDB.Limit.Examples

/-- `t.id = n` for each of the given numbers. -/
def tab (t : Nat) (ns : List Nat) : List (Row Nat) := ns.map fun n => [((t, 0), n)]

/-- Tables 0 (two regions), 1 and 2. -/
def D : Data Nat := fun t => match t with
  | 0 => [tab 0 [1, 2], tab 0 [3]]
  | 1 => [tab 1 [3, 1]]
  | 2 => [tab 2 [2, 3, 1]]
  | _ => []

theorem D_owns : Owns D := by
  intro t reg hr r hr' e he
  match t with
  | 0 | 1 | 2 => revert e; revert r; revert reg; decide
  | t + 3 => simp [D] at hr

/-- `a = b` -/
def eq (a b : Slot) : Cond Nat := ⟨[a, b], fun v => match v with | [some x, some y] => x == y | _ => false⟩
/-- `a = n` -/
def is (a : Slot) (n : Nat) : Cond Nat := ⟨[a], fun v => v == [some n]⟩

/-- One batch. -/
def B (l : List (Row Nat)) : List (List (Row Nat)) := [l]

theorem B_ok : ∀ l, (B l).flatten = l := by simp [B]

/-- `SELECT * FROM t0 LEFT JOIN t1 ON t0.id = t1.id` -/
def left : From Nat := .join .left [eq (0, 0) (1, 0)] (.scan 0) (.scan 1)

/-- `ORDER BY t0.id DESC`, NULL counting as 0. -/
def byHead : Order Nat := ⟨[(0, 0)], fun v w => decide ((w.head?.join.getD 0) ≤ (v.head?.join.getD 0))⟩

theorem byHead_good : byHead.Good := by
  constructor
  · intro x y; simp only [byHead, decide_eq_true_eq]; omega
  · intro x y z; simp only [byHead, decide_eq_true_eq]; omega

/-- `SELECT * FROM t0 LEFT JOIN t1 ON t0.id = t1.id ORDER BY t0.id DESC LIMIT 2`: the SORT node is moved to the stores. -/
def q1 : Query Nat := ⟨some byHead, none, none, some [], left⟩

theorem q1_ok : q1.Ok where
  tables := by decide
  order := by rintro o ⟨⟩; exact byHead_good
  agg := by simp [q1]
  having := by simp [q1]
  full := by rintro ⟨h, -⟩; simp [q1] at h
  nested := by intros; rfl

example : separate q1 = .join .left [eq (0, 0) (1, 0)] none
    (.manager (some byHead) none (.sort byHead none (.filter [] none (.scan 0 none)))) (.manager none none (.scan 1 none)) := rfl

example : answer B D 0 2 q1 = [[((0, 0), 3), ((1, 0), 3)], [((0, 0), 2)]] := by decide
example : RightAnswer q1.order (q1.rows D) 0 2 (answer B D 0 2 q1) := C49_limit B_ok D_owns q1_ok 0 2

/-- `SELECT DISTINCT id FROM t0 LIMIT 1, 1`. -/
def q2 : Query Nat := ⟨none, none, some (.distinct [(0, 0)]), none, .scan 0⟩
theorem q2_ok : q2.Ok where
  tables := by decide
  order := by simp [q2]
  agg := by rintro a ⟨⟩; trivial
  having := by simp [q2]
  full := by intros; rfl
  nested := by intros; rfl
example : answer B D 1 1 q2 = [[((0, 0), 2)]] := by decide

/-- **C49.** The limit goes into both sides of a FULL JOIN: `SELECT * FROM t1 FULL JOIN t2 ON t1.id = t2.id LIMIT 1` finds row 3 of
`t1` without partner, because only the first row of `t2` is read, and answers with a row that the SELECT does not have. -/
theorem C49_full_counterexample :
    let q : Query Nat := ⟨none, none, none, none, .join .full [eq (1, 0) (2, 0)] (.scan 1) (.scan 2)⟩
    answer B D 0 1 q = [[((1, 0), 3)]] ∧ [((1, 0), 3)] ∉ q.rows D ∧
      ¬ RightAnswer q.order (q.rows D) 0 1 (answer B D 0 1 q) := by
  refine ⟨by decide, by decide, ?_⟩
  rintro ⟨l, h1, -, h3⟩
  have h4 : [((1, 0), 3)] ∈ answer B D 0 1 ⟨none, none, none, none, .join .full [eq (1, 0) (2, 0)] (.scan 1) (.scan 2)⟩ := by decide
  rw [h3] at h4
  have h5 := h1.mem_iff.1 (List.mem_of_mem_drop (List.mem_of_mem_take h4))
  revert h5
  decide

/-- **C49.** HAVING without GROUP BY is moved below an outer join together with the rest of the chain, whatever columns it reads:
`SELECT * FROM t0 LEFT JOIN t1 ON t0.id = t1.id HAVING t1.id = 3 LIMIT 5` has a row, but `t1.id` is read from the rows of `t0`, where
it is NULL, and the answer is empty. -/
theorem C49_having_counterexample :
    let q : Query Nat := ⟨none, some [is (1, 0) 3], none, none, left⟩
    answer B D 0 5 q = [] ∧ q.rows D = [[((0, 0), 3), ((1, 0), 3)]] ∧
      ¬ RightAnswer q.order (q.rows D) 0 5 (answer B D 0 5 q) := by
  refine ⟨by decide, by decide, ?_⟩
  rintro ⟨l, h1, -, h3⟩
  have h4 : answer B D 0 5 ⟨none, some [is (1, 0) 3], none, none, left⟩ = [] := by decide
  rw [h4] at h3
  have h5 := congrArg List.length h3
  rw [List.length_take, List.length_drop, h1.length_eq] at h5
  revert h5
  decide

/-- The table requests a plan sends to stores. -/
def requests : Plan Nat → List Nat
  | .scan .. => []
  | .filter _ _ p | .having _ _ p | .sort _ _ p | .agg _ _ _ p => requests p
  | .manager _ _ p => p.tables
  | .join _ _ _ l r => requests l ++ requests r

/-- **C49.** For `SELECT * FROM t2 RIGHT JOIN (t0 LEFT JOIN t1 ON …) ON … ORDER BY t0.id LIMIT 2` the plan is put together wrongly:
the part of table 2 is hung into the inner join in the place of table 0, and table 0 is left without a request to the stores. -/
theorem C49_nested_counterexample :
    let q : Query Nat := ⟨some byHead, none, none, none, .join .right [eq (0, 0) (2, 0)] (.scan 2) left⟩
    requests (separate q) = [2, 1] ∧ q.frm.tables = [2, 0, 1] ∧
      separate q = .join .right [eq (0, 0) (2, 0)] none
        (.join .left [eq (0, 0) (1, 0)] none (.manager none none (.manager none none (.scan 2 none))) (.manager none none (.scan 1 none)))
        (.sort byHead none (.scan 0 none)) :=
  ⟨rfl, rfl, rfl⟩

end BaikalDB.Limit.Examples
