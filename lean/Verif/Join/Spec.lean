import Verif.Join.Model
/-!
# What joins and subqueries must return

Written from the SQL rules alone: `θ o i` says that the rows `o` and `i` satisfy the ON clause (or the condition that links
a subquery to the outer row).
-/
namespace BaikalDB.Join

variable {α β : Type}

/-- `outer INNER JOIN inner ON θ`: the pairs that satisfy θ. -/
def sqlInner (θ : α → β → Bool) (outer : List α) (inner : List β) : List (Row α β) :=
  outer.flatMap fun o => (inner.filter (θ o)).map fun i => (o, some i)

/-- The rows of `outer LEFT JOIN inner ON θ` for one outer row. -/
def leftRows (θ : α → β → Bool) (inner : List β) (o : α) : List (Row α β) :=
  if inner.any (θ o) then (inner.filter (θ o)).map fun i => (o, some i) else [(o, none)]

/-- `outer LEFT JOIN inner ON θ`: an outer row without a partner appears once, with NULLs. -/
def sqlLeft (θ : α → β → Bool) (outer : List α) (inner : List β) : List (Row α β) := outer.flatMap (leftRows θ inner)

/-- `WHERE EXISTS (SELECT … θ)`; `IN` and `= ANY` when the comparison is never UNKNOWN. -/
def sqlSemi (θ : α → β → Bool) (sub : α → List β) (outer : List α) : List α := outer.filter fun o => (sub o).any (θ o)

/-- `WHERE NOT EXISTS (SELECT … θ)`. -/
def sqlAnti (θ : α → β → Bool) (sub : α → List β) (outer : List α) : List α := outer.filter fun o => !(sub o).any (θ o)

/-- The rows `got`, asked for under `limit`, answer the query whose whole result is `want` (in any order): all of them, or
at least `limit` of them.  A node may return more than its limit: the LIMIT node of the query cuts the result. -/
def Answers {ρ : Type} (limit : Option Nat) (want got : List ρ) : Prop :=
  ∃ all, all.Perm want ∧ got <+: all ∧ (got = all ∨ ∃ l, limit = some l ∧ l ≤ got.length)

end BaikalDB.Join
