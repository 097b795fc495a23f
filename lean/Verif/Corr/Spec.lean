import Verif.Corr.Model

/-!
# What a correlated subquery means

For every outer row the subquery is evaluated with the values of that row in its conditions.
-/

namespace BaikalDB.Corr.Spec
open BaikalDB.Expr (EV)
open BaikalDB.Pred (Row noRow)

variable {ρ κ : Type} [DecidableEq κ]

/-- The rows a clause leaves, for an outer row: those for which all conditions are TRUE; all of them in another order; the
`n` rows at the positions from `off` on. -/
def clause (o : ρ) (l : List Row) : Node ρ → List Row
  | .filter cs => l.filter fun r => decide (∀ c ∈ cs, c.val o r = some true)
  | .sort f => f l
  | .limit off n => (List.range n).filterMap fun i => l[off + i]?
  | .manager => l

/-- The clauses of a query one after the other, the last one first in the list. -/
def clauses (o : ρ) : List (Node ρ) → List Row → List Row
  | [], l => l
  | n :: ns, l => clause o (clauses o ns l) n

/-- The first row of each group of equivalent rows. -/
def firsts (same : Row → Row → Bool) : List Row → List Row
  | [] => []
  | x :: t => x :: (firsts same t).filter fun y => !same y x

/-- Two rows of the same group. -/
def sameGroup (key : EV → κ) (groups : List Nat) (a b : Row) : Bool := decide (∀ s ∈ groups, key (a s) = key (b s))

/-- A row for each group, with the values of the functions for the rows of the group and otherwise the values of the first of
them; without GROUP BY a row also if there is nothing to aggregate, with NULLs. -/
def aggregated (key : EV → κ) (groups : List Nat) (funcs : List (Nat × (List Row → EV))) (l : List Row) : List Row :=
  if groups = [] ∧ l = [] then [fun s => (funcs.lookup s).elim BaikalDB.Pred.nullV fun f => f []]
  else (firsts (sameGroup key groups) l).map fun x s =>
    (funcs.lookup s).elim (x s) fun f => f (l.filter fun y => sameGroup key groups y x)

/-- The rows of the subquery for an outer row. -/
def rows (key : EV → κ) (p : Plan ρ) (o : ρ) : List Row :=
  clauses o p.top (match p.agg with
    | none => clauses o p.bottom p.base
    | some g => aggregated key g.groups g.funcs (clauses o p.bottom p.base))

/-- The value of the condition with the subquery in it: some row meets the conditions of the apply node (`x op row`, or
none for EXISTS); `none`: an error, the subquery may return only one row and returns more. -/
def meaning (key : EV → κ) (a : Apply ρ) (o : ρ) : Option Bool :=
  if a.maxOne = true ∧ 1 < (rows key a.plan o).length then none
  else some (decide (∃ r ∈ rows key a.plan o, ∀ c ∈ a.conds, c.val o r = some true))

/-- The conditions in a chain of nodes. -/
def conjs (ns : List (Node ρ)) : List (Conj ρ) := ns.flatMap fun
  | .filter cs => cs
  | _ => []

/-- A condition that does not mention the outer query does not depend on its row. -/
def Closed (c : Conj ρ) : Prop := c.outer = false → ∀ o o' r, c.val o r = c.val o' r

/-- An equality between the outer query and columns of the subquery: its value is determined by the group keys of these
columns, and rows that both meet it have the same keys. -/
structure Equates (key : EV → κ) (c : Conj ρ) : Prop where
  determined : ∀ o r r', (∀ s ∈ c.eqSlots, key (r s) = key (r' s)) → c.val o r = c.val o r'
  pins : ∀ o r r', c.val o r = some true → c.val o r' = some true → ∀ s ∈ c.eqSlots, key (r s) = key (r' s)

/-- No two of the slots, and no slot and an aggregate function's slot, have the same id in different tuples. -/
def NoClash (g : Agg) (ss : List Nat) : Prop :=
  (∀ s ∈ ss, ∀ f ∈ g.funcs, s % 2 ^ 16 ≠ f.1 % 2 ^ 16) ∧ ∀ s ∈ ss, ∀ t ∈ ss, s % 2 ^ 16 = t % 2 ^ 16 → s = t

/-- Sorts return the rows they get. -/
def SortOk : Node ρ → Prop
  | .sort f => ∀ l, (f l).Perm l
  | _ => True

/-- Neither sort nor limit. -/
def Plain : Node ρ → Prop
  | .filter _ | .manager => True
  | _ => False

/-- No limit, or one that lets the first row pass. -/
def KeepsOne : Node ρ → Prop
  | .limit off n => off = 0 ∧ 0 < n
  | _ => True
def NoLimit : Node ρ → Prop
  | .limit _ _ => False
  | _ => True

/-- Below a limit no condition mentions the outer query. -/
def LimitsOk : List (Node ρ) → Prop
  | [] => True
  | n :: ns => LimitsOk ns ∧ (NoLimit n ∨ ∀ c ∈ conjs ns, c.outer = false)

end BaikalDB.Corr.Spec
