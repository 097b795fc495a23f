import Verif.Limit.Model
import Mathlib.Data.List.Dedup
/-! # What a SELECT with LIMIT answers -/
namespace BaikalDB.Limit
variable {V : Type}

/-- All conditions hold for the row. -/
def Holds (cs : List (Cond V)) (r : Row V) : Prop := ∀ c ∈ cs, c.fn (c.slots.map (get r)) = true

instance (cs : List (Cond V)) (r : Row V) : Decidable (Holds cs r) := by unfold Holds; infer_instance

/-- The pairs of rows for which the ON condition holds, joined. -/
def matching (on : List (Cond V)) (ls rs : List (Row V)) : List (Row V) :=
  ((ls.flatMap fun l => rs.map fun r => (l, r)).map fun e => e.1 ++ e.2).filter fun x => decide (Holds on x)

/-- The rows of the left side without partner, the rows of the right side without partner. -/
def aloneL (on : List (Cond V)) (ls rs : List (Row V)) : List (Row V) :=
  ls.filter fun l => decide (∀ r ∈ rs, ¬ Holds on (l ++ r))
def aloneR (on : List (Cond V)) (ls rs : List (Row V)) : List (Row V) :=
  rs.filter fun r => decide (∀ l ∈ ls, ¬ Holds on (l ++ r))

/-- The rows of a join; the columns of a missing partner are NULL. -/
def joined : JoinTy → List (Cond V) → List (Row V) → List (Row V) → List (Row V)
  | .inner, on, ls, rs => matching on ls rs
  | .left, on, ls, rs => matching on ls rs ++ aloneL on ls rs
  | .right, on, ls, rs => matching on ls rs ++ aloneR on ls rs
  | .full, on, ls, rs => matching on ls rs ++ aloneL on ls rs ++ aloneR on ls rs

/-- The rows of the FROM clause. -/
def From.rows (D : Data V) : From V → List (Row V)
  | .scan t => (D t).flatten
  | .filter cs f => (f.rows D).filter fun r => decide (Holds cs r)
  | .join ty on l r => joined ty on (l.rows D) (r.rows D)

def keep (cs : Option (List (Cond V))) (l : List (Row V)) : List (Row V) :=
  l.filter fun r => decide (∀ c ∈ cs, Holds c r)

/-- The groups: one row for each combination of values of the columns. -/
def Agg.rows [DecidableEq V] : Option (Agg V) → List (Row V) → List (Row V)
  | none, l => l
  | some (.distinct ss), l => (l.map fun r => r.filter fun e => decide (e.1 ∈ ss)).dedup
  | some (.fns part _), l => part l

/-- The rows of the SELECT without its ORDER BY and LIMIT. -/
def Query.rows [DecidableEq V] (D : Data V) (q : Query V) : List (Row V) :=
  keep q.having (Agg.rows q.agg (keep q.where_ (q.frm.rows D)))

/-- The rows are in the order of the ORDER BY. -/
def InOrder (o : Option (Order V)) (l : List (Row V)) : Prop :=
  ∀ o' ∈ o, l.Pairwise fun x y => o'.le (o'.slots.map (get x)) (o'.slots.map (get y)) = true

/-- `out` is a right answer to `SELECT … ORDER BY o LIMIT offset, count` where `all` are the rows without the LIMIT: the rows
`offset` to `offset + count` of all rows, put in an order that the ORDER BY allows. -/
def RightAnswer (o : Option (Order V)) (all : List (Row V)) (offset count : Nat) (out : List (Row V)) : Prop :=
  ∃ l : List (Row V), l.Perm all ∧ InOrder o l ∧ out = (l.drop offset).take count

/-- The comparison of the ORDER BY is a total preorder. -/
def Order.Good (o : Order V) : Prop :=
  (∀ x y, o.le x y = true ∨ o.le y x = true) ∧ ∀ x y z, o.le x y = true → o.le y z = true → o.le x z = true

/-- Aggregates may be computed region by region. -/
def Agg.Good : Agg V → Prop
  | .distinct _ => True
  | .fns part merge => (∀ l l' : List (Row V), l.Perm l' → (part l).Perm (part l')) ∧
      ∀ regs : List (List (Row V)), (merge (regs.flatMap part)).Perm (part regs.flatten)

/-- Each table of the FROM clause has its own tuple. -/
def Owns (D : Data V) : Prop := ∀ t, ∀ reg ∈ D t, ∀ r ∈ reg, ∀ e ∈ r, e.1.1 = t

/-- The tables of the FROM clause. -/
def From.tables : From V → List Nat
  | .scan t => [t]
  | .filter _ f => f.tables
  | .join _ _ l r => l.tables ++ r.tables

/-- The tables whose rows are never padded with NULLs by an outer join on the way to the top: those of the side all of whose rows
an outer join keeps, and so on down to a table or a join of another kind. -/
def From.kept : From V → List Nat
  | .scan t => [t]
  | .filter _ f => f.kept
  | .join .left _ l _ => l.kept
  | .join .right _ _ r => r.kept
  | .join _ _ l r => l.tables ++ r.tables

/-- The rows of a FULL JOIN get to the top of the FROM clause without passing a condition or an inner join, as rows of the side all
of whose rows are kept. -/
def From.fullOnTop : From V → Bool
  | .scan _ => false
  | .filter cs f => cs.isEmpty && f.fullOnTop
  | .join .inner _ _ _ => false
  | .join .left _ l _ => l.fullOnTop
  | .join .right _ _ r => r.fullOnTop
  | .join .full _ _ _ => true

/-- Below its filters the FROM clause is a LEFT or RIGHT JOIN. -/
def From.outer : From V → Bool
  | .scan _ => false
  | .filter _ f => f.outer
  | .join ty _ _ _ => ty = .left || ty = .right

/-- A RIGHT JOIN has an outer join as its right operand. -/
def From.nested : From V → Bool
  | .scan _ => false
  | .filter _ f => f.nested
  | .join .left _ l _ => l.nested
  | .join .right _ _ r => r.outer || r.nested
  | .join _ _ _ _ => false

/-- The SELECT has nothing but a FROM clause: no ORDER BY, HAVING, GROUP BY, DISTINCT or remaining WHERE condition. -/
def Query.bare (q : Query V) : Prop :=
  q.order = none ∧ q.having = none ∧ q.agg = none ∧ ∀ cs ∈ q.where_, cs = []

/-- What the frontend needs for a right answer. -/
structure Query.Ok (q : Query V) : Prop where
  tables : q.frm.tables.Nodup
  order : ∀ o ∈ q.order, o.Good
  agg : ∀ a ∈ q.agg, a.Good
  /-- HAVING without GROUP BY reads columns of tables that no outer join pads. -/
  having : q.agg = none → ∀ cs ∈ q.having, ∀ c ∈ cs, ∀ s ∈ c.slots, s.1 ∈ q.frm.kept
  /-- no `SELECT … FROM … FULL JOIN … LIMIT` -/
  full : q.bare → q.frm.fullOnTop = false
  /-- no `… RIGHT JOIN (… LEFT JOIN …) … ORDER BY … LIMIT` -/
  nested : q.agg = none → q.order ≠ none → q.frm.nested = false

end BaikalDB.Limit
