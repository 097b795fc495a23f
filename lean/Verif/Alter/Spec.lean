import Verif.Alter.Model

/-!
What the user of a table sees: a list of named columns with defaults, and rows that have a value for each
column.  ALTER TABLE changes this table directly: a new column gets its default in every row, a dropped
column goes away with its values, a renamed one keeps its values, and a change of a default changes no row.
Nothing here mentions field numbers.
-/

namespace BaikalDB.Alter

/-- A byte without regard to case. -/
def sameByte (a b : Nat) : Bool :=
  a == b || (65 ≤ a && a ≤ 90 && b == a + 32) || (65 ≤ b && b ≤ 90 && a == b + 32)

/-- Two names without regard to case. -/
def sameName : Name → Name → Bool
  | [], [] => true
  | a :: as, b :: bs => sameByte a b && sameName as bs
  | _, _ => false

/-- The table as its user sees it. -/
structure Table where
  cols : List (Name × Option Val)
  rows : List (List (Name × Option Val))
deriving DecidableEq, Repr

/-- The new name of a column entry. -/
def renameEntry (n n' : Name) (c : Name × Option Val) : Name × Option Val :=
  if c.1 = n then (n', c.2) else c

/-- What a request that is accepted does to the table. -/
def Table.apply (t : Table) : Op → Table
  | .add new => ⟨t.cols ++ new, t.rows.map (· ++ new)⟩
  | .drop n => ⟨t.cols.filter (fun c => c.1 ≠ n), t.rows.map (·.filter (fun c => c.1 ≠ n))⟩
  | .rename n n' => ⟨t.cols.map (renameEntry n n'), t.rows.map (·.map (renameEntry n n'))⟩
  | .modify n new d =>
    ⟨t.cols.map (fun c => if c.1 = n then (new.getD n, d) else c),
     t.rows.map (·.map (renameEntry n (new.getD n)))⟩
  | .insert given =>
    ⟨t.cols, t.rows ++ [t.cols.map (fun c =>
      (c.1, match given.find? (fun g => sameName g.1 c.1) with
        | some g => g.2
        | none => c.2))]⟩
  | .update i n v =>
    ⟨t.cols, t.rows.modify i (·.map (fun c => if sameName c.1 n then (c.1, v) else c))⟩
  | .restart => t

/-- No two names in the list are the same up to case. -/
def Distinct (l : List Name) : Prop := l.Pairwise (fun a b => sameName a b = false)

/-- The requests for which the claim is made.  An ADD or RENAME does not produce two columns whose names
are equal up to case; a MODIFY or CHANGE keeps the default; NULL is not written into a column whose default
is not NULL. -/
def Proper (t : Table) : Op → Prop
  | .add new => Distinct ((t.cols ++ new).map (·.1))
  | .drop _ => True
  | .rename n n' => Distinct ((t.cols.map (renameEntry n n')).map (·.1))
  | .modify n new d =>
    Distinct ((t.cols.map (renameEntry n (new.getD n))).map (·.1)) ∧
      ∀ c ∈ t.cols, c.1 = n → c.2 = d
  | .insert given =>
    ∀ c ∈ t.cols, ∀ g ∈ given, sameName g.1 c.1 = true → g.2 = none → c.2 = none
  | .update _ n v => ∀ c ∈ t.cols, sameName c.1 n = true → v = none → c.2 = none
  | .restart => True

/-- An execution: the requests that were accepted, with the table that the user expects beside them.  A
refused request changes nothing and is left out. -/
inductive Exec : State → Table → State → Table → Prop where
  | refl (s : State) (t : Table) : Exec s t s t
  | tail {s t s1 t1 s2} {op : Op} : Exec s t s1 t1 → Proper t1 op → step s1 op = some s2 →
      Exec s t s2 (t1.apply op)

/-- Any sequence of accepted requests. -/
inductive Any : State → State → Prop where
  | refl (s : State) : Any s s
  | tail {s s1 s2} {op : Op} : Any s s1 → step s1 op = some s2 → Any s s2

/-- A request that does not rename a column that is in use by name: RENAME not the partition or TTL column,
CHANGE not the columns of an index either. -/
def Quiet (s : State) : Op → Prop
  | .rename n _ => (∀ p, s.schema.part = some p → p.1 ≠ n) ∧ (∀ p, s.schema.ttl = some p → p.1 ≠ n)
  | .modify n new _ => new ≠ none →
      (∀ p, s.schema.part = some p → p.1 ≠ n) ∧ (∀ p, s.schema.ttl = some p → p.1 ≠ n) ∧
      ∀ x ∈ s.schema.indexes, n ∉ x.names
  | _ => True

/-- An execution whose requests are all quiet. -/
inductive Calm : State → Table → State → Table → Prop where
  | refl (s : State) (t : Table) : Calm s t s t
  | tail {s t s1 t1 s2} {op : Op} : Calm s t s1 t1 → Proper t1 op → Quiet s1 op →
      step s1 op = some s2 → Calm s t s2 (t1.apply op)

/-- A column with this number is in the table. -/
def HasColumn (s : State) (i : Nat) : Prop := ∃ f ∈ s.schema.fields, f.deleted = false ∧ f.id = i

/-- The column with this number is the partition column, the TTL column, the binlog link column or a column
of an index that is not being deleted. -/
def Used (s : State) (i : Nat) : Prop :=
  (∃ p, s.schema.part = some p ∧ p.2 = i) ∨ (∃ p, s.schema.ttl = some p ∧ p.2 = i) ∨
    s.schema.link = some i ∨ ∃ x ∈ s.schema.indexes, x.dead = false ∧ i ∈ x.ids

/-- The value of a column in a row of the table, by its name without regard to case. -/
def Table.value (t : Table) (i : Nat) (n : Name) : Option (Option Val) :=
  match t.rows[i]? with
  | some r => (r.find? (fun c => sameName c.1 n)).map (·.2)
  | none => none

end BaikalDB.Alter
