import Verif.Part.Model

/-!
# Partitioned tables: what a user relies on
-/

namespace BaikalDB.Part

/-- A value lies in the range of a partition: not below the left bound, below the right one. -/
def Covers (p : PInfo) (n : Int) : Prop :=
  (∃ a, p.left = .num a ∧ a ≤ n) ∧ ∀ b, p.right = .num b → n < b

/-- Two partitions that hold the same kind of data and so must not share a value: both additional,
or both not and of one type or one of them cold. -/
def SameKind (p q : PInfo) : Prop :=
  (p.ptype = .additional ∧ q.ptype = .additional) ∨
    (p.ptype ≠ .additional ∧ q.ptype ≠ .additional ∧
      (p.ptype = q.ptype ∨ p.cold = true ∨ q.cold = true))

/-- The schema the meta server must keep. -/
structure Ok (s : Schema) : Prop where
  ids : (s.parts.map (·.id)).Nodup
  names : (s.parts.map (·.name)).Nodup
  bound : ∀ p ∈ s.parts, p.id ≤ s.maxId
  apart : ∀ p ∈ s.parts, ∀ q ∈ s.parts, SameKind p q → ∀ n, Covers p n → Covers q n → p = q

/-- The range of a partition ends at or before the isolation date. -/
def UpToIsolation (s : Schema) (p : PInfo) : Prop :=
  ∃ d b, s.isolation = some d ∧ p.right = .num b ∧ b ≤ d

/-- A hot partition is the copy a user asks for: their own type; for a table under switch the other
type, and the primary type up to the isolation date. -/
def Wanted (s : Schema) (u : User) (p : PInfo) : Prop :=
  p.cold = true ∨
    (u.switch = false ∧ p.ptype = u.req) ∨
    (u.switch = true ∧ UpToIsolation s p ∧ p.ptype = s.primary) ∨
    (u.switch = true ∧ ¬ UpToIsolation s p ∧
      ((u.req = .dflt ∧ p.ptype = .newStats) ∨ (u.req ≠ .dflt ∧ p.ptype = .dflt)))

/-- The partitions a statement of a user is about. An account bound to the additional partitions
sees only these; any other account sees the others and, to read, the additional ones too. -/
def Visible (s : Schema) (u : User) (read : Bool) (p : PInfo) : Prop :=
  p ∈ s.parts ∧
    if u.additional = true then p.ptype = .additional
    else (p.ptype ≠ .additional ∧ Wanted s u p) ∨ (read = true ∧ p.ptype = .additional)

/-- A partition holds a row of this value of the partition column. -/
def Holds (s : Schema) (p : PInfo) (v : Option Int) : Prop :=
  match s.expr, v with
  | none, none => False
  | none, some n => Covers p n
  | some g, none => ∃ m, g .null = .num m ∧ Covers p m
  | some g, some n => ∃ m, g (.num n) = .num m ∧ Covers p m

/-- `op` between two numbers. -/
def CmpHolds : Cmp → Int → Int → Prop
  | .eq, a, b => a = b
  | .ge, a, b => b ≤ a
  | .gt, a, b => b < a
  | .le, a, b => a ≤ b
  | .lt, a, b => a < b

/-- `op` between rows of columns and of constants, the first difference decides; `NULL` at the
place that decides is not true. -/
def RowHolds (r : Nat → Option Int) : List Nat → Cmp → List Int → Prop
  | [], op, [] => op = .eq ∨ op = .ge ∨ op = .le
  | c :: fs, op, v :: vs =>
    ∃ n, r c = some n ∧ ((n ≠ v ∧ CmpHolds op n v) ∨ (n = v ∧ RowHolds r fs op vs))
  | _, _, _ => False

/-- A row meets a condition. -/
def Sat (r : Nat → Option Int) : Cond → Prop
  | .cmp c op v => ∃ n, r c = some n ∧ CmpHolds op n v
  | .inl c vs => ∃ n, r c = some n ∧ n ∈ vs
  | .rowCmp fs op vs => RowHolds r fs op vs
  | .rowIn fs ts => ∃ t ∈ ts, RowHolds r fs .eq t
  | .like c _ _ h => ∃ n, r c = some n ∧ h n = true
  | .other => True

/-- The conditions of a range partitioned table for which the code reads enough: no `LIKE` with a
literal part on the partition column, no `<` between rows that start with it. -/
def Plain (f : Nat) : Cond → Prop
  | .like c k _ _ => c = f → k = .other
  | .rowCmp fs .lt vs => fs.head? = some f → vs.length = 1
  | _ => True

/-- The conditions of a hash partitioned table for which the code reads enough: no `LIKE` without
wildcard on the partition column. -/
def PlainHash (f : Nat) : Cond → Prop
  | .like c k _ _ => c = f → k ≠ .eq
  | _ => True

/-- A value as it is handed to the partition functions. -/
def toVal : Option Int → Val
  | none => .null
  | some n => .num n

/-- A partition is the one a statement asks for; `LESS THAN` alone starts at the least value. -/
def Matches (ct : ColType) (sp : PSpec) (p : PInfo) : Prop :=
  p.name = sp.name ∧ p.ptype = sp.ptype ∧ p.cold = sp.cold ∧
    match sp.bound with
    | .less b => p.left = .num ct.lo ∧ p.right = b
    | .range l r => p.left = l ∧ p.right = r

/-- The expression of the table gives numbers or `NULL`. -/
def NumExpr (s : Schema) : Prop := ∀ g, s.expr = some g → ∀ v t, g v ≠ .str t

/-- A sequence of statements. -/
def runOps (ct : ColType) (s : Schema) (ops : List Op) : Schema := ops.foldl (step ct) s

/-- A value is below the bound of `VALUES LESS THAN`. -/
def Below (n : Int) : Bound → Prop
  | .num b => n < b
  | .max => True

/-- A bound is not above another one. -/
def BoundLe : Bound → Bound → Prop
  | _, .max => True
  | .max, .num _ => False
  | .num a, .num b => a ≤ b

end BaikalDB.Part
