import Verif.Scan.Model
import Verif.Like.Props
import Verif.Region.RouteProps

/-!
# What the ranges of an index must achieve, stated on rows and conditions
-/

namespace BaikalDB.Scan
open KeyEnc KeyEnc.Spec IndexKey Like Like.Spec

/-! ## When a conjunct is true of a row -/

/-- What a comparison operator asks of an order. -/
def opOk : Op → Ordering → Prop
  | .eq, o => o = .eq
  | .lt, o => o = .lt
  | .le, o => o ≠ .gt
  | .gt, o => o = .gt
  | .ge, o => o ≠ .lt

/-- Row comparison in SQL: the first column that differs decides; a NULL met before that makes it unknown. -/
def rowTrue (op : Op) (row : Row) : List Nat → List (Option PbVal) → Prop
  | f :: fs, v :: vs => ∃ x y, row f = some x ∧ v = some y ∧
      (colCompare x y = .eq ∧ rowTrue op row fs vs ∨ colCompare x y ≠ .eq ∧ opOk op (colCompare x y))
  | _, _ => opOk op .eq

/-- The conjunct is TRUE (not FALSE, not NULL) of the row; `cs` is the character set of the connection. -/
def Holds (cs : Charset) (row : Row) : Cond → Prop
  | .cmp op f v => ∃ x y, row f = some x ∧ v = some y ∧ opOk op (colCompare x y)
  | .inn f vs => ∃ x y, row f = some x ∧ some y ∈ vs ∧ colCompare x y = .eq
  | .like f p => ∃ t q, row f = some (.str t) ∧ p = some q ∧ likeOne cs t q = true
  | .rcmp op fs vs => rowTrue op row fs vs
  | .rin fs vss => ∃ t ∈ vss, rowTrue .eq row fs t
  | .full _ p => p row = true
  | .other p => p row = true

/-! ## Queries and rows the theorems are about -/

/-- A constant fits its column. -/
def FitsCol (ty : Nat → PType) (f : Nat) (v : Option PbVal) : Prop := ∀ x, v = some x → Valid (ty f) x

/-- A tuple fits the columns of its row. -/
def FitsRow (ty : Nat → PType) : List Nat → List (Option PbVal) → Prop
  | [], [] => True
  | f :: fs, v :: vs => FitsCol ty f v ∧ FitsRow ty fs vs
  | _, _ => False

/-- The conjunct is well typed.  LIKE is used on string columns, its pattern is text of the connection's character set
and does not end in a lone backslash; a row comparison by order has no NULL in its constants. -/
def CondOk (cs : Charset) (ty : Nat → PType) : Cond → Prop
  | .cmp _ f v => FitsCol ty f v
  | .inn f vs => ∀ v ∈ vs, FitsCol ty f v
  | .like f p => ty f = .string ∧ ∀ q, p = some q → 0#8 ∉ q ∧ ∃ P, Text cs q P ∧ Closed P
  | .rcmp op fs vs => fs ≠ [] ∧ FitsRow ty fs vs ∧ (op ≠ .eq → none ∉ vs)
  | .rin fs vss => fs ≠ [] ∧ ∀ t ∈ vss, FitsRow ty fs t
  | .full _ _ => True
  | .other _ => True

/-- Tuples of a row IN that can match: those without NULL. -/
def liveTuples (vss : List (List (Option PbVal))) : List (List (Option PbVal)) := vss.filter fun t => decide (none ∉ t)

/-- The conjunct fixes the columns `fs` to one value each, as a row. -/
def RowEquality : Cond → Option (List Nat)
  | .rcmp .eq fs _ => some fs
  | .rin fs vss => if (liveTuples vss).length = 1 then some fs else none
  | _ => none

/-- The columns a conjunct names, unless it only bounds them by order. -/
def pointCols : Cond → List Nat
  | .cmp .eq f _ => [f]
  | .inn f _ => [f]
  | .like f _ => [f]
  | .rcmp .eq fs _ => fs
  | .rin fs _ => fs
  | .full fs _ => fs
  | _ => []

/-- A row equality has distinct columns, and no other conjunct fixes one of them. -/
def RowEqualityAlone (conds : List Cond) : Prop :=
  ∀ (i : Nat) c fs, conds[i]? = some c → RowEquality c = some fs →
    fs.Nodup ∧ ∀ (j : Nat) d, conds[j]? = some d → j ≠ i → ∀ f ∈ pointCols d, f ∉ fs

/-- The columns of a full-text condition. -/
def fullCols : Cond → List Nat
  | .full fs _ => fs
  | _ => []

/-- Two row comparisons that bound the same column from both sides. -/
def BothSides (conds : List Cond) : Prop :=
  ∃ f fs gs vs ws opl opr, (Cond.rcmp opl (f :: fs) vs) ∈ conds ∧ (Cond.rcmp opr (f :: gs) ws) ∈ conds ∧
    (opl = .gt ∨ opl = .ge) ∧ (opr = .lt ∨ opr = .le) ∧ fs ≠ [] ∧ gs ≠ []

/-- The queries and indexes the main theorem covers; the counterexamples show that each part is needed. -/
structure Covered (cs : Charset) (ty : Nat → PType) (ix : IndexInfo) (conds : List Cond) : Prop where
  charset : cs ≠ .gbk
  types : ∀ f ∈ avail ix, f.type = ty f.id
  ok : ∀ c ∈ conds, CondOk cs ty c
  rowEq : RowEqualityAlone conds
  noFull : ∀ c ∈ conds, ∀ f ∈ fullCols c, ∀ g ∈ avail ix, g.id ≠ f
  sides : ((avail ix).map (·.id)).Nodup ∨ ¬ BothSides conds

/-- A row whose key columns are filled in (they are NOT NULL, ddl_planner.cpp:974,2479) with values of their types. -/
structure RowOk (cs : Charset) (ix : IndexInfo) (row : Row) : Prop where
  cols : ∀ f ∈ avail ix, ∃ v, row f.id = some v ∧ Valid f.type v
  text : ∀ f t, row f = some (.str t) → ∃ T, Text cs t T

/-- The key of a row in the index: the null flags of a secondary index, then the key columns. -/
def rowKey (ix : IndexInfo) (row : Row) : Bytes :=
  flag ix ++ (avail ix).flatMap fun f => ((row f.id).bind fun v => encodeField f.type v [] false).getD []

/-- A range reaches a key. -/
def Reaches (p : Plan) (r : Route.Rng) (k : Bytes) : Prop := Route.InBounds (Route.bounds (some p.tpl) r) k

end BaikalDB.Scan
