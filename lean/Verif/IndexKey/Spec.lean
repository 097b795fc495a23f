import Verif.IndexKey.Model
import Verif.KeyEnc.Spec
/-! # What index keys must satisfy, stated on rows -/
namespace BaikalDB.IndexKey.Spec
open KeyEnc KeyEnc.Spec

/-- The value a missing NOT NULL column is stored as. -/
def zeroOf : PType → Option PbVal
  | .bool => some (.bool false)
  | .int8 | .int16 | .int32 | .time => some (.i32 0#32)
  | .int64 => some (.i64 0#64)
  | .uint8 | .uint16 | .uint32 | .timestamp | .date => some (.u32 0#32)
  | .uint64 | .datetime => some (.u64 0#64)
  | .float => some (.f32 0#32)
  | .double => some (.f64 0#64)
  | .string => some (.str [])
  | .other => none

/-- Content of a column as a secondary index sees it: `none` is SQL NULL. -/
def stored (row : Row) (f : FieldInfo) : Option PbVal :=
  match row f.id with
  | some v => some v
  | none => if f.canNull then none else zeroOf f.type

/-- A column of the row fits its type (no NaN, no -0.0, no NUL byte inside strings). -/
def ColOK (row : Row) (f : FieldInfo) : Prop :=
  f.type ≠ .other ∧ ∀ v, row f.id = some v → Valid f.type v ∧ NotNegZero v

/-- The indexed columns of a row with their values, NULLs left out. -/
def project (row : Row) (fields : List FieldInfo) : List (Nat × PbVal) :=
  fields.filterMap fun f => (stored row f).map fun v => (f.id, v)

/-- `k` lies in the key range `[start, end)`; a missing bound or an empty end means unbounded. -/
def InRange (k : Bytes) (start end_ : Option Bytes) : Prop :=
  (∀ s, start = some s → BLe s k) ∧ (∀ e, end_ = some e → e = [] ∨ BLt k e)

instance (k : Bytes) (start end_ : Option Bytes) : Decidable (InRange k start end_) := by
  unfold InRange
  have h1 : Decidable (∀ s, start = some s → BLe s k) := match start with
    | none => isTrue (by simp)
    | some s => decidable_of_iff (BLe s k) (by simp)
  have h2 : Decidable (∀ e, end_ = some e → e = [] ∨ BLt k e) := match end_ with
    | none => isTrue (by simp)
    | some e => decidable_of_iff (e = [] ∨ BLt k e) (by simp)
  exact inferInstance

end BaikalDB.IndexKey.Spec
