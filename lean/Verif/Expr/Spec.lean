import Verif.Expr.Value
/-!
# What values mean

The mathematical value behind an `ExprValue`, and the order SQL gives such values.  Nothing here mentions how values
are compared, hashed or cast.
-/
namespace BaikalDB.Expr.Spec
open BaikalDB.KeyEnc.Spec

/-- A value: a number (floats in units of the smallest subnormal), or text. -/
inductive SVal where
  | num (x : Int)
  | str (s : Bytes)
deriving DecidableEq, Repr

/-- Bits and signedness of the stored integer of a type. -/
def intShape : VTy → Option (Nat × Bool)
  | .bool | .uint8 => some (8, false)
  | .uint16 => some (16, false)
  | .uint32 | .timestamp | .date => some (32, false)
  | .uint64 | .datetime => some (64, false)
  | .int8 => some (8, true)
  | .int16 => some (16, true)
  | .int32 | .time => some (32, true)
  | .int64 => some (64, true)
  | _ => none

/-- The value behind an `ExprValue`; `none` for SQL NULL and for tags without an ordered value. -/
def sem (v : EV) : Option SVal :=
  match intShape v.ty with
  | some (n, true) => some (.num (Int.bmod (v.u.toNat : Int) (2 ^ n)))
  | some (n, false) => some (.num ((v.u.toNat : Int) % 2 ^ n))
  | none => match v.ty with
    | .float => some (.num (f32Value (v.u.setWidth 32)))
    | .double => some (.num (f64Value v.u))
    | .string | .hex | .json => some (.str v.s)
    | _ => none

/-- Numbers numerically, text byte by byte (text and numbers never meet in one column). -/
def SVal.cmp : SVal → SVal → Ordering
  | .num x, .num y => Ord.compare x y
  | .str x, .str y => bcmp x y
  | .num _, .str _ => .lt
  | .str _, .num _ => .gt

/-- Not a floating-point NaN. -/
def NotNaN (v : EV) : Prop :=
  (v.ty = .float → ¬ IsNaN32 (v.u.setWidth 32)) ∧ (v.ty = .double → ¬ IsNaN64 v.u)

/-- The sign of a C comparison result. -/
def sgn (x : Int) : Ordering := Ord.compare x 0

/-- Types whose values are ordered. -/
def Ordered (t : VTy) : Prop := t ∉ [VTy.null, .invalid, .maxvalue, .other]
instance (t : VTy) : Decidable (Ordered t) := inferInstanceAs (Decidable (_ ∉ _))

/-- Integer types of SQL columns. -/
def IntTy (t : VTy) : Prop := t ∈ [VTy.int8, .int16, .int32, .int64, .uint8, .uint16, .uint32, .uint64]

/-- Smallest and largest value of an integer type. -/
def range : VTy → Int × Int
  | .int8 => (-128, 127) | .int16 => (-32768, 32767) | .int32 => (-2147483648, 2147483647)
  | .int64 => (-9223372036854775808, 9223372036854775807)
  | .uint8 => (0, 255) | .uint16 => (0, 65535) | .uint32 => (0, 4294967295) | .uint64 => (0, 18446744073709551615)
  | _ => (0, -1)

/-- `x` is a value of integer type `t`. -/
def Fits (t : VTy) (x : Int) : Prop := (range t).1 ≤ x ∧ x ≤ (range t).2

/-- Negative zero. -/
def NegZero (v : EV) : Prop :=
  (v.ty = .float ∧ v.u.setWidth 32 = 0x80000000#32) ∨ (v.ty = .double ∧ v.u = 0x8000000000000000#64)

end BaikalDB.Expr.Spec
