import Verif.KeyEnc.Model
/-!
# What the key codec must do, stated on values only

Nothing here mentions how keys are encoded.
-/
namespace BaikalDB.KeyEnc.Spec

/-- Magnitude of an IEEE-754 number with an `mb`-bit mantissa whose sign-less bits are `mag`, in units of the
smallest subnormal, so every finite number is an integer; infinity comes out above all finite numbers. -/
def magnitude (mb mag : Nat) : Nat :=
  if mag / 2 ^ mb = 0 then mag % 2 ^ mb else (2 ^ mb + mag % 2 ^ mb) * 2 ^ (mag / 2 ^ mb - 1)

/-- Numeric value of a binary32 in units of 2^-149. -/
def f32Value (x : BitVec 32) : Int :=
  if x.toNat < 2 ^ 31 then (magnitude 23 (x.toNat % 2 ^ 31) : Int) else - (magnitude 23 (x.toNat % 2 ^ 31) : Int)

/-- Numeric value of a binary64 in units of 2^-1074. -/
def f64Value (x : BitVec 64) : Int :=
  if x.toNat < 2 ^ 63 then (magnitude 52 (x.toNat % 2 ^ 63) : Int) else - (magnitude 52 (x.toNat % 2 ^ 63) : Int)

/-- Exponent all ones and mantissa nonzero. -/
def IsNaN32 (x : BitVec 32) : Prop := x.toNat % 2 ^ 31 > 255 * 2 ^ 23
/-- Exponent all ones and mantissa nonzero. -/
def IsNaN64 (x : BitVec 64) : Prop := x.toNat % 2 ^ 63 > 2047 * 2 ^ 52

instance (x : BitVec 32) : Decidable (IsNaN32 x) := inferInstanceAs (Decidable (_ > _))
instance (x : BitVec 64) : Decidable (IsNaN64 x) := inferInstanceAs (Decidable (_ > _))

/-- A value that a column of the given type can hold: right kind, in the type's range, not a NaN, and (strings)
free of the byte 0x00. -/
def Valid : PType → PbVal → Prop
  | .int8, .i32 x => -128 ≤ x.toInt ∧ x.toInt < 128
  | .int16, .i32 x => -32768 ≤ x.toInt ∧ x.toInt < 32768
  | .int32, .i32 _ | .time, .i32 _ => True
  | .int64, .i64 _ => True
  | .uint8, .u32 x => x.toNat < 256
  | .uint16, .u32 x => x.toNat < 65536
  | .uint32, .u32 _ | .timestamp, .u32 _ | .date, .u32 _ => True
  | .uint64, .u64 _ | .datetime, .u64 _ => True
  | .float, .f32 x => ¬ IsNaN32 x
  | .double, .f64 x => ¬ IsNaN64 x
  | .bool, .bool _ => True
  | .string, .str s => 0#8 ∉ s
  | _, _ => False

/-- Not the floating-point negative zero. -/
def NotNegZero : PbVal → Prop
  | .f32 x => x ≠ 0x80000000#32
  | .f64 x => x ≠ 0x8000000000000000#64
  | _ => True

/-- SQL order of two column values of one kind: numbers numerically, strings byte by byte, false before true. -/
def colCompare : PbVal → PbVal → Ordering
  | .i32 x, .i32 y => compare x.toInt y.toInt
  | .i64 x, .i64 y => compare x.toInt y.toInt
  | .u32 x, .u32 y => compare x.toNat y.toNat
  | .u64 x, .u64 y => compare x.toNat y.toNat
  | .f32 x, .f32 y => compare (f32Value x) (f32Value y)
  | .f64 x, .f64 y => compare (f64Value x) (f64Value y)
  | .bool x, .bool y => compare x.toNat y.toNat
  | .str x, .str y => bcmp x y
  | _, _ => .eq

/-- Column-by-column order of tuples. -/
def tupleCompare : List PbVal → List PbVal → Ordering
  | x :: xs, y :: ys => (colCompare x y).then (tupleCompare xs ys)
  | _, _ => .eq

/-- A tuple fits a list of column types. -/
def ValidTuple : List PType → List PbVal → Prop
  | [], [] => True
  | t :: ts, v :: vs => Valid t v ∧ ValidTuple ts vs
  | _, _ => False

end BaikalDB.KeyEnc.Spec
