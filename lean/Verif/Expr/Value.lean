import Verif.KeyEnc.Spec
/-!
# SQL values: `ExprValue`

Model of include/common/expr_value.h.  A value is a type tag, the 64-bit union `_u` and a byte string.  Not modelled:
`float_precision_len`, HLL/BITMAP/TDIGEST payloads, conversions to or from floating point.
-/
namespace BaikalDB.Expr
open BaikalDB.KeyEnc.Spec

/-- `pb::PrimitiveType`, the tags that reach `ExprValue` (proto/common.proto; other tags behave as `other`). -/
inductive VTy where
  | null | invalid | bool | int8 | int16 | int32 | int64 | uint8 | uint16 | uint32 | uint64 | float | double
  | string | hex | json | datetime | timestamp | date | time | maxvalue | other
deriving DecidableEq, Repr

/-- include/common/expr_value.h L35-51: tag, union, string. -/
structure EV where
  ty : VTy
  u : BitVec 64
  s : Bytes
deriving DecidableEq, Repr

/-- `_u.int8_val` etc.: the low `n` bits of the union read as a signed integer (little-endian host). -/
def EV.sget (v : EV) (n : Nat) : Int := (v.u.setWidth n).toInt
/-- `_u.uint8_val` etc.: the low `n` bits of the union read as an unsigned integer. -/
def EV.uget (v : EV) (n : Nat) : Int := ((v.u.setWidth n).toNat : Int)

/-- include/common/expr_value.h L1008: `is_null`. -/
def EV.isNull (v : EV) : Bool := v.ty == .null || v.ty == .invalid

/-- `a > b ? 1 : (a < b ? -1 : 0)` on integers. -/
def tern (a b : Int) : Int := if a > b then 1 else if a < b then -1 else 0

/-- IEEE `a > b` on binary32: false as soon as one side is a NaN. -/
def gt32 (a b : BitVec 32) : Bool := decide (¬ IsNaN32 a ∧ ¬ IsNaN32 b ∧ f32Value a > f32Value b)
/-- IEEE `a > b` on binary64. -/
def gt64 (a b : BitVec 64) : Bool := decide (¬ IsNaN64 a ∧ ¬ IsNaN64 b ∧ f64Value a > f64Value b)

/-- `std::string::compare`, reduced to its sign. -/
def strCmp (a b : Bytes) : Int := match bcmp a b with | .lt => -1 | .eq => 0 | .gt => 1

/-- include/common/expr_value.h L892-943: `ExprValue::compare`.  Only the left type selects the branch; the right
union is read with the left type. -/
def compare (a b : EV) : Int :=
  if a.ty = .maxvalue ∨ b.ty = .maxvalue then
    if a.ty = .maxvalue ∧ b.ty = .maxvalue then 0 else if a.ty = .maxvalue then 1 else -1
  else match a.ty with
    | .bool => a.uget 8 - b.uget 8
    | .int8 => a.sget 8 - b.sget 8
    | .int16 => a.sget 16 - b.sget 16
    | .int32 | .time => a.sget 32 - b.sget 32
    | .int64 => tern (a.sget 64) (b.sget 64)
    | .uint8 => a.uget 8 - b.uget 8
    | .uint16 => a.uget 16 - b.uget 16
    | .uint32 | .timestamp | .date => a.uget 32 - b.uget 32
    | .uint64 | .datetime => tern (a.uget 64) (b.uget 64)
    | .float => if gt32 (a.u.setWidth 32) (b.u.setWidth 32) then 1
        else if gt32 (b.u.setWidth 32) (a.u.setWidth 32) then -1 else 0
    | .double => if gt64 a.u b.u then 1 else if gt64 b.u a.u then -1 else 0
    | .string | .hex | .json => strCmp a.s b.s
    | .null => if b.ty = .null then 0 else -1
    | _ => 0

/-- include/common/expr_value.h L1145-1151: `operator==`, used by `ExprValueFlatSet`. -/
def eqOp (a b : EV) : Bool := compare b a == 0

/-- include/common/expr_value.h L1153-1160: `HashFunction`.  `murmur` stands for `MurmurHash3_x64_128` over a byte
string (left abstract). -/
def flatHash (murmur : Bytes → BitVec 64) (v : EV) : BitVec 64 :=
  if v.ty = .string ∨ v.ty = .hex ∨ v.ty = .json then murmur v.s else v.u

/-- The first `n` bytes of the union in memory order. -/
def unionBytes (u : BitVec 64) (n : Nat) : Bytes := (List.range n).map fun i => (u >>> (8 * i)).setWidth 8

/-- include/common/expr_value.h L666-698: `hash(seed)` (seed fixed, `murmur` abstract). -/
def hash (murmur : Bytes → BitVec 64) (v : EV) : BitVec 64 :=
  match v.ty with
  | .bool | .int8 | .uint8 => murmur (unionBytes v.u 1)
  | .int16 | .uint16 => murmur (unionBytes v.u 2)
  | .int32 | .uint32 | .float | .timestamp | .date | .time => murmur (unionBytes v.u 4)
  | .int64 | .uint64 | .double | .datetime => murmur (unionBytes v.u 8)
  | .string | .json | .hex => murmur v.s
  | _ => 0

/-- `is_int(type)` of include/common/type_utils.h. -/
def VTy.isInt : VTy → Bool
  | .int8 | .int16 | .int32 | .int64 | .uint8 | .uint16 | .uint32 | .uint64 => true
  | _ => false
/-- `is_uint(type)` of include/common/type_utils.h. -/
def VTy.isUint : VTy → Bool
  | .uint8 | .uint16 | .uint32 | .uint64 => true
  | _ => false

/-- C `isspace` in the default locale. -/
def isSpace (c : Byte) : Bool := c == 0x20#8 || (0x09 ≤ c.toNat && c.toNat ≤ 0x0d)
/-- `'0' ≤ c ≤ '9'`. -/
def isDig (c : Byte) : Bool := 0x30 ≤ c.toNat && c.toNat ≤ 0x39

/-- Value of a run of decimal digits. -/
def decVal (l : Bytes) : Nat := l.foldl (fun a c => a * 10 + (c.toNat - 0x30)) 0

/-- `strtoull(s, NULL, 10)` as glibc does it: skip blanks, one optional sign, digits; overflow gives 2^64-1, a minus
sign negates modulo 2^64.  The terminating NUL of `c_str()` is not a digit, so it ends the scan like any other byte. -/
def strtoull (s : Bytes) : BitVec 64 :=
  match s.dropWhile isSpace with
  | [] => 0
  | c :: r =>
    if c = 0x2d#8 then
      if decVal (r.takeWhile isDig) < 2 ^ 64 then - BitVec.ofNat 64 (decVal (r.takeWhile isDig)) else BitVec.allOnes 64
    else if c = 0x2b#8 then
      if decVal (r.takeWhile isDig) < 2 ^ 64 then BitVec.ofNat 64 (decVal (r.takeWhile isDig)) else BitVec.allOnes 64
    else
      if decVal ((c :: r).takeWhile isDig) < 2 ^ 64 then BitVec.ofNat 64 (decVal ((c :: r).takeWhile isDig))
      else BitVec.allOnes 64

/-- include/common/expr_value.h L384-394: a hex literal as a number, modulo 2^64. -/
def hexVal (s : Bytes) : BitVec 64 := s.foldl (fun a c => a * 256 + c.setWidth 64) 0

/-- include/common/expr_value.h L341-410: `get_numberic<T>()` for an integer `T`, before the conversion to `T`
(which is reduction modulo 2^n, see `castTo`).  `none` for FLOAT and DOUBLE, which are not modelled here. -/
def getInt (v : EV) : Option Int :=
  match v.ty with
  | .bool => some (v.uget 8)
  | .int8 => some (v.sget 8)
  | .int16 => some (v.sget 16)
  | .int32 | .time => some (v.sget 32)
  | .int64 => some (v.sget 64)
  | .uint8 => some (v.uget 8)
  | .uint16 => some (v.uget 16)
  | .uint32 | .timestamp | .date => some (v.uget 32)
  | .uint64 | .datetime => some (v.uget 64)
  | .string => some ((strtoull v.s).toNat : Int)
  | .hex => some ((hexVal v.s).toNat : Int)
  | .float | .double => none
  | _ => some 0

/-- Assignment to a narrow union member: the low `n` bits are replaced, the rest of the union keeps its old bytes. -/
def putLow (n : Nat) (u : BitVec 64) (x : Int) : BitVec 64 :=
  ((u >>> n) <<< n) ||| (BitVec.ofInt n x).setWidth 64

/-- Decimal digits, most significant first. -/
def natDec (n : Nat) : Bytes :=
  if n < 10 then [BitVec.ofNat 8 (0x30 + n)] else natDec (n / 10) ++ [BitVec.ofNat 8 (0x30 + n % 10)]

/-- `std::to_string` of an integer. -/
def toStr (x : Int) : Bytes := if x < 0 then 0x2d#8 :: natDec x.natAbs else natDec x.natAbs

/-- include/common/expr_value.h L700-755: `get_string` for integers and strings; `none` for the types whose text form
is not modelled here (floats, dates). -/
def getString (v : EV) : Option Bytes :=
  match v.ty with
  | .maxvalue => some ("MAXVALUE".toUTF8.toList.map fun c => BitVec.ofNat 8 c.toNat)
  | .bool => some (toStr (v.uget 8))
  | .int8 => some (toStr (v.sget 8))
  | .int16 => some (toStr (v.sget 16))
  | .int32 => some (toStr (v.sget 32))
  | .int64 => some (toStr (v.sget 64))
  | .uint8 => some (toStr (v.uget 8))
  | .uint16 => some (toStr (v.uget 16))
  | .uint32 => some (toStr (v.uget 32))
  | .uint64 => some (toStr (v.uget 64))
  | .string | .hex | .json => some v.s
  | .float | .double | .datetime | .time | .timestamp | .date => none
  | _ => some []

/-- Width in bits of an integer type's union member. -/
def VTy.width : VTy → Nat
  | .int8 | .uint8 | .bool => 8
  | .int16 | .uint16 => 16
  | .int32 | .uint32 => 32
  | _ => 64

/-- include/common/expr_value.h L502-611: `cast_to`, for the targets BOOL, the integer types and STRING; `none` where
the conversion is not modelled.  A narrow cast leaves the upper bytes of the union as they were. -/
def castTo (v : EV) (t : VTy) : Option EV :=
  if v.isNull ∨ v.ty = .maxvalue ∨ v.ty = t then some v
  else match t with
    | .bool => (getInt v).map fun (x : Int) => { v with ty := t, u := putLow 8 v.u (if x = 0 then 0 else 1) }
    | .int8 | .int16 | .int32 | .int64 | .uint8 | .uint16 | .uint32 | .uint64 =>
      (getInt v).map fun x => { v with ty := t, u := putLow t.width v.u x }
    | .string => (getString v).map fun s => { v with ty := t, s := s }
    | _ => none

/-- include/common/expr_value.h L954-989: `compare_diff_type`, the branches that need no date or floating-point
conversion (`none` for the others): same type, both integers, and the final both-as-strings branch. -/
def compareDiff (a b : EV) : Option Int :=
  if a.ty = b.ty then some (compare a b)
  else if a.ty.isInt ∧ b.ty.isInt then
    if a.ty.isUint ∨ b.ty.isUint then
      match castTo a .uint64, castTo b .uint64 with
      | some x, some y => some (compare x y)
      | _, _ => none
    else
      match castTo a .int64, castTo b .int64 with
      | some x, some y => some (compare x y)
      | _, _ => none
  else if a.ty = .datetime ∨ b.ty = .datetime ∨ a.ty = .timestamp ∨ b.ty = .timestamp ∨ a.ty = .date ∨ b.ty = .date ∨
      a.ty = .time ∨ b.ty = .time ∨ a.ty = .double ∨ b.ty = .double ∨ a.ty = .float ∨ b.ty = .float ∨ a.ty.isInt ∨
      b.ty.isInt then none
  else
    match castTo a .string, castTo b .string with
    | some x, some y => some (compare x y)
    | _, _ => none

/-- The value fields of `pb::ExprValue` (proto/expr.proto), one per kind. -/
inductive PbEV where
  | none | bool (b : BitVec 8) | i32 (x : BitVec 32) | i64 (x : BitVec 64) | u32 (x : BitVec 32) | u64 (x : BitVec 64)
  | f32 (x : BitVec 32) | f64 (x : BitVec 64) | str (s : Bytes)
deriving DecidableEq, Repr

/-- include/common/expr_value.h L275-339: `to_proto`. -/
def toProto (v : EV) : VTy × PbEV :=
  (v.ty, match v.ty with
    | .bool => .bool (v.u.setWidth 8)
    | .int8 => .i32 (BitVec.ofInt 32 (v.sget 8))
    | .int16 => .i32 (BitVec.ofInt 32 (v.sget 16))
    | .int32 | .time => .i32 (v.u.setWidth 32)
    | .int64 => .i64 v.u
    | .uint8 => .u32 (BitVec.ofInt 32 (v.uget 8))
    | .uint16 => .u32 (BitVec.ofInt 32 (v.uget 16))
    | .uint32 | .timestamp | .date => .u32 (v.u.setWidth 32)
    | .uint64 | .datetime => .u64 v.u
    | .float => .f32 (v.u.setWidth 32)
    | .double => .f64 v.u
    | .string | .hex | .json => .str v.s
    | _ => .none)

/-- include/common/expr_value.h L128-190: the constructor from `pb::ExprValue`.  The union is not cleared first, so
its unused bytes are whatever the memory held: `junk`. -/
def ofProto (junk : BitVec 64) : VTy × PbEV → EV
  | (t, p) =>
    match t, p with
    | .bool, .bool b => ⟨t, putLow 8 junk b.toNat, []⟩
    | .int8, .i32 x => ⟨t, putLow 8 junk x.toInt, []⟩
    | .int16, .i32 x => ⟨t, putLow 16 junk x.toInt, []⟩
    | .int32, .i32 x | .time, .i32 x => ⟨t, putLow 32 junk x.toInt, []⟩
    | .int64, .i64 x => ⟨t, x, []⟩
    | .uint8, .u32 x => ⟨t, putLow 8 junk x.toNat, []⟩
    | .uint16, .u32 x => ⟨t, putLow 16 junk x.toNat, []⟩
    | .uint32, .u32 x | .timestamp, .u32 x | .date, .u32 x => ⟨t, putLow 32 junk x.toNat, []⟩
    | .uint64, .u64 x | .datetime, .u64 x => ⟨t, x, []⟩
    | .float, .f32 x => ⟨t, putLow 32 junk x.toNat, []⟩
    | .double, .f64 x => ⟨t, x, []⟩
    | .string, .str s | .hex, .str s | .json, .str s => ⟨t, junk, s⟩
    | _, _ => ⟨t, junk, []⟩

end BaikalDB.Expr
