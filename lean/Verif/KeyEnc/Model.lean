import Verif.Basic
/-!
# Model of the memory-comparable key codec

`include/common/key_encoder.h`, `include/common/mut_table_key.h`, `include/common/table_key.h`,
`src/common/table_key.cpp` (decode_field / skip_field).

Machine words are `BitVec`; a signed C++ value is the `BitVec` of its two's-complement bits (read with `toInt`).
The host is little-endian (`is_big_endian()` false), as on every platform the project builds for, so a word is
stored in memory with its low byte first (`memLE`).  Floats are given by their IEEE-754 bits.
-/
namespace BaikalDB.KeyEnc

/-! ## Byte swap: `to_endian_u16/32/64` on a little-endian host -/

/-- key_encoder.h:35-41. -/
def toEndian16 (x : BitVec 16) : BitVec 16 :=
  ((x &&& 0x00FF) <<< 8) ||| ((x &&& 0xFF00) >>> 8)

/-- key_encoder.h:43-52. -/
def toEndian32 (x : BitVec 32) : BitVec 32 :=
  ((x &&& 0x000000FF) <<< 24) ||| ((x &&& 0x0000FF00) <<< 8) |||
  ((x &&& 0x00FF0000) >>> 8) ||| ((x &&& 0xFF000000) >>> 24)

/-- key_encoder.h:54-67. -/
def toEndian64 (x : BitVec 64) : BitVec 64 :=
  ((x &&& 0x00000000000000FF) <<< 56) ||| ((x &&& 0x000000000000FF00) <<< 40) |||
  ((x &&& 0x0000000000FF0000) <<< 24) ||| ((x &&& 0x00000000FF000000) <<< 8) |||
  ((x &&& 0x000000FF00000000) >>> 8) ||| ((x &&& 0x0000FF0000000000) >>> 24) |||
  ((x &&& 0x00FF000000000000) >>> 40) ||| ((x &&& 0xFF00000000000000) >>> 56)

/-- The `n` bytes of a word in memory order on a little-endian host, as copied by `_data.append((char*)&x, n)`. -/
def memLE {w : Nat} : Nat → BitVec w → Bytes
  | 0, _ => []
  | n + 1, x => x.setWidth 8 :: memLE n (x >>> 8)

/-- The word read by `*reinterpret_cast<uintN_t*>(c)` from memory bytes on a little-endian host. -/
def loadLE (w : Nat) : Bytes → BitVec w
  | [] => 0#w
  | b :: bs => (loadLE w bs <<< 8) ||| b.setWidth w

/-! ## Sign-flip transforms -/

/-- key_encoder.h:20,104-106. -/
def encodeI8 (x : BitVec 8) : BitVec 8 := x ^^^ 0x80#8
/-- key_encoder.h:108-110. -/
def decodeI8 (x : BitVec 8) : BitVec 8 := x ^^^ 0x80#8
/-- key_encoder.h:21,112-114. -/
def encodeI16 (x : BitVec 16) : BitVec 16 := x ^^^ 0x8000#16
/-- key_encoder.h:116-118. -/
def decodeI16 (x : BitVec 16) : BitVec 16 := x ^^^ 0x8000#16
/-- key_encoder.h:22,120-122. -/
def encodeI32 (x : BitVec 32) : BitVec 32 := x ^^^ 0x80000000#32
/-- key_encoder.h:124-126. -/
def decodeI32 (x : BitVec 32) : BitVec 32 := x ^^^ 0x80000000#32
/-- key_encoder.h:23,128-130. -/
def encodeI64 (x : BitVec 64) : BitVec 64 := x ^^^ 0x8000000000000000#64
/-- key_encoder.h:132-134. -/
def decodeI64 (x : BitVec 64) : BitVec 64 := x ^^^ 0x8000000000000000#64

/-- The C++ test `in >= 0.0` for a binary32 given by its bits: not a NaN, and sign clear or negative zero. -/
def geZero32 (x : BitVec 32) : Bool :=
  decide ((x &&& 0x7FFFFFFF#32).toNat ≤ 0x7F800000) &&
    (decide (x.toNat < 0x80000000) || decide (x = 0x80000000#32))

/-- The C++ test `in >= 0.0` for a binary64 given by its bits. -/
def geZero64 (x : BitVec 64) : Bool :=
  decide ((x &&& 0x7FFFFFFFFFFFFFFF#64).toNat ≤ 0x7FF0000000000000) &&
    (decide (x.toNat < 0x8000000000000000) || decide (x = 0x8000000000000000#64))

/-- key_encoder.h:139-146. -/
def encodeF32 (x : BitVec 32) : BitVec 32 := if geZero32 x then x ||| 0x80000000#32 else ~~~x

/-- key_encoder.h:148-155. -/
def decodeF32 (x : BitVec 32) : BitVec 32 :=
  if ((x &&& 0x80000000#32) >>> 31).toNat > 0 then x &&& ~~~0x80000000#32 else ~~~x

/-- key_encoder.h:157-164. -/
def encodeF64 (x : BitVec 64) : BitVec 64 := if geZero64 x then x ||| 0x8000000000000000#64 else ~~~x

/-- key_encoder.h:166-173. -/
def decodeF64 (x : BitVec 64) : BitVec 64 :=
  if ((x &&& 0x8000000000000000#64) >>> 63).toNat > 0 then x &&& ~~~0x8000000000000000#64 else ~~~x

/-! ## Appending (`MutTableKey`) -/

/-- mut_table_key.h:59-63. -/
def appendI8 (k : Bytes) (v : BitVec 8) : Bytes := k ++ memLE 1 (encodeI8 v)
/-- mut_table_key.h:65-68. -/
def appendU8 (k : Bytes) (v : BitVec 8) : Bytes := k ++ memLE 1 v
/-- mut_table_key.h:75-79. -/
def appendI16 (k : Bytes) (v : BitVec 16) : Bytes := k ++ memLE 2 (toEndian16 (encodeI16 v))
/-- mut_table_key.h:81-85. -/
def appendU16 (k : Bytes) (v : BitVec 16) : Bytes := k ++ memLE 2 (toEndian16 v)
/-- mut_table_key.h:87-91. -/
def appendI32 (k : Bytes) (v : BitVec 32) : Bytes := k ++ memLE 4 (toEndian32 (encodeI32 v))
/-- mut_table_key.h:100-104. -/
def appendU32 (k : Bytes) (v : BitVec 32) : Bytes := k ++ memLE 4 (toEndian32 v)
/-- mut_table_key.h:113-117. -/
def appendI64 (k : Bytes) (v : BitVec 64) : Bytes := k ++ memLE 8 (toEndian64 (encodeI64 v))
/-- mut_table_key.h:126-130. -/
def appendU64 (k : Bytes) (v : BitVec 64) : Bytes := k ++ memLE 8 (toEndian64 v)
/-- mut_table_key.h:139-143. -/
def appendFloat (k : Bytes) (v : BitVec 32) : Bytes := k ++ memLE 4 (toEndian32 (encodeF32 v))
/-- mut_table_key.h:145-149. -/
def appendDouble (k : Bytes) (v : BitVec 64) : Bytes := k ++ memLE 8 (toEndian64 (encodeF64 v))
/-- mut_table_key.h:202-206. -/
def appendBoolean (k : Bytes) (v : Bool) : Bytes := k ++ memLE 1 (if v then 1#8 else 0#8)
/-- mut_table_key.h:151-155: the bytes and a terminating NUL. -/
def appendString (k v : Bytes) : Bytes := k ++ v ++ [0#8]
/-- mut_table_key.h:157-160. -/
def appendStringPrefix (k v : Bytes) : Bytes := k ++ v

/-- `std::string::replace(pos, n, src, n)` where `n = src.size()`; throws when `pos > size()` (here `none`). -/
def replaceAt (k : Bytes) (pos : Nat) (src : Bytes) : Option Bytes :=
  if pos ≤ k.length then some (k.take pos ++ src ++ k.drop (pos + src.length)) else none

/-- mut_table_key.h:70-73. -/
def replaceU8 (k : Bytes) (v : BitVec 8) (pos : Nat) : Option Bytes := replaceAt k pos (memLE 1 v)
/-- mut_table_key.h:93-98. -/
def replaceI32 (k : Bytes) (v : BitVec 32) (pos : Nat) : Option Bytes :=
  replaceAt k pos (memLE 4 (toEndian32 (encodeI32 v)))
/-- mut_table_key.h:106-111. -/
def replaceU32 (k : Bytes) (v : BitVec 32) (pos : Nat) : Option Bytes :=
  replaceAt k pos (memLE 4 (toEndian32 v))
/-- mut_table_key.h:119-124. -/
def replaceI64 (k : Bytes) (v : BitVec 64) (pos : Nat) : Option Bytes :=
  replaceAt k pos (memLE 8 (toEndian64 (encodeI64 v)))
/-- mut_table_key.h:132-137. -/
def replaceU64 (k : Bytes) (v : BitVec 64) (pos : Nat) : Option Bytes :=
  replaceAt k pos (memLE 8 (toEndian64 v))

/-! ## Extracting (`TableKey`)

Each `extract_*` reads memory at `_data.data_ + pos`; a read past the end of the slice is undefined, and is the
outcome `none` here. -/

/-- `n` bytes at `pos`, `none` when they are not all inside the slice. -/
def peek (d : Bytes) (pos n : Nat) : Option Bytes :=
  if pos + n ≤ d.length then some ((d.drop pos).take n) else none

/-- table_key.h:65-68. -/
def extractI8 (d : Bytes) (pos : Nat) : Option (BitVec 8) := (peek d pos 1).map fun m => decodeI8 (loadLE 8 m)
/-- table_key.h:70-73. -/
def extractU8 (d : Bytes) (pos : Nat) : Option (BitVec 8) := (peek d pos 1).map fun m => loadLE 8 m
/-- table_key.h:75-79. -/
def extractI16 (d : Bytes) (pos : Nat) : Option (BitVec 16) :=
  (peek d pos 2).map fun m => decodeI16 (toEndian16 (loadLE 16 m))
/-- table_key.h:81-84. -/
def extractU16 (d : Bytes) (pos : Nat) : Option (BitVec 16) := (peek d pos 2).map fun m => toEndian16 (loadLE 16 m)
/-- table_key.h:86-90. -/
def extractI32 (d : Bytes) (pos : Nat) : Option (BitVec 32) :=
  (peek d pos 4).map fun m => decodeI32 (toEndian32 (loadLE 32 m))
/-- table_key.h:92-95. -/
def extractU32 (d : Bytes) (pos : Nat) : Option (BitVec 32) := (peek d pos 4).map fun m => toEndian32 (loadLE 32 m)
/-- table_key.h:97-101. -/
def extractI64 (d : Bytes) (pos : Nat) : Option (BitVec 64) :=
  (peek d pos 8).map fun m => decodeI64 (toEndian64 (loadLE 64 m))
/-- table_key.h:103-106. -/
def extractU64 (d : Bytes) (pos : Nat) : Option (BitVec 64) := (peek d pos 8).map fun m => toEndian64 (loadLE 64 m)
/-- table_key.h:108-112. -/
def extractFloat (d : Bytes) (pos : Nat) : Option (BitVec 32) :=
  (peek d pos 4).map fun m => decodeF32 (toEndian32 (loadLE 32 m))
/-- table_key.h:114-118. -/
def extractDouble (d : Bytes) (pos : Nat) : Option (BitVec 64) :=
  (peek d pos 8).map fun m => decodeF64 (toEndian64 (loadLE 64 m))
/-- table_key.h:120-123. -/
def extractBoolean (d : Bytes) (pos : Nat) : Option Bool := (peek d pos 1).map fun m => loadLE 8 m != 0

/-- The C string starting at the head of `d`: bytes up to the first NUL; `none` when there is no NUL inside the
slice (the C++ `assign(const char*)` would read past its end). -/
def cstr : Bytes → Option Bytes
  | [] => none
  | b :: bs => if b = 0#8 then some [] else (cstr bs).map (b :: ·)

/-- table_key.h:125-128. -/
def extractString (d : Bytes) (pos : Nat) : Option Bytes := cstr (d.drop pos)

/-- table_key.h:22-34: comparison of region end keys, the empty key being plus infinity; only the sign of the
result is used. -/
def endKeyCompare (k1 k2 : Bytes) : Ordering :=
  if k1 = k2 then .eq
  else if k1 = [] then .gt
  else if k2 = [] then .lt
  else bcmp k1 k2

/-! ## Typed columns -/

/-- `pb::PrimitiveType`, the types `append_value` / `encode_field` know, and the rest as `other`. -/
inductive PType where
  | bool | int8 | int16 | int32 | time | int64 | uint8 | uint16 | uint32 | timestamp | date
  | uint64 | datetime | float | double | string | other
  deriving DecidableEq, Repr

/-- Column content as held in the row's protobuf message: the protobuf scalar kinds used by the schema
(8- and 16-bit columns are int32/uint32 fields).  Floats by bits. -/
inductive PbVal where
  | i32 (v : BitVec 32) | i64 (v : BitVec 64) | u32 (v : BitVec 32) | u64 (v : BitVec 64)
  | f32 (v : BitVec 32) | f64 (v : BitVec 64) | bool (v : Bool) | str (v : Bytes)
  deriving DecidableEq, Repr

/-- Value returned by a protobuf getter on an unset field (proto2 default: zero, false, empty). -/
def defaultVal : PType → Option PbVal
  | .bool => some (.bool false)
  | .int8 | .int16 | .int32 | .time => some (.i32 0)
  | .int64 => some (.i64 0)
  | .uint8 | .uint16 | .uint32 | .timestamp | .date => some (.u32 0)
  | .uint64 | .datetime => some (.u64 0)
  | .float => some (.f32 0)
  | .double => some (.f64 0)
  | .string => some (.str [])
  | .other => none

/-- table_record.cpp:80-153 `TableRecord::encode_field` (without the `clear` side effect on the message).
`none`: return -1 (unsupported type) or a protobuf getter applied to a field of another kind (fatal). -/
def encodeField (t : PType) (v : PbVal) (key : Bytes) (likePrefix : Bool) : Option Bytes :=
  match t, v with
  | .int8, .i32 x => some (appendI8 key (x.setWidth 8))
  | .int16, .i32 x => some (appendI16 key (x.setWidth 16))
  | .time, .i32 x => some (appendI32 key x)
  | .int32, .i32 x => some (appendI32 key x)
  | .int64, .i64 x => some (appendI64 key x)
  | .uint8, .u32 x => some (appendU8 key (x.setWidth 8))
  | .uint16, .u32 x => some (appendU16 key (x.setWidth 16))
  | .timestamp, .u32 x => some (appendU32 key x)
  | .date, .u32 x => some (appendU32 key x)
  | .uint32, .u32 x => some (appendU32 key x)
  | .datetime, .u64 x => some (appendU64 key x)
  | .uint64, .u64 x => some (appendU64 key x)
  | .float, .f32 x => some (appendFloat key x)
  | .double, .f64 x => some (appendDouble key x)
  | .bool, .bool x => some (appendBoolean key x)
  | .string, .str x => some (if likePrefix then appendStringPrefix key x else appendString key x)
  | _, _ => none

/-- mut_table_key.h:167-199 `MutTableKey::append_value`: `u` is the 8 bytes of the value's union (little-endian
host, so a narrower member is the low bits), `s` its `str_val`.  Unknown types append nothing. -/
def appendValue (k : Bytes) (t : PType) (u : BitVec 64) (s : Bytes) : Bytes :=
  match t with
  | .bool => appendBoolean k (u.setWidth 8 != 0#8)
  | .int8 => appendI8 k (u.setWidth 8)
  | .int16 => appendI16 k (u.setWidth 16)
  | .int32 | .time => appendI32 k (u.setWidth 32)
  | .int64 => appendI64 k u
  | .uint8 => appendU8 k (u.setWidth 8)
  | .uint16 => appendU16 k (u.setWidth 16)
  | .uint32 | .timestamp | .date => appendU32 k (u.setWidth 32)
  | .uint64 | .datetime => appendU64 k u
  | .float => appendFloat k (u.setWidth 32)
  | .double => appendDouble k u
  | .string => appendString k s
  | .other => k

/-- Result of reading a field: value and next position, an error code, or undefined behaviour. -/
inductive Rd (α : Type) where
  | ok (a : α) (pos : Nat)
  | err (code : Int)
  | ub
  deriving DecidableEq, Repr

/-- Bounds check of decode_field: `if (pos + n > size()) return -2`, then extract and advance. -/
def fixedRd (d : Bytes) (pos n : Nat) (get : Option PbVal) : Rd PbVal :=
  if pos + n > d.length then .err (-2)
  else match get with
    | some v => .ok v (pos + n)
    | none => .ub

/-- table_key.cpp:179-294 `TableKey::decode_field`: the value stored with `reflection->SetX` and the new `pos`. -/
def decodeField (t : PType) (d : Bytes) (pos : Nat) : Rd PbVal :=
  match t with
  | .int8 => fixedRd d pos 1 ((extractI8 d pos).map fun v => .i32 (v.signExtend 32))
  | .int16 => fixedRd d pos 2 ((extractI16 d pos).map fun v => .i32 (v.signExtend 32))
  | .time => fixedRd d pos 4 ((extractI32 d pos).map .i32)
  | .int32 => fixedRd d pos 4 ((extractI32 d pos).map .i32)
  | .int64 => fixedRd d pos 8 ((extractI64 d pos).map .i64)
  | .uint8 => fixedRd d pos 1 ((extractU8 d pos).map fun v => .u32 (v.setWidth 32))
  | .uint16 => fixedRd d pos 2 ((extractU16 d pos).map fun v => .u32 (v.setWidth 32))
  | .timestamp => fixedRd d pos 4 ((extractU32 d pos).map .u32)
  | .date => fixedRd d pos 4 ((extractU32 d pos).map .u32)
  | .uint32 => fixedRd d pos 4 ((extractU32 d pos).map .u32)
  | .datetime => fixedRd d pos 8 ((extractU64 d pos).map .u64)
  | .uint64 => fixedRd d pos 8 ((extractU64 d pos).map .u64)
  | .float => fixedRd d pos 4 ((extractFloat d pos).map .f32)
  | .double => fixedRd d pos 8 ((extractDouble d pos).map .f64)
  | .bool => fixedRd d pos 1 ((extractBoolean d pos).map .bool)
  | .string =>
    if pos ≥ d.length then .err (-2)
    else match extractString d pos with
      | some s => .ok (.str s) (pos + s.length + 1)
      | none => .ub
  | .other => .err (-1)

end BaikalDB.KeyEnc
