import Verif.Ttl.Model
import Verif.KeyEnc.Lemmas
/-!
# Row values: the hand-written protobuf reader

Rows are written by protobuf (`SerializeToString`) and read back by `TupleRecord::decode_fields`, which picks the
columns a query needs and fills in defaults.
-/
namespace BaikalDB.RowCodec
open KeyEnc Ttl

/-- `FieldDescriptor::Type` of a column, as `decode_fields` switches on. -/
inductive PbType where
  | sint32 | sint64 | int32 | int64 | sfixed32 | sfixed64 | uint32 | uint64 | fixed32 | fixed64
  | float | double | bool | string | bytes
deriving DecidableEq

/-- common.cpp:515-544 `primitive_to_proto_type`; `none` = not in the table. -/
def protoType : PType → Option PbType
  | .int8 | .int16 | .int32 => some .sint32
  | .int64 => some .sint64
  | .uint8 | .uint16 | .uint32 => some .uint32
  | .uint64 => some .uint64
  | .float => some .float
  | .double => some .double
  | .string => some .bytes
  | .datetime => some .fixed64
  | .timestamp | .date => some .fixed32
  | .time => some .sfixed32
  | .bool => some .bool
  | .other => none

/-- tuple_record.h:58-69 `get_fixed<T>`, `n = sizeof(T)`; `none`: reads past the end. -/
def getFixed (w : Nat) (d : Bytes) (off n : Nat) : Option (BitVec w × Nat) :=
  if off + n ≤ d.length then some (loadLE w ((d.drop off).take n), off + n) else none

/-- tuple_record.cpp:311-320 zigzag decoding of a 32-bit value. -/
def unzigzag32 (raw : BitVec 32) : BitVec 32 :=
  if raw &&& 1#32 ≠ 0#32 then (raw <<< 31) ||| ~~~(raw >>> 1) else raw >>> 1

/-- tuple_record.cpp:322-333 zigzag decoding of a 64-bit value. -/
def unzigzag64 (raw : BitVec 64) : BitVec 64 :=
  if raw &&& 1#64 ≠ 0#64 then (raw <<< 63) ||| ~~~(raw >>> 1) else raw >>> 1

/-- tuple_record.cpp:309-402 and 154-245: value of a requested field and the new offset; `none` is a read past the end.
`get_varint<T>` for a 32-bit `T` truncates after each byte, which gives the low 32 bits of the 64-bit result. -/
def readPayload (ty : PbType) (d : Bytes) (off : Nat) : Option (PbVal × Nat) :=
  let v := getVarint (d.drop off) 0 0#64 0
  match ty with
  | .sint32 => some (.i32 (unzigzag32 (v.1.setWidth 32)), off + v.2)
  | .sint64 => some (.i64 (unzigzag64 v.1), off + v.2)
  | .int32 => some (.i32 (v.1.setWidth 32), off + v.2)
  | .int64 => some (.i64 v.1, off + v.2)
  | .uint32 => some (.u32 (v.1.setWidth 32), off + v.2)
  | .uint64 => some (.u64 v.1, off + v.2)
  | .bool => some (.bool (v.1.setWidth 32 != 0#32), off + v.2)
  | .sfixed32 => (getFixed 32 d off 4).map fun r => (.i32 r.1, r.2)
  | .sfixed64 => (getFixed 64 d off 8).map fun r => (.i64 r.1, r.2)
  | .fixed32 => (getFixed 32 d off 4).map fun r => (.u32 r.1, r.2)
  | .fixed64 => (getFixed 64 d off 8).map fun r => (.u64 r.1, r.2)
  | .float => (getFixed 32 d off 4).map fun r => (.f32 r.1, r.2)
  | .double => (getFixed 64 d off 8).map fun r => (.f64 r.1, r.2)
  | .string | .bytes =>
    if off + v.2 + v.1.toNat ≤ d.length then
      some (.str ((d.drop (off + v.2)).take v.1.toNat), off + v.2 + v.1.toNat)
    else none

/-- A column to read: field id, protobuf type, default (`none` = NULL). -/
structure Req where
  id : Nat
  ty : PbType
  dflt : Option PbVal
deriving DecidableEq

/-- Outcome of `decode_fields`: the requested columns with their values, `none` = NULL. -/
inductive DecR where
  | ok (cols : List (Nat × Option PbVal))
  | err
  | ub
  | hang
deriving DecidableEq

/-- tuple_record.cpp:291-298: the requested fields below `num` get their default. -/
def fillDefaults (num : Nat) : List Req → List (Nat × Option PbVal) → List Req × List (Nat × Option PbVal)
  | [], acc => ([], acc)
  | r :: rs, acc => if num > r.id then fillDefaults num rs (acc ++ [(r.id, r.dflt)]) else (r :: rs, acc)

/-- tuple_record.cpp:282-451 `decode_fields` (and 88-268 for chunks, the same code): main loop.  `reqs` is the rest of
the id-ordered map of requested fields, `acc` what has been set so far, fuel as in `verifyLoop`. -/
def decodeLoop (d : Bytes) : Nat → Nat → List Req → List (Nat × Option PbVal) → DecR
  | 0, _, _, _ => .hang
  | fuel + 1, off, reqs, acc =>
    if off < d.length ∧ reqs ≠ [] then
      let key := getVarint (d.drop off) 0 0#64 0
      let off1 := off + key.2
      let num := key.1.toNat >>> 3
      if off1 ≥ d.length then .err
      else match fillDefaults num reqs acc with
        | ([], acc') => .ok acc'
        | (r :: rs, acc') =>
          if num < r.id then
            match key.1.toNat % 8 with
            | 0 => decodeLoop d fuel (off1 + skipVarint (d.drop off1)) (r :: rs) acc'
            | 1 => decodeLoop d fuel ((off1 + 8) % 2 ^ 64) (r :: rs) acc'
            | 2 =>
              let len := getVarint (d.drop off1) 0 0#64 0
              decodeLoop d fuel ((off1 + len.2 + len.1.toNat) % 2 ^ 64) (r :: rs) acc'
            | 5 => decodeLoop d fuel ((off1 + 4) % 2 ^ 64) (r :: rs) acc'
            | _ => .err
          else match readPayload r.ty d off1 with
            | none => .ub
            | some (v, off2) => decodeLoop d fuel off2 rs (acc' ++ [(r.id, some v)])
    else .ok (acc ++ reqs.map fun r => (r.id, r.dflt))

/-- `decode_fields` on a fresh record. -/
def decodeFields (d : Bytes) (reqs : List Req) : DecR := decodeLoop d (d.length + 1) 0 reqs []

/-! ## Spec: the protobuf wire format (developers.google.com/protocol-buffers/docs/encoding), fields in number order -/
namespace Spec

/-- Base-128 varint. -/
def varint (n : Nat) : Bytes :=
  if h : n < 128 then [BitVec.ofNat 8 n] else BitVec.ofNat 8 (n % 128 + 128) :: varint (n / 128)
termination_by n
decreasing_by omega

def zigzag32 (x : BitVec 32) : BitVec 32 := (x <<< 1) ^^^ (x.sshiftRight 31)
def zigzag64 (x : BitVec 64) : BitVec 64 := (x <<< 1) ^^^ (x.sshiftRight 63)

/-- Wire type number. -/
def wire : PbType → Nat
  | .sint32 | .sint64 | .int32 | .int64 | .uint32 | .uint64 | .bool => 0
  | .fixed64 | .sfixed64 | .double => 1
  | .string | .bytes => 2
  | .fixed32 | .sfixed32 | .float => 5

/-- The value has the kind of the type. -/
def Kind : PbType → PbVal → Prop
  | .sint32, .i32 _ | .int32, .i32 _ | .sfixed32, .i32 _ => True
  | .sint64, .i64 _ | .int64, .i64 _ | .sfixed64, .i64 _ => True
  | .uint32, .u32 _ | .fixed32, .u32 _ => True
  | .uint64, .u64 _ | .fixed64, .u64 _ => True
  | .float, .f32 _ | .double, .f64 _ | .bool, .bool _ => True
  | .string, .str _ | .bytes, .str _ => True
  | _, _ => False

/-- Bytes of a field's content. -/
def payload : PbType → PbVal → Bytes
  | .sint32, .i32 x => varint (zigzag32 x).toNat
  | .sint64, .i64 x => varint (zigzag64 x).toNat
  | .int32, .i32 x => varint (x.signExtend 64).toNat
  | .int64, .i64 x => varint x.toNat
  | .uint32, .u32 x => varint x.toNat
  | .uint64, .u64 x => varint x.toNat
  | .bool, .bool b => varint b.toNat
  | .sfixed32, .i32 x | .fixed32, .u32 x | .float, .f32 x => memLE 4 x
  | .sfixed64, .i64 x | .fixed64, .u64 x | .double, .f64 x => memLE 8 x
  | .string, .str s | .bytes, .str s => varint s.length ++ s
  | _, _ => []

/-- One set field of a message. -/
structure Fld where
  num : Nat
  ty : PbType
  val : PbVal

/-- Serialized message: the set fields. -/
def serialize (m : List Fld) : Bytes := m.flatMap fun f => varint (f.num * 8 + wire f.ty) ++ payload f.ty f.val

/-- Field numbers strictly ascending, positive, in protobuf's range, values of the right kind. -/
def WellFormed (m : List Fld) : Prop :=
  m.Pairwise (fun a b => a.num < b.num) ∧ ∀ f ∈ m, 0 < f.num ∧ f.num < 2 ^ 29 ∧ Kind f.ty f.val

/-- What a column reads as: its value if set, else the default. -/
def column (m : List Fld) (r : Req) : Option PbVal :=
  match m.find? (fun f => f.num == r.id) with
  | some f => some f.val
  | none => r.dflt

end Spec
open Spec

/-! ## Varint lemmas -/

theorem varint_ne_nil (n : Nat) : 0 < (varint n).length := by
  unfold varint; split <;> simp

theorem testBit_split (n j : Nat) : n.testBit j = if j < 7 then (n % 128).testBit j else (n / 128).testBit (j - 7) := by
  by_cases h : j < 7
  · rw [if_pos h, show 128 = 2 ^ 7 from rfl, Nat.testBit_mod_two_pow]; simp [h]
  · rw [if_neg h, show 128 = 2 ^ 7 from rfl, Nat.testBit_div_two_pow]
    congr 1; omega

theorem getVarint_varint (n : Nat) : ∀ (pos : Nat) (raw : BitVec 64) (c : Nat) (rest : Bytes), pos < 64 → n * 2 ^ pos < 2 ^ 64 →
    getVarint (varint n ++ rest) pos raw c = (raw ||| (BitVec.ofNat 64 n <<< pos), c + (varint n).length) := by
  induction n using Nat.strongRecOn with
  | _ n ih =>
    intro pos raw c rest hp hn
    unfold varint
    split
    · rename_i h
      have hm : (BitVec.ofNat 8 n).msb = false := by
        rw [BitVec.msb_eq_false_iff_two_mul_lt, BitVec.toNat_ofNat]; omega
      have hb : (BitVec.ofNat 8 n &&& 0x7F#8).setWidth 64 = BitVec.ofNat 64 n := by
        apply BitVec.eq_of_toNat_eq
        have : n &&& 127 = n % 128 := Nat.and_two_pow_sub_one_eq_mod n 7
        simp only [BitVec.toNat_setWidth, BitVec.toNat_and, BitVec.toNat_ofNat]
        rw [show n % 2 ^ 8 = n by omega, show 127 % 2 ^ 8 = 127 from rfl, this]
        omega
      simp only [List.cons_append, List.nil_append, getVarint, hm, if_true, hb, Nat.mod_eq_of_lt hp, List.length_singleton]
    · rename_i h
      have hm : (BitVec.ofNat 8 (n % 128 + 128)).msb = true := by
        rw [BitVec.msb_eq_true_iff_two_mul_ge, BitVec.toNat_ofNat]; omega
      have hb : (BitVec.ofNat 8 (n % 128 + 128) &&& 0x7F#8).setWidth 64 = BitVec.ofNat 64 (n % 128) := by
        apply BitVec.eq_of_toNat_eq
        have : (n % 128 + 128) &&& 127 = (n % 128 + 128) % 128 := Nat.and_two_pow_sub_one_eq_mod _ 7
        simp only [BitVec.toNat_setWidth, BitVec.toNat_and, BitVec.toNat_ofNat]
        rw [show (n % 128 + 128) % 2 ^ 8 = n % 128 + 128 by omega, show 127 % 2 ^ 8 = 127 from rfl, this]
        omega
      have hn' : n / 128 * 2 ^ (pos + 7) < 2 ^ 64 := by
        have : n / 128 * 2 ^ (pos + 7) ≤ n * 2 ^ pos := by
          rw [Nat.pow_add, Nat.mul_comm (2 ^ pos), ← Nat.mul_assoc]
          apply Nat.mul_le_mul_right
          exact Nat.div_mul_le_self n 128
        omega
      have hp' : pos + 7 < 64 := by
        have h1 : 1 ≤ n / 128 := by omega
        have : 2 ^ (pos + 7) < 2 ^ 64 := by
          calc 2 ^ (pos + 7) = 1 * 2 ^ (pos + 7) := by rw [Nat.one_mul]
            _ ≤ n / 128 * 2 ^ (pos + 7) := Nat.mul_le_mul_right _ h1
            _ < 2 ^ 64 := hn'
        exact (Nat.pow_lt_pow_iff_right (by decide)).1 this
      simp only [List.cons_append, getVarint, hm, hb, Nat.mod_eq_of_lt hp, Bool.true_eq_false, if_false]
      rw [ih (n / 128) (by omega) (pos + 7) _ (c + 1) rest hp' hn']
      refine Prod.ext ?_ (by simp only [List.length_cons]; omega)
      simp only
      rw [BitVec.or_assoc]
      congr 1
      apply BitVec.eq_of_getLsbD_eq
      intro i hi
      simp only [BitVec.getLsbD_or, BitVec.getLsbD_shiftLeft, BitVec.getLsbD_ofNat, hi, decide_true, Bool.true_and]
      by_cases h1 : i < pos
      · simp [h1, show i < pos + 7 by omega]
      · have e1 : decide (i - pos < 64) = true := by simp; omega
        have e2 : decide (i - (pos + 7) < 64) = true := by simp; omega
        rw [testBit_split n (i - pos)]
        by_cases h2 : i < pos + 7
        · have : i - pos < 7 := by omega
          simp [h1, h2, this, e1]
        · have h3 : ¬ i - pos < 7 := by omega
          have h4 : (n % 128).testBit (i - pos) = false := by
            apply Nat.testBit_lt_two_pow
            calc n % 128 < 2 ^ 7 := Nat.mod_lt _ (by decide)
              _ ≤ 2 ^ (i - pos) := Nat.pow_le_pow_right (by decide) (by omega)
          simp [h1, h2, h3, e1, e2, h4, Nat.sub_sub]

theorem getVarint_varint0 {n : Nat} (h : n < 2 ^ 64) (rest : Bytes) :
    getVarint (varint n ++ rest) 0 0#64 0 = (BitVec.ofNat 64 n, (varint n).length) := by
  have := getVarint_varint n 0 0#64 0 rest (by decide) (by simpa using h)
  rw [this]; simp

theorem skipVarint_varint (n : Nat) (rest : Bytes) : skipVarint (varint n ++ rest) = (varint n).length := by
  induction n using Nat.strongRecOn with
  | _ n ih =>
    unfold varint
    split
    · rename_i h
      have hm : (BitVec.ofNat 8 n).msb = false := by
        rw [BitVec.msb_eq_false_iff_two_mul_lt, BitVec.toNat_ofNat]; omega
      simp [skipVarint, hm]
    · rename_i h
      have hm : (BitVec.ofNat 8 (n % 128 + 128)).msb = true := by
        rw [BitVec.msb_eq_true_iff_two_mul_ge, BitVec.toNat_ofNat]; omega
      simp only [List.cons_append, skipVarint, hm, Bool.true_eq_false, if_false, List.length_cons]
      rw [ih _ (by omega)]; omega

end BaikalDB.RowCodec
