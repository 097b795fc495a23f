import Verif.KeyEnc.Lemmas
/-!
# Columnar storage of one column: codec, write and read path
-/
namespace BaikalDB.RowCodec
open KeyEnc

/-- table_record.cpp:362-503 `TableRecord::encode_field_for_cstore`: bytes to store, or the code -3 when the value is
the column default, -1 when the type is not supported (or a protobuf getter of the wrong kind, which is fatal).
`dflt` is `default_expr_value`, `none` when it is NULL; its union member of the column's width is what the low bits of
the value give.  Little-endian host, so `to_little_endian_*` is the identity (key_encoder.h:69-100). -/
def encodeCstore (t : PType) (dflt : Option PbVal) (v : PbVal) : Except Int Bytes :=
  match t, v with
  | .int8, .i32 x =>
    match dflt with
    | some (.i32 d) => if x.setWidth 8 = d.setWidth 8 then .error (-3) else .ok (memLE 1 (x.setWidth 8))
    | _ => .ok (memLE 1 (x.setWidth 8))
  | .int16, .i32 x =>
    match dflt with
    | some (.i32 d) => if x.setWidth 16 = d.setWidth 16 then .error (-3) else .ok (memLE 2 (x.setWidth 16))
    | _ => .ok (memLE 2 (x.setWidth 16))
  | .int32, .i32 x | .time, .i32 x =>
    match dflt with
    | some (.i32 d) => if x = d then .error (-3) else .ok (memLE 4 x)
    | _ => .ok (memLE 4 x)
  | .int64, .i64 x =>
    match dflt with
    | some (.i64 d) => if x = d then .error (-3) else .ok (memLE 8 x)
    | _ => .ok (memLE 8 x)
  | .uint8, .u32 x =>
    match dflt with
    | some (.u32 d) => if x.setWidth 8 = d.setWidth 8 then .error (-3) else .ok (memLE 1 (x.setWidth 8))
    | _ => .ok (memLE 1 (x.setWidth 8))
  | .uint16, .u32 x =>
    match dflt with
    | some (.u32 d) => if x.setWidth 16 = d.setWidth 16 then .error (-3) else .ok (memLE 2 (x.setWidth 16))
    | _ => .ok (memLE 2 (x.setWidth 16))
  | .uint32, .u32 x | .timestamp, .u32 x | .date, .u32 x =>
    match dflt with
    | some (.u32 d) => if x = d then .error (-3) else .ok (memLE 4 x)
    | _ => .ok (memLE 4 x)
  | .uint64, .u64 x | .datetime, .u64 x =>
    match dflt with
    | some (.u64 d) => if x = d then .error (-3) else .ok (memLE 8 x)
    | _ => .ok (memLE 8 x)
  | .float, .f32 x => .ok (memLE 4 x)
  | .double, .f64 x => .ok (memLE 8 x)
  | .bool, .bool x =>
    match dflt with
    | some (.bool d) => if x = d then .error (-3) else .ok (memLE 1 (if x then 1#8 else 0#8))
    | _ => .ok (memLE 1 (if x then 1#8 else 0#8))
  | .string, .str s =>
    match dflt with
    | some (.str d) => if s = d then .error (-3) else .ok s
    | _ => .ok s
  | _, _ => .error (-1)

/-- message_helper.h:291-389 `MessageHelper::decode_field`; `none`: error return. -/
def decodeCstore (t : PType) (d : Bytes) : Option PbVal :=
  match t with
  | .int8 => if 1 > d.length then none else some (.i32 ((loadLE 8 (d.take 1)).signExtend 32))
  | .int16 => if 2 > d.length then none else some (.i32 ((loadLE 16 (d.take 2)).signExtend 32))
  | .int32 | .time => if 4 > d.length then none else some (.i32 (loadLE 32 (d.take 4)))
  | .int64 => if 8 > d.length then none else some (.i64 (loadLE 64 (d.take 8)))
  | .uint8 => if 1 > d.length then none else some (.u32 ((loadLE 8 (d.take 1)).setWidth 32))
  | .uint16 => if 2 > d.length then none else some (.u32 ((loadLE 16 (d.take 2)).setWidth 32))
  | .uint32 | .timestamp | .date => if 4 > d.length then none else some (.u32 (loadLE 32 (d.take 4)))
  | .uint64 | .datetime => if 8 > d.length then none else some (.u64 (loadLE 64 (d.take 8)))
  | .float => if 4 > d.length then none else some (.f32 (loadLE 32 (d.take 4)))
  | .double => if 8 > d.length then none else some (.f64 (loadLE 64 (d.take 8)))
  | .bool => if 1 > d.length then none else some (.bool (loadLE 8 (d.take 1) != 0#8))
  | .string => some (.str d)
  | .other => none

/-- transaction.cpp:1591-1645 `put_primary_columns`, what happens to one column's entry: `old` is the entry before,
`v` the new column content (`none` = NULL, `HasField` false, return -2), `update` whether the row existed. -/
def writeColumn (update : Bool) (t : PType) (dflt v : Option PbVal) (old : Option Bytes) : Option Bytes :=
  match v with
  | none => if update then none else old
  | some x =>
    match encodeCstore t dflt x with
    | .ok b => some b
    | .error _ => if update then none else old

/-- transaction.cpp:1681-1703 `get_update_primary_columns`, one column: outer `none` is an error return, inner `none`
is NULL. -/
def readColumn (t : PType) (dflt : Option PbVal) (entry : Option Bytes) : Option (Option PbVal) :=
  match entry with
  | some b => (decodeCstore t b).map some
  | none => some dflt

/-! ## Spec: values a column type can hold (any float bits, any bytes) -/

/-- The value has the kind and range of the type. -/
def Fits : PType → PbVal → Prop
  | .int8, .i32 x => -128 ≤ x.toInt ∧ x.toInt < 128
  | .int16, .i32 x => -32768 ≤ x.toInt ∧ x.toInt < 32768
  | .int32, .i32 _ | .time, .i32 _ | .int64, .i64 _ => True
  | .uint8, .u32 x => x.toNat < 256
  | .uint16, .u32 x => x.toNat < 65536
  | .uint32, .u32 _ | .timestamp, .u32 _ | .date, .u32 _ | .uint64, .u64 _ | .datetime, .u64 _ => True
  | .float, .f32 _ | .double, .f64 _ | .bool, .bool _ | .string, .str _ => True
  | _, _ => False

theorem signExtend_setWidth8 {x : BitVec 32} (h : -128 ≤ x.toInt ∧ x.toInt < 128) :
    (x.setWidth 8).signExtend 32 = x := by
  apply BitVec.eq_of_toInt_eq
  rw [BitVec.toInt_signExtend_of_le (by decide), toInt_setWidth8 h]

theorem signExtend_setWidth16 {x : BitVec 32} (h : -32768 ≤ x.toInt ∧ x.toInt < 32768) :
    (x.setWidth 16).signExtend 32 = x := by
  apply BitVec.eq_of_toInt_eq
  rw [BitVec.toInt_signExtend_of_le (by decide), toInt_setWidth16 h]

theorem setWidth_setWidth8 {x : BitVec 32} (h : x.toNat < 256) : (x.setWidth 8).setWidth 32 = x := by
  apply BitVec.eq_of_toNat_eq
  simp only [BitVec.toNat_setWidth]
  omega

theorem setWidth_setWidth16 {x : BitVec 32} (h : x.toNat < 65536) : (x.setWidth 16).setWidth 32 = x := by
  apply BitVec.eq_of_toNat_eq
  simp only [BitVec.toNat_setWidth]
  omega

theorem take_memLE {w : Nat} (n : Nat) (x : BitVec w) : (memLE n x).take n = memLE n x := by
  rw [List.take_of_length_le]; simp

theorem load1 (x : BitVec 8) : loadLE 8 (memLE 1 x) = x := loadLE_memLE (by decide) x
theorem load2 (x : BitVec 16) : loadLE 16 (memLE 2 x) = x := loadLE_memLE (by decide) x
theorem load4 (x : BitVec 32) : loadLE 32 (memLE 4 x) = x := loadLE_memLE (by decide) x
theorem load8 (x : BitVec 64) : loadLE 64 (memLE 8 x) = x := loadLE_memLE (by decide) x

/-! ## C40 -/

/-- A stored column decodes to the value encoded. -/
theorem C40_codec_roundtrip {t : PType} {v : PbVal} {dflt : Option PbVal} {b : Bytes} (h : Fits t v)
    (he : encodeCstore t dflt v = .ok b) : decodeCstore t b = some v := by
  cases t <;> cases v <;> simp only [Fits] at h <;> simp only [encodeCstore] at he <;>
    (try split at he) <;> (try split at he) <;> (try cases he) <;>
    simp [decodeCstore, take_memLE, load1, load2, load4, load8, signExtend_setWidth8, signExtend_setWidth16,
      setWidth_setWidth8, setWidth_setWidth16, h]
  all_goals first
    | assumption
    | (rename_i hx; simpa using hx)
    | (split <;> rename_i hx <;> simp [hx])

/-- A column is left out exactly when it equals a non-NULL default (float and double are always stored). -/
theorem C40_left_out_iff_default {t : PType} {v : PbVal} {dflt : Option PbVal} (h : Fits t v)
    (hd : ∀ d, dflt = some d → Fits t d) :
    encodeCstore t dflt v = .error (-3) ↔ (dflt = some v ∧ t ≠ .float ∧ t ≠ .double) := by
  cases dflt with
  | none => cases t <;> cases v <;> simp [encodeCstore]
  | some d =>
    have hd := hd d rfl
    cases t <;> cases v <;> simp only [Fits] at h <;> cases d <;> simp only [Fits] at hd <;>
      simp only [encodeCstore] <;> try simp
    all_goals first
      | exact eq_comm
      | exact ⟨fun e => by rw [← signExtend_setWidth8 h, ← signExtend_setWidth8 hd, e], fun e => by rw [e]⟩
      | exact ⟨fun e => by rw [← signExtend_setWidth16 h, ← signExtend_setWidth16 hd, e], fun e => by rw [e]⟩
      | exact ⟨fun e => by rw [← setWidth_setWidth8 h, ← setWidth_setWidth8 hd, e], fun e => by rw [e]⟩
      | exact ⟨fun e => by rw [← setWidth_setWidth16 h, ← setWidth_setWidth16 hd, e], fun e => by rw [e]⟩

/-- Reading a column back after an update, or after the insert of a row with no older entries, gives the value written;
this includes values that equal the default and were therefore not stored. -/
theorem C40_write_read {t : PType} {v : PbVal} {dflt : Option PbVal} (h : Fits t v) (hd : ∀ d, dflt = some d → Fits t d)
    (update : Bool) (old : Option Bytes) (ho : update = false → old = none) :
    readColumn t dflt (writeColumn update t dflt (some v) old) = some (some v) := by
  have hno : (if update = true then none else old) = none := by
    cases update with
    | true => rfl
    | false => simpa using ho rfl
  simp only [writeColumn]
  cases he : encodeCstore t dflt v with
  | ok b => simp only [readColumn, C40_codec_roundtrip h he, Option.map_some]
  | error e =>
    have h3 : e = -3 := by
      cases t <;> cases v <;> simp only [Fits] at h <;> simp only [encodeCstore] at he <;>
        (try split at he) <;> (try split at he) <;> (try cases he) <;> rfl
    subst h3
    have := ((C40_left_out_iff_default h hd).1 he).1
    simp only [hno, readColumn, this]

/-- NULL is not stored either, and reads back as the column default: correct only for columns whose default is NULL. -/
theorem C40_null_reads_default (t : PType) (dflt : Option PbVal) (update : Bool) (old : Option Bytes)
    (ho : update = false → old = none) :
    readColumn t dflt (writeColumn update t dflt none old) = some dflt := by
  cases update with
  | true => rfl
  | false => rw [ho rfl]; rfl

/-- A NULL in an INT column declared DEFAULT 7 comes back as 7. -/
theorem C40_null_with_default_counterexample :
    readColumn .int32 (some (.i32 7#32)) (writeColumn true .int32 (some (.i32 7#32)) none none) = some (some (.i32 7#32)) :=
  rfl

/-- A column of a type the codec does not know (HLL, BITMAP, TDIGEST, ...) is dropped without an error: the write path
treats the error like "equal to the default". -/
theorem C40_unsupported_type_counterexample (v : PbVal) (update : Bool) :
    readColumn .other none (writeColumn update .other none (some v) none) = some none := by
  cases update <;> rfl

example : Fits .int8 (.i32 (-5)) ∧ (∀ d, (some (.i32 3) : Option PbVal) = some d → Fits .int8 d) := by
  refine ⟨⟨by decide, by decide⟩, fun d h => ?_⟩
  injection h with h; subst h
  exact ⟨by decide, by decide⟩

end BaikalDB.RowCodec
