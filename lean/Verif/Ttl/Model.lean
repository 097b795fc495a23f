import Verif.IndexKey.Model
/-!
# TTL prefix of stored values

A table with a TTL stores the expiry time in microseconds in front of each value.  "Online TTL" is a TTL switched on
for a table that already has data; then values with and without the prefix are mixed and the reader has to guess.
-/
namespace BaikalDB.Ttl
open KeyEnc IndexKey

/-- transaction.h:39-42 `ttl_encode`, followed by the copy of the 8 bytes at transaction.cpp:588. -/
def ttlEncode (ts : BitVec 64) : Bytes := memLE 8 (toEndian64 (encodeI64 ts))

/-- transaction.h:44-48 `decode_first_8bytes2int64`; `none`: reads past the end of the value. -/
def decodeFirst8 (v : Bytes) : Option (BitVec 64) :=
  (peek v 0 8).map fun m => decodeI64 (toEndian64 (loadLE 64 m))

/-- transaction.h:51-53 `valid_timestamp_us`. -/
def validTimestampUs (t : BitVec 64) : Bool := decide (1608336000000000 < t.toInt) && decide (t.toInt < 4761936000000000)

/-- transaction.cpp:580-602 `put_kv_without_lock`: the bytes stored as value. -/
def putValue (useTtl : Bool) (ts : BitVec 64) (value : Bytes) : Bytes :=
  if useTtl = true ∧ 0 < ts.toInt then ttlEncode ts ++ value else value

/-! ## Protobuf walk used to guess whether a primary row has the prefix -/

/-- tuple_record.h:44-55 `get_varint<uint64_t>`, reading from the bytes that remain; result and number of bytes
consumed.  Shift counts of 64 and more (undefined in C++) are taken modulo 64 as x86 does. -/
def getVarint : Bytes → Nat → BitVec 64 → Nat → BitVec 64 × Nat
  | [], _, raw, n => (raw, n)
  | b :: bs, pos, raw, n =>
    let raw' := raw ||| ((b &&& 0x7F#8).setWidth 64 <<< (pos % 64))
    if b.msb = false then (raw', n + 1) else getVarint bs (pos + 7) raw' (n + 1)

/-- tuple_record.h:39-41 `skip_varint`: number of bytes consumed. -/
def skipVarint : Bytes → Nat
  | [] => 0
  | b :: bs => if b.msb = false then 1 else 1 + skipVarint bs

/-- Result of `verification_fields`: matches (0), does not match (-1), or never returns. -/
inductive Ver where
  | good | bad | hang
deriving DecidableEq

/-- tuple_record.cpp:38-80 `TupleRecord::verification_fields`: `off` is `_offset`, a 64-bit unsigned that
`skip_string` may wrap around.  `fuel` bounds the number of loop iterations: with `size + 1` iterations an offset below
`size` has been visited twice, so running out of fuel is an endless loop. -/
def verifyLoop (d : Bytes) (maxField : Nat) : Nat → Nat → Ver
  | 0, _ => .hang
  | fuel + 1, off =>
    if off < d.length then
      let (key, n) := getVarint (d.drop off) 0 0#64 0
      let off1 := off + n
      if off1 ≥ d.length then .bad
      else if key.toNat >>> 3 > maxField ∨ key.toNat >>> 3 = 0 then .bad
      else match key.toNat % 8 with
        | 0 => verifyLoop d maxField fuel (off1 + skipVarint (d.drop off1))
        | 1 => verifyLoop d maxField fuel ((off1 + 8) % 2 ^ 64)
        | 2 =>
          let (len, m) := getVarint (d.drop off1) 0 0#64 0
          verifyLoop d maxField fuel ((off1 + m + len.toNat) % 2 ^ 64)
        | 5 => verifyLoop d maxField fuel ((off1 + 4) % 2 ^ 64)
        | _ => .bad
    else if off > d.length then .bad else .good

/-- tuple_record.cpp:38 with a fresh record: `_offset = 0`. -/
def verifyFields (d : Bytes) (maxField : Nat) : Ver := verifyLoop d maxField (d.length + 1) 0

/-- Result of `ttl_decode`: the expiry and the value after removing the prefix. -/
inductive TtlR where
  | ok (time : BitVec 64) (rest : Bytes)
  | ub
  | hang
deriving DecidableEq

/-- transaction.cpp:42-134 `ttl_decode`.  For a unique index the walk over the primary key fields only decides what is
logged (transaction.cpp:99-126), so it is left out. -/
def ttlDecode (value : Bytes) (ty : IndexType) (maxField : Nat) (base : BitVec 64) : TtlR :=
  if base = 0#64 then
    match decodeFirst8 value with
    | none => .ub
    | some t => .ok t (value.drop 8)
  else if value.length < 8 then .ok base value
  else match decodeFirst8 value with
    | none => .ub
    | some t =>
      if validTimestampUs t = false then .ok base value
      else match ty with
        | .key => if value.length = 8 then .ok t (value.drop 8) else .ok t value
        | .primary =>
          match verifyFields value maxField with
          | .hang => .hang
          | .bad => .ok t (value.drop 8)
          | .good =>
            match verifyFields (value.drop 8) maxField with
            | .hang => .hang
            | .bad => .ok base value
            | .good => .ok t (value.drop 8)
        | .uniq => .ok t (value.drop 8)
        | _ => .ok t value

/-- What a point read returns for an entry that exists. -/
inductive ReadR where
  | found (value : Bytes)
  | expired
  | ub
  | hang
deriving DecidableEq

/-- transaction.cpp:751-760, 851-857, 1179-1185, 1325-1331: TTL handling of point reads. -/
def readValue (useTtl : Bool) (readTs : BitVec 64) (ty : IndexType) (maxField : Nat) (base : BitVec 64) (stored : Bytes) :
    ReadR :=
  if useTtl = true ∧ 0 < readTs.toInt then
    match ttlDecode stored ty maxField base with
    | .ub => .ub
    | .hang => .hang
    | .ok t v => if readTs.toInt > t.toInt then .expired else .found v
  else .found stored

/-- table_iterator.cpp:456-466, 609-619: TTL handling of scans (no test of the read time). -/
def scanValue (useTtl : Bool) (readTs : BitVec 64) (ty : IndexType) (maxField : Nat) (base : BitVec 64) (stored : Bytes) :
    ReadR :=
  if useTtl = true then
    match ttlDecode stored ty maxField base with
    | .ub => .ub
    | .hang => .hang
    | .ok t v => if readTs.toInt > t.toInt then .expired else .found v
  else .found stored

end BaikalDB.Ttl
