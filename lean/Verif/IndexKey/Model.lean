import Verif.KeyEnc.Model
/-!
# Model of index keys: how a row becomes the keys of its indexes, and back

`src/common/table_record.cpp` (encode_key, encode_primary_key, decode_key, decode_primary_key),
`src/common/schema_factory.cpp` (update_index: derived layout of an index),
`src/engine/transaction.cpp` (get_full_primary_key, fits_region_range, put_secondary key/value construction),
`src/common/table_key.cpp` (skip_field).
-/
namespace BaikalDB.IndexKey
open KeyEnc

/-- `pb::IndexType` (proto/meta.interface.proto:286-294). -/
inductive IndexType where
  | none | primary | uniq | key | fulltext | vector | rollup
  deriving DecidableEq, Repr

/-- The parts of `FieldInfo` the key code uses.  `id` stands for both the field id and its position in the
protobuf message (`pb_idx`), which are in one-to-one correspondence. -/
structure FieldInfo where
  id : Nat
  type : PType
  canNull : Bool
  deriving DecidableEq, Repr

/-- type_utils.h:282-309 `get_num_size`; schema_factory.cpp:717-726: size -1 for STRING and the other
variable-length types. -/
def numSize : PType → Int
  | .bool | .int8 | .uint8 => 1
  | .int16 | .uint16 => 2
  | .int32 | .uint32 | .date | .timestamp | .time => 4
  | .int64 | .uint64 | .datetime => 8
  | .float => 4
  | .double => 8
  | .string | .other => -1

/-- The parts of `IndexInfo` (schema_factory.h:289-314) the key code uses. -/
structure IndexInfo where
  type : IndexType
  isGlobal : Bool
  fields : List FieldInfo
  hasNullable : Bool
  /-- -1 when some field is variable-length or nullable; includes the null-flag byte of secondary indexes. -/
  length : Int
  overlap : Bool
  pkFields : List FieldInfo
  /-- `(1, p)`: take the pk column from index bytes at `p`; `(-1, p)`: from the stored pk bytes at `p`. -/
  pkPos : List (Int × Int)
  deriving DecidableEq, Repr

/-- schema_factory.cpp:1099-1118: the loop over index fields, accumulating `length`, `has_nullable` and the map
from field id to position (first insertion wins, as `unordered_map::insert`). -/
def layoutLoop : List FieldInfo → Int → Bool → List (Nat × Int) → Int × Bool × List (Nat × Int)
  | [], len, nul, m => (len, nul, m)
  | f :: fs, len, nul, m =>
    let m' := if (m.lookup f.id).isSome then m else m ++ [(f.id, len)]
    let nul' := nul || f.canNull
    let len' := if numSize f.type = -1 then -1 else if len ≠ -1 then len + numSize f.type else len
    layoutLoop fs len' nul' m'

/-- schema_factory.cpp:1148-1172: the loop over primary key fields; `none` when a variable-length pk field is met
(`pk_length = -1; break`). -/
def pkLoop (m : List (Nat × Int)) : List FieldInfo → Int → List FieldInfo → List (Int × Int) →
    Option (List FieldInfo × List (Int × Int))
  | [], _, pf, pp => some (pf, pp)
  | f :: fs, len, pf, pp =>
    if numSize f.type = -1 then none
    else match m.lookup f.id with
      | some p => pkLoop m fs len pf (pp ++ [(1, p)])
      | none => pkLoop m fs (len + numSize f.type) (pf ++ [f]) (pp ++ [(-1, len)])

/-- schema_factory.cpp:1086-1193: derived layout of an index on `fields`, given the primary key's fields. -/
def buildIndex (type : IndexType) (isGlobal : Bool) (fields pk : List FieldInfo) : IndexInfo :=
  let len0 : Int := if type = .key ∨ type = .uniq then 1 else 0
  let (len1, nul, m0) := layoutLoop fields len0 false []
  let len := if nul then -1 else len1
  if type = .key ∨ type = .uniq then
    let m := if len = -1 then [] else m0
    let (pf, pp) := match pkLoop m pk 0 [] [] with
      | some r => r
      | none => (pk, [])
    let ov := if len = -1 then false else if pf.length = pk.length then false else true
    ⟨type, isGlobal, fields, nul, len, ov, pf, pp⟩
  else
    ⟨type, isGlobal, fields, nul, len, false, [], []⟩

/-- A row: field id to value, `none` when the protobuf field is unset (SQL NULL). -/
abbrev Row := Nat → Option PbVal

/-- Shift count of `x >> (7 - idx)` where `idx` is `uint32_t`: for `idx > 7` the count wraps, which C++ leaves
undefined; this is the x86 result (count modulo 32). -/
def nullShift (idx : Nat) : Nat := (4294967303 - idx) % 32

/-- table_record.cpp:328 / transaction.cpp:375: `(null_flag >> (7 - idx)) & 0x01`. -/
def nullBit (nf : BitVec 8) (idx : Nat) : Bool := (nf.toNat >>> nullShift idx) % 2 == 1

/-- table_record.cpp:173-209: the loop of `encode_key` over the first `colCnt` fields.
Error -2: missing primary key column; -1: a column could not be encoded or the index type is not supported. -/
def encodeKeyLoop (ty : IndexType) (row : Row) (likePrefix : Bool) (colCnt : Nat) :
    Nat → List FieldInfo → Bytes → BitVec 8 → Except Int (Bytes × BitVec 8)
  | _, [], key, nf => .ok (key, nf)
  | idx, f :: fs, key, nf =>
    let last := likePrefix && idx == colCnt - 1
    if ty = .primary ∨ ty = .fulltext then
      match row f.id with
      | none => .error (-2)
      | some v => match encodeField f.type v key last with
        | none => .error (-1)
        | some key' => encodeKeyLoop ty row likePrefix colCnt (idx + 1) fs key' nf
    else if ty = .key ∨ ty = .uniq ∨ ty = .rollup then
      match row f.id with
      | none =>
        if !f.canNull then
          match (defaultVal f.type).bind fun v => encodeField f.type v key last with
          | none => .error (-1)
          | some key' => encodeKeyLoop ty row likePrefix colCnt (idx + 1) fs key' nf
        else encodeKeyLoop ty row likePrefix colCnt (idx + 1) fs key (nf ||| BitVec.ofNat 8 (1 <<< nullShift idx))
      | some v => match encodeField f.type v key last with
        | none => .error (-1)
        | some key' => encodeKeyLoop ty row likePrefix colCnt (idx + 1) fs key' nf
    else .error (-1)

/-- table_record.cpp:156-217 `TableRecord::encode_key`: new key bytes and the `full` mark.  `fieldCnt = none`
stands for -1.  The `clear` argument, which drops encoded fields from the message, does not affect the key. -/
def encodeKey (ix : IndexInfo) (row : Row) (key : Bytes) (fieldCnt : Option Nat) (likePrefix : Bool) :
    Except Int (Bytes × Bool) :=
  if ix.type = .none then .error (-1) else
  let pos := key.length
  let key1 := if ix.type = .key ∨ ix.type = .uniq ∨ ix.type = .rollup then appendU8 key 0#8 else key
  let colCnt := fieldCnt.getD ix.fields.length
  if colCnt > ix.fields.length ∨ (ix.hasNullable = true ∧ colCnt > 8) then .error (-1) else
  match encodeKeyLoop ix.type row likePrefix colCnt 0 (ix.fields.take colCnt) key1 0#8 with
  | .error e => .error e
  | .ok (key2, nf) =>
    let key3 := if ix.type = .key ∨ ix.type = .uniq then (replaceU8 key2 nf pos).getD key2 else key2
    .ok (key3, (ix.type = .primary ∨ ix.type = .uniq) && colCnt == ix.fields.length)

/-- Loop of `encode_primary_key`, table_record.cpp:229-245. -/
def encodePkLoop (row : Row) : List FieldInfo → Bytes → Except Int Bytes
  | [], key => .ok key
  | f :: fs, key =>
    match row f.id with
    | none => .error (-2)
    | some v => match encodeField f.type v key false with
      | none => .error (-1)
      | some key' => encodePkLoop row fs key'

/-- table_record.cpp:220-247 `TableRecord::encode_primary_key` with `field_cnt = -1`. -/
def encodePrimaryKey (ix : IndexInfo) (row : Row) (key : Bytes) : Except Int Bytes :=
  if ix.type ≠ .key ∧ ix.type ≠ .uniq then .error (-1) else encodePkLoop row ix.pkFields key

/-- Outcome of `decode_key`: the columns set in the record (in order) and the final position. -/
inductive Dec where
  | ok (cols : List (Nat × PbVal)) (pos : Nat)
  | err
  | ub
  deriving DecidableEq, Repr

/-- table_record.cpp:319-336: loop of `decode_key`. -/
def decodeKeyLoop (d : Bytes) (nf : BitVec 8) : Nat → List FieldInfo → Nat → List (Nat × PbVal) → Dec
  | _, [], pos, acc => .ok acc pos
  | idx, f :: fs, pos, acc =>
    if nullBit nf idx && f.canNull then decodeKeyLoop d nf (idx + 1) fs pos acc
    else match decodeField f.type d pos with
      | .ok v pos' => decodeKeyLoop d nf (idx + 1) fs pos' (acc ++ [(f.id, v)])
      | .err _ => .err
      | .ub => .ub

/-- table_record.cpp:308-338 `TableRecord::decode_key`. -/
def decodeKey (ix : IndexInfo) (d : Bytes) (pos : Nat) : Dec :=
  if ix.type = .none then .err
  else if ix.type = .key ∨ ix.type = .uniq ∨ ix.type = .rollup then
    match extractU8 d pos with
    | none => .ub
    | some nf => decodeKeyLoop d nf 0 ix.fields (pos + 1) []
  else decodeKeyLoop d 0#8 0 ix.fields pos []

/-- table_record.cpp:340-359 `TableRecord::decode_primary_key`. -/
def decodePrimaryKey (ix : IndexInfo) (d : Bytes) (pos : Nat) : Dec :=
  if ix.type ≠ .key ∧ ix.type ≠ .uniq then .err
  else decodeKeyLoop d 0#8 0 (ix.pkFields.map fun f => { f with canNull := false }) pos []

/-- table_key.cpp:412-466 `TableKey::skip_field`: new position; fixed-width fields are not bounds-checked. -/
def skipField (t : PType) (d : Bytes) (pos : Nat) : Rd Unit :=
  match t with
  | .bool | .int8 | .uint8 => .ok () (pos + 1)
  | .int16 | .uint16 => .ok () (pos + 2)
  | .int32 | .time | .uint32 | .timestamp | .date | .float => .ok () (pos + 4)
  | .int64 | .uint64 | .datetime | .double => .ok () (pos + 8)
  | .string =>
    if pos ≥ d.length then .err (-2)
    else match cstr (d.drop pos) with
      | some s => .ok () (pos + (s.length + 1))
      | none => .ub
  | .other => .err (-1)

/-- mem_row.cpp:83-115: loop of `MemRow::decode_key` (chunk.cpp:139-170 is the same); `needed id` is
`field_slot[id] != 0`, the columns the query uses. -/
def memRowLoop (needed : Nat → Bool) (d : Bytes) (nf : BitVec 8) : Nat → List FieldInfo → Nat →
    List (Nat × PbVal) → Dec
  | _, [], pos, acc => .ok acc pos
  | idx, f :: fs, pos, acc =>
    if nullBit nf idx && f.canNull then memRowLoop needed d nf (idx + 1) fs pos acc
    else if needed f.id = false then
      match skipField f.type d pos with
      | .ok _ pos' => memRowLoop needed d nf (idx + 1) fs pos' acc
      | .err _ => .err
      | .ub => .ub
    else match decodeField f.type d pos with
      | .ok v pos' => memRowLoop needed d nf (idx + 1) fs pos' (acc ++ [(f.id, v)])
      | .err _ => .err
      | .ub => .ub

/-- mem_row.cpp:66-117 `MemRow::decode_key`. -/
def memRowDecodeKey (needed : Nat → Bool) (ix : IndexInfo) (d : Bytes) (pos : Nat) : Dec :=
  if ix.type = .none then .err
  else if ix.type = .key ∨ ix.type = .uniq ∨ ix.type = .rollup then
    match extractU8 d pos with
    | none => .ub
    | some nf => memRowLoop needed d nf 0 ix.fields (pos + 1) []
  else memRowLoop needed d 0#8 0 ix.fields pos []

/-- transaction.cpp:210-224: `memcpy` of each primary key column from the index bytes or the stored pk bytes.
`none`: error return, or a copy out of bounds (undefined). -/
def fullPkLoop (ib pb : Bytes) : List FieldInfo → List (Int × Int) → Bytes → Option Bytes
  | _, [], buf => some buf
  | [], _ :: _, _ => none
  | f :: fs, (w, p) :: pp, buf =>
    if w = 1 then
      match peek ib p.toNat (numSize f.type).toNat with
      | some m => fullPkLoop ib pb fs pp (buf ++ m)
      | none => none
    else if w = -1 then
      match peek pb p.toNat (numSize f.type).toNat with
      | some m => fullPkLoop ib pb fs pp (buf ++ m)
      | none => none
    else none

/-- transaction.cpp:203-225 `Transaction::get_full_primary_key`. -/
def getFullPrimaryKey (ib pb : Bytes) (pkIx ix : IndexInfo) : Option Bytes :=
  fullPkLoop ib pb pkIx.fields ix.pkPos []

/-- `ret1`/`ret2` logic at transaction.cpp:298-307,404-408: inside `[start, end)`, a null pointer or an empty end
meaning no bound. -/
def inRange (k : Bytes) (start end_ : Option Bytes) : Bool :=
  (match start with | none => true | some s => bcmp k s != .lt) &&
  (match end_ with | none => true | some e => e.isEmpty || bcmp k e == .lt)

/-- transaction.cpp:370-383: walk over the fields of a variable-length or nullable index to find where the primary
key starts.  `none`: strlen past the end of the slice (undefined). -/
def skipIndexLoop (key : Bytes) (nf : BitVec 8) : Nat → List FieldInfo → Nat → Option Nat
  | _, [], pos => some pos
  | idx, f :: fs, pos =>
    if nullBit nf idx && f.canNull then skipIndexLoop key nf (idx + 1) fs pos
    else if f.type = .string then
      match cstr (key.drop pos) with
      | none => none
      | some s => skipIndexLoop key nf (idx + 1) fs (pos + s.length + 1)
    else skipIndexLoop key nf (idx + 1) fs (pos + (numSize f.type).toNat)

/-- transaction.cpp:284-409 `Transaction::fits_region_range`; `none` is undefined behaviour. -/
def fitsRegionRange (key value : Bytes) (start end_ : Option Bytes) (pkIx ix : IndexInfo) : Option Bool :=
  if start.isNone ∧ end_.isNone then some true
  else if ix.type = .primary ∨ ix.isGlobal = true then some (inRange key start end_)
  else if ix.type = .uniq then
    if pkIx.length > 0 ∧ ix.length > 0 ∧ ix.overlap = true then
      (getFullPrimaryKey key value pkIx ix).map fun pk => inRange pk start end_
    else some (inRange value start end_)
  else if ix.type = .key then
    if pkIx.length > 0 ∧ ix.length > 0 ∧ ix.overlap = true then
      if (key.length : Int) < ix.length then some false
      else (getFullPrimaryKey key (key.drop ix.length.toNat) pkIx ix).map fun pk => inRange pk start end_
    else if ix.length > 0 then
      if (key.length : Int) < ix.length then some false
      else some (inRange (key.drop ix.length.toNat) start end_)
    else
      match extractU8 key 0 with
      | none => none
      | some nf => match skipIndexLoop key nf 0 ix.fields 1 with
        | none => none
        | some pos => if key.length < pos then some false else some (inRange (key.drop pos) start end_)
  else some true

/-- transaction.cpp:484-536 `put_secondary`: key (after the region and index id prefix) and value of the entry
written for a row; `index.type` KEY or UNIQ. -/
def secondaryEntry (ix : IndexInfo) (row : Row) : Except Int (Bytes × Bytes) :=
  match encodeKey ix row [] none false with
  | .error e => .error e
  | .ok (k, _) =>
    if ix.type = .key then
      match encodePrimaryKey ix row k with
      | .error e => .error e
      | .ok k' => .ok (k', [])
    else if ix.type = .uniq then
      match encodePrimaryKey ix row [] with
      | .error e => .error e
      | .ok p => .ok (k, p)
    else .error (-1)

end BaikalDB.IndexKey
