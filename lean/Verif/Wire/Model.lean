import Verif.Datetime.Model
/-!
# The MySQL wire protocol

Model of src/protocol/data_buffer.cpp, src/protocol/mysql_wrapper.cpp, the packing functions of src/exec/packet_node.cpp,
the packet reader and COM_STMT_EXECUTE decoder of src/protocol/state_machine.cpp and
`ExprValue::serialize_to_mysql_text_packet` (src/common/expr_value.cpp).

Not modelled: failure of `malloc`/`realloc`, charset conversion, the authentication handshake, the cast of a projected
value to its column type (the model starts from the cast value), HLL, BITMAP and TDIGEST values.
-/
namespace BaikalDB.Wire
open BaikalDB.Expr

/-- `x & 0xFF` stored in a byte. -/
def byte (n : Nat) : Byte := BitVec.ofNat 8 n

/-- The `k` low bytes of a number, low byte first: the `(x >> 8 * i) & 0xff` sequences and the `memcpy` of an integer on a
little-endian host. -/
def le : Nat → Nat → Bytes
  | 0, _ => []
  | k + 1, n => byte n :: le k (n / 256)

/-! ## The send buffer -/

/-- include/protocol/data_buffer.h L24-50: the first `_size` bytes of `_data`, and `_capacity`. -/
structure Buf where
  data : Bytes
  cap : Nat
deriving DecidableEq, Repr

/-- include/protocol/data_buffer.h L22: `MAX_ALLOC_BUF_SIZE`, 2 GiB. -/
def maxAlloc : Nat := 2147483648

/-- src/protocol/data_buffer.cpp L69-72: doubling until the size wanted is reached. -/
def pow2From (a want : Nat) : Nat := if 0 < a ∧ a < want then pow2From (2 * a) want else a
termination_by want - a
decreasing_by omega

/-- src/protocol/data_buffer.cpp L58-82: `byte_array_append_size(len, 1)`; `none` when the limit is exceeded. -/
def Buf.room (b : Buf) (len : Nat) : Option Buf :=
  if b.data.length + len ≤ b.cap then some b
  else if maxAlloc < b.data.length + len then none
  else some { b with cap := pow2From 1 (b.data.length + len) }

/-- src/protocol/data_buffer.cpp L102-117: `byte_array_append_len`. -/
def Buf.append (b : Buf) (d : Bytes) : Option Buf :=
  if d.length = 0 then some b
  else (b.room d.length).map fun b' => { b' with data := b'.data ++ d }

/-- src/protocol/data_buffer.cpp L85-100: `byte_array_insert_len`. -/
def Buf.insert (b : Buf) (pos : Nat) (d : Bytes) : Option Buf :=
  if d.length = 0 then some b
  else (b.room d.length).map fun b' => { b' with data := b'.data.take pos ++ d ++ b'.data.drop pos }

/-- Stores into `_data[pos]`, `_data[pos + 1]`, …, all below `_size`. -/
def writeAt (l : Bytes) (pos : Nat) (d : Bytes) : Bytes := l.take pos ++ d ++ l.drop (pos + d.length)

/-- src/protocol/data_buffer.cpp L263-292: `byte_array_append_length_coded_binary`, the bytes appended. -/
def lenenc (n : Nat) : Bytes :=
  if n < 251 then [byte n]
  else if n < 0x10000 then 252#8 :: le 2 n
  else if n < 0x1000000 then 253#8 :: le 3 n
  else 254#8 :: le 8 n

/-- src/protocol/data_buffer.cpp L294-319: `pack_length_coded_string`. -/
def Buf.packStr (b : Buf) (s : Bytes) (isNull : Bool) : Option Buf :=
  if isNull then b.append [0xfb#8]
  else if s.length = 0 then b.append [0#8]
  else (b.append (lenenc s.length)).bind fun b' => b'.append s

/-- src/protocol/data_buffer.cpp L321-347: `network_queue_send_append` with the data given. -/
def Buf.sendAppend (b : Buf) (d : Bytes) (pid : Nat) : Option Buf :=
  if d.length = 0 then none
  else (b.append (le 3 d.length ++ [byte pid])).bind fun b' => b'.append d

/-! ## Values in text rows -/

/-- Result of a serialization into a bounded area: done, or the room it needs (`STMPS_NEED_RESIZE`). -/
inductive Ser where
  | ok (d : Bytes)
  | resize (len : Nat)
deriving DecidableEq, Repr

/-- src/common/common.cpp L249-253: counting the digits. -/
def digitCount (n : Nat) : Nat := if n = 0 then 0 else digitCount (n / 10) + 1

/-- src/common/common.cpp L260-264: the digits, written from the last to the first. -/
def digitFill (n : Nat) (acc : Bytes) : Bytes :=
  if n = 0 then acc else digitFill (n / 10) (byte (0x30 + n % 10) :: acc)

/-- The literal of src/common/common.cpp L237. -/
def minText : Bytes :=
  [0x2d#8, 0x39#8, 0x32#8, 0x32#8, 0x33#8, 0x33#8, 0x37#8, 0x32#8, 0x30#8, 0x33#8, 0x36#8, 0x38#8, 0x35#8, 0x34#8, 0x37#8,
    0x37#8, 0x35#8, 0x38#8, 0x30#8, 0x38#8]

/-- src/common/common.cpp L223-268: `to_string(int64_t, char*, size_t, size_t&)`. -/
def serInt (x : Int) (room : Nat) : Ser :=
  if x = 0 then (if room < 1 then .resize 1 else .ok [0x30#8])
  else if x = -9223372036854775808 then (if room < 20 then .resize 20 else .ok minText)
  else
    let sign : Bytes := if x < 0 then [0x2d#8] else []
    let len := digitCount x.natAbs + sign.length
    if room < len then .resize len else .ok (sign ++ digitFill x.natAbs [])

/-- src/common/common.cpp L282-307: `to_string(uint64_t, char*, size_t, size_t&)`. -/
def serUint (n : Nat) (room : Nat) : Ser :=
  if n = 0 then (if room < 1 then .resize 1 else .ok [0x30#8])
  else if room < digitCount n then .resize (digitCount n) else .ok (digitFill n [])

/-- One length byte in front of the text: `buf[0] = body_len & 0xff`, `len = body_len + 1`. -/
def Ser.counted : Ser → Ser
  | .ok d => .ok (byte d.length :: d)
  | .resize n => .resize (n + 1)

/-- What the text of a value depends on besides the value: `float_to_string` and `double_to_string` with the precision of
the column, and the precision of a DATETIME (src/common/parser.cpp, `float_precision_len`). -/
structure Fmt where
  float : EV → Bytes
  prec : EV → Int

/-- src/common/expr_value.cpp L21-110: `serialize_to_mysql_text_packet` into `room` bytes. -/
def serialize (F : Fmt) (v : EV) (room : Nat) : Ser :=
  if room < 1 then .resize 1
  else match v.ty with
    | .bool | .int8 | .int16 | .int32 | .int64 => (serInt ((getInt v).getD 0) (room - 1)).counted
    | .uint8 | .uint16 | .uint32 | .uint64 => (serUint ((getInt v).getD 0).toNat (room - 1)).counted
    | .float | .double =>
      if room < (F.float v).length + 1 then .resize ((F.float v).length + 1) else .ok (byte (F.float v).length :: F.float v)
    | _ => .ok [0xfb#8]

/-- src/common/datetime.cpp L101-115: `timestamp_to_str`. -/
def timestampText (ts : Nat) : Bytes :=
  if ts = 0 then Datetime.secText ⟨0, 0, 0, 0, 0, 0, 0⟩ else Datetime.secText (Datetime.localtime ts 8).fields

/-- include/common/expr_value.h L744-751: `get_string` of the date types. -/
def dateString (F : Fmt) (v : EV) : Bytes :=
  match v.ty with
  | .datetime => Datetime.toText v.u.toNat (F.prec v)
  | .timestamp => timestampText (v.u.setWidth 32).toNat
  | .date => Datetime.dateText (v.u.setWidth 32).toNat
  | .time => Datetime.timeText (v.sget 32)
  | _ => []

/-- include/common/type_utils.h L259-271: `is_string` (HLL, BITMAP and TDIGEST are not modelled). -/
def isStr (t : VTy) : Bool := t == .string || t == .hex || t == .json

/-- src/protocol/data_buffer.cpp L119-151: `append_text_value`.  The loop that enlarges the buffer and starts again runs at
most `fuel` times here; `C33_text_value` shows that three rounds are enough, and that more make no difference. -/
def Buf.appendText (F : Fmt) (b : Buf) (v : EV) : Nat → Option Buf
  | 0 => none
  | fuel + 1 =>
    if isStr v.ty then b.packStr v.s false
    else if v.ty = .datetime ∨ v.ty = .timestamp ∨ v.ty = .date ∨ v.ty = .time then b.packStr (dateString F v) false
    else if b.cap < b.data.length then none
    else match serialize F v (b.cap - b.data.length) with
      | .ok d => some { b with data := b.data ++ d }
      | .resize len => (b.room len).bind fun b' => b'.appendText F v fuel

/-! ## Packets -/

/-- include/protocol/mysql_wrapper.h L56: `PACKET_LEN_MAX`. -/
def packetMax : Nat := 16777215

/-- src/exec/packet_node.cpp L1397-1417 and L1481-1501: the length of a row is stored in its header; a row of 16 MB or more
is cut, a header being inserted in front of each further piece.  `h0` is the first byte of an inserted header before its
length is stored (1 in text rows, 0 in binary rows). -/
def frame (h0 : Byte) (b : Buf) (start len pid : Nat) : Option (Buf × Nat) :=
  if packetMax ≤ len ∧ 0 < packetMax then
    (({ b with data := writeAt b.data start (le 3 packetMax) } : Buf).insert (start + packetMax + 4)
      [h0, 0#8, 0#8, byte (pid + 1)]).bind fun b' => frame h0 b' (start + packetMax + 4) (len - packetMax) (pid + 1)
  else some ({ b with data := writeAt b.data start (le 3 len) }, pid)
termination_by len

/-- Appending the values one after the other; the first failure ends the packing. -/
def appendTexts (F : Fmt) : List EV → Buf → Option Buf
  | [], b => some b
  | v :: vs, b => (b.appendText F v 3).bind (appendTexts F vs)

/-- src/exec/packet_node.cpp L1361-1418: `pack_text_row`; the buffer and the sequence number of the last packet. -/
def packTextRow (F : Fmt) (b : Buf) (pid : Nat) (vs : List EV) : Option (Buf × Nat) :=
  (b.append [1#8, 0#8, 0#8, byte (pid + 1)]).bind fun b1 =>
    (appendTexts F vs b1).bind fun b2 =>
      frame 1#8 b2 b.data.length (b2.data.length - b.data.length - 4) (pid + 1)

/-- include/common/type_utils.h L24-56: `MysqlType`, the codes the server handles. -/
def tTiny := 1
def tShort := 2
def tLong := 3
def tFloat := 4
def tDouble := 5
def tNull := 6
def tTimestamp := 7
def tLonglong := 8
def tInt24 := 9
def tDate := 10
def tTime := 11
def tDatetime := 12
def tJson := 245
def tBlob := 252
def tVarString := 253
def tString := 254

/-- include/common/type_utils.h L333-372: `to_mysql_type`. -/
def mysqlType : VTy → Nat
  | .bool | .int8 | .uint8 => tTiny
  | .int16 | .uint16 => tShort
  | .int32 | .uint32 => tLong
  | .int64 | .uint64 => tLonglong
  | .float => tFloat
  | .double => tDouble
  | .datetime => tDatetime
  | .date => tDate
  | .time => tTime
  | .timestamp => tTimestamp
  | .json => tJson
  | _ => tString

/-- include/common/type_utils.h L83-112: `DateTime`. -/
structure Clock where
  year : Nat := 0
  month : Nat := 0
  day : Nat := 0
  hour : Nat := 0
  minute : Nat := 0
  second : Nat := 0
  micro : Nat := 0
  neg : Nat := 0
deriving DecidableEq, Repr

/-- include/common/type_utils.h L93-103: `datetype_length`. -/
def Clock.dateLen (c : Clock) : Nat :=
  if c.year = 0 ∧ c.month = 0 ∧ c.day = 0 ∧ c.hour = 0 ∧ c.minute = 0 ∧ c.second = 0 ∧ c.micro = 0 then 0
  else if c.hour = 0 ∧ c.minute = 0 ∧ c.second = 0 ∧ c.micro = 0 then 4
  else if c.micro = 0 then 7
  else 11

/-- include/common/type_utils.h L104-111: `timetype_length`; the number of days does not count. -/
def Clock.timeLen (c : Clock) : Nat :=
  if c.hour = 0 ∧ c.minute = 0 ∧ c.second = 0 ∧ c.micro = 0 then 0
  else if c.micro = 0 then 8
  else 12

/-- src/common/datetime.cpp L375-408: `datetime_to_time_struct`; the microseconds of a DATETIME are not copied. -/
def timeStruct (dt : Nat) (type : Nat) : Clock :=
  if type = tTime then
    let t : Int := (BitVec.ofNat 32 dt).toInt
    { hour := Datetime.timeHour t % 24, day := Datetime.timeHour t / 24, minute := Datetime.timeMin t,
      second := Datetime.timeSec t, neg := if t < 0 then 1 else 0 }
  else if type = tTimestamp then
    let f := (Datetime.localtime dt 8).fields
    { year := f.year, month := f.month, day := f.day, hour := f.hour, minute := f.minute, second := f.second }
  else if type = tDatetime then
    let f := Datetime.unpack dt
    { year := f.year, month := f.month, day := f.day, hour := f.hour, minute := f.minute, second := f.second }
  else {}

/-- src/protocol/data_buffer.cpp L153-210: `datetime_to_buf`, the bytes sent after the length. -/
def datetimeBuf (dt : Nat) (type : Nat) : Bytes :=
  if type = tDate then
    let ym := (dt % 2 ^ 32) >>> 5 &&& 0x1FFFF
    le 2 (ym / 13) ++ [byte (ym % 13), byte (dt % 2 ^ 32 &&& 0x1F)]
  else if type = tTimestamp ∨ type = tDatetime then
    let c := timeStruct dt type
    if c.dateLen = 0 then []
    else le 2 c.year ++ [byte c.month, byte c.day] ++
      (if c.dateLen = 4 then []
       else [byte c.hour, byte c.minute, byte c.second] ++ (if c.dateLen = 7 then [] else le 4 c.micro))
  else if type = tTime then
    let c := timeStruct dt type
    if c.timeLen = 0 then []
    else [byte (if c.neg = 0 then 0 else 1)] ++ le 4 c.day ++ [byte c.hour, byte c.minute, byte c.second] ++
      (if c.timeLen = 8 then [] else le 4 c.micro)
  else []

/-- `null_map[i / 8] |= 1 << (i % 8)`. -/
def setBit (m : Bytes) (i : Nat) : Bytes := m.set (i / 8) ((m.getD (i / 8) 0#8) ||| byte (1 <<< (i % 8)))

/-- `get_numberic<uint64_t>()` of a value (integer and date types; two's complement for negative numbers). -/
def num64 (v : EV) : Nat := (BitVec.ofInt 64 ((getInt v).getD 0)).toNat

/-- src/protocol/data_buffer.cpp L212-261: `append_binary_value`, with the bitmap it updates.  `get_numberic<float>` of a
FLOAT and `get_numberic<double>` of a DOUBLE are the value itself. -/
def Buf.appendBinary (b : Buf) (v : EV) (type : Nat) (m : Bytes) (idx off : Nat) : Option (Buf × Bytes) :=
  if v.isNull then some (b, setBit m (idx + off))
  else if isStr v.ty then (b.packStr v.s false).map fun b' => (b', m)
  else if type = tLonglong then (b.append (le 8 (num64 v))).map fun b' => (b', m)
  else if type = tDouble then (b.append (le 8 v.u.toNat)).map fun b' => (b', m)
  else if type = tLong ∨ type = tInt24 then (b.append (le 4 (num64 v))).map fun b' => (b', m)
  else if type = tFloat then (b.append (le 4 (v.u.setWidth 32).toNat)).map fun b' => (b', m)
  else if type = tShort then (b.append (le 2 (num64 v))).map fun b' => (b', m)
  else if type = tTiny then (b.append (le 1 (num64 v))).map fun b' => (b', m)
  else if type = tDate ∨ type = tTimestamp ∨ type = tDatetime ∨ type = tTime then
    let d := datetimeBuf (num64 v) type
    ((b.append [byte d.length]).bind fun b' => b'.append d).map fun b' => (b', m)
  else none

/-- The values of a binary row, each with the type of its column. -/
def appendBinaries : List (EV × Nat) → Nat → Buf → Bytes → Option (Buf × Bytes)
  | [], _, b, m => some (b, m)
  | (v, t) :: vs, idx, b, m => (b.appendBinary v t m idx 2).bind fun r => appendBinaries vs (idx + 1) r.1 r.2

/-- src/exec/packet_node.cpp L1420-1502: `pack_binary_row`. -/
def packBinaryRow (b : Buf) (pid : Nat) (vs : List (EV × Nat)) : Option (Buf × Nat) :=
  (b.append [1#8, 0#8, 0#8, byte (pid + 1)]).bind fun b1 =>
    (b1.append [0#8]).bind fun b2 =>
      (b2.append (List.replicate ((vs.length + 7 + 2) / 8) 0#8)).bind fun b3 =>
        (appendBinaries vs 0 b3 (List.replicate ((vs.length + 7 + 2) / 8) 0#8)).bind fun r =>
          frame 0#8 { r.1 with data := writeAt r.1.data b2.data.length r.2 } b.data.length
            (r.1.data.length - b.data.length - 4) (pid + 1)

/-- include/common/type_utils.h L66-81: `ResultField`. -/
structure Field where
  catalog : Bytes
  db : Bytes
  table : Bytes
  orgTable : Bytes
  name : Bytes
  orgName : Bytes
  charset : BitVec 16
  length : BitVec 32
  type : BitVec 8
  flags : BitVec 16
  decimals : BitVec 8
deriving DecidableEq, Repr

/-- src/exec/packet_node.cpp L58-84: `PacketNode::expr_optimize` completes the description of a column from the type of its
expression; `binary` says that the expression has a string type and the BINARY or BLOB flag. -/
def Field.typed (f : Field) (ty : VTy) (binary : Bool) : Field :=
  let f1 : Field := { f with type := BitVec.ofNat 8 (mysqlType ty), flags := 1#16 }
  let f2 : Field := if f1.type = BitVec.ofNat 8 tString then { f1 with length := 255#32 } else f1
  let f3 : Field := if ty.isUint then { f2 with flags := f2.flags ||| 32#16 } else f2
  if binary ∧ isStr ty then
    { f3 with type := BitVec.ofNat 8 tBlob, charset := 0x3f#16, flags := f3.flags ||| 128#16 ||| 16#16 }
  else f3

/-- Appending several length-coded strings. -/
def packStrs : List Bytes → Buf → Option Buf
  | [], b => some b
  | s :: ss, b => (b.packStr s false).bind (packStrs ss)

/-- src/protocol/mysql_wrapper.cpp L338-454: `make_field_packet`. -/
def fieldPacket (b : Buf) (f : Field) (pid : Nat) : Option Buf :=
  (b.append [1#8, 0#8, 0#8]).bind fun b1 =>
    (b1.append [byte pid]).bind fun b2 =>
      (packStrs [f.catalog, f.db, f.table, f.orgTable, f.name, f.orgName] b2).bind fun b3 =>
        (b3.append [0x0c#8]).bind fun b4 =>
          (b4.append (le 2 f.charset.toNat)).bind fun b5 =>
            (b5.append (le 4 f.length.toNat)).bind fun b6 =>
              (b6.append [f.type]).bind fun b7 =>
                (b7.append (le 2 f.flags.toNat)).bind fun b8 =>
                  (b8.append [f.decimals]).bind fun b9 =>
                    (b9.append [0#8, 0#8]).map fun b10 =>
                      { b10 with data := writeAt b10.data b.data.length (le 3 (b10.data.length - b.data.length - 4)) }

/-- src/protocol/mysql_wrapper.cpp L635-650: `make_eof_packet`. -/
def eofPacket (b : Buf) (pid : Nat) : Option Buf :=
  (b.append [5#8, 0#8, 0#8, byte pid]).bind fun b1 => b1.append [0xfe#8, 0#8, 0#8, 2#8, 0#8]

/-- src/exec/packet_node.cpp L1288-1309: `pack_head`. -/
def packHead (b : Buf) (pid n : Nat) : Option (Buf × Nat) :=
  (b.append [1#8, 0#8, 0#8, 1#8]).bind fun b1 =>
    if n = 0 then none
    else (b1.append (lenenc n)).map fun b2 =>
      ({ b2 with data := writeAt b2.data b.data.length (le 3 (b2.data.length - b.data.length - 4) ++ [byte (pid + 1)]) },
        pid + 1)

/-- src/exec/packet_node.cpp L1311-1317: `pack_fields`.  (The code ignores a failure of `make_field_packet`; here it ends
the packing.) -/
def packFields : List Field → Buf → Nat → Option (Buf × Nat)
  | [], b, pid => (eofPacket b (pid + 1)).map fun b' => (b', pid + 1)
  | f :: fs, b, pid => (fieldPacket b f (pid + 1)).bind fun b' => packFields fs b' (pid + 1)

/-- The rows of a result, each packed by `row`. -/
def packRows (row : Buf → Nat → α → Option (Buf × Nat)) : List α → Buf → Nat → Option (Buf × Nat)
  | [], b, pid => some (b, pid)
  | r :: rs, b, pid => (row b pid r).bind fun p => packRows row rs p.1 p.2

/-- src/exec/packet_node.cpp L1193-1234 and L1503-1507: head, fields, rows, end. -/
def packResult (row : Buf → Nat → α → Option (Buf × Nat)) (fs : List Field) (rows : List α) (b : Buf) (pid : Nat) :
    Option (Buf × Nat) :=
  (packHead b pid fs.length).bind fun p =>
    (packFields fs p.1 p.2).bind fun q =>
      (packRows row rows q.1 q.2).bind fun r =>
        (eofPacket r.1 (r.2 + 1)).map fun b' => (b', r.2 + 1)

/-- The cells of `make_row_packet`: an empty string is written as NULL. -/
def showCells : List Bytes → Buf → Option Buf
  | [], b => some b
  | s :: ss, b =>
    (if s.length = 0 then b.append [0xfb#8] else (b.append (lenenc s.length)).bind fun b' => b'.append s).bind
      (showCells ss)

/-- src/protocol/mysql_wrapper.cpp L455-504: `make_row_packet`, the rows of SHOW commands. -/
def showRow (b : Buf) (pid : Nat) (row : List Bytes) : Option (Buf × Nat) :=
  (b.append [1#8, 0#8, 0#8, byte (pid + 1)]).bind fun b1 =>
    (showCells row b1).map fun b2 =>
      ({ b2 with data := writeAt b2.data b.data.length (le 3 (b2.data.length - b.data.length - 4)) }, pid + 1)

/-- src/exec/packet_node.cpp L1250-1281: `pack_ok` into an empty buffer; the number of affected rows is an `int`. -/
def okBody (affected : Int) (insertId : Nat) (inTxn autocommit : Bool) : Bytes :=
  lenenc 0 ++ lenenc (affected % 2 ^ 64).toNat ++ lenenc insertId ++
    le 2 ((if inTxn then 1 else 0) ||| (if autocommit then 2 else 0)) ++ le 2 0

/-- src/exec/packet_node.cpp L1280. -/
def packOk (affected : Int) (insertId : Nat) (inTxn autocommit : Bool) (cap pid : Nat) : Option (Buf × Nat) :=
  (({ data := [], cap := cap } : Buf).sendAppend (okBody affected insertId inTxn autocommit) (pid + 1)).map
    fun b => (b, pid + 1)

/-! ## Reading packets -/

/-- src/protocol/state_machine.cpp L694-771 and include/session/network_socket.h: the part of the socket used to read a
message: the first `_size` bytes of `self_buf`, `header_read_len`, `packet_read_len`, `current_packet_len`, `packet_len`,
`packet_id`, `has_multi_packet`. -/
structure Sock where
  buf : Bytes := []
  hread : Nat := 0
  pread : Nat := 0
  cur : Nat := 0
  plen : Nat := 0
  pid : Nat := 0
  multi : Bool := false
deriving DecidableEq, Repr

/-- src/protocol/state_machine.cpp L719-732: the header is complete. -/
def Sock.header (s : Sock) : Sock :=
  let cur := (s.buf.getD 0 0#8).toNat ||| (s.buf.getD 1 0#8).toNat <<< 8 ||| (s.buf.getD 2 0#8).toNat <<< 16
  { s with cur := cur, plen := s.plen + cur, pid := (s.buf.getD 3 0#8).toNat,
           buf := writeAt s.buf 0 [0#8, 0#8, 0#8, 0#8], multi := decide (cur = packetMax) }

/-- src/protocol/state_machine.cpp L748-768: the body is complete when `packet_read_len` has reached the length; the loop
goes on with the next packet of the message if this one had the maximal length.  The flag says that the message is
complete. -/
def Sock.body (s : Sock) : Sock × Bool :=
  if s.cur ≤ s.pread then ({ s with pread := 0, hread := 0 }, !s.multi) else (s, false)

/-- One `read(2)` that delivers `k` bytes (none: `EAGAIN`), never more than asked for.  src/protocol/mysql_wrapper.cpp
L505-578 (`real_read_header`, `real_read`), src/protocol/state_machine.cpp L694-771 (`_read_packet_header`,
`_read_packet`).  Returning `RET_WAIT_FOR_EVENT` and entering `_read_packet` again continues at the same place, so a wait
needs no state of its own.  A body of length zero is complete without a `read`. -/
def Sock.step (s : Sock) (net : Bytes) (k : Nat) : Sock × Bytes × Bool :=
  if s.hread = 4 then
    let d := net.take (min k (s.cur - s.pread))
    let r := ({ s with buf := s.buf ++ d, pread := s.pread + d.length } : Sock).body
    (r.1, net.drop d.length, r.2)
  else
    let d := net.take (min k (4 - s.hread))
    let s' : Sock := { s with buf := writeAt s.buf s.hread d, hread := s.hread + d.length }
    if s'.hread < 4 then (s', net.drop d.length, false)
    else if s'.header.cur = 0 then (s'.header.body.1, net.drop d.length, s'.header.body.2)
    else (s'.header, net.drop d.length, false)

/-- A sequence of reads, up to the end of the message: the socket and what is left of the network stream, or `none` when
the reads ran out first. -/
def Sock.run : Sock → Bytes → List Nat → Option (Sock × Bytes)
  | _, _, [] => none
  | s, net, k :: ks =>
    let r := s.step net k
    if r.2.2 then some (r.1, r.2.1) else Sock.run r.1 r.2.1 ks

/-! ## COM_STMT_EXECUTE -/

/-- Result of reading from a packet: a value and the next offset, a refusal, or an access outside the packet (undefined
behaviour). -/
inductive Out (α : Type) where
  | ok (a : α)
  | err
  | outside
deriving DecidableEq, Repr

def Out.bind {α β : Type} : Out α → (α → Out β) → Out β
  | .ok a, f => f a
  | .err, _ => .err
  | .outside, _ => .outside

/-- src/protocol/mysql_wrapper.cpp L129-144: `protocol_get_char`. -/
def getChar (d : Bytes) (off : Nat) : Out (Byte × Nat) :=
  if d.length < off + 1 then .err else .ok (d.getD off 0#8, off + 1)

/-- The sum `ret_int += data[offset + i] << (i * 8)`. -/
def leSum : Bytes → Nat
  | [] => 0
  | c :: l => c.toNat + 256 * leSum l

/-- src/protocol/mysql_wrapper.cpp L146-167: `protocol_get_length_fixed_int`. -/
def getFixed (d : Bytes) (off k : Nat) : Out (Nat × Nat) :=
  if d.length < off + k then .err else .ok (leSum ((d.drop off).take k), off + k)

/-- src/protocol/mysql_wrapper.cpp L776-819: `protocol_get_length_coded_int`; `none` for NULL. -/
def getLenenc (d : Bytes) (off : Nat) : Out (Option Nat × Nat) :=
  if d.length < off + 1 then .err
  else
    let c := (d.getD off 0#8).toNat
    if 254 < c then .err
    else if c = 251 then .ok (none, off + 1)
    else if c ≤ 250 then .ok (some c, off + 1)
    else (getFixed d (off + 1) (if c = 252 then 2 else if c = 253 then 3 else 8)).bind fun r => .ok (some r.1, r.2)

/-- The literal built from a parameter (`pb::ExprNode`): node type, column type and value. -/
inductive Lit where
  | null
  | str (s : Bytes)
  | int (ty : VTy) (val : Nat)
  | f32 (bits : Nat)
  | f64 (bits : Nat)
  | datetime (dt : Nat)
  | time (t : Int)
deriving DecidableEq, Repr

/-- src/common/datetime.cpp L561-578: `bin_time_to_datetime`.  The number of days is converted to `int`; an overflow of
`day * 24` wraps around here. -/
def timeOfClock (c : Clock) : Int :=
  if 2 ^ 31 ≤ c.day % 2 ^ 32 ∨ c.minute > 59 ∨ c.second > 59 then 0
  else Datetime.packTime (decide (c.neg ≠ 0)) ((c.day % 2 ^ 32 * 24 + c.hour) % 2 ^ 32) c.minute c.second

/-- src/common/datetime.cpp L268-302: `bin_date_to_datetime`. -/
def datetimeOfClock (c : Clock) : Nat :=
  Datetime.ofBinary ⟨c.year, c.month, c.day, c.hour, c.minute, c.second, c.micro⟩

/-- The fields read in turn: each entry is the width of a field. -/
def getFields (d : Bytes) : List Nat → Nat → Out (List Nat × Nat)
  | [], off => .ok ([], off)
  | k :: ks, off => (getFixed d off k).bind fun r => (getFields d ks r.2).bind fun q => .ok (r.1 :: q.1, q.2)

/-- src/protocol/mysql_wrapper.cpp L955-991: the fields of a date, in the order they are sent; those not sent are zero. -/
def clockOfDate (l : List Nat) : Clock :=
  ⟨l.getD 0 0, l.getD 1 0, l.getD 2 0, l.getD 3 0, l.getD 4 0, l.getD 5 0, l.getD 6 0, 0⟩

/-- src/protocol/mysql_wrapper.cpp L1030-1055: the sign and the fields of a time. -/
def clockOfTime (neg : Nat) (l : List Nat) : Clock :=
  ⟨0, 0, l.getD 0 0, l.getD 1 0, l.getD 2 0, l.getD 3 0, l.getD 4 0, neg⟩

/-- src/protocol/mysql_wrapper.cpp L824-1080: `decode_binary_protocol_value`. -/
def decodeValue (d : Bytes) (off : Nat) (type : Nat) (unsigned : Bool) : Out (Lit × Nat) :=
  if type = tString ∨ type = tBlob ∨ type = tVarString then
    (getLenenc d off).bind fun r =>
      match r.1 with
      | none => .err
      | some len =>
        if d.length < (r.2 + len) % 2 ^ 64 then .err
        else if d.length < r.2 + len then .outside
        else .ok (.str ((d.drop r.2).take len), r.2 + len)
  else if type = tTiny then
    (getFixed d off 1).bind fun r => .ok (.int (if unsigned then .uint8 else .int8) r.1, r.2)
  else if type = tShort then
    (getFixed d off 2).bind fun r => .ok (.int (if unsigned then .uint16 else .int16) r.1, r.2)
  else if type = tLong ∨ type = tInt24 then
    (getFixed d off 4).bind fun r => .ok (.int (if unsigned then .uint32 else .int32) r.1, r.2)
  else if type = tLonglong then
    (getFixed d off 8).bind fun r => .ok (.int (if unsigned then .uint64 else .int64) r.1, r.2)
  else if type = tFloat then (getFixed d off 4).bind fun r => .ok (.f32 r.1, r.2)
  else if type = tDouble then (getFixed d off 8).bind fun r => .ok (.f64 r.1, r.2)
  else if type = tDate ∨ type = tDatetime ∨ type = tTimestamp then
    (getFixed d off 1).bind fun l =>
      if l.1 = 0 then .ok (.datetime (datetimeOfClock {}), l.2)
      else if l.1 = 4 then
        (getFields d [2, 1, 1] l.2).bind fun r => .ok (.datetime (datetimeOfClock (clockOfDate r.1)), r.2)
      else if l.1 = 7 then
        (getFields d [2, 1, 1, 1, 1, 1] l.2).bind fun r => .ok (.datetime (datetimeOfClock (clockOfDate r.1)), r.2)
      else if l.1 = 11 then
        (getFields d [2, 1, 1, 1, 1, 1, 4] l.2).bind fun r => .ok (.datetime (datetimeOfClock (clockOfDate r.1)), r.2)
      else .err
  else if type = tTime then
    (getFixed d off 1).bind fun l =>
      (getFixed d l.2 1).bind fun g =>
        if l.1 = 8 then
          (getFields d [4, 1, 1, 1] g.2).bind fun r => .ok (.time (timeOfClock (clockOfTime g.1 r.1)), r.2)
        else if l.1 = 12 then
          (getFields d [4, 1, 1, 1, 4] g.2).bind fun r => .ok (.time (timeOfClock (clockOfTime g.1 r.1)), r.2)
        else if l.1 = 0 then .ok (.time (timeOfClock { neg := g.1 }), g.2)
        else .err
  else .err

/-- include/logical_plan/query_context.h: what a prepared statement keeps: the number of placeholders, the types bound by
the last execution, the data sent with COM_STMT_SEND_LONG_DATA. -/
structure Stmt where
  n : Nat
  types : List (Nat × Bool)
  long : Nat → Option Bytes

/-- src/protocol/state_machine.cpp L990-1003: the types, read without a check of the length. -/
def readTypes (d : Bytes) (off : Nat) : Nat → Out (List (Nat × Bool))
  | 0 => .ok []
  | n + 1 =>
    if d.length < off + 2 then .outside
    else (readTypes d (off + 2) n).bind fun r =>
      .ok (((d.getD off 0#8).toNat, d.getD (off + 1) 0#8 == 0x80#8) :: r)

/-- src/protocol/state_machine.cpp L1010-1034: the parameters from number `idx` on; `m` is the offset of the bitmap. -/
def readParams (d : Bytes) (S : Stmt) (types : List (Nat × Bool)) (m : Nat) : Nat → Nat → Nat → Out (List Lit)
  | 0, _, _ => .ok []
  | k + 1, idx, off =>
    match S.long idx with
    | some s => (readParams d S types m k (idx + 1) off).bind fun r => .ok (.str s :: r)
    | none =>
      match types[idx]? with
      | none => .outside
      | some t =>
        if (d.getD (m + idx / 8) 0#8).toNat.testBit (idx % 8) ∨ t.1 = tNull then
          (readParams d S types m k (idx + 1) off).bind fun r => .ok (.null :: r)
        else (decodeValue d off t.1 t.2).bind fun v =>
          (readParams d S types m k (idx + 1) v.2).bind fun r => .ok (v.1 :: r)

/-- src/protocol/state_machine.cpp L932-1038: `_query_read_stmt_execute` on `self_buf` (header, command, arguments): the
statement executed, the types it keeps, the parameters. -/
def readExecute (find : Nat → Option Stmt) (d : Bytes) : Out (Nat × List (Nat × Bool) × List Lit) :=
  (getFixed d 5 4).bind fun id =>
    match find id.1 with
    | none => .err
    | some S =>
      (getChar d id.2).bind fun flags =>
        if flags.1 ≠ 0#8 then .err
        else (getFixed d flags.2 4).bind fun it =>
          if S.n = 0 then .ok (id.1, S.types, [])
          else (getChar d (it.2 + (S.n + 7) / 8)).bind fun bound =>
            (if bound.1 = 1#8 then readTypes d bound.2 S.n else .ok S.types).bind fun types =>
              if types.length = 0 then .err
              else (readParams d S types it.2 S.n 0 (if bound.1 = 1#8 then bound.2 + 2 * S.n else bound.2)).bind fun ps =>
                .ok (id.1, types, ps)

/-- include/expr/literal.h L42-66, L212-217: the value of a literal, `_value.cast_to(_col_type)`.  `f32` and `f64` keep the
bits (the conversion of a FLOAT parameter to double and back is not modelled). -/
def Lit.value : Lit → Option EV
  | .null => some ⟨.null, 0, []⟩
  | .str s => some ⟨.string, 0, s⟩
  | .int ty n => castTo ⟨.int64, BitVec.ofNat 64 n, []⟩ ty
  | .f32 n => some ⟨.float, BitVec.ofNat 64 n, []⟩
  | .f64 n => some ⟨.double, BitVec.ofNat 64 n, []⟩
  | .datetime n => some ⟨.datetime, BitVec.ofNat 64 n, []⟩
  | .time t => some ⟨.time, putLow 32 0 t, []⟩

end BaikalDB.Wire
