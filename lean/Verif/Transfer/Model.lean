import Verif.KeyEnc.Model

/-!
# Sending the snapshot of a region to another peer

The leader presents its rows and meta keys to braft as two files. Nothing is written to disk for
it: `RocksdbReaderAdaptor` makes the bytes of such a file while it is read, from an iterator over a
RocksDB snapshot, and `SstWriterAdaptor` on the other side turns each packet into key-value pairs
of an sst file. The code is src/raft/rocksdb_file_system_adaptor.cpp and its header.

braft is not part of the repository. What the model assumes of it: the receiver asks for bytes from
the offset it has reached and asks again if it gets no answer; an answer that is shorter than what
was asked for, or that ends where the file ends (`size()`), is the last one.

Not modelled: a shutdown of the region, errors of RocksDB, the check for one reader at a time,
files that are plain files (`PosixFileAdaptor`).
-/

namespace BaikalDB.Transfer

open BaikalDB.KeyEnc (memLE loadLE)

/-- A key and a value. -/
abbrev Rec := Bytes × Bytes

/-- `RocksdbReaderAdaptor::serialize_to_iobuf` (rocksdb_file_system_adaptor.h:119-125): the size as
it is in memory, then the bytes. -/
def putSlice (s : Bytes) : Bytes := memLE 8 (BitVec.ofNat 64 s.length) ++ s

/-- A key and a value, one after the other (rocksdb_file_system_adaptor.cpp:227-235). -/
def putRec (r : Rec) : Bytes := putSlice r.1 ++ putSlice r.2

/-- `MetaWriter::meta_info_prefix` and one byte for the kind of key
(src/store/meta_writer.cpp:25, 30-75). -/
def metaKey (region : BitVec 64) (kind : Byte) : Bytes :=
  KeyEnc.appendI64 [0x01#8] region ++ [kind]

/-- `MetaWriter::transcation_log_index_key` (src/store/meta_writer.cpp:732-739). -/
def beginKey (region : BitVec 64) (t : Nat) : Bytes :=
  KeyEnc.appendU64 (metaKey region 0x03#8) (BitVec.ofNat 64 t)

/-- `MetaWriter::transcation_pb_key` (src/store/meta_writer.cpp:755-763). -/
def requestKey (region : BitVec 64) (t i : Nat) : Bytes :=
  KeyEnc.appendI64 (KeyEnc.appendU64 (metaKey region 0x04#8) (BitVec.ofNat 64 t))
    (BitVec.ofNat 64 i)

/-- What one position of the iterator is sent as: some pairs, or nothing at all because the log
entries of a transaction could not be read. -/
inductive Item where
  | send (rs : List Rec)
  | lost
  deriving DecidableEq, Repr

/-- The meta keys of a region, as far as the reader tells them apart
(rocksdb_file_system_adaptor.cpp:205-220). -/
inductive MetaKv where
  /-- a request of a transaction (`transcation_pb_key`) -/
  | request (r : Rec)
  /-- the mark before a commit (`pre_commit_key`) -/
  | mark (r : Rec)
  /-- the first entry `b` of the open transaction `t` (`transcation_log_index_key`) -/
  | begin (t b : Nat)
  /-- any other -/
  | plain (r : Rec)
  deriving DecidableEq, Repr

/-- The key itself. -/
def MetaKv.key (region : BitVec 64) : MetaKv → Bytes
  | .request r => r.1
  | .mark r => r.1
  | .begin t _ => beginKey region t
  | .plain r => r.1

/-- One meta key (rocksdb_file_system_adaptor.cpp:205-236). `entries t b` are the indexes and
requests that `LogEntryReader::read_log_entry` finds, `key t i` is `transcation_pb_key`. -/
def metaItem (entries : Nat → Nat → Option (List (Nat × Bytes))) (key : Nat → Nat → Bytes) :
    MetaKv → Item
  | .request _ => .send []
  | .mark _ => .send []
  | .begin t b =>
    match entries t b with
    | none => .lost
    | some es => .send (es.map fun e => (key t e.1, e.2))
  | .plain r => .send [r]

/-- The rows: every pair as it is. -/
def dataItem (r : Rec) : Item := .send [r]

/-- `IteratorContext` (rocksdb_file_system_adaptor.h:37-52): what the iterator still has before it,
`offset`, `done`, `need_copy_data`. -/
structure Ctx where
  rest : List Item
  offset : Nat
  done : Bool
  needCopy : Bool
  deriving DecidableEq, Repr

/-- `RocksdbReaderAdaptor`: its context, `_last_offset` and `_last_package`. -/
structure Reader where
  ctx : Ctx
  lastOffset : Nat
  lastPackage : Bytes
  deriving DecidableEq, Repr

/-- A reader that has just been opened (rocksdb_file_system_adaptor.cpp:625-752); closing one
drops its context, so that the next gets a new one (862-869). -/
def opened (src : List Item) (needCopy : Bool) : Reader := ⟨⟨src, 0, false, needCopy⟩, 0, []⟩

/-- The loop of `read` (rocksdb_file_system_adaptor.cpp:180-241): the bytes, what the iterator has
left, `done`. -/
def fill (size : Nat) : List Item → Nat → Bool → Bytes × List Item × Bool
  | [], count, done => if count < size then ([], [], true) else ([], [], done)
  | i :: is, count, done =>
    if count < size then
      match i with
      | .lost => fill size is count true
      | .send rs =>
        let b := rs.flatMap putRec
        let r := fill size is (count + b.length) done
        (b ++ r.1, r.2)
    else ([], i :: is, done)

/-- A request: offset, size, and whether the context has not been used for
`snapshot_timeout_min`. -/
structure Req where
  offset : Nat
  size : Nat
  late : Bool
  deriving DecidableEq, Repr

/-- The end of `read` (rocksdb_file_system_adaptor.cpp:170-251). -/
def readOn (r : Reader) (q : Req) : Option Bytes × Reader :=
  let f := fill q.size r.ctx.rest 0 r.ctx.done
  (some f.1, ⟨⟨f.2.1, r.ctx.offset + f.1.length, f.2.2, r.ctx.needCopy⟩, q.offset, f.1⟩)

/-- `RocksdbReaderAdaptor::read` (rocksdb_file_system_adaptor.cpp:116-251); `src` is what a new
iterator finds (`context_reset`, 76-114). -/
def read (src : List Item) (isMeta : Bool) (r : Reader) (q : Req) : Option Bytes × Reader :=
  if !isMeta && !r.ctx.needCopy then
    (some [], { r with ctx := { r.ctx with done := true } })
  else if r.ctx.offset < q.offset then (none, r)
  else if q.offset < r.ctx.offset then
    if r.lastOffset = q.offset then (some r.lastPackage, r)
    else if q.offset = 0 && q.late then
      readOn ⟨⟨src, 0, false, r.ctx.needCopy⟩, 0, r.lastPackage⟩ q
    else (none, r)
  else readOn r q

/-- `RocksdbReaderAdaptor::size` (rocksdb_file_system_adaptor.cpp:267-272). -/
def Reader.size (r : Reader) : Nat := if r.ctx.done then r.ctx.offset else 2 ^ 63 - 1

/-- The answer to a request: the bytes, and whether they are the last ones. This is braft's reading
of the file (`LocalDirReader::read_file_with_meta`), described at the top. -/
def serve (src : List Item) (isMeta : Bool) (r : Reader) (q : Req) :
    Option (Bytes × Bool) × Reader :=
  let a := read src isMeta r q
  (a.1.map fun b => (b, decide (b.length < q.size) || a.2.size == q.offset + q.size), a.2)

/-- The receiver: the packets so far, and whether it has got the last one. -/
structure Client where
  packets : List Bytes
  eof : Bool
  deriving DecidableEq, Repr

/-- The offset it has reached. -/
def Client.offset (c : Client) : Nat := c.packets.flatten.length

/-- What can happen: the receiver asks, and the answer arrives or not; or the leader gets some
other request (a late or doubled one), whose answer nobody waits for. -/
inductive Ev where
  | ask (size : Nat) (late arrives : Bool)
  | stray (q : Req)
  deriving DecidableEq, Repr

/-- One event. -/
def step (src : List Item) (isMeta : Bool) (s : Reader × Client) : Ev → Reader × Client
  | .ask size late arrives =>
    if s.2.eof then s
    else
      let a := serve src isMeta s.1 ⟨s.2.offset, size, late⟩
      (a.2, match a.1 with
        | some (b, e) => if arrives then ⟨s.2.packets ++ [b], e⟩ else s.2
        | none => s.2)
  | .stray q => ((serve src isMeta s.1 q).2, s.2)

/-- A transfer: it begins with a reader that has just been opened. -/
def transfer (src : List Item) (isMeta needCopy : Bool) (evs : List Ev) : Reader × Client :=
  evs.foldl (step src isMeta) (opened src needCopy, ⟨[], false⟩)

/-! ## The receiving side -/

/-- A size and as many bytes (`cutn`, `fetch`, `pop_front`;
rocksdb_file_system_adaptor.cpp:433-478). -/
def getSlice (b : Bytes) : Option (Bytes × Bytes) :=
  if b.length < 8 then none
  else
    let n := (loadLE 64 (b.take 8)).toNat
    let r := b.drop 8
    if r.length < n then none else some (r.take n, r.drop n)

/-- `SstWriterAdaptor::iobuf_to_sst` (rocksdb_file_system_adaptor.cpp:426-502), without the writing.
The fuel bounds the number of pairs. -/
def parse : Nat → Bytes → Option (List Rec)
  | _, [] => some []
  | 0, _ :: _ => none
  | n + 1, b =>
    match getSlice b with
    | none => none
    | some (k, b1) =>
      match getSlice b1 with
      | none => none
      | some (v, b2) => (parse n b2).map ((k, v) :: ·)

/-- `rocksdb::SstFileWriter::Put`: the keys of a file ascend. -/
def putKey (file : List Rec) (r : Rec) : Option (List Rec) :=
  match file.getLast? with
  | none => some (file ++ [r])
  | some l => if BLt l.1 r.1 then some (file ++ [r]) else none

/-- `SstWriterAdaptor`: the files that are finished and the one that is being written. -/
structure Writer where
  files : List (List Rec)
  cur : List Rec
  deriving DecidableEq, Repr

/-- `SstWriterAdaptor::finish_sst` (rocksdb_file_system_adaptor.cpp:386-411): an empty file is
deleted. -/
def Writer.finish (w : Writer) : Writer :=
  if w.cur.length > 0 then ⟨w.files ++ [w.cur], []⟩ else ⟨w.files, []⟩

/-- `SstWriterAdaptor::write` (rocksdb_file_system_adaptor.cpp:318-370). `full` is
`file_size() >= SST_FILE_LENGTH`. -/
def Writer.write (full : List Rec → Bool) (isMeta : Bool) (w : Writer)
    (packet : Bytes) : Option Writer :=
  match parse packet.length packet with
  | none => none
  | some rs =>
    match rs.foldlM putKey w.cur with
    | none => none
    | some cur =>
      if !isMeta && full cur then some (Writer.finish ⟨w.files, cur⟩) else some ⟨w.files, cur⟩

/-- All packets, then `close` (rocksdb_file_system_adaptor.cpp:372-384): the sst files. -/
def install (full : List Rec → Bool) (isMeta : Bool)
    (packets : List Bytes) : Option (List (List Rec)) :=
  (packets.foldlM (Writer.write full isMeta) ⟨[], []⟩).map fun w => w.finish.files

end BaikalDB.Transfer
