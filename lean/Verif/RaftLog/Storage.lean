import Verif.RaftLog.TermMap
import Verif.KeyEnc.Lemmas
/-
C18, C19, C20: the raft log of one region in RocksDB, src/raft/my_raft_log_storage.cpp, and the compaction filter of the
raft log column family, include/raft/raft_log_compaction_filter.h.

Simplifications.
* The column family is represented, per region, by the value under the meta key and the list of (index, value) under the
  data keys in key order; that this is the order of the indexes, that regions do not interfere and that the iterator with
  the 9-byte prefix sees exactly the region's data keys is proved about the byte keys (`dataKey`, `metaKey`).
* A RocksDB write (one put, one range delete or one batch) is atomic and succeeds.  Crashes happen between writes.  (The
  code does not sync the WAL; a power failure that loses the tail of the WAL is the same as a crash at an earlier write.)
* Regions with binlog (key-value separation of OP_PREWRITE_BINLOG entries) are not modelled.
* Protobuf parsing of configuration entries is not modelled: the payload is kept as bytes.
* Indexes are integers, terms and entry types naturals.
-/
namespace BaikalDB.RaftLog
open BaikalDB.KeyEnc

/-! ### Keys -/

/-- my_raft_log_storage.cpp L801-818. -/
def dataKey (region index : BitVec 64) : Bytes :=
  memLE 8 (toEndian64 (encodeI64 region)) ++ [0x02#8] ++ memLE 8 (toEndian64 (encodeI64 index))

/-- my_raft_log_storage.cpp L820-832. -/
def metaKey (region : BitVec 64) : Bytes := memLE 8 (toEndian64 (encodeI64 region)) ++ [0x01#8]

/-- my_raft_log_storage.cpp L834-850: (region, index), none if the size is wrong. -/
def decodeDataKey (k : Bytes) : Option (BitVec 64 × BitVec 64) :=
  if k.length ≠ 17 then none
  else match extractI64 k 0, extractI64 k 9 with
    | some r, some i => some (r, i)
    | _, _ => none

/-! ### Values -/

/-- braft::LogEntry: id.term, type and payload (data, or serialized configuration). -/
structure Entry where
  term : Nat
  type : Nat
  data : Bytes
deriving DecidableEq, Repr

/-- braft::EntryType -/
def tNoOp : Nat := 1
def tData : Nat := 2
def tConf : Nat := 3

/-- LogHead::serialize_to (my_raft_log_storage.h L49-51; RawPacker is big endian) and the value part of
_build_key_value L583-620.  `none`: unknown type.  A NO_OP entry has no payload in the value. -/
def buildValue (e : Entry) : Option Bytes :=
  let head := beNat 8 e.term ++ beNat 4 e.type
  if e.type = tData then some (head ++ e.data)
  else if e.type = tConf then some (head ++ e.data)
  else if e.type = tNoOp then some head
  else none

/-- LogHead(const Slice&), my_raft_log_storage.h L43-47: (term, type). -/
def logHead (v : Bytes) : Nat × Nat := (ofBE (v.take 8), ofBE ((v.drop 8).take 4))

/-! ### The database -/

abbrev Data := List (Int × Bytes)

structure DB where
  first : Option Int := none
  data : Data := []
deriving DecidableEq, Repr

/-- batch.Put of one data key. -/
def putKV (d : Data) (i : Int) (v : Bytes) : Data := d.filter (fun x => x.1 < i) ++ [(i, v)] ++ d.filter (fun x => i < x.1)

inductive Write where
  /-- put of the meta key -/
  | first (i : Int)
  /-- one batch of puts of data keys -/
  | puts (l : List (Int × Bytes))
  /-- one batch of deletes of the indexes lo..hi -/
  | dels (lo hi : Int)
  /-- remove_range [lo, hi) -/
  | range (lo hi : Int)
deriving DecidableEq, Repr

def DB.write (d : DB) : Write → DB
  | .first i => { d with first := some i }
  | .puts l => { d with data := l.foldl (fun d x => putKV d x.1 x.2) d.data }
  | .dels lo hi => { d with data := d.data.filter (fun x => ¬ (lo ≤ x.1 ∧ x.1 ≤ hi)) }
  | .range lo hi => { d with data := d.data.filter (fun x => ¬ (lo ≤ x.1 ∧ x.1 < hi)) }

def DB.writes (d : DB) (ws : List Write) : DB := ws.foldl DB.write d

/-! ### The storage object -/

structure Mem where
  first : Int
  last : Int
  q : TermMap
deriving DecidableEq, Repr

/-- The loop of init, L147-209: (last_log_index, term map, configuration entries seen), none on failure. -/
def initScan : Int → Int → TermMap → List (Int × Nat × Bytes) → Data → Option (Int × TermMap × List (Int × Nat × Bytes))
  | _, last, q, cs, [] => some (last, q, cs)
  | expected, _, q, cs, (i, v) :: r =>
    if expected ≠ i then none
    else if v.length < 12 then none
    else match q.append i (logHead v).1 with
      | none => none
      | some q' =>
        let cs' := if (logHead v).2 = tConf then cs ++ [(i, (logHead v).1, v.drop 12)] else cs
        initScan (expected + 1) i q' cs' r

/-- my_raft_log_storage.cpp L106-229: init.  Result: the database afterwards, the object, and the configuration entries
handed to the configuration manager. -/
def init (d : DB) : Option (DB × Mem × List (Int × Nat × Bytes)) :=
  let first := d.first.getD 1
  let d' := match d.first with
    | none => d.write (.first 1)
    | some _ => d
  match initScan first 0 [] [] (d'.data.filter (fun x => first ≤ x.1)) with
  | none => none
  | some (last, q, cs) => some (d', ⟨first, if last = 0 then first - 1 else last, q⟩, cs)

/-- my_raft_log_storage.cpp L267-342: get_entry of a region without binlog. -/
def getEntry (d : DB) (i : Int) : Option Entry :=
  match d.data.find? (fun x => x.1 = i) with
  | none => none
  | some (_, v) =>
    if v.length < 12 then none
    else
      let e : Entry := ⟨(logHead v).1, (logHead v).2, v.drop 12⟩
      if e.type = tData then some e
      else if e.type = tConf then some e
      else if e.type = tNoOp then (if e.data ≠ [] then none else some e)
      else none

/-- my_raft_log_storage.cpp L344-358. -/
def getTerm (m : Mem) (i : Int) : Nat := if i < m.first ∨ i > m.last then 0 else m.q.getTerm i

/-- The loop L427-435 of append_entries: none if the map refuses an entry, with the map at that point. -/
def appendTerms : TermMap → List (Int × Entry) → Except TermMap TermMap
  | q, [] => .ok q
  | q, (i, e) :: r => match q.append i e.term with
    | none => .error q
    | some q' => appendTerms q' r

/-- my_raft_log_storage.cpp L366-443: writes, object, return value. -/
def appendEntries (m : Mem) (es : List (Int × Entry)) : List Write × Mem × Int :=
  match es with
  | [] => ([], m, 0)
  | (i0, e0) :: r =>
    if m.last + 1 ≠ i0 then ([], m, -1)
    else match ((i0, e0) :: r).mapM (fun x => (buildValue x.2).map (fun v => (x.1, v))) with
      | none => ([], m, -1)
      | some kvs =>
        match appendTerms m.q ((i0, e0) :: r) with
        | .error q => ([.puts kvs], { m with q := q.truncateSuffix m.last }, -1)
        | .ok q => ([.puts kvs], { m with q := q, last := m.last + ((i0, e0) :: r).length }, ((i0, e0) :: r).length)

/-- my_raft_log_storage.cpp L445-507. -/
def truncatePrefix (m : Mem) (kept : Int) : List Write × Mem :=
  if kept ≤ m.first then ([], m)
  else if m.first < 0 then ([], m)
  else ([.first kept, .range m.first kept],
    ⟨kept, if kept > m.last then kept - 1 else m.last, m.q.truncatePrefix kept⟩)

/-- my_raft_log_storage.cpp L509-544. -/
def truncateSuffix (m : Mem) (kept : Int) : List Write × Mem :=
  if kept ≥ m.last then ([], m)
  else ([.dels (kept + 1) m.last], { m with q := m.q.truncateSuffix kept, last := kept })

/-- my_raft_log_storage.cpp L546-554. -/
def reset (m : Mem) (next : Int) : List Write × Mem :=
  let (w1, m1) := truncatePrefix m next
  let (w2, m2) := truncateSuffix m1 (next - 1)
  (w1 ++ w2, { m2 with q := [] })

/-! ### The compaction filter -/

/-- raft_log_compaction_filter.h L37-62: true = drop.  `firsts` is _first_index_map, `split` the region's split index
(INT64_MAX when the region is not splitting). -/
def filterDrop (firsts : BitVec 64 → Option Int) (split : BitVec 64 → Int) (key : Bytes) : Bool :=
  if key.length ≠ 17 then false
  else match extractI64 key 0, extractI64 key 9 with
    | some r, some i => match firsts r with
      | none => false
      | some f => decide (i.toInt < (if f < split r then f else split r))
    | _, _ => false

end BaikalDB.RaftLog
