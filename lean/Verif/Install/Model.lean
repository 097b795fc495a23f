import Verif.Recover.Model

/-!
# A peer that loads the snapshot of the leader

A peer that is new, or that has fallen behind so far that the leader no longer has the entries it
needs, gets the leader's rows and meta keys. How these are sent is the subject of `Verif.Transfer`;
here it is what the leader decides to send and what the peer makes of it.

To spare sending the rows when they have not changed, every region keeps the index of the last
entry that can have changed rows (`_data_index`), in memory and together with the applied index on
disk. The leader does not send the rows if that index is below the one it would next send to the
peer; the peer keeps its rows if the index that comes with the snapshot is not above its own.

Simplified: the leader's RocksDB snapshot is taken between two entries (`open_snapshot` takes the
lock that the writes of a COMMIT or ROLLBACK hold, src/raft/rocksdb_file_system_adaptor.cpp:814-820).
Not modelled: a crash while the snapshot is being loaded, learners, binlog regions, cold files,
column files, vector indexes, `force_clear_txn_for_fast_recovery`.
-/

namespace BaikalDB.Install

open BaikalDB.Recover

/-- A region of one store: the region of `Verif.Recover`, and `_data_index` in memory and on
disk. -/
structure Node where
  sys : Sys
  memData : Nat
  diskData : Nat

/-- An empty region. -/
def blank : Node := ⟨Recover.init, 0, 0⟩

/-- `_data_index` when the entry with index `i` is applied (src/store/region.cpp:3524-3588,
3673-3690): all entries but those that only record their index set it. -/
def dataIndex (i : Nat) (e : Entry) (old : Nat) : Nat :=
  match e with
  | .other => old
  | _ => i

/-- Whether applying an entry writes the applied index, and `_data_index` with it
(`encode_applied_index`, src/store/meta_writer.cpp:156-260): as the writes of
`Recover.applyE` do. -/
def records (m : Mem) : Entry → Bool
  | .write _ _ => true
  | .stmt t _ _ _ => (m.txns t).isNone
  | .prepare t => (m.txns t).isNone
  | .commit t => (m.txns t).isSome
  | .rollback t => (m.txns t).isSome
  | .onePc _ => true
  | .other => true

/-- The next entry is applied (src/store/region.cpp:3499-3511). -/
def Node.step (x : Node) (e : Entry) : Node :=
  let i := x.sys.n + 1
  if i ≤ x.sys.mem.applied then { x with sys := x.sys.step e }
  else
    let d := dataIndex i e x.memData
    ⟨x.sys.step e, d, if records x.sys.mem e then d else x.diskData⟩

/-- A raft snapshot. -/
def Node.save (x : Node) : Node := { x with sys := x.sys.save }

/-- `_data_index` on disk when the process dies after `k` of the writes of the next entry: that
entry's, if one of the writes was of the applied index. -/
def Node.tornData (x : Node) (log : List Entry) (k : Nat) : Nat :=
  match log[x.sys.n]? with
  | none => x.diskData
  | some e =>
    if (x.sys.torn log k).applied = x.sys.disk.applied then x.diskData
    else dataIndex (x.sys.n + 1) e x.memData

/-- Dying and starting again: `_data_index` is read from disk (src/store/region.cpp:5204, 5442), and
what the restart writes (5259) has the same value. -/
def Node.crash (x : Node) (log : List Entry) (k : Nat) : Node :=
  let d := x.tornData log k
  ⟨x.sys.restart log (x.sys.torn log k), d, d⟩

/-- Whether the leader sends its rows: `next` is the index of the entry that it would send to the
peer next, 0 if the peer is new (`open_reader_adaptor`,
src/raft/rocksdb_file_system_adaptor.cpp:681-697). In the code it is the first peer that is
installing a snapshot; here it is the one that asks. -/
def sends (l : Node) (next : Nat) : Bool := !decide (l.memData < next)

/-- The entries of open transactions that are sent: those from the first entry of the transaction
to `last` that are still in the log, whose first entry has index `kept`
(src/raft/rocksdb_file_system_adaptor.cpp:208-236, src/raft/log_entry_reader.cpp:45-109), in the
order of their indexes (`parse_txn_infos`, src/store/meta_writer.cpp:512-538). -/
def requests (log : List Entry) (kept : Nat) (begins : Nat → Option Nat) (last : Nat) :
    List (Entry × Nat) :=
  (log.zipIdx 1).filter fun p =>
    ((txnOf p.1).bind begins).any (fun b => decide (b ≤ p.2)) &&
      decide (p.2 ≤ last) && decide (kept ≤ p.2)

/-- Adding the rows of the files to those that are there (`ingest_snapshot_sst`,
src/store/region.cpp:5548-5582). -/
def ingest (rows d : Data) : Data := fun k => (rows k).or (d k)

/-- The rows of the peer afterwards (src/store/region.cpp:5353-5403): a new peer (version 0) takes
what comes; any other removes its rows first, or keeps them and takes none. -/
def rowsAfter (l f : Node) (fresh : Bool) (next : Nat) : Data :=
  let sent : Data := if sends l next then l.sys.disk.data else fun _ => none
  if fresh then ingest sent f.sys.disk.data
  else if f.memData < l.diskData then ingest sent (fun _ => none)
  else f.sys.disk.data

/-- `Region::on_snapshot_load` for a snapshot that comes from another peer
(src/store/region.cpp:5330-5546): the meta keys are those of the leader, without the first entries
and marks of transactions; what was prepared is rolled back (5351); a negative row count becomes 0
(5457-5463); the open transactions are replayed (5493-5512), and the applied index that this
overwrites is written again (5515-5519). -/
def install (log : List Entry) (kept : Nat) (l f : Node) (fresh : Bool) (next : Nat) : Node :=
  let a := l.sys.disk.applied
  let lines := max 0 l.sys.disk.lines
  let d : Disk := ⟨rowsAfter l f fresh next, a, lines, fun _ => none, fun _ => none, fun _ => false⟩
  let es := requests log kept l.sys.disk.begins (max l.sys.snap a)
  let r := replay es ⟨a, lines, fun _ => none⟩
  let d' := run (r.1 ++ if es.isEmpty then [] else [wIndex a]) d
  ⟨⟨l.sys.snap, l.sys.snap, d', r.2⟩, l.diskData, l.diskData⟩

end BaikalDB.Install
