import Mathlib.Data.List.Dedup

/-!
# Restarting a region after a crash

A store keeps the rows of a region and a few meta keys in RocksDB. The entries of the raft log are
applied one after the other; what a transaction has written so far lives in memory until it
commits. When the process dies, the meta keys and the raft log decide which entries are applied
again and which transactions are rebuilt.

The disk of the model is the content of RocksDB; every write of the code that is atomic
(one `put`, one `WriteBatch`, the commit of one RocksDB transaction) is one function on it, and
applying an entry or restarting is a list of such functions. A crash keeps the writes of a prefix
of the list. Only the path of a follower is modelled (`done == nullptr`), which is also the path of
every replay, for tables whose statements are shipped as key-value batches (`OP_KV_BATCH`).

Not modelled: splits (`version == 0`), loading a snapshot from another peer, truncation of the log
below an open transaction, statements shipped as plans, partial rollback, the mark that a
transaction has been rolled back, RocksDB errors.
-/

namespace BaikalDB.Recover

/-- The rows, as the keys and values of the data column family. -/
abbrev Data := Nat → Option Int

/-- One operation of a batch (`pb::KvOp`: OP_PUT_KV, OP_DELETE_KV, OP_MERGE_KV). Keys and values
are numbers here, and the merge operator adds (it is that of a rollup table with a sum). -/
inductive Op where
  | put (k : Nat) (v : Int)
  | del (k : Nat)
  | merge (k : Nat) (v : Int)
  deriving DecidableEq, Repr

/-- Setting one entry of a map. -/
def upd {β : Type} (f : Nat → β) (t : Nat) (v : β) : Nat → β := fun x => if x = t then v else f x

/-- `Transaction::put_kv`, `delete_kv` and `merge_kv` once they are committed
(src/store/region.cpp:4054-4062). -/
def Op.run : Op → Data → Data
  | .put k v, d => upd d k (some v)
  | .del k, d => upd d k none
  | .merge k v, d => upd d k (some ((d k).getD 0 + v))

/-- The operations of a batch in order. -/
def runOps (ops : List Op) (d : Data) : Data := ops.foldl (fun d o => o.run d) d

/-- An entry of the raft log of a region (`pb::StoreReq`, src/store/region.cpp:3515-3690).
`rows` is `num_increase_rows`, `seq` the number of the statement in its transaction. -/
inductive Entry where
  /-- OP_KV_BATCH outside a transaction -/
  | write (ops : List Op) (rows : Int)
  /-- OP_KV_BATCH of transaction `t` -/
  | stmt (t seq : Nat) (ops : List Op) (rows : Int)
  /-- OP_PREPARE -/
  | prepare (t : Nat)
  /-- OP_COMMIT -/
  | commit (t : Nat)
  /-- OP_ROLLBACK -/
  | rollback (t : Nat)
  /-- OP_PREPARE with `optimize_1pc`: the only region of a transaction prepares and commits -/
  | onePc (t : Nat)
  /-- entries that only record their index (e.g. OP_NONE) -/
  | other
  deriving DecidableEq, Repr

/-- `txn_infos(0).txn_id()` of an entry. -/
def txnOf : Entry → Option Nat
  | .stmt t _ _ _ => some t
  | .prepare t => some t
  | .commit t => some t
  | .rollback t => some t
  | .onePc t => some t
  | _ => none

/-- A transaction in the memory of the region (`Transaction` in `_txn_pool`): the last statement
executed, what it has written, `num_increase_rows`, `_is_prepared`. -/
structure Txn where
  seq : Nat
  ops : List Op
  rows : Int
  prepared : Bool
  deriving DecidableEq, Repr

/-- What a region keeps in memory: `_applied_index`, `_num_table_lines`, `_txn_pool`. -/
structure Mem where
  applied : Nat
  lines : Int
  txns : Nat → Option Txn

/-- What RocksDB keeps: the rows, the meta keys `applied_index_key`, `num_table_lines_key`,
`transcation_log_index_key` (first entry of an open transaction) and `pre_commit_key` (row count
and index), and the transactions that RocksDB has prepared. What a prepared transaction contains
is never read back (src/store/store.cpp:229-243 rolls all of them back), so only its presence is
kept. -/
structure Disk where
  data : Data
  applied : Nat
  lines : Int
  begins : Nat → Option Nat
  pre : Nat → Option (Int × Nat)
  prepared : Nat → Bool

/-- A write that RocksDB makes as a whole. -/
abbrev Write := Disk → Disk

/-- A list of writes, in order. -/
def run (ws : List Write) (d : Disk) : Disk := ws.foldl (fun d w => w d) d

/-- `MetaWriter::write_meta_begin_index` (src/store/meta_writer.cpp:273-286). -/
def wBegin (t i : Nat) : Write := fun d => { d with
  applied := i
  begins := upd d.begins t (some i) }

/-- `MetaWriter::write_pre_commit` (src/store/meta_writer.cpp:190-206). -/
def wPre (t : Nat) (n : Int) (i : Nat) : Write := fun d => { d with
  pre := upd d.pre t (some (n, i)) }

/-- `_txn->Prepare()` (src/engine/transaction.cpp:1460). -/
def wPrepare (t : Nat) : Write := fun d => { d with
  prepared := upd d.prepared t true }

/-- `_txn->Commit()` of a prepared transaction (src/engine/transaction.cpp:1483). -/
def wData (t : Nat) (ops : List Op) : Write := fun d => { d with
  data := runOps ops d.data
  prepared := upd d.prepared t false }

/-- `_txn->Rollback()` of a prepared transaction (src/engine/transaction.cpp:1500). -/
def wUnprepare (t : Nat) : Write := fun d => { d with
  prepared := upd d.prepared t false }

/-- `MetaWriter::write_meta_after_commit` (src/store/meta_writer.cpp:238-254). -/
def wAfter (t : Nat) (n : Int) (i : Nat) : Write := fun d => { d with
  applied := i
  lines := n
  pre := upd d.pre t none
  begins := upd d.begins t none }

/-- `MetaWriter::clear_error_pre_commit` (src/store/meta_writer.cpp:255-260). -/
def wClear (t : Nat) : Write := fun d => { d with
  pre := upd d.pre t none
  begins := upd d.begins t none }

/-- `MetaWriter::update_apply_index` (src/store/meta_writer.cpp:162-176). -/
def wIndex (i : Nat) : Write := fun d => { d with
  applied := i }

/-- The commit of a batch outside a transaction; the index and the row count are put into the same
RocksDB transaction (src/store/region.cpp:4252, src/store/meta_writer.cpp:299-307). -/
def wBatch (ops : List Op) (n : Int) (i : Nat) : Write := fun d => { d with
  data := runOps ops d.data
  applied := i
  lines := n }

/-- Rolling back what RocksDB had prepared when the store starts (src/store/store.cpp:227-245).
Simplified: all transactions in one write. -/
def wDrop : Write := fun d => { d with
  prepared := fun _ => false }

/-- The transaction of the pool, or the one that BEGIN makes: every entry of a transaction but a
COMMIT carries the cached plan of BEGIN (src/exec/fetcher_store.cpp:229-252,
src/store/region.cpp:3964-3984 and 4350-4352). -/
def getTxn (m : Mem) (t : Nat) : Txn := (m.txns t).getD ⟨0, [], 0, false⟩

/-- The index of the first entry of a transaction is written once
(`txn->write_begin_index()`, src/store/region.cpp:3990-3995 and 4372-4377). -/
def beginWrite (m : Mem) (t i : Nat) : List Write :=
  if (m.txns t).isNone then [wBegin t i] else []

/-- Applying the entry with index `i`: the writes and the memory afterwards. `live` tells an entry
that raft hands over (`term != 0`) from one that a restart replays (`term == 0`).

* `write`: `apply_kv_out_txn` (src/store/region.cpp:4122-4305).
* `stmt`: `apply_kv_in_txn` (src/store/region.cpp:3928-4120): statements up to the last one
  executed are skipped, and the rows are counted only if `term != 0` (4092-4095).
* `prepare`, `commit`, `rollback`: `apply_txn_request` and `dml_2pc`
  (src/store/region.cpp:4306-4440, 2042-2085, 2262-2270, src/exec/transaction_node.cpp:50-121);
  the commit of a transaction that is not prepared fails (src/engine/transaction.cpp:1479).
* `onePc`: `dml_1pc` (src/store/region.cpp:2380-2590). -/
def applyE (live : Bool) (i : Nat) (e : Entry) (m : Mem) : List Write × Mem :=
  match e with
  | .write ops rows =>
    ([wBatch ops (m.lines + rows) i], { m with lines := m.lines + rows })
  | .stmt t seq ops rows =>
    let x := getTxn m t
    let y := if seq ≤ x.seq then x else
      { x with
        seq := seq
        ops := x.ops ++ ops
        rows := x.rows + if live then rows else 0 }
    (beginWrite m t i, { m with txns := upd m.txns t (some y) })
  | .prepare t =>
    let x := getTxn m t
    (beginWrite m t i ++ (if x.prepared then [] else [wPrepare t]),
      { m with txns := upd m.txns t (some { x with prepared := true }) })
  | .commit t =>
    match m.txns t with
    | none => ([], m)
    | some x =>
      if x.prepared then
        ([wPre t (m.lines + x.rows) i, wData t x.ops, wAfter t (m.lines + x.rows) i],
          { m with
            lines := m.lines + x.rows
            txns := upd m.txns t none })
      else
        ([wPre t (m.lines + x.rows) i, wAfter t m.lines i],
          { m with txns := upd m.txns t none })
  | .rollback t =>
    match m.txns t with
    | none => ([], m)
    | some x =>
      ([wPre t m.lines i] ++ (if x.prepared then [wUnprepare t] else []) ++ [wAfter t m.lines i],
        { m with txns := upd m.txns t none })
  | .onePc t =>
    let x := getTxn m t
    (beginWrite m t i ++ (if x.prepared then [] else [wPrepare t])
        ++ [wPre t (m.lines + x.rows) i, wData t x.ops, wAfter t (m.lines + x.rows) i],
      { m with
        lines := m.lines + x.rows
        txns := upd m.txns t none })
  | .other => ([wIndex i], m)

/-- `Region::do_apply` (src/store/region.cpp:3499-3511): what is already applied is skipped. -/
def doApply (i : Nat) (e : Entry) (m : Mem) : List Write × Mem :=
  if i ≤ m.applied then ([], m) else applyE true i e { m with applied := i }

/-- Reading one entry of the log (`LogEntryReader::read_log_entry`,
src/raft/log_entry_reader.cpp:23-43); the first entry has index 1. -/
def entryAt (log : List Entry) (i : Nat) : Option Entry :=
  if i = 0 then none else log[i - 1]?

/-- The transactions that occur in the log, each once. `parse_txn_log_indexs` enumerates the keys
that are on disk; the model asks for each of these. -/
def ids (log : List Entry) : List Nat := (log.filterMap txnOf).dedup

/-- The state of the loop over the open transactions of a restart: the writes so far, the applied
index in memory, the transactions to be rebuilt. -/
structure Scan where
  ws : List Write
  applied : Nat
  restore : List Nat

/-- One round of the loop in `Region::on_snapshot_load_for_restart`
(src/store/region.cpp:5222-5279). `was` are the transactions that RocksDB had prepared
(`exist_prepared_log`). -/
def scanTxn (log : List Entry) (was : Nat → Bool) (d : Disk) (s : Scan) (t : Nat) : Scan :=
  match (run s.ws d).begins t with
  | none => s
  | some _ =>
    match (run s.ws d).pre t with
    | none => { s with restore := s.restore ++ [t] }
    | some (n, p) =>
      if was t then { s with restore := s.restore ++ [t] }
      else if p < s.applied then { s with ws := s.ws ++ [wClear t] }
      else
        match entryAt log p with
        | some (.commit _) =>
          { s with
            ws := s.ws ++ [wAfter t n p, wClear t]
            applied := max s.applied p }
        | some (.rollback _) =>
          { s with
            ws := s.ws ++ [wAfter t n p, wClear t]
            applied := max s.applied p }
        | _ => { s with ws := s.ws ++ [wClear t] }

/-- The entries of the transactions `restore` between the first one of any of them and `last`
(src/store/region.cpp:5272-5281, src/raft/log_entry_reader.cpp:45-109). -/
def replayList (log : List Entry) (begins : Nat → Option Nat) (restore : List Nat) (last : Nat) :
    List (Entry × Nat) :=
  match (restore.filterMap begins).min? with
  | none => []
  | some start => (log.zipIdx 1).filter fun p =>
      decide (start ≤ p.2) && decide (p.2 ≤ last) && (txnOf p.1).any fun t => restore.contains t

/-- Replaying them (src/store/region.cpp:5495-5512). -/
def replay (es : List (Entry × Nat)) (m : Mem) : List Write × Mem :=
  es.foldl (fun a p =>
    let r := applyE false p.2 p.1 a.2
    (a.1 ++ r.1, r.2)) ([], m)

/-- A restart of the store with the region's latest raft snapshot at index `snap`
(src/store/store.cpp:227-245, src/store/region.cpp:5196-5294, 5440-5519): the writes and the memory
from which raft goes on with the entry `snap + 1`. -/
def recover (log : List Entry) (snap : Nat) (d : Disk) : List Write × Mem :=
  let s := (ids log).foldl (scanTxn log d.prepared d) ⟨[wDrop], d.applied, []⟩
  let d1 := run s.ws d
  let es := replayList log d.begins s.restore (max snap s.applied)
  let m0 : Mem := ⟨d1.applied, d1.lines, fun _ => none⟩
  let r := replay es m0
  (s.ws ++ r.1 ++ (if es.isEmpty then [] else [wIndex m0.applied]), r.2)

/-- A region: the index of its latest raft snapshot, the number of entries that raft has handed
over, disk and memory. -/
structure Sys where
  snap : Nat
  n : Nat
  disk : Disk
  mem : Mem

/-- An empty region. -/
def init : Sys := ⟨0, 0, ⟨fun _ => none, 0, 0, fun _ => none, fun _ => none, fun _ => false⟩,
  ⟨0, 0, fun _ => none⟩⟩

/-- The next entry is applied. -/
def Sys.step (s : Sys) (e : Entry) : Sys :=
  let r := doApply (s.n + 1) e s.mem
  { s with
    n := s.n + 1
    disk := run r.1 s.disk
    mem := r.2 }

/-- A raft snapshot (`Region::on_snapshot_save`, src/store/region.cpp:5069-5134): the rows stay
where they are, only the index moves. -/
def Sys.save (s : Sys) : Sys := { s with snap := s.n }

/-- The disk when the process dies after `k` of the writes of the next entry. -/
def Sys.torn (s : Sys) (log : List Entry) (k : Nat) : Disk :=
  match log[s.n]? with
  | none => s.disk
  | some e => run ((doApply (s.n + 1) e s.mem).1.take k) s.disk

/-- Starting again from the disk `d`. -/
def Sys.restart (s : Sys) (log : List Entry) (d : Disk) : Sys :=
  let r := recover log s.snap d
  { s with
    n := s.snap
    disk := run r.1 d
    mem := r.2 }

/-- The row counts that the leader puts into the entries of a transaction whose statements add
`rows` rows: each entry carries the sum so far (`raft_req->set_num_increase_rows(
txn->num_increase_rows)`, src/store/region.cpp:1162; 2260). -/
def shipped (rows : List Int) : List Int :=
  (List.range rows.length).map fun i => (rows.take (i + 1)).sum

end BaikalDB.Recover
