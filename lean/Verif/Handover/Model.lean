import Mathlib.Tactic.Common

/-!
# Handing a part of a region over to a new region

A region that has grown too large is split: the leader copies what lies behind the split key from a
snapshot into a new region, sends it the transactions that were open at the snapshot, and then the
entries of its raft log since the snapshot. First it does so while writes go on, pass after pass;
then it stops the writes and sends the rest. The switch is itself an entry of the log of the old
region, and takes effect only if nothing came between it and the last entry sent.

Modelled: tables whose statements are shipped as key-value batches (`OP_KV_BATCH`), the copy, the
choice of the entries to send, the follower's path by which the new region applies them
(`version == 0`), the switch. Keys are kept without their region id; the copy and the new region
replace it. Primary keys are numbers in the order of their encodings; the row, the entries of
`KEY` indexes (whose key ends with the primary key), of `UNIQUE` indexes (whose value is the
primary key) and the columns of a column-stored table are told apart.

Not modelled: fulltext, vector and global indexes, merge operations (rollup tables), partial
rollback, TTL, splits at the tail of a table and into several regions, requests sent again after a
change of the leader of the new region, failures of RPCs and of RocksDB (they end the split).
-/

namespace BaikalDB.Handover

/-- A key of the data column family. `u` of an index entry stands for the index and the values of
its columns, `f` for the column. -/
inductive Key where
  /-- the primary key -/
  | row (p : Nat)
  /-- an entry of a KEY index -/
  | key (u p : Nat)
  /-- an entry of a UNIQUE index -/
  | uniq (u : Nat)
  /-- a column of a table with engine ROCKSDB_CSTORE -/
  | col (f p : Nat)
  deriving DecidableEq, Repr

/-- The keys and values of a region; the value of an entry of a UNIQUE index is the primary key. -/
abbrev Data := Key → Option Nat

/-- `pb::KvOp`; a delete has no value (`add_kvop_delete`, include/engine/transaction.h:632-638). -/
inductive Op where
  | put (k : Key) (v : Nat)
  | del (k : Key)
  deriving DecidableEq, Repr

/-- The key range of a region; `none` is the empty string, which means no bound. -/
structure Range where
  start : Option Nat
  stop : Option Nat
  deriving DecidableEq, Repr

/-- The comparison of a primary key with `start_key` and `end_key`
(src/store/region.cpp:3911-3917, src/engine/transaction.cpp:292-309). -/
def Range.has (g : Range) (p : Nat) : Bool :=
  g.start.elim true (fun s => decide (s ≤ p)) && g.stop.elim true (fun e => decide (p < e))

/-- `check_key_fits_region_range` (src/store/region.cpp:3900-3926) with
`Transaction::fits_region_range` (src/engine/transaction.cpp:284-395).

* The entry of a UNIQUE index is placed by its value. A delete has an empty one, which is below
  every start key (src/engine/transaction.cpp:326-333).
* The eight bytes read as the index id are the table id and the column id if the key is that of a
  column (`put_primary_columns`, src/engine/transaction.cpp:1617-1642); there is no such index
  (src/store/region.cpp:3903-3909). -/
def fits (g : Range) : Op → Bool
  | .put (.row p) _ => g.has p
  | .del (.row p) => g.has p
  | .put (.key _ p) _ => g.has p
  | .del (.key _ p) => g.has p
  | .put (.uniq _) v => g.has v
  | .del (.uniq _) => g.start.isNone
  | .put (.col _ _) _ => false
  | .del (.col _ _) => false

/-- `put_kv` and `delete_kv` (src/store/region.cpp:4065-4077). -/
def Op.run (d : Data) : Op → Data
  | .put k v => fun x => if x = k then some v else d x
  | .del k => fun x => if x = k then none else d x

/-- A batch, in order. -/
def runOps (ops : List Op) (d : Data) : Data := ops.foldl Op.run d

/-- An entry of the raft log. -/
inductive Entry where
  /-- OP_KV_BATCH outside a transaction -/
  | write (ops : List Op)
  /-- OP_KV_BATCH of transaction `t`; `seq` is the number of the statement -/
  | stmt (t seq : Nat) (ops : List Op)
  /-- OP_PREPARE -/
  | prepare (t seq : Nat)
  /-- OP_COMMIT -/
  | commit (t : Nat)
  /-- OP_ROLLBACK -/
  | rollback (t : Nat)
  /-- an entry of raft itself (not ENTRY_TYPE_DATA) -/
  | conf
  /-- any other operation, which may not occur during a split -/
  | admin
  deriving DecidableEq, Repr

/-- An entry and the term in which it was written. -/
structure LogEntry where
  term : Nat
  entry : Entry
  deriving DecidableEq, Repr

/-- A cached command of a transaction (`pb::CachePlan`). -/
inductive Cmd where
  | begin
  | batch (ops : List Op)
  | prepare
  deriving DecidableEq, Repr

/-- A transaction in the memory of a region: the last command executed, what it has written,
whether it is prepared, `_cache_plan_map` (ordered by number; numbers rise, so a command is put at
the end). BEGIN is number 1. -/
structure Txn where
  seq : Nat
  ops : List Op
  prepared : Bool
  cache : List (Nat × Cmd)
  deriving DecidableEq, Repr

/-- A region: its range, its version (0: not yet in service), its rows and its transactions. -/
structure Region where
  range : Range
  version : Nat
  data : Data
  txns : Nat → Option Txn

/-- What BEGIN makes; every entry of a transaction but COMMIT carries its plan
(src/store/region.cpp:3964-3984, 7137-7145). -/
def newTxn : Txn := ⟨1, [], false, [(1, .begin)]⟩

/-- Setting one entry of a map. -/
def upd {β : Type} (f : Nat → β) (t : Nat) (v : β) : Nat → β := fun x => if x = t then v else f x

/-- The operations of a batch that a region carries out: all once it is in service, before that
those within its range (src/store/region.cpp:4051-4083, 4164-4200). -/
def Region.pick (r : Region) (ops : List Op) : List Op :=
  if r.version = 0 then ops.filter (fits r.range) else ops

/-- Applying an entry (follower, `done == nullptr`).

* `write`: `apply_kv_out_txn` (src/store/region.cpp:4122-4305).
* `stmt`: `apply_kv_in_txn` (src/store/region.cpp:3928-4120); a command that has been executed is
  passed over, the whole batch is cached whatever part of it was carried out (4097-4103).
* `prepare`, `commit`, `rollback`: `apply_txn_request` (src/store/region.cpp:4306-4440); the
  commit of a transaction that is not prepared fails (src/engine/transaction.cpp:1479). -/
def Region.apply (r : Region) : Entry → Region
  | .write ops => { r with data := runOps (r.pick ops) r.data }
  | .stmt t seq ops =>
    let x := (r.txns t).getD newTxn
    let y := if seq ≤ x.seq then x else
      { x with
        seq := seq
        ops := x.ops ++ r.pick ops
        cache := x.cache ++ [(seq, .batch ops)] }
    { r with txns := upd r.txns t (some y) }
  | .prepare t seq =>
    let x := (r.txns t).getD newTxn
    let y := if seq ≤ x.seq then x else
      { x with
        seq := seq
        prepared := true
        cache := x.cache ++ [(seq, .prepare)] }
    { r with txns := upd r.txns t (some y) }
  | .commit t =>
    match r.txns t with
    | none => r
    | some x =>
      { r with
        data := if x.prepared then runOps x.ops r.data else r.data
        txns := upd r.txns t none }
  | .rollback t => { r with txns := upd r.txns t none }
  | .conf => r
  | .admin => r

/-- Several entries. -/
def Region.applyAll (r : Region) (es : List Entry) : Region := es.foldl Region.apply r

/-- What a key of the snapshot becomes in the new region (`write_local_rocksdb_for_split`,
src/store/region.cpp:6573-6860): rows and columns are read from the split key to the end of the
range, entries of indexes are taken if the row they belong to lies in the range. -/
def copy (g : Range) (d : Data) : Data
  | .row p => if g.has p then d (.row p) else none
  | .key u p => if g.has p then d (.key u p) else none
  | .uniq u => (d (.uniq u)).filter g.has
  | .col f p => if g.has p then d (.col f p) else none

/-- `Transaction::get_cache_plan_infos` (include/engine/transaction.h:381-409): the commands of a
transaction that have gone through the log, `none` for the return value -1. `cache` are the
commands executed so far, `applied` is the last one that was applied. With `forRows` only the row
count is asked for, but then `has_applied` stays false. -/
def planInfos (cache : List (Nat × Cmd)) (applied : Nat) (forRows : Bool) :
    Option (List (Nat × Cmd)) :=
  if cache.length < 2 then none
  else
    let plans := if forRows then [] else cache.filter fun c => decide (c.1 ≤ applied)
    if plans.isEmpty then none else some plans

/-- The request for one cached command (`replay_applied_txn_for_recovery`,
src/store/region.cpp:7061-7150). -/
def replayCmd (t : Nat) : Nat × Cmd → Option Entry
  | (_, .begin) => none
  | (s, .batch ops) => some (.stmt t s ops)
  | (s, .prepare) => some (.prepare t s)

/-- What the leader keeps of transaction `t` when the split starts. `pend` are the commands that
the leader has executed and proposed, but that have not yet come back from raft. -/
def leaderCache (r : Region) (pend : Nat → List (Nat × Cmd)) (t : Nat) : List (Nat × Cmd) :=
  ((r.txns t).getD newTxn).cache ++ pend t

/-- The last command of `t` that was applied (`_applied_seq_id`). -/
def appliedSeq (r : Region) (t : Nat) : Nat := (r.txns t).elim 0 (·.seq)

/-- The requests for the transactions of the pool; `ids` is the order in which `_txn_map` and
`applied_txn` are walked through (src/store/region.cpp:4483, 7075-7150,
src/engine/transaction_pool.cpp:703-718). -/
def replay (r : Region) (pend : Nat → List (Nat × Cmd)) (ids : List Nat) : List Entry :=
  ids.flatMap fun t =>
    ((planInfos (leaderCache r pend t) (appliedSeq r t) false).getD []).filterMap (replayCmd t)

/-- `get_log_entry_for_split` (src/store/region.cpp:7939-8024): the requests for the entries from
index `i` on, at most `n` entries (10000 in the code, 7961), and the index of the last one read.
An entry of another term or an operation that may not occur ends the split. The model has no gaps
in the log and does not put the requests into batches. -/
def getLog (term : Nat) : Nat → List LogEntry → Nat → Option (List Entry × Nat)
  | 0, _, i => some ([], i - 1)
  | _ + 1, [], i => some ([], i - 1)
  | n + 1, x :: xs, i =>
    if x.term ≠ term then none
    else match x.entry with
      | .conf => getLog term n xs (i + 1)
      | .admin => none
      | e => (getLog term n xs (i + 1)).map fun q => (e :: q.1, q.2)

/-- The entries of one pass; the first entry of the log has index 1. -/
def pass (term : Nat) (log : List LogEntry) (i : Nat) : Option (List Entry × Nat) :=
  getLog term 10000 (log.drop (i - 1)) i

/-- The passes before writes are stopped (src/store/region.cpp:7265-7402). `ns` tells how long the
log is when each of them reads it. How many there are depends on time; any number is possible. -/
def phase1 (term : Nat) (log : List LogEntry) : List Nat → Nat → Option (List Entry × Nat)
  | [], i => some ([], i)
  | n :: ns, i =>
    match pass term (log.take n) i with
    | none => none
    | some (es, e) => (phase1 term log ns (e + 1)).map fun q => (es ++ q.1, q.2)

/-- The passes after that (src/store/region.cpp:7441-7531): each is given by the length of the log
and the applied index at that time. They end when no entry is left behind the last one read and
that one has been applied; the second component is `split_end_index`. -/
def phase2 (term : Nat) (log : List LogEntry) : List (Nat × Nat) → Nat → Option (List Entry × Nat)
  | [], _ => none
  | (n, applied) :: ns, i =>
    match pass term (log.take n) i with
    | none => none
    | some (es, e) =>
      if (log.take n).length ≤ e ∧ e = applied then some (es, e)
      else (phase2 term log ns (e + 1)).map fun q => (es ++ q.1, q.2)

/-- A split: the snapshot is taken when `a` entries have been applied
(`start_split`, src/store/region.cpp:4472-4498). -/
def sent (term : Nat) (log : List LogEntry) (a : Nat) (ns : List Nat) (ms : List (Nat × Nat)) :
    Option (List Entry × Nat) :=
  match phase1 term log ns (a + 1) with
  | none => none
  | some (es, i) => (phase2 term log ms i).map fun q => (es ++ q.1, q.2)

/-- `validate_and_add_version` (src/store/region.cpp:4734): whether the old region accepts the
switch, an entry with index `i` and term `term`. -/
def accepts (splitTerm splitEnd term i : Nat) : Bool :=
  decide (splitTerm = term) && decide (splitEnd + 1 = i)

/-- The new region after the copy (`init_new_region_leader`, src/store/region.cpp:6193-6232). -/
def fresh (g : Range) (old : Region) : Region := ⟨g, 0, copy g old.data, fun _ => none⟩

/-- The new region is put into service (`add_version_for_split_region`,
src/store/region.cpp:4864-4950) once it has applied all it was sent (3850-3857). -/
def Region.serve (r : Region) : Region := { r with version := 1 }

/-- The old region gives up what lies behind the split key
(`validate_and_add_version`, src/store/region.cpp:4750-4779). -/
def Region.shrink (r : Region) (splitKey : Nat) : Region :=
  { r with
    version := r.version + 1
    range := { r.range with stop := some splitKey } }

/-- The range of the new region. -/
def newRange (r : Region) (splitKey : Nat) : Range := ⟨some splitKey, r.range.stop⟩

/-- The whole split: both regions after the switch, or `none` if the split is given up. `log` is
the log of the old region, the switch stands at index `at_`. -/
def split (old : Region) (log : List LogEntry) (splitKey a : Nat) (pend : Nat → List (Nat × Cmd))
    (ids : List Nat) (ns : List Nat) (ms : List (Nat × Nat)) (term at_ : Nat) :
    Option (Region × Region) :=
  let snap := old.applyAll ((log.take a).map (·.entry))
  let done := old.applyAll ((log.take (at_ - 1)).map (·.entry))
  match sent term log a ns ms with
  | none => none
  | some (es, e) =>
    match log[at_ - 1]? with
    | none => none
    | some x =>
      if accepts term e x.term at_ then
        some (done.shrink splitKey,
          ((fresh (newRange old splitKey) snap).applyAll (replay snap pend ids ++ es)).serve)
      else none

end BaikalDB.Handover
