import Verif.Basic
import Verif.Ddl.Meta

/-!
# An index being added or dropped while rows are written

The rows of one table with one local, non-unique index whose life is followed from ADD INDEX on, any number of SQL nodes and
stores each with its own idea of the index's state, transactions that hold row locks until they end, and the tasks filling
the index.  `Step` is one event.
-/

namespace BaikalDB.Ddl

variable {V : Type} [DecidableEq V]

/-- A row of the table, by its primary key: the value of the indexed column, and the values under which the index holds the
key. -/
structure Cell (V : Type) where
  row : Option V
  ents : List V
  deriving DecidableEq, Repr

def Cell.put (v : V) (c : Cell V) : Cell V := { c with ents := v :: c.ents.filter (· ≠ v) }
def Cell.drop (v : V) (c : Cell V) : Cell V := { c with ents := c.ents.filter (· ≠ v) }

/-- insert_node.cpp:175-178 on the SQL node: the store is told to write the index whatever it thinks its state is. -/
def needWrite (db : IState) : Bool := db = .writeOnly || db = .writeLocal

/-- dml_node.cpp:361-366, 436-441. -/
def writes (need : Bool) (store : IState) : Bool :=
  need || store = .pub || store = .writeOnly || store = .writeLocal

/-- dml_node.cpp:580-590; an index in `IS_DELETE_LOCAL` has been disabled by table_manager.cpp:5495-5497. -/
def removes (store : IState) : Bool := store ≠ .none && store ≠ .deleteLocal

/-- What a statement does to a row (dml_node.cpp `insert_row`, `remove_row`, `update_row`). -/
inductive Dml (V : Type)
  | insert (v : V)
  | replace (v : V)
  | onDupUpdate (v : V)
  | update (v : V)
  | delete
  deriving DecidableEq, Repr

/-- dml_node.cpp:564-655 without the row itself: `remove_row` for the index. -/
def unindex (store : IState) (c : Cell V) : Cell V :=
  match c.row with
  | some u => if removes store then c.drop u else c
  | none => c

/-- dml_node.cpp:428-512: `insert_row` once no row is in the way. -/
def store' (need : Bool) (store : IState) (v : V) (c : Cell V) : Cell V :=
  let c := if writes need store then c.put v else c
  { c with row := some v }

/-- The effect of a statement planned on a SQL node that takes the index to be in state `db`, on a store that takes it to be
in state `store`.  INSERT of an existing key is an error and does nothing (335-340).  UPDATE and DELETE do not carry
`ddl_need_write`. -/
def exec (db store : IState) (op : Dml V) (c : Cell V) : Cell V :=
  match op, c.row with
  | .insert v, none => store' (needWrite db) store v c
  | .insert _, some _ => c
  | .replace v, _ => store' (needWrite db) store v (unindex store c)
  | .onDupUpdate v, _ => store' (needWrite db) store v (unindex store c)
  | .update v, some _ => store' false store v (unindex store c)
  | .update _, none => c
  | .delete, _ => { unindex store c with row := none }

/-- rocksdb_scan_node.cpp:1165-1325 `index_ddl_work` for a non-unique index. -/
def fill (c : Cell V) : Cell V :=
  match c.row with
  | some v => c.put v
  | none => c

/-- Who holds a row lock. -/
inductive Holder
  | client (t : Nat)
  | filler (r : Nat)
  deriving DecidableEq, Repr

/-- A row with what it was when its lock was taken. -/
structure Slot (V : Type) where
  cur : Cell V
  lock : Option (Holder × Cell V)

/-- What others see: the row as last committed. -/
def Slot.committed (s : Slot V) : Cell V :=
  match s.lock with
  | some (_, c) => c
  | none => s.cur

def Slot.commit (h : Holder) (s : Slot V) : Slot V :=
  if s.lock.any (fun p => p.1 = h) then ⟨s.cur, none⟩ else s

def Slot.rollback (h : Holder) (s : Slot V) : Slot V :=
  match s.lock with
  | some (h', c) => if h' = h then ⟨c, none⟩ else s
  | none => s

/-- A transaction of a client: its SQL node, and whether that node knew the index as `IS_WRITE_ONLY` or later when it began
(`txn_start_time` against `write_only_time`, epoll_info.cpp:144-158, schema_factory.cpp:1043-1049). -/
structure Txn where
  db : Nat
  fresh : Bool
  deriving DecidableEq, Repr

/-- ddl_work_planner.cpp `execute`: the filling of the index for the rows of one region. -/
structure Run where
  work : RWork
  addr : Nat
  /-- `_start_key`; `none`: the start of the region -/
  from? : Option Bytes
  /-- the rows the scan of the current batch sees -/
  snap : Bytes → Bool
  /-- the last row of the current batch -/
  pos : Option Bytes
  /-- rows in the current batch -/
  cnt : Nat
  /-- a batch is under way -/
  open? : Bool
  /-- the last batch found nothing: ddl_work_planner.cpp:297-300, the work is reported done -/
  over : Bool

def newRun (addr : Nat) (w : RWork) : Run :=
  { work := w, addr := addr, from? := none, snap := fun _ => false, pos := none, cnt := 0, open? := false, over := false }

structure Sys (V : Type) where
  m : Meta
  db : Nat → IState
  store : Nat → IState
  txn : Nat → Option Txn
  slot : Bytes → Slot V
  run : Nat → Option Run

/-- The SQL nodes and stores of the cluster, and the keys of each region the index was started with. -/
structure World where
  dbs : Nat
  stores : Nat
  index : Nat
  regions : List Nat
  range : Nat → Bytes → Prop
  limit : Nat

/-- How far a state is from the index not being there. -/
def IState.rank : IState → Nat
  | .none => 0
  | .deleteLocal => 0
  | .deleteOnly => 1
  | .writeOnly => 2
  | .writeLocal => 3
  | .pub => 4

def after (p : Option Bytes) (k : Bytes) : Prop := ∀ q, p = some q → BLt q k

/-- Row `k` is the next one the scan of a batch comes to. -/
def NextRow (W : World) (r : Run) (k : Bytes) : Prop :=
  r.snap k = true ∧ W.range r.work.region k ∧ after r.pos k ∧
    ∀ k', r.snap k' = true → W.range r.work.region k' → after r.pos k' → BLe k k'

/-- A batch begins: the scan sees the committed rows after `_start_key`. -/
def openBatch (slot : Bytes → Slot V) (x : Run) : Run :=
  { x with snap := fun k => (slot k).committed.row.isSome, pos := x.from?, cnt := 0, open? := true }

/-- ddl_work_planner.cpp:297-312: the next batch begins after the last row of this one; none means the end. -/
def closeBatch (x : Run) : Run := { x with from? := x.pos, open? := false, over := decide (x.cnt = 0) }

/-- All SQL nodes and stores have the state the meta server has. -/
def Synced (W : World) (s : Sys V) : Prop :=
  ∀ i, s.m.state = some i → (∀ d, d < W.dbs → s.db d = i) ∧ ∀ n, n < W.stores → s.store n = i

/-- The SQL node knows the index to be written and has no transaction left that began before that
(task_manager.cpp:44-81). -/
def Clear (s : Sys V) (d : Nat) : Prop :=
  2 ≤ (s.db d).rank ∧ ∀ t x, s.txn t = some x → x.db = d → x.fresh = true

/-- Where the code relies on the store having heard of a state the SQL node acts on: UPDATE, and INSERT once the SQL node
takes the index to be public. -/
def NeedsSync (db : IState) : Dml V → Prop
  | .update _ => True
  | .delete => False
  | _ => db = .pub

def setAt {α β : Type} [DecidableEq α] (f : α → β) (a : α) (b : β) : α → β := fun x => if x = a then b else f x

/-- One event.  `strict`: a store has heard of `IS_WRITE_ONLY` when it executes a statement of the kind `NeedsSync` from a
SQL node that has. -/
inductive Step (W : World) (strict : Bool) : Sys V → Sys V → Prop
  /-- a round of the meta server; the timed wait is taken to be long enough for all nodes to have heard of the present state,
  and the meta server to know all SQL nodes -/
  | tick (s : Sys V) (e : Env) (hripe : e.ripe = true → Synced W s) (hknown : ∀ d, d < W.dbs → d ∈ e.known)
      (hnd : e.known.Nodup) :
      Step W strict s { s with m := tick e s.m }
  | startDrop (s : Sys V) : Step W strict s { s with m := startDrop s.m }
  | newLeader (s : Sys V) (back : Nat → Bool) : Step W strict s { s with m := newLeader back s.m }
  | handOver (s : Sys V) (a : Nat) : Step W strict s { s with m := handOver a s.m }
  | giveUp (s : Sys V) (a r : Nat) : Step W strict s { s with m := giveUp a r s.m }
  | castHandOver (s : Sys V) (a : Nat) : Step W strict s { s with m := castHandOver a s.m }
  | castDone (s : Sys V) (a : Nat) (h : Clear s a) : Step W strict s { s with m := castDone a s.m }
  | castFail (s : Sys V) : Step W strict s { s with m := castFail s.m }
  /-- a SQL node not heard of is down: its transactions are over, and it reads the schema anew when it comes back -/
  | castLost (s : Sys V) (a : Nat) (h : Clear s a) : Step W strict s { s with m := castLost a s.m }
  /-- a SQL node or store hears of the present state -/
  | hearDb (s : Sys V) (d : Nat) (i : IState) (h : s.m.state = some i) : Step W strict s { s with db := setAt s.db d i }
  | hearStore (s : Sys V) (n : Nat) (i : IState) (h : s.m.state = some i) : Step W strict s { s with store := setAt s.store n i }
  | begin (s : Sys V) (t d : Nat) (hd : d < W.dbs) (h : s.txn t = none) :
      Step W strict s { s with txn := setAt s.txn t (some ⟨d, decide (2 ≤ (s.db d).rank)⟩) }
  | lock (s : Sys V) (t : Nat) (x : Txn) (k : Bytes) (ht : s.txn t = some x) (h : (s.slot k).lock = none) :
      Step W strict s { s with slot := setAt s.slot k ⟨(s.slot k).cur, some (.client t, (s.slot k).cur)⟩ }
  | dml (s : Sys V) (t : Nat) (x : Txn) (n : Nat) (k : Bytes) (c : Cell V) (op : Dml V) (ht : s.txn t = some x)
      (hn : n < W.stores) (h : (s.slot k).lock = some (.client t, c))
      (hs : strict = true → NeedsSync (s.db x.db) op → 2 ≤ (s.db x.db).rank → 2 ≤ (s.store n).rank) :
      Step W strict s
        { s with slot := setAt s.slot k ⟨exec (s.db x.db) (s.store n) op (s.slot k).cur, some (.client t, c)⟩ }
  | commit (s : Sys V) (t : Nat) :
      Step W strict s { s with slot := fun y => (s.slot y).commit (.client t), txn := setAt s.txn t none }
  | rollback (s : Sys V) (t : Nat) :
      Step W strict s { s with slot := fun y => (s.slot y).rollback (.client t), txn := setAt s.txn t none }
  /-- a SQL node starts on a task it was handed -/
  | runStart (s : Sys V) (r : Nat) (a : Nat) (w : RWork) (h : (a, w) ∈ s.m.doing) (hr : s.run r = none) :
      Step W strict s { s with run := setAt s.run r (some (newRun a w)) }
  /-- ddl_work_planner.cpp:333-343: before a batch the SQL node looks at its idea of the state -/
  | batchStart (s : Sys V) (r : Nat) (x : Run) (hr : s.run r = some x) (ho : x.open? = false) (hv : x.over = false)
      (hst : s.db x.addr = .writeLocal ∨ s.db x.addr = .writeOnly) :
      Step W strict s { s with run := setAt s.run r (some (openBatch s.slot x)) }
  | scanRow (s : Sys V) (r : Nat) (x : Run) (k : Bytes) (hr : s.run r = some x) (ho : x.open? = true) (hc : x.cnt < W.limit)
      (hk : NextRow W x k) (hl : (s.slot k).lock = none) :
      Step W strict s { s with slot := setAt s.slot k ⟨fill (s.slot k).cur, some (.filler r, (s.slot k).cur)⟩,
                               run := setAt s.run r (some { x with pos := some k, cnt := x.cnt + 1 }) }
  /-- the batch is full or there are no more rows -/
  | batchCommit (s : Sys V) (r : Nat) (x : Run) (hr : s.run r = some x) (ho : x.open? = true)
      (hfull : x.cnt = W.limit ∨ ∀ k, x.snap k = true → W.range x.work.region k → ¬ after x.pos k) :
      Step W strict s { s with slot := fun y => (s.slot y).commit (.filler r), run := setAt s.run r (some (closeBatch x)) }
  | batchAbort (s : Sys V) (r : Nat) (x : Run) (hr : s.run r = some x) (ho : x.open? = true) :
      Step W strict s { s with slot := fun y => (s.slot y).rollback (.filler r),
                               run := setAt s.run r (some { x with open? := false }) }
  /-- the work is over: done -/
  | runDone (s : Sys V) (r : Nat) (x : Run) (hr : s.run r = some x) (h : x.over = true) :
      Step W strict s { s with m := report x.addr { x.work with status := .done } s.m, run := setAt s.run r none }
  /-- the work failed, or the SQL node says it is still at it -/
  | runReport (s : Sys V) (a : Nat) (w : RWork) (h : w.status ≠ .done) : Step W strict s { s with m := report a w s.m }

/-- The beginning: ADD INDEX has just been accepted; the rows are there, the index is empty. -/
structure Init (W : World) (s : Sys V) : Prop where
  meta_ : s.m = startAdd W.index W.regions false false
  db : ∀ d, s.db d = .none
  store : ∀ n, s.store n = .none
  txn : ∀ t, s.txn t = none
  slot : ∀ k, (s.slot k).lock = none ∧ (s.slot k).cur.ents = []
  run : ∀ r, s.run r = none

inductive Reach (W : World) (strict : Bool) : Sys V → Prop
  | init (s : Sys V) (h : Init W s) : Reach W strict s
  | step (s s' : Sys V) (h : Reach W strict s) (h' : Step W strict s s') : Reach W strict s'

end BaikalDB.Ddl
