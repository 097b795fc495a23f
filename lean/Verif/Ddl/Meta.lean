import Mathlib.Tactic.Common

/-!
# The meta server's side of adding and dropping an index

`src/meta_server/ddl_manager.cpp`, `include/meta_server/ddl_manager.h`, `TableManager::update_index_status`.  One index of
one table.  What the leader learns from outside in one round of its worker thread (clocks, which SQL nodes it knows, whether
a task could be handed out, whether its change of the schema went through the log) is an input (`Env`).
-/

namespace BaikalDB.Ddl

/-- meta.interface.proto:66-74; `IS_UNKNOWN` is never a state of an index. -/
inductive IState
  | pub | writeLocal | writeOnly | deleteOnly | deleteLocal | none
  deriving DecidableEq, Repr

/-- meta.interface.proto:1133-1140. -/
inductive RStatus
  | idle | doing | done | fail | dupUniq | error
  deriving DecidableEq, Repr

/-- `pb::RegionDdlWork`: the filling of the index for the rows of one region. -/
structure RWork where
  region : Nat
  index : Nat
  status : RStatus
  retry : Nat
  deriving DecidableEq, Repr

/-- The operation and result code kept for the table in `_table_ddl_mem`. -/
inductive Job
  | add | drop | addFailed | finished
  deriving DecidableEq, Repr

/-- ddl_manager.h:212-217 `BroadcastTask`: the SQL nodes asked to wait for their transactions. -/
structure Cast where
  todo : List Nat
  doing : List Nat
  number : Nat
  deriving DecidableEq, Repr

/-- ddl_manager.h:35-39 `WaitTxnWorkInfo`. -/
structure Wait where
  success : Bool
  done : Bool
  deriving DecidableEq, Repr

structure Meta where
  /-- what `_table_ddl_mem` holds for the table; `none`: no entry -/
  job : Option Job
  /-- `get_index_state`: the state in the schema handed to all nodes; `none`: the index is gone -/
  state : Option IState
  /-- `_region_ddlwork[table_id]`; `none`: null pointer -/
  works : Option (List RWork)
  /-- `_wait_txns` -/
  wait : Option Wait
  /-- `_broadcast_task_map` -/
  cast : Option Cast
  /-- `to_do_task_map` of all SQL nodes: address, work -/
  todo : List (Nat × RWork)
  /-- `doing_task_map` of all SQL nodes -/
  doing : List (Nat × RWork)
  isGlobal : Bool
  isRollup : Bool
  deriving DecidableEq, Repr

/-- The answers of `DBManager::execute_task` (ddl_manager.cpp:254-325): 0 with the chosen SQL node, -2, -1. -/
inductive Ans
  | ok (addr : Nat) | storeFull | noDb
  deriving DecidableEq, Repr

/-- ddl_manager.cpp:1005-1049 and 1185-1242, before the task of a region of a rollup index is handed out: the region is gone
or cold (its work counts as done), the table's schema cannot be read (1024-1027), the partition has no range (1196-1199), the
range cannot be evaluated (1201-1220), the partition is too young (1238-1241), or go ahead. -/
inductive Pre
  | gone | cold | noTable | noRange | badRange | young | ready
  deriving DecidableEq, Repr

/-- What one region's visit depends on: the rollup checks, the answer of `execute_task`, whether too many regions are being
worked on now and whether the round's quota is used up. -/
structure Ask where
  pre : Pre
  ans : Ans
  crowded : Bool
  roundFull : Bool
  deriving DecidableEq, Repr

structure Env where
  /-- `StatusChangePolicy::should_change`, ddl_manager.cpp:46-55 -/
  ripe : Bool
  /-- the SQL nodes in `_address_instance_map` that are not faulty -/
  known : List Nat
  /-- ddl_manager.cpp:1018-1024 -/
  busy : Bool
  ask : Nat → Ask
  /-- the change of the schema goes through the raft log -/
  applied : Bool
  maxRetry : Nat

/-- What the visit of a region does to its work, to `done` and `rollback`, whether the traversal goes on, and the task
handed out. -/
structure Visit where
  work : RWork
  done : Bool
  rollback : Bool
  go : Bool
  task : Option (Nat × RWork)
  deriving DecidableEq, Repr

/-- ddl_manager.cpp:309-311: what `execute_task` writes into the work it is given. -/
def handed (w : RWork) : RWork := { w with retry := w.retry + 1 }

/-- ddl_manager.cpp:1114-1183 `execute_or_retry_task`; `done` as it comes in is kept unless it is set to false. -/
def execOrRetry (maxRetry : Nat) (a : Ask) (done : Bool) (w : RWork) : Visit :=
  match w.status with
  | .idle =>
    match a.ans with
    | .ok addr =>
      ⟨{ handed w with status := .doing }, false, false, !a.crowded && !a.roundFull, some (addr, handed w)⟩
    | .storeFull => ⟨w, false, false, true, none⟩
    | .noDb => ⟨w, false, false, false, none⟩
  | .fail =>
    if w.retry < maxRetry then
      match a.ans with
      | .ok addr => ⟨{ handed w with status := .doing }, false, false, !a.crowded, some (addr, handed w)⟩
      | _ => ⟨w, false, false, true, none⟩
    else ⟨w, false, true, false, none⟩
  | .dupUniq | .error => ⟨w, false, true, false, none⟩
  | .doing => ⟨w, false, false, true, none⟩
  | .done => ⟨w, done, false, true, none⟩

/-- ddl_manager.cpp:1028-1062: the visit of a region for a rollup index, before `execute_or_retry_task`. -/
def rollupVisit (maxRetry : Nat) (a : Ask) (done : Bool) (w : RWork) : Visit :=
  if w.status = .idle then
    match a.pre with
    | .gone | .cold => ⟨{ w with status := .done }, done, false, true, none⟩
    | .noTable => ⟨w, done, false, true, none⟩
    | .noRange => ⟨w, done, false, false, none⟩
    | .badRange => ⟨w, false, false, false, none⟩
    | .young => ⟨w, false, false, true, none⟩
    | .ready => execOrRetry maxRetry a done w
  else execOrRetry maxRetry a done w

def visit (rollup : Bool) (maxRetry : Nat) (a : Ask) (done : Bool) (w : RWork) : Visit :=
  if rollup then rollupVisit maxRetry a done w else execOrRetry maxRetry a done w

structure Round where
  works : List RWork
  done : Bool
  rollback : Bool
  tasks : List (Nat × RWork)
  deriving DecidableEq, Repr

/-- common.h:861-895: the traversal of the works, stopping when a visit says so. -/
def traverse (rollup : Bool) (maxRetry : Nat) (ask : Nat → Ask) (done : Bool) : List RWork → Round
  | [] => ⟨[], done, false, []⟩
  | w :: ws =>
    let v := visit rollup maxRetry (ask w.region) done w
    if v.go then
      let r := traverse rollup maxRetry ask v.done ws
      ⟨v.work :: r.works, r.done, v.rollback || r.rollback, v.task.toList ++ r.tasks⟩
    else ⟨v.work :: ws, v.done, v.rollback, v.task.toList⟩

/-- table_manager.cpp:5477-5510 with `deleted` unset: the state in the schema, if the request goes through. -/
def setState (e : Env) (s : IState) (m : Meta) : Meta := if e.applied then { m with state := some s } else m

/-- ddl_manager.h:320-328 `set_txn_ready`. -/
def txnReady (ok : Bool) (m : Meta) : Meta := { m with wait := m.wait.map fun _ => ⟨ok, true⟩ }

/-- ddl_manager.cpp:465-482 `update_txn_ready`. -/
def updateTxnReady (m : Meta) : Meta :=
  match m.cast with
  | some c => if c.number = 0 then txnReady true { m with cast := none } else m
  | none => m

/-- ddl_manager.h:92-113 `execute_broadcast_task`. -/
def broadcast (known : List Nat) : Cast := ⟨known, [], known.length⟩

/-- ddl_manager.cpp:967-996: nothing asked yet, ask; else look whether all have answered. -/
def waitTick (e : Env) (m : Meta) : Meta :=
  match m.wait with
  | none => { m with wait := some ⟨false, false⟩, cast := some (broadcast e.known) }
  | some _ =>
    let m := updateTxnReady m
    match m.wait with
    | some ⟨true, true⟩ => { setState e .writeLocal m with wait := none }
    | some ⟨false, true⟩ => { m with job := some .addFailed, wait := none }
    | _ => m

/-- ddl_manager.cpp:998-1096. -/
def fillTick (e : Env) (m : Meta) : Meta :=
  match m.works with
  | none => m
  | some ws =>
    if e.busy then m
    else
      let r := traverse m.isRollup e.maxRetry e.ask true ws
      let m := { m with works := some r.works, todo := m.todo ++ r.tasks }
      if r.done then setState e .pub { m with job := some .finished }
      else if r.rollback then { m with job := some .addFailed }
      else m

/-- ddl_manager.cpp:940-1112 `add_index_ddlwork`. -/
def addTick (e : Env) (m : Meta) : Meta :=
  match m.state with
  | none => m
  | some .none => if e.ripe then setState e .deleteOnly m else m
  | some .deleteOnly => if e.ripe then setState e .writeOnly m else m
  | some .writeOnly => waitTick e m
  | some .writeLocal => fillTick e m
  | some .pub => setState e .pub { m with job := some .finished }
  | some .deleteLocal => m

/-- ddl_manager.cpp:851-938 `drop_index_ddlwork`; table_manager.cpp:5486-5491 removes a global index from the schema. -/
def dropTick (e : Env) (m : Meta) : Meta :=
  match m.state with
  | none => m
  | some s =>
    if e.ripe then
      match s with
      | .none => { (if e.applied then { m with state := none } else m) with job := some .finished }
      | .deleteLocal => { setState e .deleteLocal m with job := some .finished }
      | .deleteOnly => if m.isGlobal then setState e .none m else setState e .deleteLocal m
      | .writeOnly => setState e .deleteOnly m
      | .writeLocal => setState e .writeOnly m
      | .pub => setState e .writeOnly m
    else m

/-- ddl_manager.cpp:1432-1451, 1471-1495 `delete_ddlwork`. -/
def clearWork (m : Meta) : Meta :=
  { m with job := none, works := none, wait := none, todo := [], doing := [] }

/-- ddl_manager.cpp:703-754: one round of the worker thread for the table.  A failed addition is followed by a drop
(721-724). -/
def tick (e : Env) (m : Meta) : Meta :=
  match m.job with
  | none => m
  | some .finished => clearWork m
  | some .addFailed => { clearWork m with job := some .drop }
  | some .add => addTick e m
  | some .drop => dropTick e m

/-- ddl_manager.cpp:484-511 `init_del_index_ddlwork`, reached from DROP INDEX. -/
def startDrop (m : Meta) : Meta :=
  match m.job with
  | none => { m with job := some .drop }
  | some _ => m

/-- ddl_manager.cpp:513-608 `init_index_ddlwork`: a work per region of the table.  The new index has state `IS_NONE`. -/
def startAdd (index : Nat) (regions : List Nat) (isGlobal isRollup : Bool) : Meta :=
  { job := some .add, state := some .none, works := some (regions.map fun r => ⟨r, index, .idle, 0⟩), wait := none, cast := none,
    todo := [], doing := [], isGlobal := isGlobal, isRollup := isRollup }

/-- ddl_manager.cpp:1509-1535 `update_index_ddlwork_region_info`. -/
def setWork (w : RWork) (m : Meta) : Meta :=
  { m with works := m.works.map fun ws =>
      if ws.any fun x => x.region = w.region then ws.map fun x => if x.region = w.region then w else x else ws ++ [w] }

/-- ddl_manager.cpp:60-78: the tasks waiting for the SQL node are handed over. -/
def handOver (addr : Nat) (m : Meta) : Meta :=
  let mine := m.todo.filter fun t => t.1 = addr
  let m' := mine.foldl (fun m t => setWork { t.2 with status := .doing } m) m
  { m' with todo := m.todo.filter (fun t => t.1 ≠ addr),
            doing := m.doing ++ mine.map fun t => (t.1, { t.2 with status := .doing }) }

/-- ddl_manager.cpp:80-104: the report of a task, looked up by table and region. -/
def report (addr : Nat) (w : RWork) (m : Meta) : Meta :=
  if w.status = .doing then m
  else if m.doing.any fun t => t.1 = addr ∧ t.2.region = w.region then
    { setWork w m with doing := m.doing.filter fun t => ¬(t.1 = addr ∧ t.2.region = w.region) }
  else m

/-- ddl_manager.cpp:360-381, 415-432: tasks not heard of for long, and those of a faulty SQL node, go back to idle. -/
def giveUp (addr region : Nat) (m : Meta) : Meta :=
  let lost := (m.todo ++ m.doing).filter fun t => t.1 = addr ∧ t.2.region = region
  let m' := lost.foldl (fun m t => setWork { t.2 with status := .idle } m) m
  { m' with todo := m.todo.filter (fun t => ¬(t.1 = addr ∧ t.2.region = region)),
            doing := m.doing.filter fun t => ¬(t.1 = addr ∧ t.2.region = region) }

/-- ddl_manager.cpp:118-129: the SQL node is told to wait for its transactions. -/
def castHandOver (addr : Nat) (m : Meta) : Meta :=
  { m with cast := m.cast.map fun c =>
      if addr ∈ c.todo then ⟨c.todo.filter (· ≠ addr), c.doing ++ [addr], c.number⟩ else c }

/-- ddl_manager.cpp:168-183: all have answered. -/
def castEnd (m : Meta) : Meta :=
  match m.cast with
  | some c => if c.number = 0 then { txnReady true m with cast := none } else m
  | none => m

/-- ddl_manager.cpp:161-183: the SQL node says its transactions are done. -/
def castDone (addr : Nat) (m : Meta) : Meta :=
  match m.cast with
  | some c =>
    if addr ∈ c.doing then castEnd { m with cast := some ⟨c.todo, c.doing.filter (· ≠ addr), c.number - 1⟩ } else castEnd m
  | none => m

/-- ddl_manager.cpp:154-160: the SQL node gave up waiting. -/
def castFail (m : Meta) : Meta :=
  match m.cast with
  | some _ => { txnReady false m with cast := none }
  | none => m

/-- ddl_manager.cpp:393-410, 434-438: a SQL node not heard of is no longer waited for. -/
def castLost (addr : Nat) (m : Meta) : Meta :=
  { m with cast := m.cast.map fun c =>
      ⟨c.todo.filter (· ≠ addr), c.doing.filter (· ≠ addr),
       c.number - (if addr ∈ c.todo then 1 else 0) - (if addr ∈ c.doing then 1 else 0)⟩ }

/-- meta_state_machine.cpp:755-756 and ddl_manager.cpp:790-815: another leader.  It knows the works as the log has them, so
those the old leader handed out without the log knowing (`back`) are idle again, and has asked no SQL node anything. -/
def newLeader (back : Nat → Bool) (m : Meta) : Meta :=
  { m with works := m.works.map fun ws => ws.map fun w => if w.status = .doing ∧ back w.region then { w with status := .idle } else w,
           wait := none, cast := none, todo := [], doing := m.doing.filter fun t => !back t.2.region }

end BaikalDB.Ddl
