import Mathlib.Tactic.Common

/-!
# Two-phase commit over regions

One transaction, one coordinator (the SQL node's connection) and the regions it touches.  Region 0 is the primary
region: the first one the transaction reaches.  A region's state is what its raft group has applied, so leader changes
inside a region lose nothing except transactions that have not written anything (these never enter the raft log).
Messages (requests, replies, queries, answers) are kept for ever: each may be delivered late, repeatedly, or never.
Splits and merges of regions during the transaction, the binlog region and operator commands are left out.
-/

namespace BaikalDB.Txn

/-- A transaction in a region's pool (`Transaction`): `_is_prepared`, `has_dml_executed()`. -/
structure Tx where
  prepared : Bool
  writes : Bool
  deriving DecidableEq, Repr

/-- One region.  `tag`: the persistent rollback mark (meta_writer.cpp:228-255).  `fin`: the id is in
`_finished_txn_map` (memory only, transaction_pool.cpp:105-121).  `outcome` and `commits` are not in the code: what
finally happened to the transaction's writes here, and how often they were applied. -/
structure Reg where
  tx : Option Tx
  tag : Bool
  fin : Bool
  outcome : Option Bool
  commits : Nat
  deriving DecidableEq, Repr

def Reg.fresh : Reg := ⟨none, false, false, none, 0⟩

inductive Op where
  | dml | prepare | commit | rollback
  deriving DecidableEq, Repr

inductive Msg where
  | req (op : Op) (r : Nat)
  | reply (op : Op) (r : Nat) (rolledBack : Bool)
  | query (r : Nat) (prepared : Bool)
  | answer (r : Nat) (commit : Bool)
  deriving DecidableEq, Repr

/-- What the coordinator is doing: executing statements; preparing; committing (the primary has not answered yet, then
the others); rolling back (the same two stages); killed in the middle of a commit; gone. -/
inductive Phase where
  | run | prep | commit | commitRest | abort | abortRest | killed | dead
  deriving DecidableEq, Repr

structure St where
  regs : Nat → Reg
  msgs : List Msg
  ph : Phase
  /-- the primary has answered a request -/
  up : Bool
  /-- `client_conn->region_infos` -/
  contacted : List Nat
  acked : List Nat
  /-- the result given to the client, when there is one: committed / rolled back -/
  told : Option Bool

def St.init : St := ⟨fun _ => .fresh, [], .run, false, [], [], none⟩

/-! ## A region handling a request -/

/-- transaction_node.cpp:105-126 with region.cpp:2049-2071 and transaction_pool.cpp:105-121, 284-287: rollback of an
existing transaction.  The mark is written only if the transaction has written (region.cpp:902-914, 1164-1174: others
never reach the log). -/
def doRollback (r : Reg) (t : Tx) : Reg :=
  if t.writes then { r with tx := none, tag := true, fin := true, outcome := some false }
  else { r with tx := none, fin := true }

/-- transaction_node.cpp:80-103, transaction.cpp:1468-1491: commit of an existing transaction; one that is not
prepared is refused, removed from the pool and thereby rolled back, without mark.  A transaction without writes is
rolled back (transaction_pool.cpp:288-292). -/
def doCommit (r : Reg) (t : Tx) : Reg × Bool :=
  if !t.writes then ({ r with tx := none, fin := true }, true)
  else if t.prepared then ({ r with tx := none, fin := true, outcome := some true, commits := r.commits + 1 }, true)
  else ({ r with tx := none, fin := true, outcome := some false }, false)

/-- region.cpp:799-1218 `exec_in_txn_query` together with 4306-4470 `apply_txn_request`.  The result is the region and
the reply, if any: `some true` is TXN_IS_ROLLBACK, `some false` success, `none` an error (to the coordinator the same as
a lost reply followed by its decision to give up).
* no transaction: 825-858 (mark, then `_finished_txn_map`, then rollback of nothing); otherwise the cached BEGIN (and
  statements) come with the request, so a statement starts the transaction and PREPARE executes everything and prepares;
  a COMMIT finds nothing to do (4395-4407);
* a transaction: a repeated statement or PREPARE returns the stored result (859-881). -/
def handle (r : Reg) : Op → Reg × Option Bool
  | .dml =>
    match r.tx with
    | some t => ({ r with tx := some { t with writes := true } }, some false)
    | none => if r.tag then (r, some true) else if r.fin then (r, some false) else ({ r with tx := some ⟨false, true⟩ }, some false)
  | .prepare =>
    match r.tx with
    | some t => ({ r with tx := some { t with prepared := true } }, some false)
    | none => if r.tag then (r, some true) else if r.fin then (r, some false) else ({ r with tx := some ⟨true, true⟩ }, some false)
  | .commit =>
    match r.tx with
    | some t => let (r', ok) := doCommit r t; (r', if ok then some false else none)
    | none => if r.tag then (r, some true) else (r, some false)
  | .rollback =>
    match r.tx with
    | some t => (doRollback r t, some false)
    | none => if r.tag then (r, some true) else (r, some false)

/-- region.cpp:684-748 `exec_txn_query_primary_region` with transaction_pool.cpp:173-191: what the asking region will
do (`some true` commit, `some false` roll back; `none`: try again later). -/
def verdict (primary : Reg) (prepared : Bool) : Option Bool :=
  match primary.tx with
  | some _ => none
  | none => if primary.tag then some false else some prepared

/-! ## The system -/

def setReg (s : St) (r : Nat) (x : Reg) : St := { s with regs := fun i => if i = r then x else s.regs i }

def send (s : St) (m : Msg) : St := { s with msgs := m :: s.msgs }

inductive Ev where
  /-- the coordinator sends a statement to a region -/
  | sendDml (r : Nat)
  | startPrepare (more : List Nat)
  | sendPrepare (r : Nat)
  | decideCommit
  | decideAbort
  | sendCommit (r : Nat)
  | sendRollback (r : Nat)
  /-- the query is killed while the commit is under way -/
  | kill
  | crash
  /-- the coordinator receives a reply -/
  | recv (m : Msg)
  /-- a region receives a request, the primary a query, a region an answer -/
  | deliver (m : Msg)
  /-- a statement that fails with a duplicate key: the transaction has begun but has not written -/
  | dupKey (r : Nat)
  /-- the primary gives the transaction up (idle for too long) -/
  | timeout
  /-- a region that has been waiting for too long asks the primary -/
  | ask (r : Nat)
  | leaderChange (r : Nat)
  /-- `_finished_txn_map` is cleared (every ten minutes, or by a restart) -/
  | forget (r : Nat)
  deriving DecidableEq, Repr

/-- The transitions.
* `sendDml`, `sendPrepare`: fetcher_store.cpp:1847-1876: the first request of the transaction goes to the primary alone
  and must be answered before any other region is contacted.  `startPrepare`: single_txn_manager_node.cpp:69-83,
  commit_manager_node.h:55-68; `more` are the regions of a statement that is only sent together with PREPARE.
* `decideCommit`: exec_prepared_node returned without error: every region has answered.
* `decideAbort`: any error before that.
* `sendCommit`/`sendRollback` to a region other than the primary: only after the primary's answer
  (fetcher_store.cpp:1878-1929), 1941-1958.
* `recv`: 1899-1912: the primary's answer to COMMIT: success: go on; TXN_IS_ROLLBACK: fail, and roll back
  (single_txn_manager_node.cpp:87-93, commit_manager_node.h:74-79).  Its answer to ROLLBACK, either way: go on.
* `kill`: 1920-1923 and then exec_rollback_node: one ROLLBACK to the primary is sent (OnRPCDone::check_status,
  107-113, lets it pass) and nothing more (660-669, 1921-1923).
* `timeout`: transaction_pool.cpp:582-593, 611-614.  `ask`: 594-597, 615-639, 140-164.  `deliver` of an answer:
  300-345; nothing happens if the transaction is gone (317-320).
* `leaderChange`: 643-701.  `forget`: 538-543. -/
def step (s : St) : Ev → Option St
  | .sendDml r =>
    if s.ph = .run ∧ (r = 0 ∨ s.up) then some { send s (.req .dml r) with contacted := r :: s.contacted } else none
  | .startPrepare more =>
    if s.ph = .run then some { s with ph := .prep, contacted := 0 :: more ++ s.contacted } else none
  | .sendPrepare r =>
    if s.ph = .prep ∧ (r = 0 ∨ s.up) ∧ r ∈ s.contacted then some (send s (.req .prepare r)) else none
  | .decideCommit =>
    if s.ph = .prep ∧ (∀ r ∈ s.contacted, r ∈ s.acked) then some { s with ph := .commit } else none
  | .decideAbort => if s.ph = .run ∨ s.ph = .prep then some { s with ph := .abort } else none
  | .sendCommit r =>
    if (s.ph = .commit ∧ r = 0) ∨ (s.ph = .commitRest ∧ r ∈ s.contacted) then some (send s (.req .commit r)) else none
  | .sendRollback r =>
    if ((s.ph = .abort ∨ s.ph = .killed) ∧ r = 0) ∨ s.ph = .abortRest then some (send s (.req .rollback r)) else none
  | .kill => if s.ph = .commit then some { s with ph := .killed } else none
  | .crash => some { s with ph := .dead }
  | .recv m =>
    if m ∈ s.msgs then
      match m with
      | .reply .dml r rb => if r = 0 ∧ rb = false then some { s with up := true } else some s
      | .reply .prepare r rb =>
        if rb = false then some { s with up := s.up || r == 0, acked := r :: s.acked } else some s
      | .reply .commit r rb =>
        if r = 0 ∧ s.ph = .commit then
          if rb then some { s with ph := .abort } else some { s with ph := .commitRest, told := some true }
        else some s
      | .reply .rollback r _ =>
        if r = 0 ∧ s.ph = .abort then some { s with ph := .abortRest, told := some false } else some s
      | _ => none
    else none
  | .deliver m =>
    if m ∈ s.msgs then
      match m with
      | .req op r =>
        let (x, a) := handle (s.regs r) op
        match a with
        | some rb => some (send (setReg s r x) (.reply op r rb))
        | none => some (setReg s r x)
      | .query r p =>
        match verdict (s.regs 0) p with
        | some c => some (send s (.answer r c))
        | none => some s
      | .answer r c =>
        match (s.regs r).tx with
        | some t => some (setReg s r (if c then (doCommit (s.regs r) t).1 else doRollback (s.regs r) t))
        | none => some s
      | .reply .. => none
    else none
  | .dupKey r =>
    if .req .dml r ∈ s.msgs ∧ s.regs r = .fresh then
      some (send (setReg s r { s.regs r with tx := some ⟨false, false⟩ }) (.reply .dml r false))
    else none
  | .timeout =>
    match (s.regs 0).tx with
    | some t => some (setReg s 0 (doRollback (s.regs 0) t))
    | none => none
  | .ask r =>
    match (s.regs r).tx with
    | some t => if r = 0 then none else some (send s (.query r t.prepared))
    | none => none
  | .leaderChange r =>
    match (s.regs r).tx with
    | some t => if t.writes then some s else some (setReg s r { s.regs r with tx := none })
    | none => some s
  | .forget r => some (setReg s r { s.regs r with fin := false })

def run : St → List Ev → Option St
  | s, [] => some s
  | s, e :: es => (step s e).bind fun s' => run s' es

end BaikalDB.Txn
