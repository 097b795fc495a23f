import Mathlib.Tactic.Common

/-!
# The statements of a transaction inside one region

A region's copy of a transaction as a leader and its followers see it: sequence numbers, save points, the rollback of a
failed request, the rollback of statements the SQL layer has given up.  The writes themselves are abstract: `effs` lists,
newest first, the statements whose writes are in the transaction's write batch; a statement that fails may leave any
number of its writes behind.  Ending the transaction is `Verif.Txn.TwoPC`.
-/

namespace BaikalDB.Stmt

/-- The fields of `Transaction` concerned (include/engine/transaction.h:641-657): `_seq_id`, `_save_point_seq` with the
length of the write batch at each save point, `_current_req_point_seq` (a `std::set`, ascending), the write batch. -/
structure T where
  seq : Nat
  saves : List (Nat × Nat)
  cur : List Nat
  effs : List Nat
  deriving DecidableEq, Repr

/-- transaction.cpp:180-200 and the BEGIN executed as cached command 1 (region.cpp:535-592): every request that can find
no transaction carries it. -/
def T.begin : T := ⟨1, [], [1], []⟩

/-- `std::set::insert`. -/
def ins (n : Nat) : List Nat → List Nat
  | [] => [n]
  | a :: l => if n < a then n :: a :: l else if n = a then a :: l else a :: ins n l

/-- transaction.h:284-290. -/
def setSeq (t : T) (n : Nat) : T := if n < t.seq then t else { t with seq := n }

/-- transaction.cpp:1508-1523. -/
def setSavePoint (t : T) : T :=
  match t.saves with
  | (s, _) :: _ => if s < t.seq then { t with saves := (t.seq, t.effs.length) :: t.saves, cur := ins t.seq t.cur } else t
  | [] => { t with saves := (t.seq, t.effs.length) :: t.saves, cur := ins t.seq t.cur }

/-- transaction.cpp:1525-1548: only the newest save point can be rolled back to. -/
def rollbackToPoint (t : T) (q : Nat) : T :=
  match t.saves with
  | (s, len) :: rest => if s = q then { t with saves := rest, effs := t.effs.drop (t.effs.length - len) } else t
  | [] => t

/-- transaction.cpp:1558-1575: the loop over the save points of the current request, newest first. -/
def rollbackLoop (first : Nat) : List Nat → T → T
  | [], t => t
  | s :: l, t => if first = s then t else rollbackLoop first l (rollbackToPoint t s)

/-- transaction.cpp:1550-1581 `rollback_current_request`. -/
def rollbackCurrent (t : T) : T :=
  if t.cur.length = 1 then t
  else
    let first := t.cur.headD 0
    { rollbackLoop first t.cur.reverse t with seq := first, cur := [first] }

/-- A request: its sequence number, PREPARE or a statement, the cached statements that come with it, and the statements
given up so far (`need_rollback_seq`, descending as 2022 runs through it). -/
structure Req where
  seq : Nat
  prep : Bool
  cached : List Nat
  drop : List Nat
  deriving DecidableEq, Repr

/-- How an execution of a statement ends: success, or failure with some writes left behind.  The result may differ from
one execution to the next (locks, duplicate keys). -/
abbrev Env := Nat → Option Nat

/-- region.cpp:1961-2300 `dml_2pc` for a statement: the save points of given-up statements (2022-2027), a given-up statement
is not executed (2029-2034), sequence number and save point before execution (2037-2041), execution. -/
def execStmt (t : T) (n : Nat) (drop : List Nat) (env : Env) : T × Bool :=
  let t := drop.foldl rollbackToPoint t
  if n ∈ drop then (setSeq t n, true)
  else
    let t := setSavePoint (setSeq t n)
    match env n with
    | none => ({ t with effs := n :: t.effs }, true)
    | some k => ({ t with effs := List.replicate k n ++ t.effs }, false)

/-- The same for PREPARE: no save point, no writes. -/
def execPrepare (t : T) (n : Nat) (drop : List Nat) : T := setSeq (drop.foldl rollbackToPoint t) n

/-- region.cpp:522-596 `execute_cached_cmd`; `last` is the sequence number before the first one. -/
def execCached (last : Nat) (drop : List Nat) (env : Env) : List Nat → T → T × Bool
  | [], t => (t, true)
  | n :: l, t =>
    if n ≤ last then execCached last drop env l t
    else
      match execStmt t n drop env with
      | (t', true) => execCached last drop env l t'
      | (t', false) => (t', false)

/-- region.cpp:799-1218 on the leader, before the request is handed to raft: a repeated request is answered from what is
stored (859-881); cached statements first (954-965); a statement is executed at once (1146-1153), PREPARE is not; on
failure the request is rolled back (946-952).  `some` when the request goes to raft. -/
def leaderExec (t : T) (rq : Req) (env : Env) : T × Option Bool :=
  if rq.seq ≤ t.seq then (t, none)
  else
    let (t1, ok) := if t.seq < rq.seq - 1 then execCached t.seq rq.drop env rq.cached t else (t, true)
    if !ok then (rollbackCurrent t1, some false)
    else if rq.prep then (t1, some true)
    else
      match execStmt t1 rq.seq rq.drop env with
      | (t2, true) => (t2, some true)
      | (t2, false) => (rollbackCurrent t2, some false)

/-- region.cpp:4306-4471 `apply_txn_request` on any replica; the execution succeeds as it did on the leader.  4340-4342:
the request is settled. -/
def applyReq (t : T) (rq : Req) : T :=
  let env : Env := fun _ => none
  let t1 := if t.seq < rq.seq - 1 then (execCached t.seq rq.drop env rq.cached t).1 else t
  let t2 :=
    if t.seq < rq.seq then
      if rq.prep then execPrepare t1 rq.seq rq.drop else (execStmt t1 rq.seq rq.drop env).1
    else t1
  { t2 with cur := [t2.seq] }

/-! ## The SQL layer and the replicas -/

/-- What becomes of a request given to raft: applied and answered; lost, because the leader changed or raft reported an
error (closure.cpp:33-47, transaction_pool.cpp:655-659); or lost for this leader but applied later, before the next
leader takes requests. -/
inductive Fate where
  | done | lost | late
  deriving DecidableEq, Repr

/-- `lead`: the leader's copy; `repl`: a follower's copy with the same log applied.  `n`: `client_conn->seq_id`; `m`: the
first sequence number of the SQL statement in progress; `wait`: a request of it is unanswered; `drop`:
`need_rollback_seq`; `dest`: the statements sent to this region, newest first; `acks`: the answers; `prepared`: PREPARE
has been sent. -/
structure Sys where
  lead : T
  repl : T
  n : Nat
  m : Nat
  wait : Bool
  drop : List Nat
  dest : List Nat
  msgs : List Req
  acks : List Nat
  prepared : Bool
  deriving DecidableEq, Repr

def Sys.init : Sys := ⟨.begin, .begin, 1, 2, false, [], [], [], [], false⟩

inductive Ev where
  /-- a statement takes the next number and is sent to this region / to other regions only -/
  | issue
  | elsewhere
  /-- the answer has arrived -/
  | finish
  /-- the SQL statement has ended well -/
  | sqlEnd
  /-- it failed somewhere: all its numbers are given up -/
  | cancel
  /-- PREPARE, alone or with a statement cached until then -/
  | prepare
  | prepareCached
  /-- a request (again, or late) reaches the leader -/
  | deliver (rq : Req) (env : Env) (fate : Fate)
  | leaderChange

/-- `m, m+1, ..., n`, descending. -/
def range (m n : Nat) : List Nat := ((List.range (n + 1 - m)).map (· + m)).reverse

/-- * `issue`, `elsewhere`: dml_manager_node.cpp:20-41, 77-113.  `finish`: fetcher_store.cpp run.
* `cancel`: dml_manager_node.cpp:33-36, 96-109, 166-180.
* `prepare`: commit_manager_node.h:55-68, `prepareCached`: single_txn_manager_node.cpp:46-83.
* `leaderChange`: the new leader is a replica that has applied the same log. -/
def step (s : Sys) : Ev → Option Sys
  | .issue =>
    if s.wait = false ∧ s.prepared = false then
      some { s with n := s.n + 1, wait := true, dest := (s.n + 1) :: s.dest, msgs := ⟨s.n + 1, false, [], s.drop⟩ :: s.msgs }
    else none
  | .elsewhere => if s.wait = false ∧ s.prepared = false then some { s with n := s.n + 1 } else none
  | .finish => if s.wait = true ∧ s.n ∈ s.acks then some { s with wait := false } else none
  | .sqlEnd => if s.wait = false ∧ s.prepared = false then some { s with m := s.n + 1 } else none
  | .cancel =>
    if s.prepared = false then some { s with drop := range s.m s.n ++ s.drop, m := s.n + 1, wait := false } else none
  | .prepare =>
    if s.wait = false ∧ s.prepared = false then
      some { s with n := s.n + 1, prepared := true, msgs := ⟨s.n + 1, true, [], s.drop⟩ :: s.msgs }
    else none
  | .prepareCached =>
    if s.wait = false ∧ s.prepared = false then
      some { s with n := s.n + 2, prepared := true, dest := (s.n + 1) :: s.dest, msgs := ⟨s.n + 2, true, [s.n + 1], s.drop⟩ :: s.msgs }
    else none
  | .deliver rq env fate =>
    if rq ∈ s.msgs then
      match leaderExec s.lead rq env with
      | (_, none) => some { s with acks := rq.seq :: s.acks }
      | (l, some false) => some { s with lead := l }
      | (l, some true) =>
        match fate with
        | .done => some { s with lead := applyReq l rq, repl := applyReq s.repl rq, acks := rq.seq :: s.acks }
        | .lost => some { s with lead := rollbackCurrent l }
        | .late => some { s with lead := applyReq (rollbackCurrent l) rq, repl := applyReq s.repl rq }
    else none
  | .leaderChange => some { s with lead := s.repl }

def run : Sys → List Ev → Option Sys
  | s, [] => some s
  | s, e :: es => (step s e).bind fun s' => run s' es

end BaikalDB.Stmt
