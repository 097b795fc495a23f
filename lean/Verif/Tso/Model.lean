/-
Model of the timestamp oracle (TSO): src/meta_server/tso_state_machine.cpp, include/meta_server/tso_state_machine.h,
the constants in include/common/common.h L1627-1645, and the raft group it runs in.

`int64` milliseconds and counters are unbounded integers here (the real ones overflow only for clocks or counts near
2^63).  Raft itself (braft) is not modelled: it is represented by one committed log, by elections that happen only on a
node that has applied the whole committed log (braft calls on_leader_start after the configuration entry of the new term
has been applied), and by the rule that a node applies an entry of a newer term only after on_leader_stop was called.
-/
namespace BaikalDB.Tso

/-- common.h L1632: `max_logical = 1 << 18`. -/
def maxLogical : Int := 262144
/-- common.h L1628 -/
def guardMs : Int := 1
/-- common.h L1629 -/
def saveIntervalMs : Int := 3000

/-- tso_state_machine.h L41-44: TsoObj. -/
structure Obj where
  phys : Int
  logical : Int
  save : Int
deriving DecidableEq, Repr

/-- tso_state_machine.cpp L57-61 (init): a fresh process. -/
def Obj.init : Obj := ⟨0, 0, 0⟩

/-- The requests that go through the raft log: OP_UPDATE_TSO, OP_RESET_TSO (with its `force`). -/
inductive Kind where
  | update
  | reset (force : Bool)
deriving DecidableEq, Repr

structure Entry where
  kind : Kind
  phys : Int
  logical : Int
  save : Int
deriving DecidableEq, Repr

/-- tso_state_machine.cpp L82-136: one round of the loop in gen_tso (the part under the mutex).  The result is the start
of the granted range, none means "sleep and try again". -/
def genTry (o : Obj) (count : Int) : Option (Int × Int) × Obj :=
  if o.phys ≠ 0 then
    if o.logical + count < maxLogical then
      (some (o.phys, o.logical), { o with logical := o.logical + count })
    else (none, o)
  else (none, o)

/-- tso_state_machine.cpp L275-303: update_tso. -/
def updateTso (o : Obj) (phys logical save : Int) : Bool × Obj :=
  if save < o.save ∨ phys < o.phys then (false, o)
  else (true, ⟨phys, logical, save⟩)

/-- tso_state_machine.cpp L235-273: reset_tso (requests carrying both optional fields). -/
def resetTso (o : Obj) (force : Bool) (phys logical save : Int) : Bool × Obj :=
  if (save < o.save ∨ phys < o.phys) ∧ force = false then (false, o)
  else (true, ⟨phys, logical, save⟩)

/-- tso_state_machine.cpp L193-233: on_apply, for one log entry. -/
def applyEntry (o : Obj) (e : Entry) : Bool × Obj :=
  match e.kind with
  | .update => updateTso o e.phys e.logical e.save
  | .reset f => resetTso o f e.phys e.logical e.save

/-- tso_state_machine.cpp L338-373: update_timestamp, the request it sends through raft, if any. -/
def updateTimestamp (o : Obj) (now : Int) : Option Entry :=
  let delta := now - o.phys
  let next : Option Int :=
    if delta > guardMs then some now
    else if o.logical > maxLogical / 2 then some (o.phys + guardMs)
    else none
  match next with
  | none => none
  | some next =>
    let save := if o.save - next ≤ guardMs then next + saveIntervalMs else o.save
    some ⟨.update, next, 0, save⟩

/-- tso_state_machine.cpp L375-391: the request on_leader_start sends through raft. -/
def leaderStart (o : Obj) (now : Int) : Entry :=
  let p := if now < o.save + guardMs then o.save + guardMs else now
  ⟨.update, p, 0, p + saveIntervalMs⟩

/-- tso_state_machine.cpp L456-475 (load_tso): only last_save_physical is in the snapshot (L405-407). -/
def loadSnapshot (o : Obj) (save : Int) : Obj := { o with save := save }

/-- State of the bthread started by on_leader_start (L386-398). -/
inductive Start where
  | waiting | ok | failed
deriving DecidableEq, Repr

/-- One server of the TSO raft group. -/
structure Node where
  obj : Obj
  /-- number of committed log entries applied -/
  applied : Nat
  /-- the term this node leads, between on_leader_start and on_leader_stop -/
  role : Option Nat
  /-- `_is_leader` -/
  flag : Bool
  /-- `_is_healty` -/
  healthy : Bool
  /-- the on_leader_start thread, if it has not finished -/
  starting : Option Start
  /-- a sync_timestamp call is waiting for its entry -/
  wait : Bool
deriving DecidableEq, Repr

def Node.init : Node := ⟨Obj.init, 0, none, false, true, none, false⟩

/-- A granted range, with the term of the granting node (none: it was not leader). -/
structure Issue where
  term : Option Nat
  phys : Int
  start : Int
  count : Int
deriving DecidableEq, Repr

/-- The raft group.  `pend` are proposals of the leader of the current term that are not committed yet (proposals of
former leaders cannot be committed any more), `snaps` the snapshots (index, last_save_physical) taken so far,
`admitted` the requests inside the gen_tso loop, `issued` the history of granted ranges, newest first. -/
structure Sys where
  nodes : Nat → Node
  log : List (Nat × Entry)
  term : Nat
  pend : List Entry
  snaps : List (Nat × Int)
  admitted : List (Nat × Int)
  issued : List Issue

def Sys.init : Sys := ⟨fun _ => Node.init, [], 0, [], [(0, 0)], [], []⟩

def setNode (f : Nat → Node) (i : Nat) (n : Node) : Nat → Node := fun j => if j = i then n else f j

inductive Act where
  /-- a request for `count` timestamps passes the checks in process() L166 and gen_tso L85-96 -/
  | admit (i : Nat) (count : Int)
  /-- one round of its loop -/
  | attempt (i : Nat) (count : Int)
  /-- its last round failed -/
  | giveUp (i : Nat) (count : Int)
  /-- the timer of node i runs, its clock says `now` -/
  | tick (i : Nat) (now : Int)
  /-- an operator sends OP_RESET_TSO to node i -/
  | reset (i : Nat) (force : Bool) (phys logical save : Int)
  /-- raft commits the k-th pending proposal -/
  | commit (k : Nat)
  /-- node i applies its next committed entry -/
  | apply (i : Nat)
  /-- node i is elected: on_leader_start -/
  | elect (i : Nat) (now : Int)
  /-- the on_leader_start thread finishes (L390-396) -/
  | flagUp (i : Nat)
  /-- on_leader_stop -/
  | stop (i : Nat)
  /-- on_snapshot_save -/
  | snapSave (i : Nat)
  /-- process restart from the k-th snapshot -/
  | restart (i : Nat) (k : Nat)
  /-- a follower installs the k-th snapshot -/
  | install (i : Nat) (k : Nat)
deriving DecidableEq, Repr

/-- tso_state_machine.cpp L82-96, L138-175: a GEN_TSO request passes the checks. -/
def admits (n : Node) (count : Int) : Bool := n.flag && n.healthy && decide (count ≠ 0)

/-- The entry is of a newer term than the one the node leads: braft calls on_leader_stop before applying it. -/
def newer (role : Option Nat) (t : Nat) : Bool :=
  match role with
  | some r => decide (r < t)
  | none => false

/-- One step of the group; none if the action is not possible in this state. -/
def step (s : Sys) : Act → Option Sys
  | .admit i c =>
    if admits (s.nodes i) c then some { s with admitted := (i, c) :: s.admitted } else none
  | .attempt i c =>
    if (i, c) ∈ s.admitted then
      let n := s.nodes i
      match genTry n.obj c with
      | (some (p, l), o) => some { s with
          nodes := setNode s.nodes i { n with obj := o }
          admitted := s.admitted.erase (i, c)
          issued := ⟨n.role, p, l, c⟩ :: s.issued }
      | (none, _) => some s
    else none
  | .giveUp i c =>
    if (i, c) ∈ s.admitted then some { s with admitted := s.admitted.erase (i, c) } else none
  | .tick i now =>
    let n := s.nodes i
    if n.flag = true ∧ n.wait = false then
      match updateTimestamp n.obj now with
      | none => some s
      | some e => some { s with
          nodes := setNode s.nodes i { n with wait := true }
          pend := if n.role = some s.term then s.pend ++ [e] else s.pend }
    else none
  | .reset i f p l sv =>
    let n := s.nodes i
    if n.flag = true then
      some { s with pend := if n.role = some s.term then s.pend ++ [⟨.reset f, p, l, sv⟩] else s.pend }
    else none
  | .commit k =>
    match s.pend[k]? with
    | none => none
    | some e => some { s with log := s.log ++ [(s.term, e)], pend := s.pend.eraseIdx k }
  | .apply i =>
    let n := s.nodes i
    match s.log[n.applied]? with
    | none => none
    | some (t, e) =>
      if newer n.role t then none
      else
        let r := applyEntry n.obj e
        let own := decide (n.role = some t)
        let upd := decide (e.kind = .update)
        some { s with nodes := setNode s.nodes i { n with
          obj := r.2
          applied := n.applied + 1
          wait := if own && upd then false else n.wait
          starting := if own && upd && decide (n.starting = some .waiting) then
            some (if r.1 then .ok else .failed) else n.starting
          healthy := if !upd && r.1 then true else n.healthy } }
  | .elect i now =>
    let n := s.nodes i
    if n.applied = s.log.length ∧ n.role = none ∧ n.starting = none then
      some { s with
        nodes := setNode s.nodes i { n with role := some (s.term + 1), starting := some .waiting, wait := true }
        term := s.term + 1
        pend := [leaderStart n.obj now] }
    else none
  | .flagUp i =>
    let n := s.nodes i
    match n.starting with
    | some .ok => some { s with nodes := setNode s.nodes i { n with flag := true, starting := none } }
    | some .failed => some { s with
        nodes := setNode s.nodes i { n with flag := true, healthy := false, starting := none } }
    | _ => none
  | .stop i =>
    let n := s.nodes i
    if n.role = none then none
    else some { s with nodes := setNode s.nodes i { n with
      role := none, flag := false, wait := false
      starting := if n.starting = some .waiting then some .failed else n.starting } }
  | .snapSave i => some { s with snaps := s.snaps ++ [((s.nodes i).applied, (s.nodes i).obj.save)] }
  | .restart i k =>
    match s.snaps[k]? with
    | none => none
    | some (a, sv) => some { s with
        nodes := setNode s.nodes i { Node.init with obj := loadSnapshot Obj.init sv, applied := a }
        admitted := s.admitted.filter (fun x => x.1 ≠ i) }
  | .install i k =>
    let n := s.nodes i
    match s.snaps[k]? with
    | none => none
    | some (a, sv) =>
      if n.role = none ∧ n.applied < a then
        some { s with nodes := setNode s.nodes i { n with obj := loadSnapshot n.obj sv, applied := a } }
      else none

/-- An execution. -/
def run (s : Sys) : List Act → Option Sys
  | [] => some s
  | a :: as => match step s a with
    | none => none
    | some s' => run s' as

end BaikalDB.Tso
