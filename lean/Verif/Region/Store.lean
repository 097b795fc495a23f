import Verif.KeyEnc.Model

/-!
# Regions on the stores: ranges, versions, split and merge

A table (or global index) is cut into regions, each served by the leader of one raft group.  A region's
information is its range `[start, stop)` (an empty `stop` is plus infinity) and a version.  The model below has one
transition for each step of a split or merge at which some region's range or its readiness to take writes changes.
Raft replication inside a region is not modelled: an applied log entry is one atomic change of the region.
Data movement is not modelled here (C08, C18-C20 are about it).
-/

namespace BaikalDB.Region

/-- region.cpp:3900-3926 `check_key_fits_region_range`, transaction.cpp:281-… `fits_region_range` (primary table and
global index): the test a region applies to a row's key. -/
def inRange (start stop x : Bytes) : Bool :=
  (bcmp x start != .lt) && (stop == [] || bcmp x stop == .lt)

/-- region.cpp:470-519 `validate_version`: a request is refused (VERSION_OLD) iff it carries a version below the
region's. -/
def validateVersion (reqVersion regionVersion : Nat) : Bool := !(reqVersion < regionVersion)

/-- A region that a split is going to create. -/
structure Kid where
  id : Nat
  start : Bytes
  stop : Bytes
  deriving DecidableEq, Repr

/-- What a region's leader is busy with.  `split`: writes are off (`_disable_write_cond`), the new regions in `todo`
have not been switched on yet (they are at version 0 and serve nobody).  `merge`: this region is being emptied into
`dst`; `extended` says that `dst` has already taken over the range. -/
inductive Job where
  | idle
  | split (key : Bytes) (kids todo : List Kid)
  | merge (dst : Nat) (extended : Bool)
  deriving DecidableEq, Repr

structure Reg where
  id : Nat
  ver : Nat
  start : Bytes
  stop : Bytes
  job : Job
  deriving DecidableEq, Repr

/-- region.cpp:764-775, 1006-1012, 1104-1110 and 1270-1271: a write waits for `_disable_write_cond` and fails on
timeout, so nothing is written while a split (from region.cpp:6528 / 7418 on) or merge (from 5986 on) holds it. -/
def Reg.writable (r : Reg) : Bool := r.job == .idle

/-- region.cpp:4499-4553 `generate_multi_split_keys`, the ranges: new region `i` starts where its predecessor ends
and the last one keeps the parent's end (region.cpp:4534, 7599-7602 `if (!end_key.empty())`).  With no inner
boundary this is the ordinary split: one region with a copy of the parent's end (region.cpp:6197-6203,
7692-7695). -/
def mkKids (stop : Bytes) : Bytes → List Nat → List Bytes → List Kid
  | start, [i], _ => [⟨i, start, stop⟩]
  | start, i :: is, b :: bs => ⟨i, start, b⟩ :: mkKids stop b is bs
  | _, _, _ => []

/-- region.cpp:4523-4537: the inner boundaries of a tail split into several regions: first primary key column
`f + step·i`, all other columns empty (`rest`).  `BitVec.ofInt 64` and the truncation in `appendValue` are the
conversion of the decimal text back into the column type. -/
def multiBounds (t : KeyEnc.PType) (f step : Int) (rest : Bytes) (n : Nat) : List Bytes :=
  (List.range n).map fun (i : Nat) => KeyEnc.appendValue [] t (BitVec.ofInt 64 (f + step * ((i : Int) + 1))) [] ++ rest

/-- A tail split's or an ordinary split's key lies in the region (region.cpp:8080-8250 `get_split_key`: it is a key of
a row of the region; 6249: not above the end; 4602: last key with 0xFF appended, the region being the last one), and
the boundaries of a multi-way split ascend. -/
def ascending : Bytes → List Bytes → Bool
  | _, [] => true
  | a, b :: bs => (bcmp a b == .lt) && ascending b bs

def splitOk (r : Reg) (key : Bytes) (kids : List Nat) (bounds : List Bytes) : Bool :=
  key != [] && bcmp r.start key != .gt && (r.stop == [] || bcmp key r.stop != .gt) &&
    kids.length == bounds.length + 1 && (bounds == [] || r.stop == []) && ascending key bounds

/-- region.cpp:6022-6029 and 6087-6096, and store.cpp:2772: neither region empty, the region merged away is neither
the first nor the last one, starts no later and ends no earlier than the other begins, and does not end after it. -/
def mergeOk (src dst : Reg) : Bool :=
  src.start != [] && src.stop != [] &&
  !(src.start == src.stop || dst.start == dst.stop || bcmp src.stop dst.start == .lt ||
    bcmp dst.start src.start == .lt || KeyEnc.endKeyCompare src.stop dst.stop == .gt)

abbrev State := List Reg

def get (st : State) (p : Nat) : Option Reg := st.find? (·.id == p)

def modify (st : State) (p : Nat) (f : Reg → Reg) : State := st.map fun r => if r.id == p then f r else r

def Job.todo : Job → List Kid
  | .split _ _ todo => todo
  | _ => []

/-- Ids in use: existing regions and regions about to be created (ids come from the meta server and are never
given out twice, region_manager / table_manager `get_max_region_id`). -/
def usedIds (st : State) : List Nat := st.flatMap fun r => r.id :: r.job.todo.map (·.id)

inductive Ev where
  | splitBegin (p : Nat) (key : Bytes) (kids : List Nat) (bounds : List Bytes)
  | splitActivate (p : Nat)
  | splitFinish (p : Nat)
  | splitAbort (p : Nat)
  | mergeBegin (src dst : Nat)
  | mergeExtend (src : Nat)
  | mergeFinish (src : Nat)
  | mergeAbort (src : Nat)
  | interrupted (p : Nat)
  deriving DecidableEq, Repr

/-- The transitions.
* `splitBegin` region.cpp:6237-6330 (`make_region_status_doing`: only an idle region) up to the point where writes
  are off; the time in which data is copied while writes go on changes no range and is left out.
* `splitActivate` region.cpp:7588-7600, 4864-4925 `add_version_for_split_region`: version 1, its range, ready.
* `splitFinish` region.cpp:7727-7765, 4724-4796 `validate_and_add_version`: version+1, end := split key, ready.
* `splitAbort` `split_remove_new_region_peers`: the split gives up before a new region is switched on.
* `mergeBegin` region.cpp:5967-6029.  `mergeExtend` region.cpp:6030-6140 and, on the other region, 4626-4722: start
  := the source's start, version+1, only if idle and the precondition holds for its current range (the request
  carries a version, so by `C09_version_fixes_range` the range the source saw is the current one); if it already
  starts there nothing is changed (6097-6099; the reply leading there comes after the idle test in 4638).
* `mergeFinish` region.cpp:6141-6189, 4683-4722: source becomes `[start, start)`, version+1, ready.
* `mergeAbort` `ScopeMergeStatus`: gives up before the other region was extended.
* `interrupted`: the leader is lost, or the last step of the split or merge fails, at any point: the job is forgotten
  and the region takes writes again with the range it has (`ScopeProcStatus`, `ScopeMergeStatus`, region.cpp:4733). -/
def step (st : State) : Ev → Option State
  | .splitBegin p key ids bounds =>
    match get st p with
    | some r =>
      if r.job == .idle && splitOk r key ids bounds && decide ids.Nodup && ids.all (fun i => !(usedIds st).contains i) then
        let kids := mkKids r.stop key ids bounds
        some (modify st p fun r => { r with job := .split key kids kids })
      else none
    | none => none
  | .splitActivate p =>
    match get st p with
    | some r =>
      match r.job with
      | .split key kids (k :: todo) =>
        some (modify st p (fun r => { r with job := .split key kids todo }) ++ [⟨k.id, 1, k.start, k.stop, .idle⟩])
      | _ => none
    | none => none
  | .splitFinish p =>
    match get st p with
    | some r =>
      match r.job with
      | .split key _ [] => some (modify st p fun r => { r with ver := r.ver + 1, stop := key, job := .idle })
      | _ => none
    | none => none
  | .splitAbort p =>
    match get st p with
    | some r =>
      match r.job with
      | .split _ kids todo => if kids == todo then some (modify st p fun r => { r with job := .idle }) else none
      | _ => none
    | none => none
  | .mergeBegin s d =>
    match get st s with
    | some r => if r.job == .idle && s != d then some (modify st s fun r => { r with job := .merge d false }) else none
    | none => none
  | .mergeExtend s =>
    match get st s with
    | some r =>
      match r.job with
      | .merge d false =>
        match get st d with
        | some t =>
          if mergeOk r t && t.job == .idle then
            let st' := modify st s fun r => { r with job := .merge d true }
            if r.start == t.start then some st'
            else some (modify st' d fun t => { t with ver := t.ver + 1, start := r.start })
          else none
        | none => none
      | _ => none
    | none => none
  | .mergeFinish s =>
    match get st s with
    | some r =>
      match r.job with
      | .merge _ true => some (modify st s fun r => { r with ver := r.ver + 1, stop := r.start, job := .idle })
      | _ => none
    | none => none
  | .mergeAbort s =>
    match get st s with
    | some r =>
      match r.job with
      | .merge _ false => some (modify st s fun r => { r with job := .idle })
      | _ => none
    | none => none
  | .interrupted p => some (modify st p fun r => { r with job := .idle })

/-- A freshly created table: its regions come with the create statement (meta server `create_table`,
split keys of the statement): consecutive ranges from the empty key to the empty key, version 1. -/
def initRegions : Nat → Bytes → List Bytes → State
  | i, start, [] => [⟨i, 1, start, [], .idle⟩]
  | i, start, b :: bs => ⟨i, 1, start, b, .idle⟩ :: initRegions (i + 1) b bs

end BaikalDB.Region
