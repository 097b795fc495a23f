/-
The merge of an empty region into the region that follows it, under concurrent writes.

/repo/src/store/region.cpp, start_process_merge (L5966-6185), adjustkey_and_add_version_query
(L4617-4683), adjustkey_and_add_version (L4685-4721), has_sst_data (L5904-5936),
validate_version (L470-519), exec_in_txn_query (L799-1215); src/store/closure.cpp
MergeClosure::Run (L127-155); src/store/store.cpp L2770-2815 (the thread that starts merges);
src/exec/fetcher_store.cpp L226-260 and L676-742 (what a client does with VERSION_OLD).

The region that goes away is the *source*, the one that takes its keys over is the *destination*.
-/
import Mathlib.Tactic.Common

namespace BaikalDB.Absorb

/-- A key of the table.  Simplified: keys are byte strings compared as such; only the order
matters here.  The empty start key (the first region of a table) does not occur, the first
region is never merged (store.cpp L2772). -/
abbrev Key := Nat

/-- The contents of a row. -/
abbrev Val := Nat

/-- The part of `pb::RegionInfo` that says which keys a region has, and since which version.
The end key `none` is the empty end key, i.e. the last region of a table. -/
structure Info where
  start : Key
  stop : Option Key
  version : Nat
deriving DecidableEq, Repr

/-- Does the range `[start_key, end_key)` have the key. -/
def Info.covers (i : Info) (k : Key) : Bool :=
  decide (i.start ≤ k) && (match i.stop with
    | none => true
    | some e => decide (k < e))

/-- A row change.  `none` deletes the row. -/
structure Write where
  key : Key
  val : Option Val
deriving DecidableEq, Repr

/-- A row change within an open transaction. -/
structure Stmt where
  txn : Nat
  write : Write
deriving DecidableEq, Repr

/-- What a region has in its raft log: the rows of a committed statement, or a change of its
range (`OP_ADJUSTKEY_AND_ADD_VERSION`). -/
inductive Entry
  | put (w : Write)
  | adjust (i : Info)
deriving DecidableEq, Repr

/-- A region, as its leader has it.

`queue` are the log entries that were given to raft and are not applied yet.  `views` are all
the ranges that the region has ever published; a client has one of them. -/
structure Region where
  info : Info
  rows : List (Key × Val)
  txns : List Stmt
  queue : List Entry
  views : List Info
  applied : Nat
deriving DecidableEq, Repr

/-- One row change on the rows of a region. -/
def write (rows : List (Key × Val)) (w : Write) : List (Key × Val) :=
  match w.val with
  | some v => (w.key, v) :: rows.filter (fun r => decide (r.1 ≠ w.key))
  | none => rows.filter (fun r => decide (r.1 ≠ w.key))

/-- A row by its key. -/
def get (rows : List (Key × Val)) (k : Key) : Option Val :=
  (rows.find? (fun r => decide (r.1 = k))).map Prod.snd

/-- `has_sst_data`, region.cpp L5904-5936: the number of committed rows of the region, from the
beginning of the table up to the end key of the region.  Rows of open transactions are not seen
by the iterator. -/
def seekLines (r : Region) : Nat :=
  (r.rows.filter (fun p => match r.info.stop with
    | none => true
    | some e => decide (p.1 < e))).length

/-- `end_key_compare(a, b) <= 0`, common.h: the empty end key is the largest. -/
def endLe : Option Key → Option Key → Bool
  | _, none => true
  | none, some _ => false
  | some a, some b => decide (a ≤ b)

/-- The check that source and destination are neighbours, region.cpp L6022-6030 and L6107-6115. -/
def fits (src : Info) (dstStart : Key) (dstStop : Option Key) : Bool :=
  !(decide (src.stop = some src.start)
    || decide (dstStop = some dstStart)
    || (match src.stop with
        | none => true
        | some e => decide (e < dstStart))
    || decide (dstStart < src.start)
    || !(endLe src.stop dstStop))

/-- What the meta server says about the destination (schema_manager.cpp L1015-1085).  It may be
out of date. -/
structure Meta where
  start : Key
  stop : Option Key
  version : Nat
deriving DecidableEq, Repr

/-- How far the source is in `start_process_merge`. -/
inductive Phase
  /-- no merge -/
  | idle
  /-- new writes are held up, the ones in progress are waited for (L5986-5993) -/
  | waiting (m : Meta)
  /-- about to send the request to the destination, with this version, after so many retries -/
  | asking (version : Nat) (retries : Nat)
  /-- the destination has put the new range into its log -/
  | sent (version : Nat) (retries : Nat)
  /-- the destination has answered -/
  | answered (i : Info)
  /-- the source has put its own, empty range into its log -/
  | closing
deriving DecidableEq, Repr

/-- A statement outside of transactions, as a client sends it: with the range of the region it
knows. -/
structure Req where
  write : Write
  view : Info
deriving DecidableEq, Repr

/-- Two neighbouring regions and their clients.

`lastcycle` is `_applied_index_lastcycle`, `disabled` is `_disable_write_cond.count() > 0` of the
source, `dstDoing` is the status DOING of the destination, `passed` are the requests to the
source that are past the wait of `_disable_write_cond` and not yet counted in
`_real_writing_cond`.  The status of the source is DOING as long as the phase is not idle.

`client` are the acknowledged statements of transactions that are not committed, and `acked` are
the row changes that were acknowledged as committed, newest first. -/
structure Sys where
  src : Region
  dst : Region
  lastcycle : Nat
  disabled : Bool
  dstDoing : Bool
  passed : List Req
  phase : Phase
  client : List Stmt
  acked : List Write
deriving DecidableEq, Repr

/-- `validate_version`, region.cpp L470-519: a request with an older version is turned away. -/
def accepts (r : Region) (view : Info) : Bool := !(decide (view.version < r.info.version))

/-- A request that a client can send: it goes to a region of which the client knows a range that
has the key. -/
def sendable (r : Region) (q : Req) : Bool :=
  decide (q.view ∈ r.views) && q.view.covers q.write.key

/-- Give an entry to raft. -/
def Region.propose (r : Region) (e : Entry) : Region := { r with queue := r.queue ++ [e] }

/-- `adjustkey_and_add_version`, region.cpp L4685-4721. -/
def Region.adjust (r : Region) (i : Info) : Region :=
  { r with
    info := i
    views := i :: r.views }

/-- `ScopeMergeStatus::~ScopeMergeStatus`, region.cpp L133-138: the source is idle again and
writes go on. -/
def release (s : Sys) : Sys :=
  { s with
    phase := .idle
    disabled := false }

/-- Apply the oldest entry of the log of the source. -/
def applySrc (s : Sys) : Option Sys :=
  match s.src.queue with
  | [] => none
  | .put w :: q => some { s with
      src := { s.src with
        queue := q
        rows := write s.src.rows w
        applied := s.src.applied + 1 }
      acked := w :: s.acked }
  | .adjust i :: q => some (release { s with
      src := { s.src.adjust i with
        queue := q
        applied := s.src.applied + 1 } })

/-- The destination has applied its new range: `MergeClosure::Run` answers with the range that the
region has now, and sets the status to idle.  The answer is of use only if the source still
waits for it. -/
def applyDst (s : Sys) : Option Sys :=
  match s.dst.queue with
  | [] => none
  | .put w :: q => some { s with
      dst := { s.dst with
        queue := q
        rows := write s.dst.rows w
        applied := s.dst.applied + 1 }
      acked := w :: s.acked }
  | .adjust i :: q => some { s with
      dst := { s.dst.adjust i with
        queue := q
        applied := s.dst.applied + 1 }
      dstDoing := false
      phase := match s.phase with
        | .sent _ _ => .answered i
        | p => p }

/-- The leader of the source is not leader any more and its oldest entry is dropped.  For the
range, `MergeClosure::Run` L149-152 lets writes go on; taking back the change of the destination
is a TODO there.  Simplified: the entry is gone, no later leader commits it. -/
def failSrc (s : Sys) : Option Sys :=
  match s.src.queue with
  | [] => none
  | .put _ :: q => some { s with src := { s.src with queue := q } }
  | .adjust _ :: q => some (release { s with src := { s.src with queue := q } })

/-- The same at the destination.  It answers NOT_LEADER; the source asks again, up to three times
(region.cpp L6072-6092). -/
def failDst (s : Sys) : Option Sys :=
  match s.dst.queue with
  | [] => none
  | .put _ :: q => some { s with dst := { s.dst with queue := q } }
  | .adjust _ :: q =>
      let s' := { s with
        dst := { s.dst with queue := q }
        dstDoing := false }
      match s.phase with
      | .sent v n => some (if n + 1 > 3 then release s' else { s' with phase := .asking v (n + 1) })
      | _ => some s'

/-- Past the wait for the writes in progress, region.cpp L5994-6033: nothing was applied since the
last round of the thread that starts merges, the region has no row, and the two regions are
neighbours. -/
def check (s : Sys) : Option Sys :=
  match s.phase with
  | .waiting m =>
      if s.src.queue = [] then
        if s.src.applied ≠ s.lastcycle then some (release s)
        else if seekLines s.src > 0 then some (release s)
        else if fits s.src.info m.start m.stop then
          some { s with phase := .asking m.version 0 }
        else some (release s)
      else none
  | _ => none

/-- The request reaches the destination (`adjustkey_and_add_version_query`), and, if it is turned
away because of its version, what the source does (region.cpp L6093-6133). -/
def ask (s : Sys) : Option Sys :=
  match s.phase with
  | .asking v n =>
      if s.dstDoing then some (release s)
      else if v < s.dst.info.version then
        if n + 1 > 3 then some (release s)
        else if fits s.src.info s.dst.info.start s.dst.info.stop then
          if s.src.info.start = s.dst.info.start then
            some { s with phase := .answered s.dst.info }
          else some { s with phase := .asking s.dst.info.version (n + 1) }
        else some (release s)
      else some { s with
        dstDoing := true
        dst := s.dst.propose (.adjust
          { start := s.src.info.start, stop := s.dst.info.stop,
            version := s.dst.info.version + 1 })
        phase := .sent v n }
  | _ => none

/-- The answer of the destination is checked, and the source gives its own, empty range to raft
(region.cpp L6138-6184). -/
def finish (s : Sys) : Option Sys :=
  match s.phase with
  | .answered i =>
      if i.start = s.src.info.start then some { s with
        src := s.src.propose (.adjust
          { start := s.src.info.start, stop := some s.src.info.start,
            version := s.src.info.version + 1 })
        phase := .closing }
      else some (release s)
  | _ => none

/-- All that can happen. -/
inductive Step
  /-- a statement to the destination -/
  | dstPut (q : Req)
  /-- a statement to the source is past the wait of `_disable_write_cond` (L1104-1113) -/
  | pass (q : Req)
  /-- ... and is counted in `_real_writing_cond`, checked and given to raft (L1114-1195) -/
  | enter (q : Req)
  | applySrc
  | applyDst
  | failSrc
  | failDst
  /-- a statement of a transaction, at the source or at the destination -/
  | stmt (atSrc : Bool) (txn : Nat) (q : Req)
  /-- the client commits a transaction -/
  | commit (txn : Nat)
  /-- a round of the thread that starts merges, store.cpp L2793-2798 -/
  | tick
  /-- that thread starts a merge -/
  | start (m : Meta)
  /-- the wait for the writes in progress times out (L5990-5993) -/
  | timeout
  | check
  | ask
  /-- the source gets no answer (L6064-6071, L6134: the RPC fails) -/
  | lose
  | finish
deriving DecidableEq, Repr

/-- Is the source merged away: `Region::empty`, region.h L994-999. -/
def merged (r : Region) : Bool := decide (r.info.stop = some r.info.start)

/-- The rows of a region after the statements of a transaction. -/
def commitRows (r : Region) (t : Nat) : List (Key × Val) :=
  ((r.txns.filter (fun x => decide (x.txn = t))).map Stmt.write).foldl write r.rows

/-- A region after the end of a transaction.  Simplified: PREPARE and COMMIT are one step, and are
applied when they are given to raft. -/
def Region.commit (r : Region) (t : Nat) : Region :=
  { r with
    rows := commitRows r t
    txns := r.txns.filter (fun x => decide (x.txn ≠ t))
    applied := r.applied + 1 }

/-- A statement of a transaction.  Simplified: it is applied when it is given to raft. -/
def Region.stmt (r : Region) (t : Nat) (w : Write) : Region :=
  { r with
    txns := r.txns ++ [⟨t, w⟩]
    applied := r.applied + 1 }

/-- The commit of a transaction.

Every region with statements of the transaction gets PREPARE and COMMIT.  A merged region turns
them away with VERSION_OLD, and the client sends them to the region that it was merged into
(fetcher_store.cpp L698-742).  They come with the BEGIN of the transaction only: the field
`last_seq_id`, from which on statements are sent again, is read there but no store sets it, so
the statements that the old region had are not sent again (fetcher_store.cpp L228-236, L730), and
COMMIT never brings any (L228).  A region that does not know the transaction has nothing to
commit, and answers SUCCESS (region.cpp L922-935, L1163-1172, L4395-4407). -/
def commit (s : Sys) (t : Nat) : Option Sys :=
  if s.disabled && s.src.txns.any (fun x => decide (x.txn = t)) then none
  else some { s with
    src := if merged s.src || !(s.src.txns.any (fun x => decide (x.txn = t))) then s.src
      else s.src.commit t
    dst := s.dst.commit t
    client := s.client.filter (fun x => decide (x.txn ≠ t))
    acked := ((s.client.filter (fun x => decide (x.txn = t))).map Stmt.write).foldl
      (fun a w => w :: a) s.acked }

/-- One step.  `none`: it cannot happen in this state.

Not modelled: a split of one of the two regions at the same time, the reads of transactions,
locks, followers, and the restart of a store. -/
def step (s : Sys) : Step → Option Sys
  | .dstPut q =>
      if sendable s.dst q then
        if accepts s.dst q.view then some { s with dst := s.dst.propose (.put q.write) }
        else some s
      else none
  | .pass q =>
      if sendable s.src q && !s.disabled then some { s with passed := q :: s.passed }
      else none
  | .enter q =>
      if q ∈ s.passed then
        let s' := { s with passed := s.passed.erase q }
        if accepts s.src q.view then some { s' with src := s'.src.propose (.put q.write) }
        else some s'
      else none
  | .applySrc => applySrc s
  | .applyDst => applyDst s
  | .failSrc => failSrc s
  | .failDst => failDst s
  | .stmt true t q =>
      if sendable s.src q && !s.disabled then
        if accepts s.src q.view then some { s with
          src := s.src.stmt t q.write
          client := s.client ++ [⟨t, q.write⟩] }
        else some s
      else none
  | .stmt false t q =>
      if sendable s.dst q then
        if accepts s.dst q.view then some { s with
          dst := s.dst.stmt t q.write
          client := s.client ++ [⟨t, q.write⟩] }
        else some s
      else none
  | .commit t => commit s t
  | .tick => if s.phase = .idle then some { s with lastcycle := s.src.applied } else none
  | .start m =>
      if s.phase = .idle ∧ s.src.info.stop ≠ none ∧ merged s.src = false then
        some { s with
          phase := .waiting m
          disabled := true }
      else none
  | .timeout => match s.phase with
      | .waiting _ => some (release s)
      | _ => none
  | .check => check s
  | .ask => ask s
  | .lose => match s.phase with
      | .sent _ _ => some (release s)
      | _ => none
  | .finish => finish s

/-- A sequence of steps. -/
def run (s : Sys) : List Step → Option Sys
  | [] => some s
  | x :: xs => match step s x with
      | none => none
      | some s' => run s' xs

end BaikalDB.Absorb
