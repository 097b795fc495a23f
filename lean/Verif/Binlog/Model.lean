import Mathlib.Tactic.Common

/-!
# Binlog regions and the capturer that reads them

A binlog region keeps one record per timestamp (prewrite, commit, rollback, or a fake one that only moves time on), a
map of what is unfinished, and the check point up to which the binlog may be read.  The capturer reads binlog regions
and hands transactions out in the order of their commit timestamps.  Timestamps come from the meta server's oracle.
-/

namespace BaikalDB.Binlog

/-! ## Ordered maps keyed by timestamps (`std::map`, RocksDB) -/

/-- `map[k] = v`, `Put`. -/
def put {α : Type} (k : Int) (v : α) : List (Int × α) → List (Int × α)
  | [] => [(k, v)]
  | (k', v') :: l => if k < k' then (k, v) :: (k', v') :: l else if k = k' then (k, v) :: l else (k', v') :: put k v l

/-- `map.erase(k)`. -/
def del {α : Type} (k : Int) (l : List (Int × α)) : List (Int × α) := l.filter fun e => e.1 != k

def has {α : Type} (k : Int) (l : List (Int × α)) : Bool := l.any fun e => e.1 == k

/-! ## The store -/

inductive Kind | prewrite | commit | rollback | fake
  deriving DecidableEq, Repr

/-- One entry of the raft log: region_binlog.cpp:908-962 `apply_binlog`, 292-387 `binlog_fill_exprvalue`.  `ts` is
`binlog_ts`: the start timestamp of a prewrite (binlog_context.cpp:507), the commit timestamp of a commit (513), the start
timestamp (522) or a new timestamp (region_binlog.cpp:122) of a rollback.  `data` is the payload of a prewrite. -/
structure Entry where
  kind : Kind
  ts : Int
  start : Int
  rows : Int
  data : Nat
  deriving DecidableEq, Repr

/-- The record stored under a timestamp (region_binlog.cpp:830-906). -/
structure Rec where
  kind : Kind
  start : Int
  rows : Int
  deriving DecidableEq, Repr

/-- `BinlogParam` (region.h:1465-1472), the records, the payloads (kept by the raft log's storage, my_raft_log_storage.cpp,
under the start timestamp; here stored with the record) and the check point in the meta column family.  `pend` is
`ts_binlog_map`: `true` for a prewrite, `false` for a fake record.  `timeout_start_ts_done` only serves warnings. -/
structure St where
  recs : List (Int × Rec)
  vals : Int → Option Nat
  pend : List (Int × Bool)
  cp : Int
  max : Int
  oldest : Int
  saved : Int

/-- region.h:1465-1472. -/
def init : St := ⟨[], fun _ => none, [], -1, -1, -1, -1⟩

def setVal (f : Int → Option Nat) (k : Int) (v : Nat) : Int → Option Nat := fun j => if j = k then some v else f j

/-- region_binlog.cpp:830-906 `write_binlog_record`, `write_binlog_value` (RocksDB does not fail; a failure would only
be logged, 941-948). -/
def write (s : St) (e : Entry) : St :=
  { s with
    recs := put e.ts ⟨e.kind, e.start, e.rows⟩ s.recs
    vals := if e.kind = .prewrite then setVal s.vals e.ts e.data else s.vals }

/-- `ts_binlog_map.empty() ? d : ts_binlog_map.begin()->first` (region_binlog.cpp:780, 809). -/
def front (d : Int) : List (Int × Bool) → Int
  | [] => d
  | e :: _ => e.1

/-- region_binlog.cpp:779-782 (and 652-653). -/
def settle (s : St) (pend : List (Int × Bool)) (ts : Int) : St :=
  { s with
    pend := pend
    cp := front ts pend
    max := if s.max < ts then ts else s.max }

/-- region_binlog.cpp:667-689: the first fake record opens the region. -/
def opened (s : St) (ts : Int) : St :=
  { s with
    pend := put ts false s.pend
    saved := ts
    cp := ts
    oldest := ts
    max := if s.max < ts then ts else s.max }

/-- region_binlog.cpp:659-785 `binlog_update_map_when_apply`. -/
def updateMap (s : St) (e : Entry) : St :=
  if s.cp = -1 then (if e.kind = .fake then opened s e.ts else s)
  else
    match e.kind with
    | .fake => if e.ts ≤ s.cp then s else settle s (put e.ts false s.pend) e.ts
    | .prewrite => settle s (put e.ts true s.pend) e.ts
    | _ => if e.start < s.cp then s else if has e.start s.pend then settle s (del e.start s.pend) e.ts else s

/-- region_binlog.cpp:788-828 `binlog_update_check_point`.  `save`: the interval since the check point was last written
has passed (814-819). -/
def updateCheck (s : St) (save : Bool) : St :=
  if s.cp = -1 then s
  else
    let pend := s.pend.dropWhile fun e => !e.2
    let c := front s.max pend
    { s with
      pend := pend
      cp := if s.cp < c then c else s.cp
      saved := if save then c else s.saved }

/-- region_binlog.cpp:908-962 `apply_binlog`. -/
def apply (s : St) (e : Entry) (save : Bool) : St := updateCheck (updateMap (write s e) e) save

/-- region_binlog.cpp:598-656 `binlog_update_map_when_scan`. -/
def scanStep (s : St) (x : Int × Rec) : St :=
  if x.1 < s.max then s
  else
    match x.2.kind with
    | .fake => settle s (put x.1 false s.pend) x.1
    | .prewrite => settle s (put x.1 true s.pend) x.1
    | _ => if x.2.start < s.cp then s else if has x.2.start s.pend then settle s (del x.2.start s.pend) x.1 else s

/-- region_binlog.cpp:517-595 `binlog_scan_when_restart`, from the state with the map emptied and the check point read. -/
def scanAll (s : St) (save : Bool) : St :=
  updateCheck ((s.recs.filter fun x => decide (s.cp ≤ x.1)).foldl scanStep s) save

/-- region_binlog.cpp:445-475 `binlog_reset_on_snapshot_load_restart` in a new process (`max_ts_applied` is -1,
region.h:1467). -/
def restart (s : St) (save : Bool) : St :=
  let s' := { s with pend := [], cp := s.saved, max := -1 }
  let s' := if 0 < s.saved then scanAll s' save else s'
  if s'.oldest < 0 then { s' with oldest := s'.cp } else s'

/-- region_binlog.cpp:478-514 `binlog_reset_on_snapshot_load`: `own` takes over the records and the written check point of
`src`, which come with the snapshot, but keeps its `max_ts_applied`; payloads are not fetched.  (Fails without a check
point.) -/
def load (own src : St) (save : Bool) : Option St :=
  if 0 < src.saved then
    let s := scanAll { src with vals := own.vals, pend := [], cp := src.saved, max := own.max } save
    let m := if s.cp < s.max then s.max else s.cp
    some { s with max := m, oldest := m }
  else none

/-! ## Reading -/

/-- What is handed to the reader: `commit_ts` and the payload; no payload for a fake record (whose start is its
timestamp). -/
structure Item where
  ts : Int
  start : Int
  data : Option Nat
  deriving DecidableEq, Repr

inductive Mode
  | get
  | multi (batch : Nat)
  deriving DecidableEq, Repr

/-- A request, and what the answer depends on beside the region: the oldest timestamp of the payload column family
(region_binlog.cpp:1445), the way payloads are read (964-978; `SEEK` is not used), and whether another binlog still
fits the answer after `n` of them (995-1023: size, time, memory).  No flash-back reading and no cache of answers
(`FLAGS_use_binlog_cache` is off). -/
structure Query where
  begin : Int
  cnt : Int
  cfOldest : Int
  mode : Mode
  accept : Nat → Bool

def item (vals : Int → Option Nat) (p : Int × Int) : Item := ⟨p.1, p.2, if p.1 = p.2 then none else vals p.2⟩

/-- region_binlog.cpp:1274-1288 and 1343-1354, 995-1023 `binlog_add_to_response`: `true` when one is refused. -/
def addAll (vals : Int → Option Nat) (accept : Nat → Bool) : List Item → List (Int × Int) → List Item × Bool
  | resp, [] => (resp, false)
  | resp, p :: ps => if accept resp.length then addAll vals accept (resp ++ [item vals p]) ps else (resp, true)

/-- region_binlog.cpp:1025-1091 `multiget`: whether all payloads are there. -/
def found (vals : Int → Option Nat) (batch : List (Int × Int)) : Bool :=
  batch.all fun p => p.1 == p.2 || (vals p.2).isSome

/-- The end of one call of `get_binlog_value`, region_binlog.cpp:1206-1293. -/
inductive Got
  | fail
  | stop (resp : List Item)
  | more (batch : List (Int × Int)) (resp : List Item)

/-- region_binlog.cpp:1206-1293 `get_binlog_value`. -/
def getValue (vals : Int → Option Nat) (q : Query) (batch : List (Int × Int)) (resp : List Item) (p : Int × Int) : Got :=
  match q.mode with
  | .get =>
    if !found vals [p] then .fail
    else if q.accept resp.length then .more [] (resp ++ [item vals p]) else .stop resp
  | .multi n =>
    if (batch ++ [p]).length < n then .more (batch ++ [p]) resp
    else if !found vals (batch ++ [p]) then .fail
    else
      match addAll vals q.accept resp (batch ++ [p]) with
      | (r, true) => .stop r
      | (r, false) => .more [] r

inductive Res
  | err
  | ok (items : List Item)
  deriving DecidableEq, Repr

/-- region_binlog.cpp:1326-1358 `get_binlog_finish`. -/
def finish (vals : Int → Option Nat) (q : Query) (batch : List (Int × Int)) (resp : List Item) : Res :=
  if batch.isEmpty then .ok resp
  else if !found vals batch then .err
  else .ok (addAll vals q.accept resp batch).1

/-- region_binlog.cpp:1571-1646, the loop of `read_binlog` over the records from `begin` on. -/
def scan (vals : Int → Option Nat) (q : Query) (cp oldest : Int) :
    List (Int × Rec) → List (Int × Int) → List Item → Int → Res
  | [], batch, resp, _ => finish vals q batch resp
  | x :: xs, batch, resp, cnt =>
    if x.1 < q.begin ∨ cp < x.1 then finish vals q batch resp
    else if x.2.kind = .fake ∧ q.begin < x.1 then
      match getValue vals q batch resp (x.1, x.1) with
      | .fail => .err
      | .stop r => .ok r
      | .more b r => scan vals q cp oldest xs b r cnt
    else if x.2.kind ≠ .commit ∨ x.1 = q.begin then scan vals q cp oldest xs batch resp cnt
    else if x.2.start < oldest then .err
    else if cnt < 0 then finish vals q batch resp
    else
      match getValue vals q batch resp (x.1, x.2.start) with
      | .fail => .err
      | .stop r => .ok r
      | .more b r => scan vals q cp oldest xs b r (cnt - if x.2.rows ≤ 0 then 1 else x.2.rows)

/-- region_binlog.cpp:1420-1667 `read_binlog`. -/
def read (s : St) (q : Query) : Res :=
  let oldest := if q.cfOldest < s.oldest then s.oldest else q.cfOldest
  if s.cp < 0 then .err
  else if oldest < 0 then .err
  else if q.begin = 0 then .err
  else if q.begin < oldest then .err
  else if s.cp ≤ q.begin then .ok []
  else scan s.vals q s.cp oldest (s.recs.filter fun x => decide (q.begin ≤ x.1)) [] [] q.cnt

/-! ## The capturer -/

/-- `Capturer` (baikal_capturer.h:95-189): `_last_commit_ts` and `_region_binlogs_map`. -/
structure Cap where
  last : Int
  cache : Nat → List (Int × Item)

/-- What is asked of a region: baikal_capturer.cpp:795-833 `get_binlog_regions`; `none`: nothing, enough is cached. -/
def ask (maxCache : Nat) (c : Cap) (g : Nat) : Option Int :=
  if maxCache < (c.cache g).length then none
  else
    match (c.cache g).getLast? with
    | none => some c.last
    | some e => some e.1

/-- baikal_capturer.cpp:804-811: a subscriber that does not go on where it was is served anew. -/
def seek (c : Cap) (ts : Int) : Cap := if ts = c.last then c else ⟨ts, fun _ => []⟩

/-- baikal_capturer.cpp:175-199 and baikal_capturer.h:119-121. -/
def insertAll (m : List (Int × Item)) (xs : List Item) : List (Int × Item) := xs.foldl (fun m x => put x.ts x m) m

/-- `std::priority_queue` by commit timestamp (baikal_capturer.h:56-65): sorting by insertion. -/
def push (x : Nat × Item) : List (Nat × Item) → List (Nat × Item)
  | [] => [x]
  | y :: l => if x.2.ts ≤ y.2.ts then x :: y :: l else y :: push x l

/-- baikal_capturer.cpp:835-844: the smallest of the regions' last timestamps; `none` when a region has nothing. -/
def minLast (cache : Nat → List (Int × Item)) : List Nat → Option Int
  | [] => none
  | [g] => (cache g).getLast?.map (·.1)
  | g :: gs =>
    match (cache g).getLast?, minLast cache gs with
    | some e, some m => some (if e.1 < m then e.1 else m)
    | _, _ => none

/-- baikal_capturer.cpp:845-853: what goes into the queue. -/
def queue (cache : Nat → List (Int × Item)) (m : Int) (gs : List Nat) : List (Nat × Item) :=
  (gs.flatMap fun g => ((cache g).takeWhile fun e => decide (e.1 ≤ m)).map fun e => (g, e.2)).foldr push []

/-- What is cached once the answers are in (baikal_capturer.cpp:175-199); a region that is not asked keeps what it has. -/
def filled (maxCache : Nat) (c : Cap) (answer : Nat → List Item) (g : Nat) : List (Int × Item) :=
  if (ask maxCache c g).isSome then insertAll (c.cache g) (answer g) else c.cache g

/-- The timestamp of the last binlog taken from the queue (baikal_capturer.cpp:253-353). -/
def lastTs (ts : Int) (out : List (Nat × Item)) : Int := out.getLast?.elim ts fun x => x.2.ts

/-- baikal_capturer.cpp:858-871 `update_commit_ts`. -/
def advance (cache : Nat → List (Int × Item)) (ts : Int) : Cap :=
  ⟨ts, fun g => (cache g).dropWhile fun e => decide (e.1 ≤ ts)⟩

/-- baikal_capturer.cpp:743-793 `subscribe` and what it calls: `answer g` is the answer of region `g` (24-112: regions
are asked until each has answered with something, else the call fails).  The result is what is handed out and the
timestamp to go on from. -/
def subscribe (maxCache : Nat) (gs : List Nat) (c : Cap) (ts : Int) (answer : Nat → List Item) :
    Option (List (Nat × Item) × Int) × Cap :=
  let c := seek c ts
  if gs.any fun g => (ask maxCache c g).isSome && (answer g).isEmpty then (none, c)
  else
    let cache := filled maxCache c answer
    match minLast cache gs with
    | none => (none, ⟨c.last, cache⟩)
    | some m =>
      let out := queue cache m gs
      if lastTs ts out < ts then (none, ⟨c.last, cache⟩)
      else (some (out, lastTs ts out), advance cache (lastTs ts out))

end BaikalDB.Binlog
