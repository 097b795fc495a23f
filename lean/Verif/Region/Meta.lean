import Verif.Region.Store

/-!
# The meta server's region map of one table partition

`infos` is `_region_info_map` (region id to region information), `keys` is `startkey_regiondesc_map` of the partition
(start key to region id; the merge status of an entry only steers automatic merging and is left out).  Ordered maps
are sorted association lists.  `newMap`, `keyMap` and `noneMap` are the temporary maps `startkey_newregion_map`,
`id_keyregion_map` and `id_noneregion_map` in which heartbeats wait until a consistent group of regions can be
applied.  One partition, one table; other partitions and tables do not interact with it.
-/

namespace BaikalDB.Region

/-- `pb::RegionInfo`, the fields that matter here.  `peers` stands for the peer list as a whole. -/
structure RI where
  id : Nat
  ver : Nat
  conf : Nat
  start : Bytes
  stop : Bytes
  peers : Nat
  logIndex : Nat
  deriving DecidableEq, Repr

/-! ## Ordered maps -/

/-- `std::map::operator[] =`. -/
def minsert {α : Type} (k : Bytes) (v : α) : List (Bytes × α) → List (Bytes × α)
  | [] => [(k, v)]
  | (k', v') :: t =>
    match bcmp k k' with
    | .lt => (k, v) :: (k', v') :: t
    | .eq => (k, v) :: t
    | .gt => (k', v') :: minsert k v t

/-- `std::map::find`, as an iterator: the rest of the map from the entry found on. -/
def mfind {α : Type} (k : Bytes) (m : List (Bytes × α)) : List (Bytes × α) := m.dropWhile fun e => e.1 != k

/-! ## Applying an update (raft state machine) -/

/-- region_manager.cpp:79-95: the tests on version and configuration version. -/
def versionOk (infos : Nat → Option RI) (r : RI) : Bool :=
  match infos r.id with
  | none => true
  | some m => !(r.ver < m.ver) && !(r.ver == m.ver && decide (r.conf ≤ m.conf) && r.peers == m.peers)

/-- region_manager.cpp:96 `set_conf_version(master + 1)`. -/
def adjConf (infos : Nat → Option RI) (r : RI) : RI :=
  match infos r.id with
  | none => r
  | some m => { r with conf := m.conf + 1 }

/-- region_manager.cpp:109-127: `min_start_key` of the regions of the request. -/
def minStart : List RI → Bytes → Bytes
  | [], k => k
  | r :: t, k => minStart t (if bcmp k r.start == .lt then k else r.start)

/-- region_manager.cpp:118-127: `max_end_key`. -/
def maxEnd : List RI → Bytes → Bytes
  | [], k => k
  | r :: t, k => maxEnd t (if KeyEnc.endKeyCompare k r.stop == .gt then k else r.stop)

/-- region_manager.cpp:138-139: a region whose range is empty (it was merged away). -/
def RI.isNone (r : RI) : Bool := r.start == r.stop && r.start != []

/-- region_manager.cpp:138-141 `key_id_map`. -/
def keyIds (req : List RI) : List (Bytes × Nat) :=
  req.foldl (fun m r => if r.isNone then m else minsert r.start r.id m) []

/-- table_manager.cpp:4275-4299 `partition_check_region_when_update`. -/
def checkUpdate (keys : List (Bytes × Nat)) (lo hi : Bytes) : Bool :=
  keys.isEmpty || (!(mfind lo keys).isEmpty && (hi == [] || !(mfind hi keys).isEmpty))

/-- table_manager.cpp:4348-4399 `partition_update_startkey_regionid_map`: erase from the entry with key `lo` up to the
entry with key `hi` (to the end when `hi` is empty or not met), then insert.  Only called when `ids` is not empty
(4401-4422 iterates over `key_id_map`). -/
def updateKeys (keys : List (Bytes × Nat)) (lo hi : Bytes) (ids : List (Bytes × Nat)) : List (Bytes × Nat) :=
  if ids.isEmpty then keys
  else if keys.isEmpty then ids.foldl (fun m e => minsert e.1 e.2 m) []
  else if (mfind lo keys).isEmpty then keys
  else
    let kept := keys.takeWhile (fun e => e.1 != lo) ++ (mfind lo keys).dropWhile fun e => !(hi != [] && e.1 == hi)
    ids.foldl (fun m e => minsert e.1 e.2 m) kept

/-- region_manager.cpp:184-189 `set_region_info` for every region of the request, in order. -/
def setInfos (infos : Nat → Option RI) : List RI → Nat → Option RI
  | [] => infos
  | r :: t => setInfos (fun i => if i = r.id then some r else infos i) t

/-- region_manager.cpp:39-206 `update_region` for a request of the current format.  `addDelete` is the request's flag
of that name (region_manager.cpp:1931-1941); `none`: the request is refused and nothing changes. -/
def updateRegion (infos : Nat → Option RI) (keys : List (Bytes × Nat)) (addDelete : Bool) (req : List RI) :
    Option ((Nat → Option RI) × List (Bytes × Nat)) :=
  match req with
  | [] => none
  | r :: t =>
    if !(r :: t).all (versionOk infos) then none
    else
      let req' := (r :: t).map (adjConf infos)
      let lo := minStart t r.start
      let hi := maxEnd t r.stop
      let ids := keyIds req'
      if addDelete then some (setInfos infos req', ids.foldl (fun m e => minsert e.1 e.2 m) keys)
      else if checkUpdate keys lo hi then some (setInfos infos req', updateKeys keys lo hi ids)
      else none

/-! ## Heartbeats and generation of updates (meta leader) -/

structure Meta where
  infos : Nat → Option RI
  keys : List (Bytes × Nat)
  newMap : List (Bytes × RI)
  keyMap : Nat → Option RI
  noneMap : Nat → Option RI

/-- table_manager.cpp:4424-4489 `add_new_region`. -/
def addNew (m : Meta) (r : RI) : Meta :=
  match (mfind r.start m.newMap).head? with
  | none => { m with newMap := minsert r.start r m.newMap }
  | some (_, o) =>
    if r.id != o.id || r.logIndex < o.logIndex || r.ver ≤ o.ver || KeyEnc.endKeyCompare r.stop o.stop == .gt then m
    else { m with newMap := minsert r.start r m.newMap }

/-- table_manager.cpp:4491-4541 `add_update_region`, on one of the two maps. -/
def addUpdateTo (f : Nat → Option RI) (r : RI) : Nat → Option RI :=
  match f r.id with
  | some o => if r.logIndex < o.logIndex || r.ver ≤ o.ver then f else fun i => if i = r.id then some r else f i
  | none => fun i => if i = r.id then some r else f i

/-- region_manager.cpp:1820-1840 `add_region_is_exist` with table_manager.cpp:4059-4136 `get_pre_regionid` (the entry
before `lower_bound`) and `get_startkey_regionid`.  Entry ids are positive. -/
def addRegionIsExist (m : Meta) (start : Bytes) : Bool :=
  if start == [] then !m.keys.isEmpty && (mfind start m.keys).isEmpty
  else if !(mfind start m.keys).isEmpty then false
  else
    match (m.keys.takeWhile fun e => bcmp e.1 start == .lt).getLast? with
    | none => false
    | some e =>
      match m.infos e.2 with
      | none => false
      | some p => p.stop != [] && bcmp p.stop start != .gt

/-- region_manager.cpp:1905-1953 and 2119-2200, table_manager.cpp:4865-4875: what a leader's heartbeat for one region
does: the new temporary maps, and the request (with its `add_delete_region` flag) proposed at once, if any.  Simple
heartbeats, peer counts, learners and the in-memory update of leader, size and log index (2186-2200) are left out; a
peer change is proposed with the range meta has. -/
def report (m : Meta) (r : RI) : Meta × Option (Bool × List RI) :=
  match m.infos r.id with
  | none =>
    if r.start == [] && r.stop == [] then (m, some (false, [r]))
    else if addRegionIsExist m r.start then (m, some (true, [r]))
    else (addNew m r, none)
  | some o =>
    if r.logIndex < o.logIndex then (m, none)
    else if r.ver ≤ o.ver && (r.start != o.start || r.stop != o.stop) then (m, none)
    else if r.ver > o.ver then
      if r.start == r.stop then ({ m with noneMap := addUpdateTo m.noneMap r }, none)
      else ({ m with keyMap := addUpdateTo m.keyMap r }, none)
    else if r.peers != o.peers then (m, some (false, [{ o with peers := r.peers, logIndex := r.logIndex }]))
    else (m, none)

/-- table_manager.cpp:4542-4580 `get_merge_regions`, the loop from `find(new_start_key)`. -/
def mergeLoop (noneMap : Nat → Option RI) (origin : Bytes) : List (Bytes × Nat) → Option (List RI)
  | [] => none
  | (k, i) :: t =>
    match bcmp k origin with
    | .gt => none
    | .eq => some []
    | .lt =>
      match noneMap i with
      | some r => (mergeLoop noneMap origin t).map (r :: ·)
      | none => none

def getMerge (m : Meta) (newStart origin : Bytes) : Option (List RI) :=
  match bcmp newStart origin with
  | .eq => some []
  | .gt => none
  | .lt => mergeLoop m.noneMap origin (mfind newStart m.keys)

/-- table_manager.cpp:4581-4618 `get_split_regions`, the loop from `find(new_end_key)`. -/
def splitLoop (origin : Bytes) : Bytes → List (Bytes × RI) → Option (List RI)
  | _, [] => none
  | key, (_, r) :: t =>
    if key != r.start then none
    else if r.stop == origin then some [r]
    else if KeyEnc.endKeyCompare r.stop origin == .gt then none
    else (splitLoop origin r.stop t).map (r :: ·)

def getSplit (m : Meta) (newEnd origin : Bytes) : Option (List RI) :=
  if newEnd == origin then some []
  else if KeyEnc.endKeyCompare newEnd origin == .gt then none
  else splitLoop origin newEnd (mfind newEnd m.newMap)

/-- table_manager.cpp:4657-4731 `get_update_region_requests` for one region of `id_keyregion_map`. -/
def generate (m : Meta) (id : Nat) : Option (List RI) :=
  match m.keyMap id, m.infos id with
  | some r, some o =>
    if r.ver ≤ o.ver then none
    else if r.stop != [] && bcmp r.stop o.start == .lt then none
    else
      match getMerge m r.start o.start with
      | none => none
      | some ms => (getSplit m r.stop o.stop).map fun ss => ms ++ r :: ss
  | _, _ => none

/-- table_manager.cpp:4620-4655 `get_presplit_regions`: the regions of a freshly created table, from `find("")` on;
proposed (4760-4795) when the partition has no region yet. -/
def presplitLoop : Bytes → List (Bytes × RI) → Option (List RI)
  | _, [] => none
  | key, (_, r) :: t =>
    if key != r.start then none
    else if r.stop == [] then some [r]
    else (presplitLoop r.stop t).map (r :: ·)

def generatePresplit (m : Meta) : Option (List RI) :=
  if m.keys.isEmpty then presplitLoop [] (mfind [] m.newMap) else none

/-- table_manager.cpp:4732-4800 `recycle_update_region`: entries of `id_keyregion_map` that are not newer than the
known region are dropped; when none is left the other two maps are emptied, unless the partition has no region yet (then
the new regions are kept for `generatePresplit`).  `ids` are the keys of the two maps by id. -/
def recycle (m : Meta) (ids : List Nat) : Meta :=
  let km : Nat → Option RI := fun i =>
    match m.keyMap i, m.infos i with
    | some r, some o => if r.ver ≤ o.ver then none else some r
    | x, _ => x
  if ids.all (fun i => (km i).isNone) && !(m.keys.isEmpty && ids.all fun i => (m.noneMap i).isNone) then { m with keyMap := km, newMap := [], noneMap := fun _ => none }
  else { m with keyMap := km }

end BaikalDB.Region
