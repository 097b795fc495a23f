import Verif.Region.Meta

/-!
# The SQL layer's region map of one table partition

Every SQL node keeps, per table, `key_region_mapping` (per partition: start key to region id) and
`region_info_mapping` (region id to region information), and brings them up to date with the regions a heartbeat of the
meta server, or an error answer of a store, reports.  One partition of one table; region ids belong to one partition, so
other partitions do not interact with it.  The two copies behind `DoublyBufferedData` get the same calls in turn and
are one map here.
-/

namespace BaikalDB.ClientMap

open Region (RI minsert mfind)
open KeyEnc (endKeyCompare)

/-- A reported region: `pb::RegionInfo` and its `deleted` field (absent and false are the same, schema_factory.cpp:1284). -/
structure Msg where
  r : RI
  deleted : Bool
  deriving DecidableEq, Repr

/-- `TableRegionInfo` (schema_factory.h:80-107): `keys` is the partition's entry of `key_region_mapping`. -/
structure Map where
  keys : List (Bytes × Nat)
  infos : Nat → Option RI

/-- schema_factory.cpp:1227-1246 and 1258-1272: the reported regions by start key, empty ranges left out; of two with
the same start key the later one stays. -/
def byStart (rs : List Msg) : List (Bytes × Msg) :=
  rs.foldl (fun m x => if x.r.start != [] && x.r.start == x.r.stop then m else minsert x.r.start x m) []

/-- `std::map::insert`: an existing entry stays. -/
def insertNew (k : Bytes) (v : Nat) (m : List (Bytes × Nat)) : List (Bytes × Nat) :=
  if m.any (fun e => e.1 == k) then m else minsert k v m

/-- `std::map::erase` by key. -/
def eraseKey (k : Bytes) (m : List (Bytes × Nat)) : List (Bytes × Nat) := m.filter fun e => e.1 != k

def setInfo (f : Nat → Option RI) (i : Nat) (v : Option RI) : Nat → Option RI := fun j => if j = i then v else f j

/-- `get_region_info(..).version()`, 0 when the region is not known (schema_factory.cpp:1295-1298). -/
def verOf (f : Nat → Option RI) (i : Nat) : Nat := match f i with | some o => o.ver | none => 0

/-- schema_factory.cpp:1282-1309 `update_region`.  (A deleted region of a partition without a map is passed over,
1287-1289: that map is taken to exist.) -/
def updateRegion (t : Map) (x : Msg) : Map :=
  if x.deleted then ⟨eraseKey x.r.start t.keys, setInfo t.infos x.r.id none⟩
  else if x.r.ver < verOf t.infos x.r.id then t
  else ⟨insertNew x.r.start x.r.id t.keys, setInfo t.infos x.r.id (some x.r)⟩

/-- schema_factory.cpp:1310-1324 `clear_region`. -/
def clearRegion (t : Map) : List (Bytes × Nat) → Map
  | [] => t
  | e :: es => clearRegion ⟨eraseKey e.1 t.keys, setInfo t.infos e.2 none⟩ es

/-- schema_factory.cpp:1341-1376, the loop of `get_clear_regions`: `key` is where the next region has to start, `over`
is `is_over`.  The list is the map from the iterator on. -/
def clearLoop (infos : Nat → Option RI) (origin : Bytes) :
    Bytes → Bool → List (Bytes × Nat) → List (Bytes × Nat) → List (Bytes × Nat)
  | _, _, acc, [] => acc
  | key, over, acc, (k, i) :: m =>
    if key == [] || bcmp key origin == .gt then (if over then acc else [])
    else if key != k then []
    else
      match infos i with
      | none => []
      | some r => clearLoop infos origin r.stop (over || r.stop == origin) (acc ++ [(key, i)]) m

/-- schema_factory.cpp:1325-1377 `get_clear_regions`.  `clear_regions` is empty when it is called (1462) and the keys
found ascend, so the ordered map is the list of what is found. -/
def getClear (t : Map) (newStart origin : Bytes) : List (Bytes × Nat) :=
  clearLoop t.infos origin newStart false [] (mfind newStart t.keys)

/-- schema_factory.cpp:1437-1447: the region before the new one reaches into it.  (`pre_info` of an unknown region is
empty: its end key is the empty one.) -/
def overlapsPrev (t : Map) (start : Bytes) : Bool :=
  match (t.keys.takeWhile fun e => bcmp e.1 start == .lt).getLast? with
  | none => false
  | some e => endKeyCompare (match t.infos e.2 with | some p => p.stop | none => []) start == .gt

/-- The variables of the loop, schema_factory.cpp:1394-1397. -/
structure St where
  t : Map
  last : List Msg
  clear : List (Bytes × Nat)
  endKey : Bytes

def St.reset (s : St) : St := ⟨s.t, [], [], s.endKey⟩

/-- schema_factory.cpp:1416-1425: the whole chain takes the place of what it replaces. -/
def applyChain (t : Map) (clear : List (Bytes × Nat)) (chain : List Msg) : Map :=
  chain.foldl updateRegion (clearRegion t clear)

/-- schema_factory.cpp:1405-1451: a region not known so far. -/
def stepNew (s : St) (x : Msg) : St :=
  match s.last.getLast? with
  | some l =>
    if l.r.stop != x.r.start then s.reset
    else if x.r.stop == s.endKey then ⟨applyChain s.t s.clear (s.last ++ [x]), [], [], s.endKey⟩
    else if endKeyCompare x.r.stop s.endKey == .gt then s.reset
    else ⟨s.t, s.last ++ [x], s.clear, s.endKey⟩
  | none => if overlapsPrev s.t x.r.start then s else ⟨updateRegion s.t x, [], s.clear, s.endKey⟩

/-- schema_factory.cpp:1452-1498: a known region with a higher version. -/
def stepNewer (s : St) (o : RI) (x : Msg) : St :=
  if bcmp x.r.start o.start == .lt && endKeyCompare x.r.stop o.stop == .lt then
    if (getClear s.t x.r.start o.start).length < 2 then s.reset
    else ⟨s.t, [x], getClear s.t x.r.start o.start, o.stop⟩
  else if bcmp x.r.start o.start == .lt && endKeyCompare x.r.stop o.stop == .eq then
    if 2 ≤ (getClear s.t x.r.start o.start).length then
      ⟨updateRegion (clearRegion s.t (getClear s.t x.r.start o.start)) x, [], getClear s.t x.r.start o.start, s.endKey⟩
    else ⟨s.t, [], getClear s.t x.r.start o.start, s.endKey⟩
  else if x.r.start == o.start && endKeyCompare x.r.stop o.stop == .lt then ⟨s.t, [x], [], o.stop⟩
  else if x.r.start == o.start && x.r.stop == o.stop then ⟨updateRegion s.t x, [], [], s.endKey⟩
  else s.reset

/-- schema_factory.cpp:1398-1507: one reported region. -/
def step (s : St) (x : Msg) : St :=
  match s.t.infos x.r.id with
  | none => stepNew s x
  | some o => if o.ver < x.r.ver then stepNewer s o x else ⟨updateRegion s.t x, s.last, s.clear, s.endKey⟩

/-- schema_factory.cpp:1379-1509 `update_regions_table`, one partition, the regions in the order of start keys. -/
def updateTable (t : Map) (xs : List Msg) : Map := (xs.foldl step ⟨t, [], [], []⟩).t

/-- schema_factory.cpp:1257-1281 `update_regions_double_buffer_sync` (1225-1256 for the queue). -/
def update (t : Map) (rs : List Msg) : Map := updateTable t ((byStart rs).map (·.2))

end BaikalDB.ClientMap
