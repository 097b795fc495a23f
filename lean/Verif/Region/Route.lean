import Verif.Basic

/-!
# Which regions a query is sent to

The SQL layer keeps, for every partition of a table or global index, an ordered map from start keys to region ids
(`key_region_mapping`): a sorted association list here.
-/

namespace BaikalDB.Route

abbrev KeyMap := List (Bytes × Nat)

/-- `pb::PossibleIndex::Range`.  `leftFull`: the key holds all columns. -/
structure Rng where
  left : Bytes
  right : Bytes
  leftFull : Bool
  leftOpen : Bool
  rightOpen : Bool
  /-- `partition_ids`, -1 entries already dropped (schema_factory.cpp:3137-3142) -/
  parts : List Nat
  deriving DecidableEq, Repr

/-- The flags kept once for all ranges (`left_field_cnt`/`right_field_cnt` present, schema_factory.cpp:3094-3101). -/
structure Tpl where
  isEq : Bool
  leftOpen : Bool
  rightOpen : Bool
  deriving DecidableEq, Repr

/-- A range after the flags have been settled. -/
structure Bounds where
  start : Bytes
  startFull : Bool
  leftOpen : Bool
  stop : Bytes
  rightOpen : Bool
  deriving DecidableEq, Repr

/-- schema_factory.cpp:3108-3130. -/
def bounds (tpl : Option Tpl) (r : Rng) : Bounds :=
  let lo := match tpl with | some t => t.leftOpen | none => r.leftOpen
  let ro := match tpl with | some t => t.rightOpen | none => r.rightOpen
  let lo := if r.left == [] then false else lo
  let ro := if r.right == [] then false else ro
  if (match tpl with | some t => t.isEq | none => false) then ⟨r.left, r.leftFull, lo, r.left, lo⟩
  else ⟨r.left, r.leftFull, lo, r.right, ro⟩

/-- schema_factory.cpp:3132-3135 (`MutTableKey(data)` is made without the full flag; `get_full` is that of `start`). -/
def sentinel (b : Bounds) : Bytes := if !b.startFull && b.leftOpen then b.start ++ [0xFF#8, 0xFF#8] else b.start

/-- schema_factory.cpp:3177-3184, 3200-3203: the test that keeps the loop going. -/
def endOk (b : Bounds) (k : Bytes) : Bool :=
  b.stop == [] || bcmp k b.stop != .gt || (!b.rightOpen && b.stop.isPrefixOf k)

/-- schema_factory.cpp:3166-3204: `upper_bound` of the sentinel, skip the keys that begin with an open left bound, one
step back, then on while `endOk`.  `before` and `after` are the two sides of the iterator.  `fullExport`: only the
first one (3192-3195). -/
def visit (b : Bounds) (fullExport : Bool) (m : KeyMap) : KeyMap :=
  let a := m.takeWhile fun e => bcmp e.1 (sentinel b) != .gt
  let c := m.dropWhile fun e => bcmp e.1 (sentinel b) != .gt
  let before := if b.leftOpen then a ++ c.takeWhile (fun e => b.start.isPrefixOf e.1) else a
  let after := if b.leftOpen then c.dropWhile (fun e => b.start.isPrefixOf e.1) else c
  let from_ := match before.getLast? with | some e => e :: after | none => after
  let out := from_.takeWhile fun e => endOk b e.1
  if fullExport then out.take 1 else out

/-- The partitions of an index: their numbers and maps. -/
abbrev Parts := List (Nat × KeyMap)

/-- schema_factory.cpp:3143-3206, one range over the partitions asked for (all of them present in the map; a missing
one makes the call fail, 3150-3157).  `binlog` tables go to all regions (3159-3170). -/
def visitParts (b : Bounds) (parts : List Nat) (binlog fullExport : Bool) (ps : Parts) : List Nat :=
  ps.flatMap fun p =>
    if !binlog && parts != [] && !parts.contains p.1 then []
    else if binlog then p.2.map (·.2)
    else (visit b fullExport p.2).map (·.2)

/-- The ids of the regions a query goes to (`region_infos`). -/
def regions (tpl : Option Tpl) (ranges : List Rng) (binlog fullExport : Bool) (ps : Parts) : List Nat :=
  ranges.flatMap fun r => visitParts (bounds tpl r) r.parts binlog fullExport ps

/-- `region_idx_map`, schema_factory.cpp:3185-3190: for a region the numbers of the ranges that reached it. -/
def rangesFor (tpl : Option Tpl) (ranges : List Rng) (binlog fullExport : Bool) (ps : Parts) (region : Nat) : List Nat :=
  (List.range ranges.length).filter fun i =>
    match ranges[i]? with
    | some r => (visitParts (bounds tpl r) r.parts binlog fullExport ps).contains region
    | none => false

/-- schema_factory.cpp:3208-3230 `region_primary`: what is sent to a region; with one range, or only one region, the
whole list (callers use the original index when a region has no entry). -/
def sentTo (tpl : Option Tpl) (ranges : List Rng) (binlog fullExport : Bool) (ps : Parts) (region : Nat) : List Rng :=
  if ranges.length ≤ 1 then ranges
  else if (regions tpl ranges binlog fullExport ps).all (· == region) then ranges
  else (rangesFor tpl ranges binlog fullExport ps region).filterMap fun i => ranges[i]?

/-- schema_factory.cpp:3254-3270 (recovery of a transaction: the regions that now hold `[start, stop)`). -/
def visitOld (start stop : Bytes) (m : KeyMap) : KeyMap :=
  let a := m.takeWhile fun e => bcmp e.1 start != .gt
  let c := m.dropWhile fun e => bcmp e.1 start != .gt
  let from_ := match a.getLast? with | some e => e :: c | none => c
  from_.takeWhile fun e => stop == [] || bcmp e.1 stop == .lt

/-- schema_factory.cpp:3328-3337 and 3398-3405: the region of one record's key; `none`: the record is passed over. -/
def regionOf (key : Bytes) (m : KeyMap) : Option Nat :=
  ((m.takeWhile fun e => bcmp e.1 key != .gt).getLast?).map (·.2)

end BaikalDB.Route
