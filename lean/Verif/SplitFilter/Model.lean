import Verif.Ttl.Model
/-!
# Compaction filter that removes data left behind by a region split
-/
namespace BaikalDB.SplitFilter
open KeyEnc IndexKey Ttl

/-- split_compaction_filter.h:27-33 `FilterRegionInfo`. -/
structure FilterRegionInfo where
  useTtl : Bool
  endKey : Bytes
  base : BitVec 64
deriving DecidableEq

/-- An entry of `SchemaFactory::_split_index_map` (schema_factory.h:1206-1212): the index and the id of its primary key. -/
structure SplitIndex where
  info : IndexInfo
  pk : BitVec 64

/-- `_range_key_map`, region id to filter info. -/
abbrev Regions := BitVec 64 → Option FilterRegionInfo
/-- `_split_index_map`, index id to index. -/
abbrev Indexes := BitVec 64 → Option SplitIndex

/-- split_compaction_filter.h:74-77: index id as found in the key; a columnar column key has table id and field id
in its place, told apart by bit 31 (set by the sign flip of a non-negative field id). -/
def realIndexId (id : BitVec 64) : BitVec 64 :=
  if id &&& 0x80000000#64 ≠ 0#64 then id.sshiftRight 32 else id

/-- split_compaction_filter.h:54-110 `SplitCompactionFilter::Filter`: `some true` removes the entry, `none` is undefined
behaviour (value too short for the TTL prefix, or key too short for the index). -/
def filter (regions : Regions) (indexes : Indexes) (level : Int) (key value : Bytes) : Option Bool :=
  if level < 5 then some false
  else if key.length < 16 then some false
  else match extractI64 key 0, extractI64 key 8 with
    | some region, some id =>
      match regions region with
      | none => some false
      | some fi =>
        if fi.endKey.isEmpty then some false
        else match indexes (realIndexId id) with
          | none => some false
          | some si =>
            if si.info.type = .primary ∨ si.info.isGlobal = true then some (bcmp fi.endKey (key.drop 16) != .gt)
            else if si.info.type = .uniq ∨ si.info.type = .key then
              match indexes si.pk with
              | none => some false
              | some pki =>
                if fi.useTtl = true then
                  match ttlDecode value si.info.type 0 fi.base with
                  | .ok _ v => (fitsRegionRange (key.drop 16) v none (some fi.endKey) pki.info si.info).map (!·)
                  | _ => none
                else (fitsRegionRange (key.drop 16) value none (some fi.endKey) pki.info si.info).map (!·)
            else some false
    | _, _ => none

/-- split_compaction_filter.h:112-124 `set_filter_region_info`. -/
def setFilterRegionInfo (regions : Regions) (region : BitVec 64) (endKey : Bytes) (useTtl : Bool) (base : BitVec 64) :
    Regions :=
  match regions region with
  | some old =>
    if old.endKey = endKey then regions
    else fun r => if r = region then some ⟨useTtl, endKey, base⟩ else regions r
  | none => fun r => if r = region then some ⟨useTtl, endKey, base⟩ else regions r

/-- transaction.cpp:1592,1618-1620 `put_primary_columns`: key of one column of a row in a columnar table. -/
def columnKey (region : BitVec 64) (tableId fieldId : BitVec 32) (pk : Bytes) : Option Bytes :=
  let primary := appendI64 (appendI64 [] region) (tableId.signExtend 64) ++ pk
  (replaceI32 primary tableId 8).bind fun k => replaceI32 k fieldId 12

end BaikalDB.SplitFilter
