import Mathlib.Tactic.Common

/-!
Columns of a table under ALTER TABLE.

The meta server keeps the schema of a table: a list of fields, each with a number that never changes, and
a map from the name of a field to its number.  A stored row is a set of (field number, value) pairs.  ADD
COLUMN writes no row, a row without the field reads as the default.  DROP COLUMN writes no row either, it
marks the field as deleted.

Not modelled: the types of columns and their changes (the casts are C42), NOT NULL, adding and dropping
indexes (C36), a store or SQL node that still works with an earlier version of the schema, requests that
rename, drop or modify several columns at once (the SQL planner sends only one,
/repo/src/logical_plan/ddl_planner.cpp L1947-1965, L1966-2039, L2040-2051), the write of the schema to the
meta server's own store.
-/

namespace BaikalDB.Alter

/-- The name of a column, as its bytes. -/
abbrev Name := List Nat

/-- A value other than NULL. -/
abbrev Val := Nat

/-- `tolower` of one byte (/repo/src/common/schema_factory.cpp L695-697). -/
def lowerByte (b : Nat) : Nat := if 65 ≤ b ∧ b ≤ 90 then b + 32 else b

/-- `lower_short_name` (/repo/src/common/schema_factory.cpp L695-697). -/
def lower (n : Name) : Name := n.map lowerByte

/-- `pb::FieldInfo`: number, name, the deleted mark, the default value, where `none` is no default, i.e.
NULL (/repo/src/common/schema_factory.cpp L688-735).  Simplified: no type, NOT NULL, comment, ON UPDATE. -/
structure Field where
  id : Nat
  name : Name
  deleted : Bool
  dflt : Option Val
deriving DecidableEq, Repr

/-- `pb::IndexInfo`: the names and the numbers of its columns; `dead` is an index disabled and being
deleted (`IHS_DISABLE` and `IS_DELETE_LOCAL`, /repo/src/meta_server/table_manager.cpp L2627-2629). -/
structure Index where
  names : List Name
  ids : List Nat
  dead : Bool
deriving DecidableEq, Repr

/-- `pb::SchemaInfo`, and the binlog link field of the table (by number).  Partition and TTL column are
kept with the name they had when they were set (`partition_info().field_info()`, `ttl_field()`). -/
structure Schema where
  fields : List Field
  maxId : Nat
  indexes : List Index
  part : Option (Name × Nat)
  ttl : Option (Name × Nat)
  link : Option Nat
deriving DecidableEq, Repr

/-- A stored row: the fields that are present (/repo/src/common/table_record.cpp L360-491 and the protobuf
encoding; the codecs are C40 and C41). -/
abbrev Row := List (Nat × Val)

/-- A table: its schema, the name map of the meta server (`TableMem::field_id_map`,
/repo/include/meta_server/table_manager.h L71), the stored rows, and whether the table is columnar. -/
structure State where
  schema : Schema
  map : List (Name × Nat)
  rows : List Row
  columnar : Bool
deriving DecidableEq, Repr

/-- `get_field_id`: the number of a name, 0 if there is none
(/repo/include/meta_server/table_manager.h L407-424). -/
def getFieldId (m : List (Name × Nat)) (n : Name) : Nat :=
  match m.find? (fun e => e.1 == n) with
  | some e => e.2
  | none => 0

/-- `check_field_exist` (/repo/src/meta_server/table_manager.cpp L5392-5409). -/
def fieldExists (m : List (Name × Nat)) (n : Name) : Bool := m.any (fun e => e.1 == n)

/-- `add_field_mem` for one name (/repo/include/meta_server/table_manager.h L425-437). -/
def mapPut (m : List (Name × Nat)) (n : Name) (i : Nat) : List (Name × Nat) :=
  (n, i) :: m.filter (fun e => e.1 != n)

/-- `drop_field_mem` for one name (/repo/include/meta_server/table_manager.h L438-449). -/
def mapErase (m : List (Name × Nat)) (n : Name) : List (Name × Nat) := m.filter (fun e => e.1 != n)

/-- `alloc_field_id`: numbers 1, 2, ... and no name twice
(/repo/src/meta_server/table_manager.cpp L3826-3869). -/
def allocFields : List (Name × Option Val) → Nat → List (Name × Nat) →
    Option (List Field × List (Name × Nat) × Nat)
  | [], i, m => some ([], m, i)
  | (n, d) :: cs, i, m =>
    if fieldExists m n then none
    else
      match allocFields cs (i + 1) (mapPut m n (i + 1)) with
      | none => none
      | some (fs, m', i') => some (⟨i + 1, n, false, d⟩ :: fs, m', i')

/-- Numbers of the columns of an index, `none` if a name is not a column
(/repo/src/meta_server/table_manager.cpp L3900-3915). -/
def indexIds (m : List (Name × Nat)) : List Name → Option (List Nat)
  | [] => some []
  | n :: ns =>
    if fieldExists m n then (indexIds m ns).map (getFieldId m n :: ·) else none

/-- A column given by name, if it exists. -/
def named (m : List (Name × Nat)) (n : Name) : Option (Name × Nat) :=
  if fieldExists m n then some (n, getFieldId m n) else none

/-- CREATE TABLE (/repo/src/meta_server/table_manager.cpp L3826-3869, L3900-3915).  Simplified: an index is
its column names; partition, TTL and link column are given by name and ignored if they do not exist. -/
def create (cols : List (Name × Option Val)) (idx : List (List Name)) (part ttl link : Option Name)
    (columnar : Bool) : Option State :=
  match allocFields cols 0 [] with
  | none => none
  | some (fs, m, mx) =>
    match idx.mapM (indexIds m) with
    | none => none
    | some ids =>
      some
        { schema :=
            { fields := fs
              maxId := mx
              indexes := (idx.zip ids).map (fun p => ⟨p.1, p.2, false⟩)
              part := part.bind (named m)
              ttl := ttl.bind (named m)
              link := (link.bind (named m)).map (·.2) }
          map := m
          rows := []
          columnar := columnar }

/-- The loop of `add_field`: every name is looked up in the map as it was before the request
(/repo/src/meta_server/table_manager.cpp L2552-2569). -/
def addLoop (m : List (Name × Nat)) : List (Name × Option Val) → Nat → Option (List Field)
  | [], _ => some []
  | (n, d) :: cs, i =>
    if fieldExists m n then none
    else (addLoop m cs (i + 1)).map (⟨i + 1, n, false, d⟩ :: ·)

/-- `add_field` (/repo/src/meta_server/table_manager.cpp L2532-2584). -/
def addField (s : State) (cols : List (Name × Option Val)) : Option State :=
  match addLoop s.map cols s.schema.maxId with
  | none => none
  | some fs =>
    some { s with
      schema := { s.schema with
        fields := s.schema.fields ++ fs
        maxId := s.schema.maxId + fs.length }
      map := fs.foldl (fun m f => mapPut m f.name f.id) s.map }

/-- A live index has a column of this name (`field_in_index`,
/repo/src/meta_server/table_manager.cpp L244-256, and L2626-2643). -/
def inIndex (sc : Schema) (n : Name) : Bool :=
  sc.indexes.any (fun x => !x.dead && x.names.contains n)

/-- A column kept by name is this one. -/
def isNamed (c : Option (Name × Nat)) (n : Name) : Bool :=
  match c with
  | some p => p.1 == n
  | none => false

/-- `drop_field` for one column (/repo/src/meta_server/table_manager.cpp L2586-2665), after the check of
the TTL column in the planner (/repo/src/logical_plan/ddl_planner.cpp L1955-1964). -/
def dropField (s : State) (n : Name) : Option State :=
  if isNamed s.schema.ttl n then none
  else if getFieldId s.map n = 0 then none
  else if s.schema.link = some (getFieldId s.map n) then none
  else if isNamed s.schema.part n then none
  else if inIndex s.schema n then none
  else
    some { s with
      schema := { s.schema with
        fields := s.schema.fields.map (fun f => if f.name = n then { f with deleted := true } else f) }
      map := mapErase s.map n }

/-- The first live field of a name gets the new name
(/repo/src/meta_server/table_manager.cpp L2711-2717). -/
def renameFirst (n n' : Name) : List Field → List Field
  | [] => []
  | f :: fs =>
    if !f.deleted && f.name == n then { f with name := n' } :: fs else f :: renameFirst n n' fs

/-- The number of the first live field of a name, 0 if there is none
(/repo/src/meta_server/table_manager.cpp L2710-2717). -/
def firstId (n : Name) : List Field → Nat
  | [] => 0
  | f :: fs => if !f.deleted && f.name == n then f.id else firstId n fs

/-- The first occurrence of a name in the columns of an index
(/repo/src/meta_server/table_manager.cpp L2719-2724). -/
def replaceFirst (n n' : Name) : List Name → List Name
  | [] => []
  | x :: xs => if x == n then n' :: xs else x :: replaceFirst n n' xs

/-- `rename_field` for one column (/repo/src/meta_server/table_manager.cpp L2667-2744). -/
def renameField (s : State) (n n' : Name) : Option State :=
  if getFieldId s.map n = 0 then none
  else if s.schema.link = some (getFieldId s.map n) then none
  else if getFieldId s.map n' ≠ 0 then none
  else
    some { s with
      schema := { s.schema with
        fields := renameFirst n n' s.schema.fields
        indexes := s.schema.indexes.map (fun x => { x with names := replaceFirst n n' x.names }) }
      map := mapPut (mapErase s.map n) n' (firstId n s.schema.fields) }

/-- The part of `modify_field` that changes one field: the default, then the name
(/repo/src/meta_server/table_manager.cpp L2799-2909). -/
def modifyOne (n : Name) (new : Option Name) (d : Option Val) (f : Field) : Field :=
  if !f.deleted && f.name == n then { f with name := new.getD n, dflt := d } else f

/-- `modify_field` for one column, as MODIFY COLUMN (`new` is `none`) and CHANGE COLUMN send it.  The
request always carries a default: the one in the statement, and `__NULL__` if it has none
(/repo/src/meta_server/table_manager.cpp L2746-2924, /repo/src/logical_plan/ddl_planner.cpp L300-305).
Simplified: the type does not change. -/
def modifyField (s : State) (n : Name) (new : Option Name) (d : Option Val) : Option State :=
  if getFieldId s.map n = 0 then none
  else if s.schema.link = some (getFieldId s.map n) then none
  else if (match new with | some n' => getFieldId s.map n' != 0 | none => false) then none
  else
    some { s with
      schema := { s.schema with
        fields := s.schema.fields.map (modifyOne n new d) }
      map := (match new with
        | some n' => mapPut (mapErase s.map n) n' (getFieldId s.map n)
        | none => s.map) }

/-- The fields of the table as a store and a SQL node see them: the ones not deleted
(`update_table`, /repo/src/common/schema_factory.cpp L653-736). -/
def live (sc : Schema) : List Field := sc.fields.filter (fun f => !f.deleted)

/-- Value of a field in a row: the stored one, otherwise the default
(/repo/src/common/tuple_record.cpp L105-118, L255-272). -/
def readField (f : Field) (r : Row) : Option Val :=
  match r.find? (fun e => e.1 == f.id) with
  | some e => some e.2
  | none => f.dflt

/-- Writing a value into a field of a row: NULL is no field, and a columnar table does not store the default
either (/repo/src/common/table_record.cpp L360-491). -/
def writeField (columnar : Bool) (f : Field) (v : Option Val) (r : Row) : Row :=
  let rest := r.filter (fun e => e.1 != f.id)
  match v with
  | none => rest
  | some x => if columnar && f.dflt == some x then rest else (f.id, x) :: rest

/-- The value that an INSERT gives a column, `none` if it does not name the column; names are compared in
lower case (/repo/src/logical_plan/logical_planner.cpp L959-963). -/
def givenValue (given : List (Name × Option Val)) (n : Name) : Option (Option Val) :=
  (given.find? (fun e => lower e.1 == lower n)).map (·.2)

/-- The row of an INSERT: a column that is not named gets the default (C57). -/
def buildRow (columnar : Bool) (given : List (Name × Option Val)) : List Field → Row
  | [] => []
  | f :: fs =>
    writeField columnar f ((givenValue given f.name).getD f.dflt) (buildRow columnar given fs)

/-- INSERT of one row. -/
def insert (s : State) (given : List (Name × Option Val)) : State :=
  { s with rows := s.rows ++ [buildRow s.columnar given (live s.schema)] }

/-- The field that a statement names: the first one with this name in lower case
(/repo/src/logical_plan/logical_planner.cpp L959-963, `emplace` keeps the first). -/
def resolve (sc : Schema) (n : Name) : Option Field :=
  (live sc).find? (fun f => lower f.name == lower n)

/-- UPDATE of one column of the row at a position (C57); the other fields of the row stay. -/
def update (s : State) (i : Nat) (n : Name) (v : Option Val) : Option State :=
  match resolve s.schema n with
  | none => none
  | some f => some { s with rows := s.rows.modify i (writeField s.columnar f v) }

/-- A restart of the meta server: the map is built again from the fields that are not deleted
(/repo/src/meta_server/table_manager.cpp L3222-3226). -/
def restart (s : State) : State :=
  { s with map := s.schema.fields.foldl (fun m f => if f.deleted then m else mapPut m f.name f.id) [] }

/-- Requests. -/
inductive Op where
  | add (cols : List (Name × Option Val))
  | drop (n : Name)
  | rename (n n' : Name)
  | modify (n : Name) (new : Option Name) (d : Option Val)
  | insert (given : List (Name × Option Val))
  | update (i : Nat) (n : Name) (v : Option Val)
  | restart
deriving DecidableEq, Repr

/-- One request; `none` is a refusal. -/
def step (s : State) : Op → Option State
  | .add cols => addField s cols
  | .drop n => dropField s n
  | .rename n n' => renameField s n n'
  | .modify n new d => modifyField s n new d
  | .insert given => some (insert s given)
  | .update i n v => update s i n v
  | .restart => some (restart s)

/-- The columns of the table. -/
def columns (s : State) : List (Name × Option Val) := (live s.schema).map (fun f => (f.name, f.dflt))

/-- `SELECT *`: every row with the value of every column. -/
def selectAll (s : State) : List (List (Name × Option Val)) :=
  s.rows.map (fun r => (live s.schema).map (fun f => (f.name, readField f r)))

/-- `SELECT n` from the row at a position. -/
def selectOne (s : State) (i : Nat) (n : Name) : Option (Option Val) :=
  match s.rows[i]?, resolve s.schema n with
  | some r, some f => some (readField f r)
  | _, _ => none

end BaikalDB.Alter
