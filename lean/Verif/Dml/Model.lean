import Mathlib.Tactic.Common
/-!
# INSERT, REPLACE, UPDATE and DELETE in a region

Model of src/exec/dml_node.cpp (`init_schema_info`, `insert_row`, `remove_row`, `delete_row`, `update_row`, `get_lock_row`),
src/exec/insert_node.cpp, update_node.cpp, delete_node.cpp (`open`) and of the parts of src/engine/transaction.cpp they use
(`get_update_primary`, `get_update_secondary`, `put_primary`, `put_secondary`, `put_primary_columns`, `remove`): a statement run by
one transaction on the rows and local indexes of one region.

Keys are lists of values: the encoding of keys is injective (`Verif.KeyEnc`, `Verif.IndexKey`).  All indexes are PUBLIC (for online
changes see `Verif.Ddl`) and PRIMARY, UNIQUE or KEY; full-text, vector, rollup and global indexes, MERGE INTO, the flag
`replace_no_get`, binlogs and the hint that keeps the TTL of a row are not modelled.  Waiting for locks is not modelled: the
transaction runs alone.
-/
namespace BaikalDB.Dml

variable {V : Type}

/-- A local secondary index: UNIQUE or KEY, and its fields. -/
structure Index where
  uniq : Bool
  fields : List Nat

structure Table (V : Type) where
  fields : List Nat
  pk : List Nat
  indexes : List Index
  /-- `default_expr_value`; `none` is NULL -/
  dflt : Nat → Option V
  /-- ROCKSDB_CSTORE: every column is stored under a key of its own -/
  cstore : Bool
  /-- the table has a TTL -/
  ttl : Bool

/-- A record: the values of the fields; `none` is NULL (a protobuf field that is not set). -/
abbrev Rec (V : Type) := Nat → Option V

abbrev Key (V : Type) := List (Option V)

/-- An index entry leads to a primary key (stored in the value for UNIQUE, part of the key for KEY) and may expire. -/
structure Ent (V : Type) where
  pk : Key V
  exp : Option Nat

/-- What the region stores. -/
@[ext] structure Store (V : Type) where
  /-- the primary entries, with the time they expire -/
  here : Key V → Option (Option Nat)
  /-- the columns that are not part of the primary key: in the value of the primary entry, or under keys of their own -/
  col : Key V → Nat → Option V
  /-- the secondary indexes, by number -/
  idx : Nat → Key V → Option (Ent V)

structure Env (V : Type) where
  /-- `_read_ttl_timestamp_us` -/
  now : Nat
  /-- the time a row written now expires, `_ttl_timestamp_us` (dml_node.cpp L63-67) -/
  exp : Option Nat
  /-- `fits_region_range` for primary keys -/
  inReg : Key V → Bool

/-- transaction.cpp L754-760, L1324-1330: expired. -/
def Env.dead (E : Env V) (e : Option Nat) : Bool := e.any fun t => decide (t < E.now)

/-! ### Keys -/

def Table.keyOf (T : Table V) (r : Rec V) : Key V := T.pk.map r

/-- table_record.cpp `decode_key`: the values of the primary key's fields. -/
def Table.ofKey (T : Table V) (k : Key V) (f : Nat) : Option V := ((T.pk.zip k).lookup f).join

/-- transaction.cpp L500-530, L1352-1362: a KEY has the primary key behind its fields. -/
def Table.ekey (T : Table V) (i : Index) (r : Rec V) : Key V :=
  i.fields.map r ++ if i.uniq then [] else T.keyOf r

/-- The fields that are not part of the primary key. -/
def Table.nonPk (T : Table V) : List Nat := T.fields.filter fun f => !T.pk.contains f

/-- The fields of some indexes that are not part of the primary key. -/
def Table.idxFields (T : Table V) (is : List Index) : List Nat :=
  (is.flatMap fun i => i.fields).filter fun f => !T.pk.contains f

/-! ### transaction.cpp -/

/-- tuple_record.cpp L293-470, transaction.cpp L1690-1710: a column that is not stored has its default value. -/
def Table.read (T : Table V) (S : Store V) (k : Key V) (f : Nat) : Option V :=
  match S.col k f with
  | some v => some v
  | none => T.dflt f

/-- L653-804 `get_update_primary` with the fields `fs`, read into the record `base`.  `outside` is -3, `absent` -2, `expired` -4. -/
inductive Got (V : Type) where
  | outside
  | absent
  | expired
  | row (r : Rec V)

def getPrimary (T : Table V) (E : Env V) (S : Store V) (k : Key V) (fs : List Nat) (base : Rec V) : Got V :=
  if E.inReg k then
    match S.here k with
    | none => .absent
    | some e => if E.dead e then .expired else .row fun f => if f ∈ fs then T.read S k f else base f
  else .outside

/-- L1264-1342 `get_update_secondary` on a UNIQUE index: the primary key of the row in the way.  An expired entry (-4) and an entry
whose row belongs to another region (-3) are not in the way. -/
def getUniq (T : Table V) (E : Env V) (S : Store V) (j : Nat) (i : Index) (r : Rec V) : Option (Key V) :=
  match S.idx j (T.ekey i r) with
  | none => none
  | some e => if E.dead e.exp then none else if E.inReg e.pk then some e.pk else none

variable [DecidableEq V]

/-- L485-562 `put_secondary` -/
def putSecondary (T : Table V) (E : Env V) (S : Store V) (j : Nat) (i : Index) (r : Rec V) : Store V :=
  { S with idx := fun j' x => if j' = j ∧ x = T.ekey i r then some ⟨T.keyOf r, E.exp⟩ else S.idx j' x }

/-- L1344-1412 `remove` on a secondary index -/
def removeSecondary (T : Table V) (S : Store V) (j : Nat) (i : Index) (r : Rec V) : Store V :=
  { S with idx := fun j' x => if j' = j ∧ x = T.ekey i r then none else S.idx j' x }

/-- L1344-1412 `remove` on the primary index; the columns go with it (L1719-1750 `remove_columns`). -/
def removePrimary (S : Store V) (k : Key V) : Store V :=
  { S with
    here := fun k' => if k' = k then none else S.here k'
    col := fun k' f => if k' = k then none else S.col k' f }

/-- What is stored for a column: nothing for NULL; with a column store also nothing for the default value (table_record.cpp
L362-560 `encode_field_for_cstore`). -/
def Table.stored (T : Table V) (r : Rec V) (f : Nat) : Option V :=
  if T.cstore ∧ r f = T.dflt f then none else r f

/-- L413-482 `put_primary` and L1584-1646 `put_primary_columns`.  A column store touches only the columns `upd` (all if it is
`nullptr`), and without `upd` a column for which nothing is to be stored is skipped, not deleted. -/
def putPrimary (T : Table V) (E : Env V) (S : Store V) (r : Rec V) (upd : Option (List Nat)) : Store V :=
  { S with
    here := fun k => if k = T.keyOf r then some E.exp else S.here k
    col := fun k f =>
      if k = T.keyOf r then
        if f ∈ T.nonPk then
          if T.cstore then
            match upd with
            | some us => if f ∈ us then T.stored r f else S.col k f
            | none => (T.stored r f).or (S.col k f)
          else T.stored r f
        else S.col k f
      else S.col k f }

/-! ### dml_node.cpp -/

/-- The secondary indexes with their numbers. -/
def Table.all (T : Table V) : List (Nat × Index) := (List.range T.indexes.length).zip T.indexes

/-- L557-660 `remove_row`: the entries of the old record, and the row if `primary`. -/
def removeRow (T : Table V) (S : Store V) (is : List (Nat × Index)) (old : Rec V) (primary : Bool) : Store V :=
  is.foldl (fun S ji => removeSecondary T S ji.1 ji.2 old) (if primary then removePrimary S (T.keyOf old) else S)

/-- L428-512: the end of `insert_row`. -/
def writeRow (T : Table V) (E : Env V) (S : Store V) (is : List (Nat × Index)) (r : Rec V) (upd : Option (List Nat)) : Store V :=
  putPrimary T E (is.foldl (fun S ji => putSecondary T E S ji.1 ji.2 r) S) r upd

/-- L355-427: the first UNIQUE index with a row in the way. -/
def inWay (T : Table V) (E : Env V) (S : Store V) (r : Rec V) : List (Nat × Index) → Option (Key V)
  | [] => none
  | (j, i) :: is =>
    if i.uniq then
      match getUniq T E S j i r with
      | some k => some k
      | none => inWay T E S r is
    else inWay T E S r is

/-- An assignment of UPDATE or ON DUPLICATE KEY UPDATE: the field, the fields of the row and of VALUES() that its expression reads,
and the expression. -/
structure Assign (V : Type) where
  field : Nat
  reads : List Nat
  news : List Nat
  fn : List (Option V) → List (Option V) → Option V

/-- A condition reads fields of the row. -/
structure Cond (V : Type) where
  reads : List Nat
  fn : List (Option V) → Bool

def Cond.holds (c : Cond V) (r : Rec V) : Bool := c.fn (c.reads.map r)

/-- No condition. -/
def Cond.none : Cond V := ⟨[], fun _ => true⟩

/-- L742-770: all expressions are evaluated on the old row. -/
def assign (as : List (Assign V)) (old vals : Rec V) : Rec V :=
  as.foldl (fun r a f => if f = a.field then a.fn (a.reads.map old) (a.news.map vals) else r f) old

/-- L141-163: `_update_affect_primary` -/
def Table.affectPk (T : Table V) (as : List (Assign V)) : Bool := as.any fun a => T.pk.contains a.field

/-- L141-204: `_affected_indexes` -/
def Table.affected (T : Table V) (as : List (Assign V)) : List (Nat × Index) :=
  if T.affectPk as || T.ttl then T.all
  else T.all.filter fun ji => ji.2.fields.any fun f => as.any fun a => a.field == f

/-- L178-203: `_update_field_ids`, `nullptr` if the primary key is changed (L236-237). -/
def Table.updFields (T : Table V) (as : List (Assign V)) : Option (List Nat) :=
  if T.affectPk as then none
  else some (if T.ttl then T.nonPk else as.map (·.field))

/-- `_field_ids` (L108-131, L178-192, L39-49) of a statement with assignments.  `dup`: ON DUPLICATE KEY UPDATE; UPDATE also reads
the fields of its scan, `slots`. -/
def Table.fieldIds (T : Table V) (as : List (Assign V)) (dup : Bool) (slots : List Nat) : List Nat :=
  if !T.affectPk as && !T.ttl && T.cstore then
    T.idxFields ((T.affected as).map (·.2)) ++ if dup then [] else T.nonPk.filter fun f => slots.contains f
  else T.nonPk

/-- The outcome of a statement on a row: the store, the affected rows, and what is added to the number of rows of the region
(`_num_increase_rows`).  `none` is an error, after which the transaction is rolled back. -/
structure Out (V : Type) where
  store : Store V
  rows : Nat
  inc : Int

/-- A record with the primary key `k` and nothing else. -/
def Table.bare (T : Table V) (k : Key V) : Rec V := fun f => if f ∈ T.pk then T.ofKey k f else none

/-- L699-777 `update_row` for the row with primary key `k`, with `insert_row(state, record, true)` (L215-520) at its end. -/
def updateRow (T : Table V) (E : Env V) (S : Store V) (as : List (Assign V)) (dup : Bool) (slots : List Nat) (cond : Cond V)
    (k : Key V) (vals : Rec V) : Option (Out V) :=
  match getPrimary T E S k (T.fieldIds as dup slots) (T.bare k) with
  | .row old =>
    if cond.holds old then
      let S1 := removeRow T S (T.affected as) old (T.affectPk as)
      let new := assign as old vals
      if T.affectPk as then
        match getPrimary T E S1 (T.keyOf new) [] new with
        | .outside => some ⟨S1, 1, -1⟩
        | .row _ => none
        | .expired =>
          if (inWay T E S1 new (T.affected as)).isSome then none
          else some ⟨writeRow T E S1 (T.affected as) new (T.updFields as), 1, -1⟩
        | .absent =>
          if (inWay T E S1 new (T.affected as)).isSome then none
          else some ⟨writeRow T E S1 (T.affected as) new (T.updFields as), 1, 0⟩
      else if (inWay T E S1 new (T.affected as)).isSome then none
      else some ⟨writeRow T E S1 (T.affected as) new (T.updFields as), 1, 0⟩
    else some ⟨S, 0, 0⟩
  | _ => some ⟨S, 0, 0⟩

/-- L666-687 `delete_row`.  `base`: what the record holds besides the primary key. -/
def deleteRow (T : Table V) (E : Env V) (S : Store V) (slots : List Nat) (cond : Cond V) (k : Key V) (base : Rec V) : Out V :=
  match getPrimary T E S k (T.idxFields T.indexes ++ T.nonPk.filter fun f => slots.contains f) (fun f => if f ∈ T.pk then T.ofKey k f else base f) with
  | .row old => if cond.holds old then ⟨removeRow T S T.all old true, 1, -1⟩ else ⟨S, 0, 0⟩
  | _ => ⟨S, 0, 0⟩

/-- L355-427 for REPLACE: the rows in the way are deleted. -/
def replaceLoop (T : Table V) (E : Env V) (r : Rec V) : List (Nat × Index) → Out V → Out V
  | [], o => o
  | (j, i) :: is, o =>
    if i.uniq then
      match getUniq T E o.store j i r with
      | some k =>
        replaceLoop T E r is ⟨(deleteRow T E o.store [] Cond.none k r).store, o.rows + 1,
          o.inc + (deleteRow T E o.store [] Cond.none k r).inc⟩
      | none => replaceLoop T E r is o
    else replaceLoop T E r is o

inductive Mode (V : Type) where
  | plain
  | ignore
  | replace
  | onDup (as : List (Assign V))

/-- L342-345, L392-396: the row in the way is updated; an updated row counts twice. -/
def dupRow (T : Table V) (E : Env V) (S : Store V) (as : List (Assign V)) (k : Key V) (r : Rec V) : Option (Out V) :=
  (updateRow T E S as true [] Cond.none k r).map fun o => { o with rows := if o.rows = 1 then 2 else o.rows }

/-- L355-520: `insert_row` when no row with the primary key is in the way. -/
def insertRest (T : Table V) (E : Env V) (S : Store V) (m : Mode V) (r : Rec V) (inc : Int) : Option (Out V) :=
  match m with
  | .replace =>
    let o := replaceLoop T E r T.all ⟨S, 0, 0⟩
    some ⟨writeRow T E o.store T.all r none, o.rows + 1, o.inc + inc⟩
  | m =>
    match inWay T E S r T.all, m with
    | none, _ => some ⟨writeRow T E S T.all r none, 1, inc⟩
    | some _, .plain => none
    | some _, .ignore => some ⟨S, 0, 0⟩
    | some k, .onDup as => dupRow T E S as k r
    | some _, .replace => none

/-- L215-520 `insert_row(state, record, false)`. -/
def insertRow (T : Table V) (E : Env V) (S : Store V) (m : Mode V) (r : Rec V) : Option (Out V) :=
  match getPrimary T E S (T.keyOf r) (T.idxFields T.indexes) r, m with
  | .outside, _ => some ⟨S, 0, 0⟩
  | .row _, .plain => none
  | .row _, .ignore => some ⟨S, 0, 0⟩
  | .row old, .replace =>
    let o := replaceLoop T E r T.all ⟨removeRow T S T.all old false, 1, -1⟩
    some ⟨writeRow T E o.store T.all r (some T.nonPk), o.rows + 1, o.inc + 1⟩
  | .row _, .onDup as => dupRow T E S as (T.keyOf r) r
  | .expired, m => insertRest T E S m r 0
  | .absent, m => insertRest T E S m r 1

/-! ### Statements -/

inductive Stmt (V : Type) where
  /-- insert_node.cpp L126-133 -/
  | insert (m : Mode V) (rs : List (Rec V))
  /-- update_node.cpp L88-140: the primary keys found by the scan, in batches; each row is looked at again under its lock -/
  | update (as : List (Assign V)) (slots : List Nat) (cond : Cond V) (batches : List (List (Key V)))
  /-- delete_node.cpp L72-131 -/
  | delete (slots : List Nat) (cond : Cond V) (ks : List (Key V))

/-- The rows of a statement, one after the other. -/
def each {α : Type} (f : Store V → α → Option (Out V)) : List α → Out V → Option (Out V)
  | [], o => some o
  | a :: as, o =>
    match f o.store a with
    | some o' => each f as ⟨o'.store, o.rows + o'.rows, o.inc + o'.inc⟩
    | none => none

def exec (T : Table V) (E : Env V) (S : Store V) : Stmt V → Option (Out V)
  | .insert m rs => each (fun S r => insertRow T E S m r) rs ⟨S, 0, 0⟩
  | .update as slots cond bs => each (fun S k => updateRow T E S as false slots cond k fun _ => none) bs.flatten ⟨S, 0, 0⟩
  | .delete slots cond ks => each (fun S k => some (deleteRow T E S slots cond k fun _ => none)) ks ⟨S, 0, 0⟩

/-- update_node.cpp L96-100, L128-135: outside of a transaction every batch but the last is committed on its own.  The store the
statement leaves behind, whether it fails or not. -/
def leaves (T : Table V) (E : Env V) (as : List (Assign V)) (slots : List Nat) (cond : Cond V) :
    List (List (Key V)) → Store V → Store V
  | [], S => S
  | b :: bs, S =>
    match exec T E S (.update as slots cond [b]) with
    | some o => leaves T E as slots cond bs o.store
    | none => S

end BaikalDB.Dml
