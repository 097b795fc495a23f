import Verif.Dml.Model
import Mathlib.Data.List.Dedup
/-!
# INSERT, REPLACE, UPDATE and DELETE on a table with global indexes

Model of src/exec/insert_manager_node.cpp, update_manager_node.cpp, delete_manager_node.cpp, dml_manager_node.cpp,
lock_primary_node.cpp, lock_secondary_node.cpp and of the plans src/physical_plan/separate.cpp L655-1030 makes for them: the SQL
node reads and locks what is in the way, decides what is to be deleted and inserted, and sends it to the regions of the table and
of each global index.

The indexes of a `Table` (`Verif.Dml`) are its global indexes here, UNIQUE ones and KEYs.  The regions of a table cover all keys
(`Verif.Region`, `Verif.ClientMap`), so that the table is one map and so is every index; the answers of the regions come in the
order of the records.  Rows are stored as they are (for their encoding see `Verif.KeyEnc`, `Verif.Row`).  Not modelled: local
indexes (`Verif.Dml`), indexes that are not PUBLIC (`Verif.Ddl`), TTLs, partitions, the numbers of affected rows of REPLACE and ON
DUPLICATE KEY UPDATE, waiting for locks (the transaction runs alone), and the flag that has conditions checked again.  An error
rolls back what the statement has written (`Verif.Txn`).
-/
namespace BaikalDB.Global
open BaikalDB.Dml

variable {V : Type} [DecidableEq V]

/-- What the regions of the table and of its global indexes store. -/
@[ext] structure Store (V : Type) where
  rows : Key V → Option (Rec V)
  /-- the global indexes, by number: an entry leads to a primary key -/
  idx : Nat → Key V → Option (Key V)

/-! ### Keys -/

/-- insert_manager_node.cpp L88-110: `_index_info_map`, the primary key and the UNIQUE indexes. -/
def tags (T : Table V) : List (Option Nat) := none :: (T.all.filter fun ji => ji.2.uniq).map fun ji => some ji.1

/-- `encode_key` by the primary key or a UNIQUE index. -/
def keyAt (T : Table V) (t : Option Nat) (r : Rec V) : Key V :=
  t.elim (T.keyOf r) fun j => (T.indexes[j]?).elim [] fun i => T.ekey i r

/-! ### What the regions do -/

/-- lock_primary_node.cpp L187-198, L288-300: LOCK_GET on the table gives the rows that are there. -/
def getPrimary (T : Table V) (S : Store V) (rs : List (Rec V)) : List (Rec V) := rs.filterMap fun r => S.rows (T.keyOf r)

/-- transaction.cpp `get_update_secondary`: the primary key of the entry is written into the record. -/
def withPk (T : Table V) (r : Rec V) (k : Key V) : Rec V := fun f => if f ∈ T.pk then T.ofKey k f else r f

/-- lock_secondary_node.cpp L159-179: LOCK_GET on a UNIQUE index. -/
def getUniq (T : Table V) (S : Store V) (t : Option Nat) (rs : List (Rec V)) : List (Rec V) :=
  t.elim [] fun j => rs.filterMap fun r => (S.idx j (keyAt T (some j) r)).map (withPk T r)

/-- lock_primary_node.cpp L200-220: LOCK_GET_ONLY_PRIMARY; a row that is not there is an error. -/
def getOnly (T : Table V) (S : Store V) : List (Rec V) → Option (List (Rec V))
  | [] => some []
  | r :: rs => (S.rows (T.keyOf r)).bind fun old => (getOnly T S rs).map (old :: ·)

/-- Deleting the entries of records from an index (or rows from the table). -/
def delAll {β : Type} (key : Rec V → Key V) (ds : List (Rec V)) (m : Key V → Option β) : Key V → Option β :=
  ds.foldl (fun m d x => if x = key d then none else m x) m

/-- Writing the entries of records one after the other; with `check`, an entry that is there already is an error. -/
def writeAll {β : Type} (key : Rec V → Key V) (val : Rec V → β) (check : Bool) :
    List (Rec V) → (Key V → Option β) → Option (Key V → Option β)
  | [], m => some m
  | r :: rs, m =>
    if check && (m (key r)).isSome then none else writeAll key val check rs fun x => if x = key r then some (val r) else m x

/-- lock_secondary_node.cpp L181-207, L240-317: LOCK_DML on global indexes, one after the other; deletes come first, and only a
UNIQUE index is asked for an entry in the way. -/
def dmlIndexes (T : Table V) (ds rs : List (Rec V)) (check : Bool) :
    List (Nat × Index) → (Nat → Key V → Option (Key V)) → Option (Nat → Key V → Option (Key V))
  | [], m => some m
  | (j, i) :: is, m =>
    match writeAll (T.ekey i) T.keyOf (check && i.uniq) rs (delAll (T.ekey i) ds (m j)) with
    | none => none
    | some x => dmlIndexes T ds rs check is fun j' => if j' = j then x else m j'

/-- lock_primary_node.cpp L222-254: LOCK_DML on the table (`check`: `_update_affect_primary`, dml_node.cpp L263) and then on the
indexes. -/
def dml (T : Table V) (S : Store V) (check : Bool) (is : List (Nat × Index)) (ds rs : List (Rec V)) : Option (Store V) :=
  (writeAll T.keyOf id check rs (delAll T.keyOf ds S.rows)).bind fun rows =>
    (dmlIndexes T ds rs true is S.idx).map fun idx => ⟨rows, idx⟩

/-- lock_primary_node.cpp L256-269, lock_secondary_node.cpp L208-223: LOCK_NO writes without looking. -/
def dmlNo (T : Table V) (S : Store V) (rs : List (Rec V)) : Option (Store V) :=
  (writeAll T.keyOf id false rs S.rows).bind fun rows => (dmlIndexes T [] rs false T.all S.idx).map fun idx => ⟨rows, idx⟩

/-! ### INSERT and INSERT IGNORE -/

/-- `_index_keys_record_map` with the record that came first for each key, `_record_ids` and `need_remove_ids`. -/
structure Seen (V : Type) where
  map : List ((Option Nat × Key V) × Nat)
  ids : List Nat
  bad : List Nat

/-- insert_manager_node.cpp L864-896: one key of one record. -/
def seeKey (T : Table V) (r : Rec V) (n : Nat) (s : Seen V) (t : Option Nat) : Seen V :=
  if s.map.any fun e => decide (e.1 = (t, keyAt T t r)) then ⟨s.map, s.ids, n :: s.bad⟩
  else ⟨((t, keyAt T t r), n) :: s.map, n :: s.ids, s.bad⟩

/-- insert_manager_node.cpp L859-912: `process_records_before_send` of INSERT and INSERT IGNORE.  (L899-906 erases the records
from copies of the sets in `_index_keys_record_map`, which stay as they are.) -/
def see (T : Table V) (rs : List (Rec V)) : Seen V :=
  rs.zipIdx.foldl (fun s p => (tags T).foldl (fun s t => seeKey T p.1 p.2 s t) s) ⟨[], [], []⟩

/-- The records with these numbers. -/
def pick (rs : List (Rec V)) (ok : Nat → Bool) : List (Rec V) := (rs.zipIdx.filter fun p => ok p.2).map (·.1)

/-- insert_manager_node.cpp L349-377: `basic_insert`; the first duplicate in the statement is an error (L891-894).  `check` and
`is`: as the plan says. -/
def basicInsert (T : Table V) (S : Store V) (check : Bool) (is : List (Nat × Index)) (rs : List (Rec V)) : Option (Store V × Nat) :=
  if (see T rs).bad ≠ [] then none else (dml T S check is [] rs).map fun S' => (S', rs.length)

/-- What LOCK_GET has brought for the primary key or a UNIQUE index. -/
def stored (T : Table V) (S : Store V) (t : Option Nat) (rs : List (Rec V)) : List (Rec V) :=
  if t = none then getPrimary T S rs else getUniq T S t rs

/-- insert_manager_node.cpp L379-423: `insert_ignore`. -/
def insertIgnore (T : Table V) (S : Store V) (rs : List (Rec V)) : Option (Store V × Nat) :=
  let s := see T rs
  let sent := pick rs fun n => s.ids.contains n && !s.bad.contains n
  let gone := (tags T).flatMap fun t => (stored T S t sent).flatMap fun o =>
    (s.map.filter fun e => decide (e.1 = (t, keyAt T t o))).map (·.2)
  let left := pick rs fun n => s.ids.contains n && !s.bad.contains n && !gone.contains n
  if left = [] then some (S, 0) else (dmlNo T S left).map fun S' => (S', left.length)

/-! ### REPLACE -/

/-- `_index_keys_record_map[index_id][key]` of REPLACE and ON DUPLICATE KEY UPDATE (L874-878): all records with the key. -/
def idsOf (T : Table V) (rs : List (Rec V)) (t : Option Nat) (x : Key V) : List Nat :=
  (rs.zipIdx.filter fun p => decide (keyAt T t p.1 = x)).map (·.2)

/-- insert_manager_node.cpp L713-764: the records whose primary keys were not among the rows `LOCK_GET` brought, each once. -/
def reverseLoop (T : Table V) (known : List (Key V)) : List (Rec V) → List (Rec V)
  | [] => []
  | r :: rs => if T.keyOf r ∈ known then reverseLoop T known rs else r :: reverseLoop T (T.keyOf r :: known) rs

/-- insert_manager_node.cpp L697-801: `get_record_from_store` and `reverse_main_table`, all rows in the way. -/
def rowsInWay (T : Table V) (S : Store V) (rs : List (Rec V)) : Option (List (Rec V)) :=
  let pri := getPrimary T S rs
  (getOnly T S (reverseLoop T (pri.map T.keyOf) ((tags T).flatMap fun t => getUniq T S t rs))).map (pri ++ ·)

/-- insert_manager_node.cpp L425-519: `insert_replace`; only the last of the records with the same key is kept. -/
def insertReplace (T : Table V) (S : Store V) (rs : List (Rec V)) : Option (Store V) :=
  (rowsInWay T S rs).bind fun del =>
    let gone := (tags T).flatMap fun t =>
      ((if t = none then del else getUniq T S t rs).flatMap fun o => (idsOf T rs t (keyAt T t o)).dropLast) ++
        rs.flatMap fun r => (idsOf T rs t (keyAt T t r)).dropLast
    dml T S true T.all del (pick rs fun n => !gone.contains n)

/-! ### ON DUPLICATE KEY UPDATE -/

/-- `_record_ids`, `_origin_records` and the rows of `_on_dup_key_update_records` by primary key. -/
structure Dup (V : Type) where
  ids : List Nat
  origin : List (Rec V)
  row : Key V → Option (Rec V)

/-- insert_manager_node.cpp L716-763, L780-798, L815-827: the row that `_on_dup_key_update_records[index_id][key]` stands for;
`none` is a null pointer.  `seen`: the entries of `reversed_idx_keys_map`. -/
def owners (T : Table V) (S : Store V) (rs : List (Rec V)) : List ((Option Nat × Key V) × Key V) :=
  let pri := getPrimary T S rs
  let all := (tags T).flatMap fun t => (getUniq T S t rs).map fun o => (t, o)
  let known := pri.map fun o => ((none, T.keyOf o), T.keyOf o)
  let step := fun (s : List ((Option Nat × Key V) × Key V)) (e : Option Nat × Rec V) =>
    if T.keyOf e.2 ∈ pri.map T.keyOf ∨ T.keyOf e.2 ∉ s.map (·.2) then s ++ [((e.1, keyAt T e.1 e.2), T.keyOf e.2)] else s
  all.foldl step known

/-- insert_manager_node.cpp L549-554: the records with the key of a row that was found; `none`: the null pointer is followed. -/
def hitLoop (T : Table V) (up : Rec V → Rec V → Rec V) (k : Option (Key V)) : List Nat → Dup V → Option (Dup V)
  | [], d => some d
  | n :: ns, d =>
    if n ∈ d.ids then
      match k, d.origin[n]? with
      | some k, some r =>
        hitLoop T up (some k) ns ⟨d.ids.erase n, d.origin, fun k' => if k' = k then (d.row k).map fun o => up o r else d.row k'⟩
      | _, _ => none
    else hitLoop T up k ns d

/-- insert_manager_node.cpp L557-569: the records of the statement with the same key: the first one is updated. -/
def selfLoop (up : Rec V → Rec V → Rec V) (m : Nat) : List Nat → Dup V → Dup V
  | [], d => d
  | n :: ns, d =>
    if n ∈ d.ids then
      match d.origin[m]?, d.origin[n]? with
      | some a, some b => selfLoop up m ns ⟨d.ids.erase n, d.origin.set m (up a b), d.row⟩
      | _, _ => d
    else selfLoop up m ns d

/-- insert_manager_node.cpp L535-570: the primary key or one index. -/
def dupTag (T : Table V) (S : Store V) (up : Rec V → Rec V → Rec V) (rs : List (Rec V)) (d : Dup V) (t : Option Nat) : Option (Dup V) :=
  ((stored T S t rs).foldlM (fun d o => hitLoop T up ((owners T S rs).lookup (t, keyAt T t o)) (idsOf T rs t (keyAt T t o)) d) d).map
    fun d => rs.foldl (fun d r =>
      match idsOf T rs t (keyAt T t r) with
      | m :: ns => selfLoop up m ns d
      | [] => d) d

/-- insert_manager_node.cpp L521-634: `insert_on_dup_key_update`.  `up old values`: the new row.  The outer `none`: a null pointer
is followed. -/
def insertDup (T : Table V) (S : Store V) (up : Rec V → Rec V → Rec V) (rs : List (Rec V)) : Option (Option (Store V)) :=
  ((tags T).foldlM (dupTag T S up rs) ⟨List.range rs.length, rs, S.rows⟩).map fun d =>
    (rowsInWay T S rs).bind fun del =>
      dml T S true T.all del
        (((List.range rs.length).filter fun n => d.ids.contains n).filterMap (fun n => d.origin[n]?) ++
          ((del.map T.keyOf).dedup).filterMap d.row)

/-! ### DELETE and UPDATE -/

/-- lock_primary_node.cpp L222-241: LOCK_GET_DML deletes the rows with these keys and gives them back. -/
def takeRows (ks : List (Key V)) (m : Key V → Option (Rec V)) : (Key V → Option (Rec V)) × List (Rec V) :=
  ks.foldl (fun s k =>
    match s.1 k with
    | some r => (fun k' => if k' = k then none else s.1 k', s.2 ++ [r])
    | none => s) (m, [])

/-- delete_manager_node.cpp L65-117: `open_global_delete`; `ks`: the primary keys that were found, `is`: the indexes of the plan. -/
def globalDelete (T : Table V) (S : Store V) (is : List (Nat × Index)) (ks : List (Key V)) : Option (Store V × List (Rec V)) :=
  (dmlIndexes T (takeRows ks S.rows).2 [] true is S.idx).map fun idx => (⟨(takeRows ks S.rows).1, idx⟩, (takeRows ks S.rows).2)

/-- update_manager_node.cpp L133-204: the rows are deleted, changed, and inserted; only the indexes with a changed field are
touched, all of them if the primary key changes (L110-117). -/
def globalUpdate (T : Table V) (S : Store V) (as : List (Assign V)) (ks : List (Key V)) : Option (Store V × Nat) :=
  (globalDelete T S (T.affected as) ks).bind fun p =>
    if p.2 = [] then some (p.1, 0)
    else basicInsert T p.1 (T.affectPk as) (T.affected as) (p.2.map fun old => assign as old fun _ => none)

/-! ### Statements -/

inductive Stmt (V : Type) where
  | insert (rs : List (Rec V))
  | ignore (rs : List (Rec V))
  | replace (rs : List (Rec V))
  | onDup (up : Rec V → Rec V → Rec V) (rs : List (Rec V))
  | update (as : List (Assign V)) (ks : List (Key V))
  | delete (ks : List (Key V))

/-- A statement; `none`: an error or a crash of the SQL node, and nothing has changed. -/
def exec (T : Table V) (S : Store V) : Stmt V → Option (Store V)
  | .insert rs => (basicInsert T S true T.all rs).map (·.1)
  | .ignore rs => (insertIgnore T S rs).map (·.1)
  | .replace rs => insertReplace T S rs
  | .onDup up rs => (insertDup T S up rs).join
  | .update as ks => (globalUpdate T S as ks).map (·.1)
  | .delete ks => (globalDelete T S T.all ks).map (·.1)

end BaikalDB.Global
