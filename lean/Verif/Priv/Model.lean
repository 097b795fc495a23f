import Mathlib.Tactic.Common

/-!
# Accounts and privileges

The privilege table of the meta server (`PrivilegeManager`), the copy every SQL node keeps
(`SchemaFactory::update_user`), and the checks the SQL node makes before a statement runs
(`UserInfo`, `LogicalPlanner::add_table`, `DDLPlanner::plan`).

Left out everywhere: the settings of an account that play no part in access (`resource_tag`,
`txn_lock_timeout`, `use_read_index`, plan cache, partition type, `switch_tables`), locks, logging,
and the protobuf encoding of the stored record (a record written to RocksDB reads back as itself).
-/

namespace BaikalDB.Priv

/-- `pb::RW`, proto/meta.interface.proto:386-389. -/
inductive RW where
  | read
  | write
  deriving DecidableEq, Repr

/-- The numbers of `pb::RW`, proto/meta.interface.proto:386-389. -/
def RW.num : RW → Nat
  | .read => 1
  | .write => 2

/-- A 32-bit set of privileges (`uint32_t acl`), proto/meta.interface.proto:396. -/
abbrev Acl := BitVec 32

/-- One entry of an account: `pb::PrivilegeDatabase` (key: database id) or `pb::PrivilegeTable`
(key: database id and table id), proto/meta.interface.proto:391-407. -/
structure Ent (κ : Type) where
  key : κ
  name : String
  rw : Option RW
  force : Bool
  acl : Option Acl
  deriving DecidableEq

/-- `database_rw()` / `table_rw()`: an unset enum field reads as its first value, READ
(proto/meta.interface.proto:386-394). -/
def Ent.rwGet {κ : Type} (e : Ent κ) : RW := e.rw.getD .read

/-- `acl()`: an unset integer field reads as 0. -/
def Ent.aclGet {κ : Type} (e : Ent κ) : Acl := e.acl.getD 0

/-- The account record, `pb::UserPrivilege` as stored (proto/meta.interface.proto:409-432). -/
structure UserPriv where
  password : String
  ns : Int
  dbs : List (Ent Int)
  tbls : List (Ent (Int × Int))
  ips : List String
  bns : List String
  needAuth : Bool
  ddl : Option Bool
  super : Option Bool
  acl : Option Acl
  version : Nat

/-- An item of a request before names are resolved (proto/meta.interface.proto:391-407). `tbl` is
unused in database items. -/
structure Item where
  db : String
  tbl : String
  rw : Option RW
  force : Bool
  acl : Option Acl

/-- `pb::UserPrivilege` as a request (proto/meta.interface.proto:409-432). -/
structure Req where
  user : String
  ns : String
  ifExist : Bool := false
  password : Option String := none
  dbs : List Item := []
  tbls : List Item := []
  ips : List String := []
  bns : List String := []
  needAuth : Option Bool := none
  ddl : Option Bool := none
  super : Option Bool := none
  acl : Option Acl := none

/-- What the meta server knows of names at the time of the request: `NamespaceManager`,
`DatabaseManager` and `TableManager` (`get_*_id`, 0 = unknown; here `none`), and
`get_database_info` / `get_table_info` for ids. -/
structure Catalog where
  nsId : String → Option Int
  dbId : String → String → Option Int
  tblId : String → String → String → Option Int
  hasDb : Int → Bool
  hasTbl : Int → Bool

/-- The loop over databases of `check_and_get_for_privilege`,
src/meta_server/schema_manager.cpp:645-655. -/
def resolveDbs (cat : Catalog) (ns : String) : List Item → Option (List (Ent Int))
  | [] => some []
  | i :: is =>
    match cat.dbId ns i.db with
    | none => none
    | some d =>
      match resolveDbs cat ns is with
      | none => none
      | some es => some (⟨d, i.db, i.rw, i.force, i.acl⟩ :: es)

/-- The loop over tables of `check_and_get_for_privilege`,
src/meta_server/schema_manager.cpp:656-677. -/
def resolveTbls (cat : Catalog) (ns : String) : List Item → Option (List (Ent (Int × Int)))
  | [] => some []
  | i :: is =>
    match cat.dbId ns i.db with
    | none => none
    | some d =>
      match cat.tblId ns i.db i.tbl with
      | none => none
      | some t =>
        match resolveTbls cat ns is with
        | none => none
        | some es => some (⟨(d, t), i.tbl, i.rw, i.force, i.acl⟩ :: es)

/-- A request with its names resolved. -/
structure Resolved where
  ns : Int
  dbs : List (Ent Int)
  tbls : List (Ent (Int × Int))

/-- `SchemaManager::check_and_get_for_privilege`, src/meta_server/schema_manager.cpp:635-679. -/
def resolve (cat : Catalog) (r : Req) : Option Resolved :=
  match cat.nsId r.ns with
  | none => none
  | some n =>
    match resolveDbs cat r.ns r.dbs with
    | none => none
    | some ds =>
      match resolveTbls cat r.ns r.tbls with
      | none => none
      | some ts => some ⟨n, ds, ts⟩

/-! ## Entries -/

section
variable {κ : Type} [DecidableEq κ]

/-- The effect of a grant on the entry with the same key: `insert_database_privilege`
(src/meta_server/privilege_manager.cpp:392-410, 416-418) and `insert_table_privilege` (:430-450,
456-458). -/
def mergeEnt (p m : Ent κ) : Ent κ :=
  { m with
    rw := match p.rw with
      | none => m.rw
      | some r =>
        if p.force then some r
        else if m.rwGet.num < r.num then some r else m.rw
    acl := match p.acl with
      | none => m.acl
      | some a => some (m.aclGet ||| a) }

/-- `insert_database_privilege` / `insert_table_privilege`,
src/meta_server/privilege_manager.cpp:387-460: the first entry with the key is changed; without one
the request's own item is appended. -/
def insertEnt (p : Ent κ) : List (Ent κ) → List (Ent κ)
  | [] => [p]
  | m :: ms => if m.key = p.key then mergeEnt p m :: ms else m :: insertEnt p ms

/-- What `insert_*_privilege` reports in `insert_privilege` (:414, :455): the key, when the entry
is new. -/
def insertedKeys (p : Ent κ) (ms : List (Ent κ)) : List κ :=
  if ms.any (fun m => m.key = p.key) then [] else [p.key]

/-- The request names a level below that of the entry, src/meta_server/privilege_manager.cpp:513-514,
541-542. -/
def lowers (p m : Ent κ) : Bool :=
  match p.rw with
  | some r => decide (r.num < m.rwGet.num)
  | none => false

/-- One round of the loop of `delete_database_privilege` / `delete_table_privilege`,
src/meta_server/privilege_manager.cpp:510-560. -/
def deleteOne (p m : Ent κ) : List (Ent κ) :=
  if m.key = p.key then
    (if lowers p m then [p] else []) ++
    (match p.acl with
      | some a => [{ m with acl := some (m.aclGet &&& ~~~a) }]
      | none => [])
  else [m]

/-- `delete_database_privilege` / `delete_table_privilege`,
src/meta_server/privilege_manager.cpp:505-562. -/
def deleteEnt (p : Ent κ) (ms : List (Ent κ)) : List (Ent κ) := ms.flatMap (deleteOne p)

/-- What `delete_*_privilege` reports in `delete_privilege` (:519, :547): the key, whenever an entry
with it is not merely lowered. -/
def deletedKeys (p : Ent κ) (ms : List (Ent κ)) : List κ :=
  if ms.any (fun m => m.key = p.key && !lowers p m) then [p.key] else []

/-- The loop over the items of a grant, threading the record and the report
(src/meta_server/privilege_manager.cpp:222-227). -/
def insertAll : List (Ent κ) → List (Ent κ) → List (Ent κ) × List κ
  | [], ms => (ms, [])
  | p :: ps, ms =>
    ((insertAll ps (insertEnt p ms)).1, insertedKeys p ms ++ (insertAll ps (insertEnt p ms)).2)

/-- The loop over the items of a revoke (src/meta_server/privilege_manager.cpp:304-309). -/
def deleteAll : List (Ent κ) → List (Ent κ) → List (Ent κ) × List κ
  | [], ms => (ms, [])
  | p :: ps, ms =>
    ((deleteAll ps (deleteEnt p ms)).1, deletedKeys p ms ++ (deleteAll ps (deleteEnt p ms)).2)

end

/-! ## The meta server -/

/-- `_user_privilege`, the records in RocksDB, and the reverse maps `_db_user_map`,
`_tbl_user_map` (include/meta_server/privilege_manager.h:124-130). -/
structure Meta where
  users : String → Option UserPriv
  disk : String → Option UserPriv
  dbUsers : Int → List String
  tblUsers : Int → List String

/-- The empty meta server. -/
def Meta.empty : Meta := ⟨fun _ => none, fun _ => none, fun _ => [], fun _ => []⟩

/-- Point update of a table of accounts. -/
def setUser (f : String → Option UserPriv) (u : String) (v : Option UserPriv) :
    String → Option UserPriv :=
  fun w => if w = u then v else f w

/-- `emplace` of a name into the set of a key, `insert_db_tbl_user_map`,
include/meta_server/privilege_manager.h:100-108. -/
def addUser (f : Int → List String) (u : String) : List Int → Int → List String
  | [] => f
  | k :: ks => addUser (fun j => if j = k then (if u ∈ f j then f j else u :: f j) else f j) u ks

/-- `erase` of a name from the set of a key, `delete_db_tbl_user_map`,
include/meta_server/privilege_manager.h:109-123. -/
def delUser (f : Int → List String) (u : String) : List Int → Int → List String
  | [] => f
  | k :: ks => delUser (fun j => if j = k then (f j).filter (fun w => w ≠ u) else f j) u ks

/-- The response to a request. -/
inductive Res where
  | ok
  | err
  deriving DecidableEq, Repr

/-- Memory and RocksDB after an account record has been written
(e.g. src/meta_server/privilege_manager.cpp:269-281). -/
def Meta.put (s : Meta) (u : String) (v : Option UserPriv) : Meta :=
  { s with users := setUser s.users u v, disk := setUser s.disk u v }

/-- The record `create_user` stores: the request itself with ids and version 1
(src/meta_server/privilege_manager.cpp:98-121). -/
def freshUser (r : Req) (rs : Resolved) (pw : String) : UserPriv :=
  { password := pw, ns := rs.ns, dbs := rs.dbs, tbls := rs.tbls, ips := r.ips, bns := r.bns
    needAuth := r.needAuth.getD false, ddl := r.ddl, super := r.super, acl := r.acl, version := 1 }

/-- `PrivilegeManager::create_user`, src/meta_server/privilege_manager.cpp:86-124, behind the check
of `process_user_privilege` (:54-63) that a password is present. `wr` says whether the RocksDB write
succeeds. -/
def createUser (cat : Catalog) (wr : Bool) (r : Req) (s : Meta) : Res × Meta :=
  match r.password with
  | none => (.err, s)
  | some pw =>
    match s.users r.user with
    | some _ => (if r.ifExist then .err else .ok, s)
    | none =>
      match resolve cat r with
      | none => (.err, s)
      | some rs =>
        if wr then
          (.ok, { s.put r.user (some (freshUser r rs pw)) with
            dbUsers := addUser s.dbUsers r.user (rs.dbs.map Ent.key)
            tblUsers := addUser s.tblUsers r.user (rs.tbls.map (fun e => e.key.2)) })
        else (.err, s)

/-- `PrivilegeManager::drop_user`, src/meta_server/privilege_manager.cpp:126-151. -/
def dropUser (wr : Bool) (r : Req) (s : Meta) : Res × Meta :=
  match s.users r.user with
  | none => (if r.ifExist then .ok else .err, s)
  | some m =>
    if wr then
      (.ok, { s.put r.user none with
        dbUsers := delUser s.dbUsers r.user (m.dbs.map Ent.key)
        tblUsers := delUser s.tblUsers r.user (m.tbls.map (fun e => e.key.2)) })
    else (.err, s)

/-- `PrivilegeManager::modify_user`, src/meta_server/privilege_manager.cpp:153-195: password and
namespace only. -/
def modifyUser (cat : Catalog) (wr : Bool) (r : Req) (s : Meta) : Res × Meta :=
  match r.password with
  | none => (.err, s)
  | some pw =>
    match s.users r.user with
    | none => (if r.ifExist then .ok else .err, s)
    | some m =>
      match resolve cat r with
      | none => (.err, s)
      | some rs =>
        if wr then
          (.ok, s.put r.user (some { m with ns := rs.ns, password := pw, version := m.version + 1 }))
        else (.err, s)

/-- `insert_bns` / `insert_ip`, src/meta_server/privilege_manager.cpp:462-490. -/
def insertStr (x : String) (l : List String) : List String := if x ∈ l then l else l ++ [x]

/-- `delete_bns` / `delete_ip`, src/meta_server/privilege_manager.cpp:564-584. -/
def deleteStr (x : String) (l : List String) : List String := l.filter (fun y => y ≠ x)

/-- The record `add_privilege` writes, src/meta_server/privilege_manager.cpp:219-268. -/
def grantUser (r : Req) (rs : Resolved) (m : UserPriv) : UserPriv :=
  { m with
    dbs := (insertAll rs.dbs m.dbs).1
    tbls := (insertAll rs.tbls m.tbls).1
    bns := r.bns.foldl (fun l x => insertStr x l) m.bns
    ips := r.ips.foldl (fun l x => insertStr x l) m.ips
    needAuth := r.needAuth.getD m.needAuth
    ddl := match r.ddl with | some b => some b | none => m.ddl
    acl := match r.acl with | some a => some (m.acl.getD 0 ||| a) | none => m.acl
    super := match r.super with | some b => some b | none => m.super
    version := m.version + 1 }

/-- `PrivilegeManager::add_privilege`, src/meta_server/privilege_manager.cpp:197-285. -/
def addPrivilege (cat : Catalog) (wr : Bool) (r : Req) (s : Meta) : Res × Meta :=
  match s.users r.user with
  | none => (.err, s)
  | some m =>
    match resolve cat r with
    | none => (.err, s)
    | some rs =>
      if wr then
        (.ok, { s.put r.user (some (grantUser r rs m)) with
          dbUsers := addUser s.dbUsers r.user (insertAll rs.dbs m.dbs).2
          tblUsers := addUser s.tblUsers r.user ((insertAll rs.tbls m.tbls).2.map (·.2)) })
      else (.err, s)

/-- The record `drop_privilege` writes, src/meta_server/privilege_manager.cpp:301-329. -/
def revokeUser (r : Req) (rs : Resolved) (m : UserPriv) : UserPriv :=
  { m with
    dbs := (deleteAll rs.dbs m.dbs).1
    tbls := (deleteAll rs.tbls m.tbls).1
    bns := r.bns.foldl (fun l x => deleteStr x l) m.bns
    ips := r.ips.foldl (fun l x => deleteStr x l) m.ips
    needAuth := r.needAuth.getD m.needAuth
    acl := match r.acl with | some a => some (m.acl.getD 0 &&& ~~~a) | none => m.acl
    version := m.version + 1 }

/-- `PrivilegeManager::drop_privilege`, src/meta_server/privilege_manager.cpp:287-349. -/
def dropPrivilege (cat : Catalog) (wr : Bool) (r : Req) (s : Meta) : Res × Meta :=
  match s.users r.user with
  | none => (.err, s)
  | some m =>
    match resolve cat r with
    | none => (.err, s)
    | some rs =>
      if wr then
        (.ok, { s.put r.user (some (revokeUser r rs m)) with
          dbUsers := delUser s.dbUsers r.user (deleteAll rs.dbs m.dbs).2
          tblUsers := delUser s.tblUsers r.user ((deleteAll rs.tbls m.tbls).2.map (·.2)) })
      else (.err, s)

/-- The request `drop_privilege_for_database` makes for one account,
src/meta_server/database_manager.cpp:168-176. -/
def dropDbReq (ns db u : String) : Req :=
  { user := u, ns := ns, dbs := [⟨db, "", none, false, none⟩] }

/-- The request `drop_privilege_for_table` makes for one account,
src/meta_server/table_manager.cpp:6618-6627. -/
def dropTblReq (ns db t u : String) : Req :=
  { user := u, ns := ns, tbls := [⟨db, t, none, false, none⟩] }

/-- `DatabaseManager::drop_privilege_for_database`, src/meta_server/database_manager.cpp:165-179:
`id` is the id of the dropped database, still known by name when this runs. -/
def dropDbHook (cat : Catalog) (wr : Bool) (ns db : String) (id : Int) (s : Meta) : Meta :=
  (s.dbUsers id).foldl (fun s u => (dropPrivilege cat wr (dropDbReq ns db u) s).2) s

/-- `TableManager::drop_privilege_for_table`, src/meta_server/table_manager.cpp:6615-6630. -/
def dropTblHook (cat : Catalog) (wr : Bool) (ns db t : String) (id : Int) (s : Meta) : Meta :=
  (s.tblUsers id).foldl (fun s u => (dropPrivilege cat wr (dropTblReq ns db t u) s).2) s

/-- The record `drop_invalid_privilege` writes: entries of databases and tables that are gone are
removed (src/meta_server/privilege_manager.cpp:608-640; the swap loop keeps the valid entries in
their order). -/
def pruneUser (cat : Catalog) (m : UserPriv) : UserPriv :=
  { m with
    dbs := m.dbs.filter (fun e => cat.hasDb e.key)
    tbls := m.tbls.filter (fun e => cat.hasTbl e.key.2)
    version := m.version + 1 }

/-- `has_invalid_privilege`, src/meta_server/privilege_manager.cpp:606-637. -/
def hasInvalid (cat : Catalog) (m : UserPriv) : Bool :=
  m.dbs.any (fun e => !cat.hasDb e.key) || m.tbls.any (fun e => !cat.hasTbl e.key.2)

/-- One account in `drop_invalid_privilege`, src/meta_server/privilege_manager.cpp:604-658. -/
def pruneOne (cat : Catalog) (wr : Bool) (o : Option UserPriv) : Option UserPriv :=
  match o with
  | none => none
  | some m => if hasInvalid cat m && wr then some (pruneUser cat m) else some m

/-- The reverse map after `drop_invalid_privilege`: for every account, the keys it lost
(src/meta_server/privilege_manager.cpp:621-623, 632-634, 656). -/
def pruneMap (gone : UserPriv → Int → Bool) (wr : Bool) (users : String → Option UserPriv)
    (f : Int → List String) : Int → List String :=
  fun k => (f k).filter (fun u =>
    !(wr && match users u with | some m => gone m k | none => false))

/-- `PrivilegeManager::drop_invalid_privilege`, src/meta_server/privilege_manager.cpp:601-662. The
accounts are independent of each other, so they are treated at once; a failing write stops the loop
at the first account that would change. -/
def dropInvalid (cat : Catalog) (wr : Bool) (s : Meta) : Res × Meta :=
  (if wr then .ok else .err,
    { users := fun u => pruneOne cat wr (s.users u)
      disk := fun u =>
        match s.users u with
        | some m => if hasInvalid cat m && wr then some (pruneUser cat m) else s.disk u
        | none => s.disk u
      dbUsers := pruneMap (fun m k => m.dbs.any (fun e => e.key = k && !cat.hasDb e.key)) wr
        s.users s.dbUsers
      tblUsers := pruneMap (fun m k => m.tbls.any (fun e => e.key.2 = k && !cat.hasTbl e.key.2)) wr
        s.users s.tblUsers })

/-- The reverse maps as `load_snapshot` rebuilds them, for the accounts in the order of their keys
(src/meta_server/privilege_manager.cpp:360-385). -/
def rebuild (keys : UserPriv → List Int) (disk : String → Option UserPriv) (us : List String) :
    Int → List String :=
  us.foldl (fun f u => match disk u with | some m => addUser f u (keys m) | none => f) (fun _ => [])

/-- `PrivilegeManager::load_snapshot`, src/meta_server/privilege_manager.cpp:360-385. `us` lists the
accounts in RocksDB. -/
def loadSnapshot (us : List String) (s : Meta) : Meta :=
  { users := s.disk
    disk := s.disk
    dbUsers := rebuild (fun m => m.dbs.map Ent.key) s.disk us
    tblUsers := rebuild (fun m => m.tbls.map (fun e => e.key.2)) s.disk us }

/-- What reaches the state machine of the meta server (`MetaStateMachine::on_apply`,
src/meta_server/meta_state_machine.cpp:305-325) and changes privileges; `CREATE DATABASE` grants
through `addPrivilege` (src/meta_server/database_manager.cpp:107-121). -/
inductive Cmd where
  | create (r : Req)
  | drop (r : Req)
  | modify (r : Req)
  | grant (r : Req)
  | revoke (r : Req)
  | dropDb (ns db : String) (id : Int)
  | dropTbl (ns db t : String) (id : Int)
  | prune

/-- One command at the meta server. -/
def step (cat : Catalog) (wr : Bool) : Cmd → Meta → Meta
  | .create r, s => (createUser cat wr r s).2
  | .drop r, s => (dropUser wr r s).2
  | .modify r, s => (modifyUser cat wr r s).2
  | .grant r, s => (addPrivilege cat wr r s).2
  | .revoke r, s => (dropPrivilege cat wr r s).2
  | .dropDb ns db id, s => dropDbHook cat wr ns db id s
  | .dropTbl ns db t id, s => dropTblHook cat wr ns db t id s
  | .prune, s => (dropInvalid cat wr s).2

/-- One entry of the log of the meta server: the command, the catalogue when it is applied, and
whether RocksDB accepts the write. -/
structure Ev where
  cat : Catalog
  wr : Bool
  cmd : Cmd

/-- A run of the meta server. -/
def run (h : List Ev) (s : Meta) : Meta := h.foldl (fun s e => step e.cat e.wr e.cmd s) s

/-! ## The SQL node -/

/-- `UserInfo`, include/session/user_info.h:206-250. The maps are kept as lists of bindings, the
newest first, so `lookup` is `operator[]`, `isSome` of it `count` and non-emptiness `size() > 0`. -/
structure UserInfo where
  password : String
  version : Nat
  needAuth : Bool
  ddl : Bool
  super : Bool
  database : List (Int × RW)
  table : List (Int × RW)
  tableName : List (String × RW)
  aclUser : Acl
  aclDb : List (Int × Acl)
  aclTbl : List (Int × Acl)
  authIps : List String

/-- What the name service says of a name: whether the query failed, and the addresses
(`get_instance_from_bns`, used at src/common/schema_factory.cpp:1644-1656). -/
abbrev Bns := String → Bool × List String

/-- The loop over databases of `update_user`, src/common/schema_factory.cpp:1612-1619, and the entry
for information_schema (:1630). -/
def dbMap (infoDb : Int) (ds : List (Ent Int)) : List (Int × RW) :=
  (infoDb, .read) :: (ds.map (fun e => (e.key, e.rwGet))).reverse

/-- The bindings of an optional `acl` field, src/common/schema_factory.cpp:1616-1618, 1625-1627. -/
def aclMap {κ : Type} (k : κ → Int) (es : List (Ent κ)) : List (Int × Acl) :=
  (es.filterMap (fun e => e.acl.map (fun a => (k e.key, a)))).reverse

/-- The addresses an account may come from, src/common/schema_factory.cpp:1632-1660 (blanks around
an address are not modelled). -/
def authSet (bns : Bns) (last : List String) (u : UserPriv) : List String :=
  if u.needAuth then
    u.ips ++ u.bns.flatMap (fun b => (bns b).2) ++
      (if u.bns.any (fun b => (bns b).1) then last else [])
  else []

/-- The new `UserInfo` of `SchemaFactory::update_user`, src/common/schema_factory.cpp:1566-1660. -/
def buildInfo (infoDb : Int) (bns : Bns) (last : List String) (u : UserPriv) : UserInfo :=
  { password := u.password
    version := u.version
    needAuth := u.needAuth
    ddl := u.ddl.getD false
    super := u.super.getD false
    database := dbMap infoDb u.dbs
    table := (u.tbls.map (fun e => (e.key.2, e.rwGet))).reverse
    tableName := (u.tbls.map (fun e => (e.name, e.rwGet))).reverse
    aclUser := u.acl.getD 0
    aclDb := aclMap (fun k => k) u.dbs
    aclTbl := aclMap (fun k : Int × Int => k.2) u.tbls
    authIps := authSet bns last u }

/-- The accounts a SQL node knows (`_user_info_mapping`). -/
abbrev Node := String → Option UserInfo

/-- `SchemaFactory::update_user`, src/common/schema_factory.cpp:1522-1668. The fields the code also
changes in the object it replaces, which open connections may still hold, are not modelled. -/
def updateUser (infoDb : Int) (bns : Bns) (name : String) (u : UserPriv) (n : Node) : Node :=
  match n name with
  | none => fun w => if w = name then some (buildInfo infoDb bns [] u) else n w
  | some old =>
    if !u.needAuth && decide (u.version ≤ old.version) then n
    else fun w => if w = name then
      some (buildInfo infoDb bns (if u.needAuth then old.authIps else []) u) else n w

/-- The loop over `privilege_change_info` of a heartbeat response
(src/common/baikal_heartbeat.cpp:265-267; filled from every account,
src/meta_server/privilege_manager.cpp:351-358). `us` lists the accounts at the meta server. -/
def heartbeat (infoDb : Int) (bns : Bns) (s : Meta) (us : List String) (n : Node) : Node :=
  us.foldl (fun n u => match s.users u with
    | some m => updateUser infoDb bns u m n
    | none => n) n

/-- What happens at the meta server and one SQL node: a command is applied, or the node's heartbeat is
answered (`bns` is what the name service says then, `us` lists the accounts). -/
inductive Act where
  | ev (e : Ev)
  | beat (bns : Bns) (us : List String)

/-- A run of the meta server and one SQL node. -/
def runBoth (infoDb : Int) (as : List Act) (p : Meta × Node) : Meta × Node :=
  as.foldl (fun p a => match a with
    | .ev e => (step e.cat e.wr e.cmd p.1, p.2)
    | .beat bns us => (p.1, heartbeat infoDb bns p.1 us p.2)) p

/-- The refresh of the account of an open connection, src/protocol/state_machine.cpp:1041-1048. -/
def refresh (n : Node) (name : String) (held : UserInfo) : UserInfo :=
  match n name with
  | some i => if held.version < i.version then i else held
  | none => held

/-- The check of a login: account known, password right, address allowed
(src/protocol/state_machine.cpp:626-680; passwords are compared as such, their scrambling is not
modelled). -/
def allowAddr (i : UserInfo) (ip : String) : Bool := if i.needAuth then decide (ip ∈ i.authIps) else true

/-- A login, src/protocol/state_machine.cpp:626-680. -/
def login (n : Node) (name pw ip : String) : Bool :=
  match n name with
  | none => false
  | some i => decide (i.password = pw) && allowAddr i ip

/-! ## The checks -/

/-- The operations the checks distinguish (`pb::OpType`, proto/optype.proto; those that no branch of
`get_op_require_acl` names are represented by `none`, `restoreTable`, `createView`, `dropView`). -/
inductive Op where
  | select | union | insert | delete | truncate | update | load
  | createNamespace | createDatabase | createTable
  | dropNamespace | dropDatabase | dropTable
  | modifyNamespace | modifyDatabase | renameTable | addField | dropField | renameField | modifyField
  | addIndex | dropIndex | renameIndex
  | createUser | dropUser | modifyUser
  | addPrivilege | dropPrivilege
  | none | restoreTable | createView | dropView
  deriving DecidableEq, Repr

/-- `MysqlACL`, include/sqlparser/misc.h:134-168. -/
def aclSelect : Acl := 1 <<< 0
/-- include/sqlparser/misc.h:136 -/
def aclInsert : Acl := 1 <<< 1
/-- include/sqlparser/misc.h:137 -/
def aclUpdate : Acl := 1 <<< 2
/-- include/sqlparser/misc.h:138 -/
def aclDelete : Acl := 1 <<< 3
/-- include/sqlparser/misc.h:139 -/
def aclCreate : Acl := 1 <<< 4
/-- include/sqlparser/misc.h:140 -/
def aclDrop : Acl := 1 <<< 5
/-- include/sqlparser/misc.h:144 -/
def aclFile : Acl := 1 <<< 9
/-- include/sqlparser/misc.h:145 -/
def aclGrant : Acl := 1 <<< 10
/-- include/sqlparser/misc.h:147 -/
def aclIndex : Acl := 1 <<< 12
/-- include/sqlparser/misc.h:148 -/
def aclAlter : Acl := 1 <<< 13
/-- include/sqlparser/misc.h:160 -/
def aclCreateUser : Acl := 1 <<< 25

/-- `get_op_require_acl`, include/session/user_info.h:31-76. -/
def requireAcl : Op → Acl
  | .select | .union => aclSelect
  | .insert => aclInsert
  | .delete | .truncate => aclDelete
  | .update => aclUpdate
  | .load => aclFile
  | .createNamespace | .createDatabase | .createTable => aclCreate
  | .dropNamespace | .dropDatabase | .dropTable => aclDrop
  | .modifyNamespace | .modifyDatabase | .renameTable | .addField | .dropField | .renameField
  | .modifyField => aclAlter
  | .addIndex | .dropIndex | .renameIndex => aclIndex
  | .createUser | .dropUser | .modifyUser => aclCreateUser
  | .addPrivilege | .dropPrivilege => aclGrant
  | .none | .restoreTable | .createView | .dropView => 0

/-- `UserInfo::allow_write`, include/session/user_info.h:107-118. -/
def allowWrite (i : UserInfo) (db tbl : Int) (name : String) : Bool :=
  if i.database.lookup db = some .write then true
  else if i.table.lookup tbl = some .write then true
  else if i.tableName.lookup name = some .write then true
  else false

/-- `UserInfo::allow_read`, include/session/user_info.h:120-131. -/
def allowRead (i : UserInfo) (db tbl : Int) (name : String) : Bool :=
  if (i.database.lookup db).isSome then true
  else if (i.table.lookup tbl).isSome then true
  else if (i.tableName.lookup name).isSome then true
  else false

/-- `UserInfo::allow_op_v1`, include/session/user_info.h:133-142. -/
def allowV1 (i : UserInfo) (op : Op) (db tbl : Int) (name : String) : Bool :=
  if i.super then true
  else if op = .select then allowRead i db tbl name
  else allowWrite i db tbl name

/-- `UserInfo::acl_v2_is_valid`, include/session/user_info.h:175-177. -/
def v2Valid (i : UserInfo) : Bool :=
  decide (i.aclUser ≠ 0) || decide (0 < i.aclDb.length) || decide (0 < i.aclTbl.length)

/-- `acl_require == (acl_require & have)`, include/session/user_info.h:184. -/
def covers (have' need : Acl) : Bool := decide (need = need &&& have')

/-- `UserInfo::contain_privs`, include/session/user_info.h:183-198. -/
def containPrivs (i : UserInfo) (need : Acl) (db tbl : Int) : Bool :=
  if covers i.aclUser need then true
  else if db ≠ -1 && (match i.aclDb.lookup db with | some a => covers a need | none => false) then
    true
  else if tbl ≠ -1 && (match i.aclTbl.lookup tbl with | some a => covers a need | none => false)
  then true
  else false

/-- `count` of a `std::map`, at most 1. -/
def count (m : List (Int × Acl)) (k : Int) : Nat := if (m.lookup k).isSome then 1 else 0

/-- `UserInfo::allow_op`, include/session/user_info.h:200-206. -/
def allowOp (i : UserInfo) (op : Op) (db tbl : Int) (name : String) : Bool :=
  if v2Valid i && (decide (1 < count i.aclDb db) || decide (0 < count i.aclTbl tbl)) then
    containPrivs i (requireAcl op) db tbl
  else allowV1 i op db tbl name

/-- `UserInfo::allow_ddl`, include/session/user_info.h:155-163. `verify` is the flag
`need_verify_ddl_permission` (false by default, src/common/common.cpp:72). -/
def allowDdl (verify : Bool) (i : UserInfo) : Bool :=
  if !verify then true else if i.super then true else i.ddl

/-- The checks of `DDLPlanner::plan` on a statement on a database (`tbl = -1`), a table, or neither
(`db = tbl = -1`, e.g. CREATE DATABASE, CREATE USER): src/logical_plan/ddl_planner.cpp:26-34,
179-229. -/
def ddlAllowed (verify : Bool) (i : UserInfo) (op : Op) (db tbl : Int) (name : String) : Bool :=
  allowDdl verify i && (if v2Valid i then allowOp i op db tbl name else true)

/-- The checks on GRANT (`op = addPrivilege`) and REVOKE (`op = dropPrivilege`): `parse_priv`
(src/logical_plan/ddl_planner.cpp:2923-3000), then the common check with neither database nor
table (:179-229). `db`, `tbl` are -1 where the level has none. -/
def grantAllowed (verify : Bool) (i : UserInfo) (op : Op) (acl : Acl) (db tbl : Int) : Bool :=
  allowDdl verify i &&
    (if v2Valid i then containPrivs i (acl ||| aclGrant) db tbl && allowOp i op (-1) (-1) "" else true)

/-- The operation `LogicalPlanner::add_table` checks a table for, by the kind of the statement that
names it (src/logical_plan/logical_planner.cpp:926-948; a subquery is a SELECT of its own). -/
inductive StmtKind where
  | select | union | insert | update | delete | truncate | load | other
  deriving DecidableEq, Repr

/-- src/logical_plan/logical_planner.cpp:926-948 -/
def StmtKind.op : StmtKind → Op
  | .select => .select
  | .union => .union
  | .insert => .insert
  | .update => .update
  | .delete | .truncate => .delete
  | .load => .load
  | .other => .none

end BaikalDB.Priv
