import Verif.Priv.Model

/-!
# What an account may do, stated on the history of requests

A ledger per account: for every database and table a level (0 nothing, 1 read, 2 write) and a set of
privileges by number, each a function of the requests made so far. Nothing here uses the lists,
maps or bit operations of the model; only the types of requests and catalogues are shared.
-/

namespace BaikalDB.Priv.Spec

open BaikalDB.Priv

/-- The rights at one database or table. -/
structure Cell where
  /-- 0 nothing, 1 read, 2 write -/
  level : Nat
  /-- the privileges held, by number -/
  bits : Nat → Bool
  /-- something was granted here and has not been withdrawn as a whole -/
  known : Bool
  /-- GRANT or REVOKE has been used here -/
  mode : Bool
  /-- the names the object has been called by in the requests -/
  names : String → Bool
  /-- a REVOKE has been used here -/
  revoked : Bool

/-- No rights. -/
def Cell.empty : Cell := ⟨0, fun _ => false, false, false, fun _ => false, false⟩

/-- Privilege number `b` is in the set. -/
def inAcl (a : Option Acl) (b : Nat) : Bool :=
  match a with
  | some a => a.toNat.testBit b
  | none => false

/-- A grant raises the level (or sets it, when forced) and adds the privileges. -/
def grantCell (rw : Option RW) (force : Bool) (acl : Option Acl) (name : String) (c : Cell) : Cell :=
  { level := match rw with
      | none => c.level
      | some .read => if force then 1 else max c.level 1
      | some .write => 2
    bits := fun b => c.bits b || inAcl acl b
    known := true
    mode := c.mode || acl.isSome
    names := fun n => c.names n || n == name
    revoked := c.revoked }

/-- A revoke that names a level lowers the rights to that level, or removes them when they are not
above it. -/
def revokeLevel (r : RW) (l : Nat) : Nat := if r = .read ∧ l = 2 then 1 else 0

/-- A revoke: of privileges, of a level, or (naming neither) of everything. -/
def revokeCell (rw : Option RW) (acl : Option Acl) (name : String) (c : Cell) : Cell :=
  match rw, acl with
  | none, none => Cell.empty
  | none, some a =>
    { c with
      bits := fun b => c.bits b && !inAcl (some a) b
      mode := c.known
      revoked := c.known }
  | some r, a =>
    { level := revokeLevel r c.level
      bits := fun b => c.bits b && !inAcl a b
      known := decide (0 < revokeLevel r c.level)
      mode := false
      names := fun n => decide (0 < revokeLevel r c.level) && (c.names n || n == name)
      revoked := decide (0 < revokeLevel r c.level) && c.revoked }

/-- The rights of an account. -/
structure Rights where
  super : Bool
  bits : Nat → Bool
  db : Int → Cell
  tbl : Int × Int → Cell

/-- The rights of all accounts. -/
abbrev Ledger := String → Option Rights

/-- No accounts. -/
def Ledger.empty : Ledger := fun _ => none

/-- Change one cell. -/
def at' {κ : Type} [DecidableEq κ] (f : κ → Cell) (k : κ) (g : Cell → Cell) : κ → Cell :=
  fun j => if j = k then g (f j) else f j

/-- The id of the database an item names. -/
def dbOf (cat : Catalog) (ns : String) (i : Item) : Option (Int × Item) :=
  (cat.dbId ns i.db).map (fun d => (d, i))

/-- The ids of the database and the table an item names. -/
def tblOf (cat : Catalog) (ns : String) (i : Item) : Option ((Int × Int) × Item) :=
  match cat.dbId ns i.db, cat.tblId ns i.db i.tbl with
  | some d, some t => some ((d, t), i)
  | _, _ => none

/-- The ids the names of a request stand for; `none` when one is unknown. -/
def ids (cat : Catalog) (r : Req) : Option (List (Int × Item) × List ((Int × Int) × Item)) :=
  if (cat.nsId r.ns).isSome then
    match r.dbs.mapM (dbOf cat r.ns), r.tbls.mapM (tblOf cat r.ns) with
    | some ds, some ts => some (ds, ts)
    | _, _ => none
  else none

/-- Grant one database item. -/
def grantDb (f : Int → Cell) (p : Int × Item) : Int → Cell :=
  at' f p.1 (grantCell p.2.rw p.2.force p.2.acl p.2.db)
/-- Grant one table item. -/
def grantTbl (f : Int × Int → Cell) (p : (Int × Int) × Item) : Int × Int → Cell :=
  at' f p.1 (grantCell p.2.rw p.2.force p.2.acl p.2.tbl)
/-- Revoke one database item. -/
def revokeDb (f : Int → Cell) (p : Int × Item) : Int → Cell :=
  at' f p.1 (revokeCell p.2.rw p.2.acl p.2.db)
/-- Revoke one table item. -/
def revokeTbl (f : Int × Int → Cell) (p : (Int × Int) × Item) : Int × Int → Cell :=
  at' f p.1 (revokeCell p.2.rw p.2.acl p.2.tbl)

/-- The rights after a grant. -/
def grantRights (r : Req) (ds : List (Int × Item)) (ts : List ((Int × Int) × Item)) (R : Rights) :
    Rights :=
  { super := r.super.getD R.super
    bits := fun b => R.bits b || inAcl r.acl b
    db := ds.foldl grantDb R.db
    tbl := ts.foldl grantTbl R.tbl }

/-- The rights after a revoke. -/
def revokeRights (r : Req) (ds : List (Int × Item)) (ts : List ((Int × Int) × Item)) (R : Rights) :
    Rights :=
  { R with
    bits := fun b => R.bits b && !inAcl r.acl b
    db := ds.foldl revokeDb R.db
    tbl := ts.foldl revokeTbl R.tbl }

/-- An account without rights. -/
def Rights.none : Rights := ⟨false, fun _ => false, fun _ => Cell.empty, fun _ => Cell.empty⟩

/-- The ledger after a command that is applied and written. -/
def ledStep (cat : Catalog) : Cmd → Ledger → Ledger
  | .create r, L => fun u =>
    if u = r.user ∧ (L u).isNone ∧ r.password.isSome then
      (ids cat r).map (fun p => grantRights r p.1 p.2 Rights.none)
    else L u
  | .drop r, L => fun u => if u = r.user then Option.none else L u
  | .modify _, L => L
  | .grant r, L => fun u =>
    if u = r.user then
      (L u).map (fun R => match ids cat r with | some p => grantRights r p.1 p.2 R | Option.none => R)
    else L u
  | .revoke r, L => fun u =>
    if u = r.user then
      (L u).map (fun R => match ids cat r with | some p => revokeRights r p.1 p.2 R | Option.none => R)
    else L u
  | .dropDb _ _ id, L => fun u => (L u).map (fun R => { R with db := at' R.db id (fun _ => Cell.empty) })
  | .dropTbl _ _ _ id, L => fun u =>
    (L u).map (fun R => { R with tbl := fun k => if k.2 = id then Cell.empty else R.tbl k })
  | .prune, L => fun u => (L u).map (fun R =>
    { R with
      db := fun k => if cat.hasDb k then R.db k else Cell.empty
      tbl := fun k => if cat.hasTbl k.2 then R.tbl k else Cell.empty })

/-- The ledger after a history; a command whose write fails changes nothing. -/
def ledger : List Ev → Ledger → Ledger
  | [], L => L
  | e :: h, L => ledger h (if e.wr then ledStep e.cat e.cmd L else L)

/-! ## Passwords and addresses -/

/-- What else an account has: its password, the addresses it may come from and whether they matter,
and whether it may change schemas. -/
structure Account where
  password : String
  ips : String → Bool
  bns : String → Bool
  auth : Bool
  ddl : Bool

/-- The accounts after a command that is applied and written. -/
def accStep (cat : Catalog) : Cmd → (String → Option Account) → String → Option Account
  | .create r, A => fun u =>
    if u = r.user ∧ (A u).isNone ∧ (ids cat r).isSome then
      r.password.map (fun pw => ⟨pw, fun x => decide (x ∈ r.ips), fun x => decide (x ∈ r.bns),
        r.needAuth.getD false, r.ddl.getD false⟩)
    else A u
  | .drop r, A => fun u => if u = r.user then Option.none else A u
  | .modify r, A => fun u =>
    if u = r.user ∧ (ids cat r).isSome then
      (A u).map (fun a => { a with password := r.password.getD a.password })
    else A u
  | .grant r, A => fun u =>
    if u = r.user ∧ (ids cat r).isSome then
      (A u).map (fun a =>
        { a with
          ips := fun x => a.ips x || decide (x ∈ r.ips)
          bns := fun x => a.bns x || decide (x ∈ r.bns)
          auth := r.needAuth.getD a.auth
          ddl := r.ddl.getD a.ddl })
    else A u
  | .revoke r, A => fun u =>
    if u = r.user ∧ (ids cat r).isSome then
      (A u).map (fun a =>
        { a with
          ips := fun x => a.ips x && !decide (x ∈ r.ips)
          bns := fun x => a.bns x && !decide (x ∈ r.bns)
          auth := r.needAuth.getD a.auth })
    else A u
  | .dropDb _ _ _, A => A
  | .dropTbl _ _ _ _, A => A
  | .prune, A => A

/-- The accounts after a history. -/
def accounts : List Ev → (String → Option Account) → String → Option Account
  | [], A => A
  | e :: h, A => accounts h (if e.wr then accStep e.cat e.cmd A else A)

/-- The commands among what happened at the meta server and a node. -/
def events : List Act → List Ev
  | [] => []
  | .ev e :: as => e :: events as
  | .beat _ _ :: as => events as

/-- The account is never dropped. -/
def NeverDropped (u : String) (h : List Ev) : Prop :=
  ∀ e ∈ h, ∀ r, e.cmd = .drop r → r.user ≠ u

/-! ## Which histories are covered -/

/-- A table id belongs to one database, whatever names are used for it. -/
def Homes (home : Int → Int) (cat : Catalog) : Prop :=
  ∀ ns db t d i, cat.dbId ns db = some d → cat.tblId ns db t = some i → home i = d

/-- A revoked item names a level or privileges but not both, and a level only where no privileges
are held. -/
def CleanItem (c : Cell) (i : Item) : Prop :=
  i.rw.isSome → i.acl = none ∧ ∀ b, c.bits b = false

/-- No two items of a list are for the same object. -/
def Distinct {κ : Type} (l : List (κ × Item)) : Prop := (l.map (·.1)).Nodup

/-- A command is covered in a state of the ledger. -/
def Clean (cat : Catalog) (L : Ledger) : Cmd → Prop
  | .create r => ∀ ds ts, ids cat r = some (ds, ts) → Distinct ds ∧ Distinct ts
  | .revoke r => ∀ ds ts R, ids cat r = some (ds, ts) → L r.user = some R →
      Distinct ds ∧ Distinct ts ∧ (∀ p ∈ ds, CleanItem (R.db p.1) p.2) ∧
      (∀ p ∈ ts, CleanItem (R.tbl p.1) p.2)
  | .dropDb ns db id => cat.dbId ns db = some id ∧ (cat.nsId ns).isSome ∧
      ∀ u R, L u = some R → (R.db id).revoked = false
  | .dropTbl ns db t id => cat.tblId ns db t = some id ∧ (cat.nsId ns).isSome ∧
      (cat.dbId ns db).isSome ∧
      ∀ u R, L u = some R → ∀ d, (R.tbl (d, id)).revoked = false
  | _ => True

/-- A history is covered. -/
def CleanHist (home : Int → Int) : List Ev → Ledger → Prop
  | [], _ => True
  | e :: h, L => Homes home e.cat ∧ Clean e.cat L e.cmd ∧
      CleanHist home h (if e.wr then ledStep e.cat e.cmd L else L)

/-! ## What a statement needs -/

/-- The numbers of the privileges a statement needs, as MySQL numbers them. -/
def needs : Op → List Nat
  | .select | .union => [0]
  | .insert => [1]
  | .update => [2]
  | .delete | .truncate => [3]
  | .createNamespace | .createDatabase | .createTable => [4]
  | .dropNamespace | .dropDatabase | .dropTable => [5]
  | .load => [9]
  | .addPrivilege | .dropPrivilege => [10]
  | .addIndex | .dropIndex | .renameIndex => [12]
  | .modifyNamespace | .modifyDatabase | .renameTable | .addField | .dropField | .renameField
  | .modifyField => [13]
  | .createUser | .dropUser | .modifyUser => [25]
  | .none | .restoreTable | .createView | .dropView => []

/-- The privileges are held at one of the three levels. -/
def Held (R : Rights) (ns : List Nat) (db tbl : Int) : Prop :=
  (∀ b ∈ ns, R.bits b = true) ∨ (∀ b ∈ ns, (R.db db).bits b = true) ∨
    (∀ b ∈ ns, (R.tbl (db, tbl)).bits b = true)

/-- The level a statement needs: reading for SELECT, writing for everything else. -/
def levelFor (op : Op) : Nat := if op = .select then 1 else 2

end BaikalDB.Priv.Spec
