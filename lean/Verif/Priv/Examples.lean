import Verif.Priv.Props

/-!
# Where C58 fails, and concrete cases of its hypotheses
-/

namespace BaikalDB.Priv

open Spec

namespace Ex

/-- Databases a (id 10, table t with id 100) and b (id 20, table t with id 200). -/
def cat : Catalog :=
  { nsId := fun n => if n = "n" then some 1 else none
    dbId := fun _ d => if d = "a" then some 10 else if d = "b" then some 20 else none
    tblId := fun _ d t => if t = "t" then (if d = "a" then some 100 else if d = "b" then some 200 else none)
      else none
    hasDb := fun _ => true
    hasTbl := fun _ => true }

/-- The database of a table. -/
def home (t : Int) : Int := if t = 100 then 10 else 20

theorem homes : Homes home cat := by
  intro ns db t d i h1 h2
  simp only [cat] at h1 h2
  by_cases ha : db = "a"
  · subst ha
    simp only [if_true, Option.some.injEq] at h1 h2
    split at h2
    · cases h2; cases h1; rfl
    · cases h2
  · rw [if_neg ha] at h1 h2
    by_cases hb : db = "b"
    · subst hb
      simp only [if_true, Option.some.injEq] at h1 h2
      split at h2
      · cases h2; cases h1; rfl
      · cases h2
    · rw [if_neg hb] at h1; cases h1

def nobns : Bns := fun _ => (false, [])

/-- A command, applied and written. -/
def ev (c : Cmd) : Ev := ⟨cat, true, c⟩

/-- CREATE USER u -/
def mkU : Ev := ev (.create { user := "u", ns := "n", password := some "p" })

/-- A grant or revoke on database a. -/
def onDb (rw : Option RW) (acl : Option Acl) : Req :=
  { user := "u", ns := "n", dbs := [⟨"a", "", rw, false, acl⟩] }

/-- A grant or revoke on table t of a database. -/
def onTbl (db : String) (rw : Option RW) (acl : Option Acl) : Req :=
  { user := "u", ns := "n", tbls := [⟨db, "t", rw, false, acl⟩] }

/-- What a node that has just heard from the meta server decides for u. -/
def decides (h : List Ev) (op : Op) (db tbl : Int) : Option Bool :=
  ((run h Meta.empty).users "u").map (fun m => allowOp (buildInfo 1000 nobns [] m) op db tbl "t")

/-- A clean history with levels and one with privileges. -/
def hLevel : List Ev :=
  [mkU, ev (.grant (onDb (some .read) none)), ev (.grant (onTbl "b" (some .write) none)),
    ev (.revoke (onTbl "b" (some .read) none))]

def hAcl : List Ev :=
  [mkU, ev (.grant (onTbl "a" none (some (aclSelect ||| aclInsert)))),
    ev (.revoke (onTbl "a" none (some aclInsert)))]

theorem cleanCreate (L : Ledger) :
    Clean cat L (.create { user := "u", ns := "n", password := some "p" }) := by
  intro ds ts h
  have : ids cat { user := "u", ns := "n", password := some "p" } = some ([], []) := rfl
  rw [this] at h; cases h
  exact ⟨List.nodup_nil, List.nodup_nil⟩

theorem clean_hLevel : CleanHist home hLevel Ledger.empty := by
  refine ⟨homes, cleanCreate _, homes, trivial, homes, trivial, homes, ?_, trivial⟩
  intro ds ts R hid hR
  have hi : ids cat (onTbl "b" (some .read) none) =
      some ([], [((20, 200), ⟨"b", "t", some .read, false, none⟩)]) := rfl
  replace hid := hi.symm.trans hid; cases hid
  cases hR
  refine ⟨List.nodup_nil, by simp [Distinct], by simp, ?_⟩
  intro p hp
  rw [List.mem_singleton] at hp; subst hp
  intro _
  exact ⟨rfl, fun b => rfl⟩

theorem clean_hAcl : CleanHist home hAcl Ledger.empty := by
  refine ⟨homes, cleanCreate _, homes, trivial, homes, ?_, trivial⟩
  intro ds ts R hid hR
  have hi : ids cat (onTbl "a" none (some aclInsert)) =
      some ([], [((10, 100), ⟨"a", "t", none, false, some aclInsert⟩)]) := rfl
  replace hid := hi.symm.trans hid; cases hid
  cases hR
  refine ⟨List.nodup_nil, by simp [Distinct], by simp, ?_⟩
  intro p hp
  rw [List.mem_singleton] at hp; subst hp
  intro h; cases h

/-- The hypotheses of `C58_level` hold, and the answers differ between statements and tables. -/
example : CleanHist home hLevel Ledger.empty ∧ (∀ e ∈ hLevel, LevelCmd e.cmd) ∧
    (ledger hLevel Ledger.empty "u").isSome = true ∧
    decides hLevel .select 10 100 = some true ∧ decides hLevel .insert 10 100 = some false ∧
    decides hLevel .select 20 200 = some true ∧ decides hLevel .insert 20 200 = some false := by
  refine ⟨clean_hLevel, ?_, rfl, by decide +kernel, by decide +kernel, by decide +kernel,
    by decide +kernel⟩
  intro e he
  simp only [hLevel, List.mem_cons, List.not_mem_nil, or_false] at he
  rcases he with rfl | rfl | rfl | rfl <;>
    simp [mkU, ev, LevelCmd, onDb, onTbl, LevelItem]

/-- The hypotheses of `C58_granted` hold, SELECT being held and INSERT not. -/
example : CleanHist home hAcl Ledger.empty ∧
    (∃ R, ledger hAcl Ledger.empty "u" = some R ∧ (R.tbl (10, 100)).mode = true ∧
      Held R (needs .select) 10 100 ∧ ¬ Held R (needs .insert) 10 100) ∧
    decides hAcl .select 10 100 = some true ∧ decides hAcl .insert 10 100 = some false := by
  refine ⟨clean_hAcl, ⟨_, rfl, rfl, ?_, ?_⟩, by decide +kernel, by decide +kernel⟩
  · right; right
    intro b hb
    simp only [needs, List.mem_singleton] at hb; subst hb
    decide +kernel
  · unfold Held
    simp only [needs, List.mem_singleton, forall_eq, not_or]
    decide +kernel

/-- The hypotheses of `C58_heartbeat`, `C58_login` and `C58_end_to_end`: a password is changed between
two heartbeats. -/
def acts : List Act :=
  [.ev mkU, .beat nobns ["u"],
    .ev (ev (.modify { user := "u", ns := "n", password := some "q" }))]

example : NeverDropped "u" (events acts) ∧
    (accounts (events acts) (fun _ => none) "u").map (·.password) = some "q" ∧
    login (runBoth 1000 (acts ++ [.beat nobns ["u"]]) start).2 "u" "q" "1.2.3.4" = true ∧
    login (runBoth 1000 (acts ++ [.beat nobns ["u"]]) start).2 "u" "p" "1.2.3.4" = false ∧
    login (runBoth 1000 acts start).2 "u" "p" "1.2.3.4" = true := by
  refine ⟨?_, by decide +kernel, by decide +kernel, by decide +kernel, by decide +kernel⟩
  intro e he r hr
  simp only [acts, events, List.mem_cons, List.not_mem_nil, or_false] at he
  rcases he with rfl | rfl <;> simp [mkU, ev] at hr

/-- Dropping a database takes the rights of everyone on it. -/
example : Clean cat (ledger [mkU, ev (.grant (onDb (some .write) none))] Ledger.empty)
      (.dropDb "n" "a" 10) ∧
    decides [mkU, ev (.grant (onDb (some .write) none))] .insert 10 100 = some true ∧
    decides [mkU, ev (.grant (onDb (some .write) none)), ev (.dropDb "n" "a" 10)] .insert 10 100
      = some false := by
  refine ⟨⟨rfl, rfl, ?_⟩, by decide +kernel, by decide +kernel⟩
  intro u R hR
  by_cases hu : u = "u"
  · subst hu; cases hR; rfl
  · have : ledger [mkU, ev (.grant (onDb (some .write) none))] Ledger.empty u = none := by
      simp [ledger, mkU, ev, ledStep, onDb, hu, Ledger.empty]
    rw [this] at hR; cases hR

end Ex

open Ex

/-- **C58 fails** for GRANT on a database: the check asks `std::map::count` to exceed 1, so such
privileges are never consulted. After GRANT INSERT ON a.* the account may not INSERT, but may SELECT,
since an entry without a level counts as READ (include/session/user_info.h:200-206,
src/common/schema_factory.cpp:1614). -/
theorem C58_db_grant_counterexample :
    ∃ R, ledger [mkU, ev (.grant (onDb none (some aclInsert)))] Ledger.empty "u" = some R ∧
      Held R (needs .insert) 10 100 ∧ ¬ Held R (needs .select) 10 100 ∧
      decides [mkU, ev (.grant (onDb none (some aclInsert)))] .insert 10 100 = some false ∧
      decides [mkU, ev (.grant (onDb none (some aclInsert)))] .select 10 100 = some true := by
  refine ⟨_, rfl, ?_, ?_, by decide +kernel, by decide +kernel⟩
  · right; left
    intro b hb
    simp only [needs, List.mem_singleton] at hb; subst hb
    decide +kernel
  · unfold Held
    simp only [needs, List.mem_singleton, forall_eq, not_or]
    decide +kernel

/-- **C58 fails** for GRANT ON *.*: it is consulted only for tables with a grant of their own. -/
theorem C58_global_grant_counterexample :
    decides [mkU, ev (.grant { user := "u", ns := "n", acl := some aclSelect })] .select 10 100
      = some false ∧
    ∃ R, ledger [mkU, ev (.grant { user := "u", ns := "n", acl := some aclSelect })] Ledger.empty "u"
      = some R ∧ Held R (needs .select) 10 100 := by
  refine ⟨by decide +kernel, _, rfl, Or.inl ?_⟩
  intro b hb
  simp only [needs, List.mem_singleton] at hb; subst hb
  decide +kernel

/-- **C58 fails** for tables of the same name: writing to b.t is allowed by a grant on a.t, because
levels are also looked up by bare table name (include/session/user_info.h:107-131). -/
theorem C58_same_name_counterexample :
    decides [mkU, ev (.grant (onTbl "a" (some .write) none))] .delete 20 200 = some true ∧
    ∃ R, ledger [mkU, ev (.grant (onTbl "a" (some .write) none))] Ledger.empty "u" = some R ∧
      R.super = false ∧ (R.db 20).level = 0 ∧ (R.tbl (20, 200)).level = 0 := by
  exact ⟨by decide +kernel, _, rfl, rfl, rfl, rfl⟩

/-- **C58 fails** for REVOKE of one privilege from an account with a level: everything on the table is
refused from then on, reading included. -/
theorem C58_revoke_counterexample :
    decides [mkU, ev (.grant (onTbl "a" (some .write) none))] .update 10 100 = some true ∧
    decides [mkU, ev (.grant (onTbl "a" (some .write) none)),
      ev (.revoke (onTbl "a" none (some aclInsert)))] .update 10 100 = some false ∧
    decides [mkU, ev (.grant (onTbl "a" (some .write) none)),
      ev (.revoke (onTbl "a" none (some aclInsert)))] .select 10 100 = some false := by
  exact ⟨by decide +kernel, by decide +kernel, by decide +kernel⟩

/-- **C58 fails** for superusers: a superuser who is granted SELECT on a table can no longer write to
it, since the check of privileges does not look at `is_super`. -/
theorem C58_super_counterexample :
    decides [ev (.create { user := "u", ns := "n", password := some "p", super := some true })]
      .insert 10 100 = some true ∧
    decides [ev (.create { user := "u", ns := "n", password := some "p", super := some true }),
      ev (.grant (onTbl "a" none (some aclSelect)))] .insert 10 100 = some false := by
  exact ⟨by decide +kernel, by decide +kernel⟩

/-- **C58 fails** for a REVOKE that lowers the level where privileges are held: the entry is replaced
by the request's own item and the privileges are lost (src/meta_server/privilege_manager.cpp:513-517). -/
theorem C58_level_revoke_counterexample :
    decides [mkU, ev (.grant (onTbl "a" (some .write) (some aclInsert)))] .insert 10 100 = some true ∧
    decides [mkU, ev (.grant (onTbl "a" (some .write) (some aclInsert))),
      ev (.revoke (onTbl "a" (some .read) none))] .insert 10 100 = some false ∧
    (ledger [mkU, ev (.grant (onTbl "a" (some .write) (some aclInsert))),
      ev (.revoke (onTbl "a" (some .read) none))] Ledger.empty "u").map
        (fun R => (R.tbl (10, 100)).bits 1) = some true := by
  exact ⟨by decide +kernel, by decide +kernel, by decide +kernel⟩

/-- **C58 fails** for DROP USER: a node never forgets an account, so it can still log in and work. -/
theorem C58_drop_user_counterexample :
    let as := [Act.ev mkU, .beat nobns ["u"], .ev (ev (.drop { user := "u", ns := "n" })),
      .beat nobns []]
    ((runBoth 1000 as start).1.users "u").isNone = true ∧
      login (runBoth 1000 as start).2 "u" "p" "1.2.3.4" = true := by
  exact ⟨by decide +kernel, by decide +kernel⟩

/-- **C58 fails** for an account dropped and created again: its version starts over at 1, so nodes
that knew a higher version keep the old password (and the old rights) and refuse the new one. -/
theorem C58_recreate_counterexample :
    let as := [Act.ev mkU, .ev (ev (.grant (onDb (some .write) none))), .beat nobns ["u"],
      .ev (ev (.drop { user := "u", ns := "n" })), .beat nobns [],
      .ev (ev (.create { user := "u", ns := "n", password := some "new" })), .beat nobns ["u"]]
    login (runBoth 1000 as start).2 "u" "new" "1.2.3.4" = false ∧
      login (runBoth 1000 as start).2 "u" "p" "1.2.3.4" = true ∧
      ((runBoth 1000 as start).2 "u").map (fun i => allowOp i .insert 10 100 "t") = some true ∧
      decides (events as) .insert 10 100 = some false := by
  exact ⟨by decide +kernel, by decide +kernel, by decide +kernel, by decide +kernel⟩

/-- **C58 fails** for GRANT itself: an account that holds every privilege, GRANT OPTION included, may not
grant, while an account that holds none may (default settings): the former fails the second check,
made without database and table, and the latter is not checked (src/logical_plan/ddl_planner.cpp:26-34,
179-229). -/
theorem C58_grant_option_counterexample :
    (((run [mkU, ev (.grant { user := "u", ns := "n", acl := some 0xFFFFFFFF#32 })] Meta.empty).users
      "u").map (fun m =>
        grantAllowed false (buildInfo 1000 nobns [] m) .addPrivilege aclSelect 10 100) = some false) ∧
    (((run [mkU] Meta.empty).users "u").map (fun m =>
        grantAllowed false (buildInfo 1000 nobns [] m) .addPrivilege aclSelect 10 100) = some true) ∧
    (((run [mkU] Meta.empty).users "u").map (fun m =>
        ddlAllowed false (buildInfo 1000 nobns [] m) .createUser (-1) (-1) "") = some true) ∧
    (((run [mkU] Meta.empty).users "u").map (fun m =>
        ddlAllowed false (buildInfo 1000 nobns [] m) .dropTable 10 100 "t") = some true) := by
  exact ⟨by decide +kernel, by decide +kernel, by decide +kernel, by decide +kernel⟩

/-- **C58 fails** for statements no privilege is assigned to: with SELECT on a table as only right, an
account passes the check for RESTORE TABLE and CREATE VIEW. -/
theorem C58_unassigned_counterexample :
    decides [mkU, ev (.grant (onTbl "a" none (some aclSelect)))] .restoreTable 10 100 = some true ∧
    decides [mkU, ev (.grant (onTbl "a" none (some aclSelect)))] .createView 10 100 = some true ∧
    decides [mkU, ev (.grant (onTbl "a" none (some aclSelect)))] .dropTable 10 100 = some false := by
  exact ⟨by decide +kernel, by decide +kernel, by decide +kernel⟩

/-- **C58 fails** for replicas of the meta server after a REVOKE of single privileges: the account is
taken off the list of the database although its entry stays; a replica that loads a snapshot puts it
back. DROP DATABASE then removes the entry on that replica and keeps it on the other. -/
theorem C58_replica_counterexample :
    let h := [mkU, ev (.grant (onDb none (some (aclSelect ||| aclInsert)))),
      ev (.revoke (onDb none (some aclInsert)))]
    let a := step cat true (.dropDb "n" "a" 10) (run h Meta.empty)
    let b := step cat true (.dropDb "n" "a" 10) (loadSnapshot ["u"] (run h Meta.empty))
    (a.users "u").map (fun m => m.dbs.length) = some 1 ∧
      (b.users "u").map (fun m => m.dbs.length) = some 0 := by
  exact ⟨by decide +kernel, by decide +kernel⟩

end BaikalDB.Priv
