import Verif.Priv.Acc

/-!
# C58: an account may do what has been granted to it, and nothing else

A history is a list of commands applied by the meta server, each with the catalogue of that moment
and the fate of its RocksDB write. The ledger of `Spec` gives the rights of every account as a function
of the history; the theorems relate it to what the SQL node answers.
-/

namespace BaikalDB.Priv

open Spec

/-! ## What the checks answer -/

/-- **C58.** On a table where GRANT or REVOKE has been used, a statement is allowed exactly when the
privileges it needs are held at the global, the database or the table level. -/
theorem C58_granted {home : Int → Int} {h : List Ev} (hc : CleanHist home h Ledger.empty) {u : String}
    {m : UserPriv} {R : Rights} (hm : (run h Meta.empty).users u = some m)
    (hR : ledger h Ledger.empty u = some R) (infoDb : Int) (bns : Bns) (last : List String)
    {db tbl : Int} (hdb : db ≠ -1) (htb : tbl ≠ -1) (hh : home tbl = db)
    (hmode : (R.tbl (db, tbl)).mode = true) (op : Op) (name : String) :
    allowOp (buildInfo infoDb bns last m) op db tbl name = true ↔ Held R (needs op) db tbl := by
  have hrec := (sim_run h hc (Sim_empty home)).recs u m R hm hR
  rw [allowOp_mode hrec hh, if_pos hmode, containPrivs_iff hrec hdb htb hh]

/-- **C58.** On any other table a statement is allowed to a superuser, to an account with the level
the statement needs at the database or the table, and otherwise only to one with that level at a table
that has been called by the same name. -/
theorem C58_levels {home : Int → Int} {h : List Ev} (hc : CleanHist home h Ledger.empty) {u : String}
    {m : UserPriv} {R : Rights} (hm : (run h Meta.empty).users u = some m)
    (hR : ledger h Ledger.empty u = some R) (infoDb : Int) (bns : Bns) (last : List String)
    {db tbl : Int} (hdb : db ≠ infoDb) (hh : home tbl = db)
    (hmode : (R.tbl (db, tbl)).mode = false) (op : Op) (name : String) :
    (R.super = true ∨ ByLevel R op db tbl →
      allowOp (buildInfo infoDb bns last m) op db tbl name = true) ∧
    (allowOp (buildInfo infoDb bns last m) op db tbl name = true →
      R.super = true ∨ ByLevel R op db tbl ∨ ByName R op name) := by
  have hrec := (sim_run h hc (Sim_empty home)).recs u m R hm hR
  rw [allowOp_mode hrec hh, if_neg (by rw [hmode]; simp)]
  exact ⟨allowV1_complete hrec hdb op name, allowV1_sound hrec hdb hh op name⟩

/-- The items of a history name levels and no privileges. -/
def LevelItem (i : Item) : Prop := i.rw.isSome = true ∧ i.acl = none

/-- The requests of a command name levels only. -/
def LevelCmd : Cmd → Prop
  | .create r => (∀ i ∈ r.dbs, LevelItem i) ∧ (∀ i ∈ r.tbls, LevelItem i)
  | .grant r => (∀ i ∈ r.dbs, LevelItem i) ∧ (∀ i ∈ r.tbls, LevelItem i)
  | .revoke r => (∀ i ∈ r.dbs, i.acl = none) ∧ (∀ i ∈ r.tbls, i.acl = none)
  | _ => True

/-- A cell of such a history: known exactly when there is a level. -/
def LevelCell (c : Cell) : Prop := c.mode = false ∧ (c.known = true ↔ 0 < c.level)

theorem LevelCell_empty : LevelCell Cell.empty := ⟨rfl, by simp [Cell.empty]⟩

theorem LevelCell_grant {c : Cell} (h : LevelCell c) {i : Item} (hi : LevelItem i) (n : String) :
    LevelCell (grantCell i.rw i.force i.acl n c) := by
  obtain ⟨r, hr⟩ := Option.isSome_iff_exists.mp hi.1
  refine ⟨by simp [grantCell, hi.2, h.1], ?_⟩
  rw [hr]
  cases r <;> simp only [grantCell, true_iff]
  · split <;> omega
  · omega

theorem LevelCell_revoke {c : Cell} {i : Item} (hi : i.acl = none) (n : String) :
    LevelCell (revokeCell i.rw i.acl n c) := by
  rw [hi]
  cases i.rw with
  | none => exact LevelCell_empty
  | some r => exact ⟨rfl, by simp [revokeCell]⟩

/-- All cells of an account are of this kind. -/
def LevelRights (R : Rights) : Prop := (∀ k, LevelCell (R.db k)) ∧ (∀ k, LevelCell (R.tbl k))

theorem at_level {κ : Type} [DecidableEq κ] {f : κ → Cell} (hf : ∀ k, LevelCell (f k)) (k : κ)
    {g : Cell → Cell} (hg : ∀ c, LevelCell c → LevelCell (g c)) (j : κ) : LevelCell (at' f k g j) := by
  unfold at'; split
  · exact hg _ (hf j)
  · exact hf j

theorem fold_level {κ : Type} [DecidableEq κ] (step : (κ → Cell) → κ × Item → κ → Cell) (q : Item → Prop)
    (hs : ∀ f p, (∀ k, LevelCell (f k)) → q p.2 → ∀ k, LevelCell (step f p k)) (l : List (κ × Item))
    (hl : ∀ p ∈ l, q p.2) : ∀ f, (∀ k, LevelCell (f k)) → ∀ k, LevelCell (l.foldl step f k) := by
  induction l with
  | nil => intro f hf; exact hf
  | cons p l ih =>
    intro f hf
    exact ih (fun p' hp' => hl p' (List.mem_cons_of_mem _ hp')) _
      (hs f p hf (hl p List.mem_cons_self))

theorem mapM_items {α : Type} {f : Item → Option (α × Item)} (hf : ∀ i p, f i = some p → p.2 = i)
    {is : List Item} {l : List (α × Item)} (h : is.mapM f = some l) : ∀ p ∈ l, p.2 ∈ is := by
  induction is generalizing l with
  | nil => simp only [List.mapM_nil, Option.pure_def, Option.some.injEq] at h; subst h; simp
  | cons i is ih =>
    rw [List.mapM_cons] at h
    cases h1 : f i with
    | none => rw [h1] at h; cases h
    | some q =>
      cases h2 : is.mapM f with
      | none => rw [h1, h2] at h; cases h
      | some qs =>
        rw [h1, h2] at h
        cases h
        intro p hp
        rcases List.mem_cons.mp hp with hp | hp
        · subst hp; rw [hf _ _ h1]; exact List.mem_cons_self
        · exact List.mem_cons_of_mem _ (ih h2 p hp)

theorem ids_items {cat : Catalog} {r : Req} {ds : List (Int × Item)} {ts : List ((Int × Int) × Item)}
    (h : ids cat r = some (ds, ts)) : (∀ p ∈ ds, p.2 ∈ r.dbs) ∧ (∀ p ∈ ts, p.2 ∈ r.tbls) := by
  unfold ids at h
  split at h
  · split at h
    · next ds' ts' h1 h2 =>
      cases h
      refine ⟨mapM_items ?_ h1, mapM_items ?_ h2⟩
      · intro i p hp
        unfold dbOf at hp
        obtain ⟨d, _, hd⟩ := Option.map_eq_some_iff.mp hp
        rw [← hd]
      · intro i p hp
        unfold tblOf at hp
        split at hp
        · cases hp; rfl
        · cases hp
    · cases h
  · cases h

theorem level_step {cat : Catalog} {L : Ledger} (hL : ∀ u R, L u = some R → LevelRights R) (c : Cmd)
    (hc : LevelCmd c) : ∀ u R, ledStep cat c L u = some R → LevelRights R := by
  intro u R hR
  cases c with
  | create r =>
    rw [ledStep] at hR
    beta_reduce at hR
    split at hR
    · obtain ⟨⟨ds, ts⟩, hid, rfl⟩ := Option.map_eq_some_iff.mp hR
      obtain ⟨h1, h2⟩ := ids_items hid
      refine ⟨?_, ?_⟩
      · exact fold_level grantDb LevelItem
          (fun f p hf hp => at_level hf p.1 (fun c hc => LevelCell_grant hc hp _)) ds
          (fun p hp => hc.1 _ (h1 p hp)) _ (fun _ => LevelCell_empty)
      · exact fold_level grantTbl LevelItem
          (fun f p hf hp => at_level hf p.1 (fun c hc => LevelCell_grant hc hp _)) ts
          (fun p hp => hc.2 _ (h2 p hp)) _ (fun _ => LevelCell_empty)
    · exact hL u R hR
  | drop r =>
    rw [ledStep] at hR
    beta_reduce at hR
    split at hR
    · cases hR
    · exact hL u R hR
  | modify r => exact hL u R hR
  | grant r =>
    rw [ledStep] at hR
    by_cases hu : u = r.user
    · replace hR := (if_pos hu).symm.trans hR
      obtain ⟨R0, h0, rfl⟩ := Option.map_eq_some_iff.mp hR
      have hR0 := hL u R0 h0
      cases hid : ids cat r with
      | none => exact hR0
      | some p =>
        obtain ⟨ds, ts⟩ := p
        obtain ⟨h1, h2⟩ := ids_items hid
        refine ⟨?_, ?_⟩
        · exact fold_level grantDb LevelItem
            (fun f p hf hp => at_level hf p.1 (fun c hc => LevelCell_grant hc hp _)) ds
            (fun p hp => hc.1 _ (h1 p hp)) _ hR0.1
        · exact fold_level grantTbl LevelItem
            (fun f p hf hp => at_level hf p.1 (fun c hc => LevelCell_grant hc hp _)) ts
            (fun p hp => hc.2 _ (h2 p hp)) _ hR0.2
    · exact hL u R ((if_neg hu).symm.trans hR)
  | revoke r =>
    rw [ledStep] at hR
    by_cases hu : u = r.user
    · replace hR := (if_pos hu).symm.trans hR
      obtain ⟨R0, h0, rfl⟩ := Option.map_eq_some_iff.mp hR
      have hR0 := hL u R0 h0
      cases hid : ids cat r with
      | none => exact hR0
      | some p =>
        obtain ⟨ds, ts⟩ := p
        obtain ⟨h1, h2⟩ := ids_items hid
        refine ⟨?_, ?_⟩
        · exact fold_level revokeDb (fun i => i.acl = none)
            (fun f p hf hp => at_level hf p.1 (fun c hc => LevelCell_revoke hp _)) ds
            (fun p hp => hc.1 _ (h1 p hp)) _ hR0.1
        · exact fold_level revokeTbl (fun i => i.acl = none)
            (fun f p hf hp => at_level hf p.1 (fun c hc => LevelCell_revoke hp _)) ts
            (fun p hp => hc.2 _ (h2 p hp)) _ hR0.2
    · exact hL u R ((if_neg hu).symm.trans hR)
  | dropDb ns db id =>
    obtain ⟨R0, h0, rfl⟩ := Option.map_eq_some_iff.mp hR
    have hR0 := hL u R0 h0
    exact ⟨at_level hR0.1 id (fun _ _ => LevelCell_empty), hR0.2⟩
  | dropTbl ns db t id =>
    obtain ⟨R0, h0, rfl⟩ := Option.map_eq_some_iff.mp hR
    have hR0 := hL u R0 h0
    refine ⟨hR0.1, fun k => ?_⟩
    show LevelCell (if k.2 = id then Cell.empty else R0.tbl k)
    split
    · exact LevelCell_empty
    · exact hR0.2 k
  | prune =>
    obtain ⟨R0, h0, rfl⟩ := Option.map_eq_some_iff.mp hR
    have hR0 := hL u R0 h0
    refine ⟨fun k => ?_, fun k => ?_⟩
    · show LevelCell (if cat.hasDb k then R0.db k else Cell.empty)
      split
      · exact hR0.1 k
      · exact LevelCell_empty
    · show LevelCell (if cat.hasTbl k.2 then R0.tbl k else Cell.empty)
      split
      · exact hR0.2 k
      · exact LevelCell_empty

theorem level_run (h : List Ev) : ∀ {L : Ledger}, (∀ u R, L u = some R → LevelRights R) →
    (∀ e ∈ h, LevelCmd e.cmd) → ∀ u R, ledger h L u = some R → LevelRights R := by
  induction h with
  | nil => intro L hL _; exact hL
  | cons e h ih =>
    intro L hL hc
    apply ih
    · cases e.wr with
      | false => exact hL
      | true => exact level_step hL e.cmd (hc e List.mem_cons_self)
    · exact fun e' he' => hc e' (List.mem_cons_of_mem _ he')

/-- **C58.** Where requests name levels only (as the meta server's own interface does), a statement
is allowed exactly to superusers and to accounts with its level at the database or the table, if no
other table the account has rights on goes by the same name. -/
theorem C58_level {home : Int → Int} {h : List Ev} (hc : CleanHist home h Ledger.empty)
    (hlev : ∀ e ∈ h, LevelCmd e.cmd) {u : String}
    {m : UserPriv} {R : Rights} (hm : (run h Meta.empty).users u = some m)
    (hR : ledger h Ledger.empty u = some R) (infoDb : Int) (bns : Bns) (last : List String)
    {db tbl : Int} (hdb : db ≠ infoDb) (hh : home tbl = db) (op : Op) (name : String)
    (hname : ∀ k, k ≠ (db, tbl) → (R.tbl k).names name = false) :
    allowOp (buildInfo infoDb bns last m) op db tbl name = true ↔
      R.super = true ∨ levelFor op ≤ (R.db db).level ∨ levelFor op ≤ (R.tbl (db, tbl)).level := by
  obtain ⟨hd, ht⟩ := level_run h (by intro u R hR; cases hR) hlev u R hR
  have hrec := (sim_run h hc (Sim_empty home)).recs u m R hm hR
  have le2 : ∀ {κ : Type} [DecidableEq κ] {ms : List (Ent κ)} {C : κ → Cell}, CellsOk ms C → ∀ k,
      (C k).level ≤ 2 := by
    intro κ _ ms C hC k
    by_cases hin : k ∈ ms.map Ent.key
    · obtain ⟨e, he, rfl⟩ := List.mem_map.mp hin
      exact (hC.present e he).le2
    · rw [hC.absent k hin]; simp [Cell.empty]
  have l1 := le2 hrec.dbs db
  have l2 := le2 hrec.tbls (db, tbl)
  obtain ⟨c1, c2⟩ := C58_levels hc hm hR infoDb bns last hdb hh (ht (db, tbl)).1 op name
  have key : ByLevel R op db tbl ↔
      levelFor op ≤ (R.db db).level ∨ levelFor op ≤ (R.tbl (db, tbl)).level := by
    unfold ByLevel levelFor
    by_cases hop : op = .select
    · simp only [hop, if_true]
      rw [(hd db).2, (ht (db, tbl)).2]; omega
    · simp only [hop, if_false]; omega
  constructor
  · intro hok
    rcases c2 hok with h1 | h1 | ⟨k, hk, hl⟩
    · exact Or.inl h1
    · exact Or.inr (key.mp h1)
    · right
      have hkk : k = (db, tbl) := by
        by_contra hne
        rw [hname k hne] at hk; cases hk
      subst hkk
      apply key.mp
      unfold ByLevel
      by_cases hop : op = .select
      · simp only [hop, if_true] at hl ⊢; exact Or.inr hl
      · simp only [hop, if_false] at hl ⊢; exact Or.inr hl
  · rintro (h1 | h1)
    · exact c1 (Or.inl h1)
    · exact c1 (Or.inr (key.mpr h1))

/-- **C58.** An account that has been granted nothing may do nothing, whatever else happened. -/
theorem C58_default_deny {home : Int → Int} {h : List Ev} (hc : CleanHist home h Ledger.empty)
    {u : String} {m : UserPriv} {R : Rights} (hm : (run h Meta.empty).users u = some m)
    (hR : ledger h Ledger.empty u = some R) (infoDb : Int) (bns : Bns) (last : List String)
    {db tbl : Int} (hdb : db ≠ infoDb) (hh : home tbl = db) (op : Op) (name : String)
    (hs : R.super = false) (hd : ∀ k, (R.db k).known = false) (ht : ∀ k, (R.tbl k).known = false) :
    allowOp (buildInfo infoDb bns last m) op db tbl name = false := by
  have hrec := (sim_run h hc (Sim_empty home)).recs u m R hm hR
  have emp : ∀ {κ : Type} [DecidableEq κ] {ms : List (Ent κ)} {C : κ → Cell}, CellsOk ms C →
      (∀ k, (C k).known = false) → ∀ k, C k = Cell.empty := by
    intro κ _ ms C hC hk k
    apply hC.absent
    intro hin
    obtain ⟨e, he, rfl⟩ := List.mem_map.mp hin
    have := (hC.present e he).known
    rw [hk] at this; cases this
  have e1 := emp hrec.dbs hd
  have e2 := emp hrec.tbls ht
  rw [Bool.eq_false_iff]
  intro hok
  rcases (C58_levels hc hm hR infoDb bns last hdb hh (by rw [e2]; rfl) op name).2 hok with h1 | h1 | h1
  · rw [hs] at h1; cases h1
  · unfold ByLevel at h1
    rw [e1, e2] at h1
    split at h1 <;> simp [Cell.empty] at h1
  · obtain ⟨k, hk, _⟩ := h1
    rw [e2] at hk; simp [Cell.empty] at hk

/-- **C58.** A statement other than SELECT is allowed only to superusers, to accounts with the write
level somewhere it counts, and to accounts that hold the privileges. -/
theorem C58_write_sound {home : Int → Int} {h : List Ev} (hc : CleanHist home h Ledger.empty)
    {u : String} {m : UserPriv} {R : Rights} (hm : (run h Meta.empty).users u = some m)
    (hR : ledger h Ledger.empty u = some R) (infoDb : Int) (bns : Bns) (last : List String)
    {db tbl : Int} (hdb : db ≠ -1) (htb : tbl ≠ -1) (hinfo : db ≠ infoDb) (hh : home tbl = db) (op : Op)
    (hop : op ≠ .select) (name : String)
    (hok : allowOp (buildInfo infoDb bns last m) op db tbl name = true) :
    R.super = true ∨ (R.db db).level = 2 ∨ (R.tbl (db, tbl)).level = 2 ∨
      (∃ k, (R.tbl k).names name = true ∧ (R.tbl k).level = 2) ∨ Held R (needs op) db tbl := by
  cases hmode : (R.tbl (db, tbl)).mode with
  | true =>
    exact Or.inr (Or.inr (Or.inr (Or.inr
      ((C58_granted hc hm hR infoDb bns last hdb htb hh hmode op name).mp hok))))
  | false =>
    rcases (C58_levels hc hm hR infoDb bns last hinfo hh hmode op name).2 hok with h1 | h1 | h1
    · exact Or.inl h1
    · unfold ByLevel at h1
      rw [if_neg hop] at h1
      rcases h1 with h1 | h1
      · exact Or.inr (Or.inl h1)
      · exact Or.inr (Or.inr (Or.inl h1))
    · unfold ByName at h1
      simp only [if_neg hop] at h1
      exact Or.inr (Or.inr (Or.inr (Or.inl h1)))

/-- **C58.** information_schema can be read by every account that has not been granted privileges on
the table in question. -/
theorem C58_information_schema (infoDb : Int) (bns : Bns) (last : List String) (m : UserPriv) (tbl : Int)
    (name : String) (hno : ∀ e ∈ m.tbls, e.key.2 = tbl → e.acl = none) :
    allowOp (buildInfo infoDb bns last m) .select infoDb tbl name = true := by
  have h0 : count (buildInfo infoDb bns last m).aclTbl tbl = 0 := by
    have : (buildInfo infoDb bns last m).aclTbl.lookup tbl = none := by
      rw [lookup_none_iff]
      intro p hp hk
      obtain ⟨k, a⟩ := p
      obtain ⟨e, he, hek, ha⟩ := (mem_aclMap (fun k : Int × Int => k.2) m.tbls k a).mp hp
      rw [hno e he (hek.trans hk)] at ha; cases ha
    simp [count, this]
  have h1 := count_le_one (buildInfo infoDb bns last m).aclDb infoDb
  have h1 : decide (1 < count (buildInfo infoDb bns last m).aclDb infoDb) = false := by simpa using h1
  unfold allowOp
  rw [h0, h1]
  simp only [Nat.lt_irrefl, decide_false, Bool.or_self, Bool.and_false, Bool.false_eq_true, if_false]
  have : (buildInfo infoDb bns last m).database.lookup infoDb = some .read := by
    show ((infoDb, RW.read) :: _).lookup infoDb = _
    rw [List.lookup_cons]; simp
  unfold allowV1 allowRead
  rw [this]; simp

/-! ## Statements that change schemas -/

/-- The account has been granted privileges (not only levels) somewhere. -/
def HasAcl (R : Rights) : Prop :=
  (∃ b, R.bits b = true) ∨ (∃ k, (R.db k).mode = true) ∨ (∃ k, (R.tbl k).mode = true)

theorem v2Valid_iff {home : Int → Int} {m : UserPriv} {R : Rights} (h : RecOk home m R) (infoDb : Int)
    (bns : Bns) (last : List String) :
    v2Valid (buildInfo infoDb bns last m) = true ↔ HasAcl R := by
  unfold v2Valid HasAcl
  rw [Bool.or_eq_true, Bool.or_eq_true, decide_eq_true_eq, decide_eq_true_eq, decide_eq_true_eq, or_assoc]
  have h1 : (buildInfo infoDb bns last m).aclUser ≠ 0 ↔ ∃ b, R.bits b = true := by
    show m.acl.getD 0 ≠ 0 ↔ _
    constructor
    · intro hne
      by_contra hno
      apply hne
      apply BitVec.eq_of_getLsbD_eq
      intro b _
      rw [h.bits]
      have : R.bits b = false := by
        cases hb : R.bits b with
        | false => rfl
        | true => exact absurd ⟨b, hb⟩ hno
      rw [this]; simp
    · rintro ⟨b, hb⟩ he
      rw [← h.bits, he] at hb
      simp at hb
  have h2 : ∀ {κ : Type} [DecidableEq κ] (f : κ → Int) {ms : List (Ent κ)} {C : κ → Cell},
      CellsOk ms C → (0 < (aclMap f ms).length ↔ ∃ k, (C k).mode = true) := by
    intro κ _ f ms C hC
    constructor
    · intro hl
      obtain ⟨⟨k, a⟩, hp⟩ := List.exists_mem_of_length_pos hl
      obtain ⟨e, he, _, ha⟩ := (mem_aclMap f ms k a).mp hp
      exact ⟨e.key, (mode_iff hC e.key).mpr ⟨e, he, rfl, a, ha⟩⟩
    · rintro ⟨k, hk⟩
      obtain ⟨e, he, _, a, ha⟩ := (mode_iff hC k).mp hk
      exact List.length_pos_of_mem ((mem_aclMap f ms (f e.key) a).mpr ⟨e, he, rfl, ha⟩)
  exact or_congr h1 (or_congr (h2 (fun k : Int => k) h.dbs) (h2 (fun k : Int × Int => k.2) h.tbls))

/-- **C58.** With `need_verify_ddl_permission` on, a statement that changes a schema is allowed only
to superusers and to accounts that have been given the right to change schemas; and an account that
has been granted privileges at all must besides pass the check of the statement. -/
theorem C58_ddl {home : Int → Int} {h : List Ev} (hc : CleanHist home h Ledger.empty) {u : String}
    {m : UserPriv} {R : Rights} {a : Account} (hm : (run h Meta.empty).users u = some m)
    (hR : ledger h Ledger.empty u = some R) (ha : accounts h (fun _ => none) u = some a)
    (infoDb : Int) (bns : Bns) (last : List String) (db tbl : Int) (op : Op) (name : String) :
    ddlAllowed true (buildInfo infoDb bns last m) op db tbl name = true ↔
      (R.super = true ∨ a.ddl = true) ∧
      (HasAcl R → allowOp (buildInfo infoDb bns last m) op db tbl name = true) := by
  have hrec := (sim_run h hc (Sim_empty home)).recs u m R hm hR
  have hacc := acc_run h AccSim_empty u
  rw [hm, ha] at hacc
  have hacc : AccOk m a := hacc
  unfold ddlAllowed allowDdl
  have hs : (buildInfo infoDb bns last m).super = R.super := hrec.super
  have hdd : (buildInfo infoDb bns last m).ddl = a.ddl := hacc.ddl
  rw [Bool.and_eq_true, hs, hdd]
  apply and_congr
  · cases R.super <;> simp
  · by_cases hv : v2Valid (buildInfo infoDb bns last m) = true
    · rw [if_pos hv]
      exact ⟨fun hx _ => hx, fun hx => hx ((v2Valid_iff hrec infoDb bns last).mp hv)⟩
    · rw [if_neg hv]
      exact ⟨fun _ hx => absurd ((v2Valid_iff hrec infoDb bns last).mpr hx) hv, fun _ => rfl⟩

/-! ## The meta server -/

/-- **C58.** A request for one account leaves every other account as it was. -/
theorem C58_isolated (cat : Catalog) (wr : Bool) (r : Req) (s : Meta) {u : String} (hu : u ≠ r.user) :
    (step cat wr (.create r) s).users u = s.users u ∧ (step cat wr (.drop r) s).users u = s.users u ∧
    (step cat wr (.modify r) s).users u = s.users u ∧ (step cat wr (.grant r) s).users u = s.users u ∧
    (step cat wr (.revoke r) s).users u = s.users u := by
  refine ⟨?_, ?_, ?_, ?_, ?_⟩
  · show (createUser cat wr r s).2.users u = _
    unfold createUser
    cases r.password with
    | none => rfl
    | some pw => cases s.users r.user with
      | some m => rfl
      | none => cases resolve cat r with
        | none => rfl
        | some rs => cases wr with
          | false => rfl
          | true => exact setUser_ne _ _ hu
  · show (dropUser wr r s).2.users u = _
    unfold dropUser
    cases s.users r.user with
    | none => rfl
    | some m => cases wr with
      | false => rfl
      | true => exact setUser_ne _ _ hu
  · show (modifyUser cat wr r s).2.users u = _
    unfold modifyUser
    cases r.password with
    | none => rfl
    | some pw => cases s.users r.user with
      | none => rfl
      | some m => cases resolve cat r with
        | none => rfl
        | some rs => cases wr with
          | false => rfl
          | true => exact setUser_ne _ _ hu
  · show (addPrivilege cat wr r s).2.users u = _
    unfold addPrivilege
    cases s.users r.user with
    | none => rfl
    | some m => cases resolve cat r with
      | none => rfl
      | some rs => cases wr with
        | false => rfl
        | true => exact setUser_ne _ _ hu
  · show (dropPrivilege cat wr r s).2.users u = _
    unfold dropPrivilege
    cases s.users r.user with
    | none => rfl
    | some m => cases resolve cat r with
      | none => rfl
      | some rs => cases wr with
        | false => rfl
        | true => exact setUser_ne _ _ hu

/-- **C58.** A command either leaves the record of an account as it is, removes it (only a request to
drop that account does), or gives it a higher version. -/
theorem C58_version (cat : Catalog) (wr : Bool) (c : Cmd) (s : Meta) {u : String} {m : UserPriv}
    (hm : s.users u = some m) (hd : ∀ r, c = .drop r → r.user ≠ u) :
    ∃ m', (step cat wr c s).users u = some m' ∧ (m' = m ∨ m.version < m'.version) :=
  keeps_step u cat wr c s hd m hm

/-- **C58.** An account exists at the meta server exactly when the ledger has it; what is in memory
is what is in RocksDB; a command whose write fails changes nothing. -/
theorem C58_accounts {home : Int → Int} {h : List Ev} (hc : CleanHist home h Ledger.empty) :
    (∀ u, ((run h Meta.empty).users u).isSome = (ledger h Ledger.empty u).isSome) ∧
    (run h Meta.empty).disk = (run h Meta.empty).users ∧
    (∀ cat c, step cat false c (run h Meta.empty) = run h Meta.empty) := by
  have hs := sim_run h hc (Sim_empty home)
  exact ⟨hs.dom, hs.disk, fun cat c => step_false cat c _⟩

/-- **C58.** After DROP DATABASE no account has an entry for the database; after DROP TABLE none for the
table; after pruning none for anything that is gone; and all other rights are as the ledger says. -/
theorem C58_drop_object {home : Int → Int} {h : List Ev} (hc : CleanHist home h Ledger.empty)
    {cat : Catalog} (hh : Homes home cat) {u : String} {m : UserPriv} :
    (∀ ns db id, Clean cat (ledger h Ledger.empty) (.dropDb ns db id) →
      (step cat true (.dropDb ns db id) (run h Meta.empty)).users u = some m →
      ∀ e ∈ m.dbs, e.key ≠ id) ∧
    (∀ ns db t id, Clean cat (ledger h Ledger.empty) (.dropTbl ns db t id) →
      (step cat true (.dropTbl ns db t id) (run h Meta.empty)).users u = some m →
      ∀ e ∈ m.tbls, e.key.2 ≠ id) ∧
    ((step cat true .prune (run h Meta.empty)).users u = some m →
      (∀ e ∈ m.dbs, cat.hasDb e.key = true) ∧ (∀ e ∈ m.tbls, cat.hasTbl e.key.2 = true)) := by
  have hs := sim_run h hc (Sim_empty home)
  refine ⟨?_, ?_, ?_⟩
  · intro ns db id hcl hm e he hk
    obtain ⟨R, hR, hrec⟩ := (sim_step hh hs _ hcl).get hm
    obtain ⟨R0, _, rfl⟩ := Option.map_eq_some_iff.mp hR
    have := (hrec.dbs.present e he).known
    simp [at', hk, Cell.empty] at this
  · intro ns db t id hcl hm e he hk
    obtain ⟨R, hR, hrec⟩ := (sim_step hh hs _ hcl).get hm
    obtain ⟨R0, _, rfl⟩ := Option.map_eq_some_iff.mp hR
    have := (hrec.tbls.present e he).known
    simp [hk, Cell.empty] at this
  · intro hm
    obtain ⟨R, hR, hrec⟩ := (sim_step hh hs .prune trivial).get hm
    obtain ⟨R0, _, rfl⟩ := Option.map_eq_some_iff.mp hR
    constructor
    · intro e he
      have := (hrec.dbs.present e he).known
      by_contra hno
      simp [hno, Cell.empty] at this
    · intro e he
      have := (hrec.tbls.present e he).known
      by_contra hno
      simp [hno, Cell.empty] at this

theorem mem_rebuild (keys : UserPriv → List Int) (disk : String → Option UserPriv) (us : List String)
    (k : Int) (w : String) :
    w ∈ rebuild keys disk us k ↔ w ∈ us ∧ ∃ m, disk w = some m ∧ k ∈ keys m := by
  have key : ∀ (us : List String) (f : Int → List String),
      w ∈ us.foldl (fun f u => match disk u with | some m => addUser f u (keys m) | none => f) f k ↔
        w ∈ f k ∨ (w ∈ us ∧ ∃ m, disk w = some m ∧ k ∈ keys m) := by
    intro us
    induction us with
    | nil => intro f; simp
    | cons u us ih =>
      intro f
      rw [List.foldl_cons, ih]
      cases hu : disk u with
      | none =>
        constructor
        · rintro (h | h)
          · exact Or.inl h
          · exact Or.inr ⟨List.mem_cons_of_mem _ h.1, h.2⟩
        · rintro (h | ⟨h, m, hm, hk⟩)
          · exact Or.inl h
          · rcases List.mem_cons.mp h with e | h
            · subst e; rw [hu] at hm; cases hm
            · exact Or.inr ⟨h, m, hm, hk⟩
      | some m =>
        simp only [mem_addUser]
        constructor
        · rintro ((h | ⟨rfl, hk⟩) | h)
          · exact Or.inl h
          · exact Or.inr ⟨List.mem_cons_self, m, hu, hk⟩
          · exact Or.inr ⟨List.mem_cons_of_mem _ h.1, h.2⟩
        · rintro (h | ⟨h, m', hm', hk⟩)
          · exact Or.inl (Or.inl h)
          · rcases List.mem_cons.mp h with e | h
            · subst e; rw [hu] at hm'; cases hm'; exact Or.inl (Or.inr ⟨rfl, hk⟩)
            · exact Or.inr ⟨h, m', hm', hk⟩
  exact (key us _).trans (by simp)

/-- **C58.** A replica that loads a snapshot has the same accounts as one that applied the log, and
(as long as no privileges have been revoked one by one) lists the same accounts for every database and
table, so that later commands do the same there. -/
theorem C58_reload {home : Int → Int} {h : List Ev} (hc : CleanHist home h Ledger.empty)
    {us : List String} (hus : ∀ u, ((run h Meta.empty).users u).isSome → u ∈ us) :
    (loadSnapshot us (run h Meta.empty)).users = (run h Meta.empty).users ∧
    (loadSnapshot us (run h Meta.empty)).disk = (run h Meta.empty).disk ∧
    ((∀ u R, ledger h Ledger.empty u = some R →
        (∀ k, (R.db k).revoked = false) ∧ (∀ k, (R.tbl k).revoked = false)) →
      ∀ k u, (u ∈ (loadSnapshot us (run h Meta.empty)).dbUsers k ↔ u ∈ (run h Meta.empty).dbUsers k) ∧
        (u ∈ (loadSnapshot us (run h Meta.empty)).tblUsers k ↔ u ∈ (run h Meta.empty).tblUsers k)) := by
  have hs := sim_run h hc (Sim_empty home)
  refine ⟨hs.disk, rfl, ?_⟩
  intro hrv k u
  constructor
  · show u ∈ rebuild _ _ _ k ↔ _
    rw [mem_rebuild, hs.disk, hs.dbMap]
    constructor
    · rintro ⟨_, m, hm, hk⟩
      obtain ⟨R, hR, hrec⟩ := hs.get hm
      obtain ⟨e, he, hek⟩ := List.mem_map.mp hk
      exact ⟨R, hR, (known_iff hrec.dbs k).mpr ⟨e, he, hek⟩, (hrv u R hR).1 k⟩
    · rintro ⟨R, hR, hkn, _⟩
      obtain ⟨m, hm⟩ := Option.isSome_iff_exists.mp (by rw [hs.dom u, hR]; rfl)
      have hrec := hs.recs u m R hm hR
      obtain ⟨e, he, hek⟩ := (known_iff hrec.dbs k).mp hkn
      exact ⟨hus u (by rw [hm]; rfl), m, hm, List.mem_map.mpr ⟨e, he, hek⟩⟩
  · show u ∈ rebuild _ _ _ k ↔ _
    rw [mem_rebuild, hs.disk, hs.tblMap]
    constructor
    · rintro ⟨_, m, hm, hk⟩
      obtain ⟨R, hR, hrec⟩ := hs.get hm
      obtain ⟨e, he, hek⟩ := List.mem_map.mp hk
      exact ⟨R, hR, (known_iff hrec.tbls _).mpr ⟨e, he, (tbl_key hrec rfl he).mp hek⟩,
        (hrv u R hR).2 _⟩
    · rintro ⟨R, hR, hkn, _⟩
      obtain ⟨m, hm⟩ := Option.isSome_iff_exists.mp (by rw [hs.dom u, hR]; rfl)
      have hrec := hs.recs u m R hm hR
      obtain ⟨e, he, hek⟩ := (known_iff hrec.tbls _).mp hkn
      exact ⟨hus u (by rw [hm]; rfl), m, hm, List.mem_map.mpr ⟨e, he, by rw [hek]⟩⟩

/-! ## The SQL node -/

/-- The node has never heard from the meta server. -/
def start : Meta × Node := (Meta.empty, fun _ => none)

/-- **C58.** Whatever commands and heartbeats came before, after a heartbeat the node knows the present
record of every account that was never dropped. -/
theorem C58_heartbeat (infoDb : Int) (as : List Act) (bns : Bns) (us : List String) {u : String}
    {m : UserPriv} (hd : NeverDropped u (events as))
    (hm : (runBoth infoDb as start).1.users u = some m) (hu : u ∈ us) :
    ∃ last, (runBoth infoDb (as ++ [.beat bns us]) start).2 u = some (buildInfo infoDb bns last m) := by
  rw [runBoth_append]
  exact heartbeat_current hm hu (runBoth_fresh as hd (by intro i hi; cases hi))

theorem run_fresh {infoDb : Int} {u : String} (h : List Ev) : ∀ {s : Meta} {n : Node},
    NeverDropped u h → Fresh infoDb u s n → Fresh infoDb u (run h s) n := by
  induction h with
  | nil => intro s n _ hf; exact hf
  | cons e h ih =>
    intro s n hd hf
    exact ih (fun e' he' => hd e' (List.mem_cons_of_mem _ he'))
      (hf.step (keeps_step u e.cat e.wr e.cmd s (fun r hr => hd e List.mem_cons_self r hr)))

/-- **C58.** A connection that was opened earlier, when it refreshes its account after such a
heartbeat, works with the present record too. -/
theorem C58_refresh (infoDb : Int) (as bs : List Act) (bns : Bns) (us : List String) {u : String}
    {m : UserPriv} {held : UserInfo} (hd : NeverDropped u (events (as ++ bs)))
    (hheld : (runBoth infoDb as start).2 u = some held)
    (hm : (runBoth infoDb (as ++ bs) start).1.users u = some m) (hu : u ∈ us) :
    ∃ bns' last, refresh (runBoth infoDb (as ++ bs ++ [.beat bns us]) start).2 u held =
      buildInfo infoDb bns' last m := by
  obtain ⟨last, hn⟩ := C58_heartbeat infoDb (as ++ bs) bns us hd hm hu
  have hd1 : NeverDropped u (events as) := by
    intro e he; apply hd; rw [events_append]; exact List.mem_append_left _ he
  have hd2 : NeverDropped u (events bs) := by
    intro e he; apply hd; rw [events_append]; exact List.mem_append_right _ he
  have hf1 : Fresh infoDb u (runBoth infoDb as start).1 (runBoth infoDb as start).2 :=
    runBoth_fresh as hd1 (by intro i hi; cases hi)
  have hf2 : Fresh infoDb u (runBoth infoDb (as ++ bs) start).1 (runBoth infoDb as start).2 := by
    rw [runBoth_append, runBoth_meta infoDb bs]
    exact run_fresh (events bs) hd2 hf1
  obtain ⟨m', hm', hv⟩ := hf2 held hheld
  rw [hm] at hm'; cases hm'
  unfold refresh
  rw [hn]
  dsimp only
  rcases hv with hv | ⟨b, l, rfl⟩
  · rw [if_pos (show held.version < (buildInfo infoDb bns last m).version from hv)]
    exact ⟨bns, last, rfl⟩
  · rw [if_neg (show ¬ (buildInfo infoDb b l m).version < (buildInfo infoDb bns last m).version from
      Nat.lt_irrefl _)]
    exact ⟨b, l, rfl⟩

/-- **C58.** From the requests to the decision: after a heartbeat the node decides by the rights the
history gives. -/
theorem C58_end_to_end {home : Int → Int} (infoDb : Int) (as : List Act) (bns : Bns) (us : List String)
    (hc : CleanHist home (events as) Ledger.empty) {u : String} (hd : NeverDropped u (events as))
    {R : Rights} (hR : ledger (events as) Ledger.empty u = some R) (hu : u ∈ us)
    {db tbl : Int} (hdb : db ≠ -1) (htb : tbl ≠ -1) (hinfo : db ≠ infoDb) (hh : home tbl = db) (op : Op)
    (name : String) :
    ∃ i, (runBoth infoDb (as ++ [.beat bns us]) start).2 u = some i ∧
      ((R.tbl (db, tbl)).mode = true → (allowOp i op db tbl name = true ↔ Held R (needs op) db tbl)) ∧
      ((R.tbl (db, tbl)).mode = false →
        (R.super = true ∨ ByLevel R op db tbl → allowOp i op db tbl name = true) ∧
        (allowOp i op db tbl name = true → R.super = true ∨ ByLevel R op db tbl ∨ ByName R op name)) := by
  have hs := sim_run (events as) hc (Sim_empty home)
  obtain ⟨m, hm⟩ := Option.isSome_iff_exists.mp (by rw [hs.dom u, hR]; rfl)
  obtain ⟨last, hn⟩ := C58_heartbeat infoDb as bns us hd (by rw [runBoth_meta]; exact hm) hu
  exact ⟨_, hn, fun hmode => C58_granted hc hm hR infoDb bns last hdb htb hh hmode op name,
    fun hmode => C58_levels hc hm hR infoDb bns last hinfo hh hmode op name⟩

/-- **C58.** A login succeeds exactly with the password last set, from an address the account may
come from: any address unless addresses are to be checked, else one of those listed or behind one of
the listed service names (all of which the name service could resolve). -/
theorem C58_login (infoDb : Int) (as : List Act) (bns : Bns) (us : List String)
    {u : String} (hd : NeverDropped u (events as)) {a : Account}
    (ha : accounts (events as) (fun _ => none) u = some a) (hu : u ∈ us)
    (hbns : ∀ b, a.bns b = true → (bns b).1 = false) (pw ip : String) :
    login (runBoth infoDb (as ++ [.beat bns us]) start).2 u pw ip = true ↔
      a.password = pw ∧
        (a.auth = true → a.ips ip = true ∨ ∃ b, a.bns b = true ∧ ip ∈ (bns b).2) := by
  have hacc := acc_run (events as) AccSim_empty u
  rw [ha] at hacc
  cases hm : (run (events as) Meta.empty).users u with
  | none => rw [hm] at hacc; cases hacc
  | some m =>
    rw [hm] at hacc
    have hok : AccOk m a := hacc
    obtain ⟨last, hn⟩ := C58_heartbeat infoDb as bns us hd (by rw [runBoth_meta]; exact hm) hu
    unfold login
    rw [hn]
    dsimp only
    rw [Bool.and_eq_true, decide_eq_true_eq]
    apply and_congr
    · show m.password = pw ↔ _
      rw [hok.password]
    · unfold allowAddr
      show (if m.needAuth = true then decide (ip ∈ authSet bns last m) else true) = true ↔ _
      rw [hok.auth]
      cases hauth : a.auth with
      | false => simp
      | true =>
        simp only [if_true, decide_eq_true_eq, forall_const]
        unfold authSet
        rw [hok.auth, hauth, if_pos rfl]
        have : (m.bns.any fun b => (bns b).1) = false := by
          rw [List.any_eq_false]
          intro b hb
          rw [hbns b ((hok.bns b).mp hb)]; simp
        rw [this]
        simp only [Bool.false_eq_true, if_false, List.append_nil, List.mem_append, List.mem_flatMap, hok.ips,
          hok.bns]

end BaikalDB.Priv
