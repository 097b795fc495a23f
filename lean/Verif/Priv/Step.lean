import Verif.Priv.Sim

/-! # Every command keeps the meta server and the ledger in step -/

namespace BaikalDB.Priv

open Spec

theorem foldl_id {α β : Type} (f : α → β → α) (h : ∀ a b, f a b = a) (l : List β) (a : α) :
    l.foldl f a = a := by
  induction l generalizing a with
  | nil => rfl
  | cons b l ih => rw [List.foldl_cons, h, ih]

theorem dropPrivilege_false (cat : Catalog) (r : Req) (s : Meta) :
    (dropPrivilege cat false r s).2 = s := by
  unfold dropPrivilege
  cases s.users r.user with
  | none => rfl
  | some m => cases resolve cat r <;> rfl

/-- A command whose write fails changes nothing. -/
theorem step_false (cat : Catalog) (c : Cmd) (s : Meta) : step cat false c s = s := by
  cases c with
  | create r =>
    show (createUser cat false r s).2 = s
    unfold createUser
    cases r.password with
    | none => rfl
    | some pw =>
      cases s.users r.user with
      | some m => rfl
      | none => cases resolve cat r <;> rfl
  | drop r =>
    show (dropUser false r s).2 = s
    unfold dropUser
    cases s.users r.user <;> rfl
  | modify r =>
    show (modifyUser cat false r s).2 = s
    unfold modifyUser
    cases r.password with
    | none => rfl
    | some pw =>
      cases s.users r.user with
      | none => rfl
      | some m => cases resolve cat r <;> rfl
  | grant r =>
    show (addPrivilege cat false r s).2 = s
    unfold addPrivilege
    cases s.users r.user with
    | none => rfl
    | some m => cases resolve cat r <;> rfl
  | revoke r => exact dropPrivilege_false cat r s
  | dropDb ns db id => exact foldl_id _ (fun s u => dropPrivilege_false cat _ s) _ _
  | dropTbl ns db t id => exact foldl_id _ (fun s u => dropPrivilege_false cat _ s) _ _
  | prune =>
    show (dropInvalid cat false s).2 = s
    unfold dropInvalid
    have h1 : (fun u => pruneOne cat false (s.users u)) = s.users := by
      funext u; unfold pruneOne; cases s.users u <;> simp
    have h3 : ∀ g f, pruneMap g false s.users f = f := by
      intro g f; funext k; simp [pruneMap]
    show Meta.mk _ _ _ _ = Meta.mk s.users s.disk s.dbUsers s.tblUsers
    simp only [h1, h3, Meta.mk.injEq, true_and, and_true]
    funext u; cases s.users u <;> simp

theorem setUser_self (f : String → Option UserPriv) (u : String) (v : Option UserPriv) :
    setUser f u v u = v := by simp [setUser]
theorem setUser_ne (f : String → Option UserPriv) {u w : String} (v : Option UserPriv) (h : w ≠ u) :
    setUser f u v w = f w := by simp [setUser, h]

theorem Sim.get {home : Int → Int} {s : Meta} {L : Ledger} (h : Sim home s L) {u : String}
    {m : UserPriv} (hu : s.users u = some m) : ∃ R, L u = some R ∧ RecOk home m R := by
  have := h.dom u
  rw [hu, Option.isSome_some] at this
  obtain ⟨R, hR⟩ := Option.isSome_iff_exists.mp this.symm
  exact ⟨R, hR, h.recs u m R hu hR⟩

theorem Sim.getNone {home : Int → Int} {s : Meta} {L : Ledger} (h : Sim home s L) {u : String}
    (hu : s.users u = none) : L u = none := by
  have := h.dom u
  rw [hu, Option.isSome_none] at this
  exact Option.isSome_eq_false_iff.mp this.symm |> Option.isNone_iff_eq_none.mp

/-- Replacing the record of one account and its place in the reverse maps. -/
theorem Sim.put {home : Int → Int} {s : Meta} {L : Ledger} (h : Sim home s L) (u : String)
    (m' : Option UserPriv) (R' : Option Rights) (fd ft : Int → List String)
    (hsome : m'.isSome = R'.isSome)
    (hrec : ∀ m R, m' = some m → R' = some R → RecOk home m R)
    (hd : ∀ k w, w ≠ u → (w ∈ fd k ↔ w ∈ s.dbUsers k))
    (hdu : ∀ k, u ∈ fd k ↔ ∃ R, R' = some R ∧ listed (R.db k))
    (ht : ∀ k w, w ≠ u → (w ∈ ft k ↔ w ∈ s.tblUsers k))
    (htu : ∀ k, u ∈ ft k ↔ ∃ R, R' = some R ∧ listed (R.tbl (home k, k))) :
    Sim home { s.put u m' with dbUsers := fd, tblUsers := ft }
      (fun w => if w = u then R' else L w) := by
  refine ⟨?_, ?_, ?_, ?_, ?_⟩
  · intro w
    show (setUser s.users u m' w).isSome = _
    by_cases hw : w = u
    · subst hw; rw [setUser_self]; simpa using hsome
    · rw [setUser_ne _ _ hw]; simpa [hw] using h.dom w
  · intro w m R hm hR
    have hm : setUser s.users u m' w = some m := hm
    by_cases hw : w = u
    · subst hw
      rw [setUser_self] at hm
      simp only [if_true] at hR
      exact hrec m R hm hR
    · rw [setUser_ne _ _ hw] at hm
      simp only [if_neg hw] at hR
      exact h.recs w m R hm hR
  · show setUser s.disk u m' = setUser s.users u m'
    rw [h.disk]
  · intro k w
    show w ∈ fd k ↔ _
    by_cases hw : w = u
    · subst hw; simpa using hdu k
    · rw [hd k w hw, h.dbMap]; simp [hw]
  · intro k w
    show w ∈ ft k ↔ _
    by_cases hw : w = u
    · subst hw; simpa using htu k
    · rw [ht k w hw, h.tblMap]; simp [hw]

theorem ite_self_ledger (L : Ledger) (u : String) : (fun w => if w = u then L w else L w) = L := by
  funext w; simp

theorem Sim.congr {home : Int → Int} {s : Meta} {L L' : Ledger} (h : Sim home s L) (e : L = L') :
    Sim home s L' := e ▸ h

theorem sim_create {home : Int → Int} {cat : Catalog} (hh : Homes home cat) {s : Meta} {L : Ledger}
    (h : Sim home s L) (r : Req) (hc : Clean cat L (.create r)) :
    Sim home (step cat true (.create r) s) (ledStep cat (.create r) L) := by
  show Sim home (createUser cat true r s).2 (fun u =>
    if u = r.user ∧ (L u).isNone ∧ r.password.isSome then
      (ids cat r).map (fun p => grantRights r p.1 p.2 Rights.none)
    else L u)
  unfold createUser
  cases hpw : r.password with
  | none => exact h.congr (by funext u; simp)
  | some pw =>
    cases hu : s.users r.user with
    | some m =>
      obtain ⟨R, hR, _⟩ := h.get hu
      refine h.congr ?_
      funext u
      by_cases e : u = r.user
      · subst e; simp [hR]
      · simp [e]
    | none =>
      have hL := h.getNone hu
      cases hr : resolve cat r with
      | none =>
        refine h.congr ?_
        funext u
        by_cases e : u = r.user
        · subst e; simp [hL, resolve_none hr]
        · simp [e]
      | some rs =>
        obtain ⟨ds, ts, hid, hd, ht⟩ := resolve_some hr
        obtain ⟨hdd, hdt⟩ := hc ds ts hid
        have hnd : (rs.dbs.map Ent.key).Nodup := by rw [hd, dbEnt_keys]; exact hdd
        have hnt : (rs.tbls.map Ent.key).Nodup := by rw [ht, tblEnt_keys]; exact hdt
        have hed : (insertAll rs.dbs []).1 = rs.dbs := insertAll_nil _ [] (by simpa using hnd)
        have het : (insertAll rs.tbls []).1 = rs.tbls := insertAll_nil _ [] (by simpa using hnt)
        have hkd : (insertAll rs.dbs []).2 = rs.dbs.map Ent.key :=
          insertAll_keys _ [] (by simpa using hnd)
        have hkt : (insertAll rs.tbls []).2 = rs.tbls.map Ent.key :=
          insertAll_keys _ [] (by simpa using hnt)
        have hnotd : ∀ k, r.user ∉ s.dbUsers k := by
          intro k hk
          obtain ⟨R, hR, _⟩ := (h.dbMap k r.user).mp hk
          rw [hL] at hR; cases hR
        have hnott : ∀ k, r.user ∉ s.tblUsers k := by
          intro k hk
          obtain ⟨R, hR, _⟩ := (h.tblMap k r.user).mp hk
          rw [hL] at hR; cases hR
        have hhome := ids_home hh hid
        refine Sim.congr (h.put r.user (some (freshUser r rs pw))
          (some (grantRights r ds ts Rights.none)) _ _ rfl ?_ ?_ ?_ ?_ ?_) ?_
        · intro m R hm hR
          cases hm; cases hR
          refine ⟨?_, ?_, ?_, ?_, ?_⟩
          · show r.super.getD false = r.super.getD false; rfl
          · intro b
            show (r.acl.getD 0).getLsbD b = (false || inAcl r.acl b)
            cases r.acl <;> simp [inAcl_some, inAcl_none]
          · show CellsOk rs.dbs (ds.foldl grantDb _)
            rw [grantDb_fold, ← hd, ← hed, hed]
            have := insertAll_ok (ps := rs.dbs) (CellsOk_nil (κ := Int))
            rw [hed] at this; exact this
          · show CellsOk rs.tbls (ts.foldl grantTbl _)
            rw [grantTbl_fold, ← ht]
            have := insertAll_ok (ps := rs.tbls) (CellsOk_nil (κ := Int × Int))
            rw [het] at this; exact this
          · intro e he
            have he : e ∈ rs.tbls := he
            rw [ht] at he
            obtain ⟨p, hp, rfl⟩ := List.mem_map.mp he
            exact hhome p hp
        · intro k w hw; rw [mem_addUser]; simp [hw]
        · intro k
          rw [mem_addUser]
          simp only [hnotd k, false_or, true_and, Option.some.injEq, exists_eq_left']
          show _ ↔ listed ((ds.foldl grantDb (fun _ => Cell.empty)) k)
          rw [grantDb_fold, ← hd, listed_insertAll (CellsOk_nil (κ := Int)), hkd]
          simp [listed, Cell.empty]
        · intro k w hw; rw [mem_addUser]; simp [hw]
        · intro k
          rw [mem_addUser]
          simp only [hnott k, false_or, true_and, Option.some.injEq, exists_eq_left']
          show _ ↔ listed ((ts.foldl grantTbl (fun _ => Cell.empty)) _)
          rw [grantTbl_fold, ← ht, listed_insertAll (CellsOk_nil (κ := Int × Int)), hkt]
          have := mem_snd (home := home) (l := rs.tbls.map Ent.key) (by
            rw [ht, tblEnt_keys]; intro k hk
            obtain ⟨p, hp, rfl⟩ := List.mem_map.mp hk; exact hhome p hp) k
          rw [List.map_map] at this
          rw [← this]
          simp [listed, Cell.empty, Function.comp_def]
        · funext w
          by_cases e : w = r.user
          · subst e; simp [hL, hid]
          · simp [e]

theorem sim_drop {home : Int → Int} {cat : Catalog} {s : Meta} {L : Ledger}
    (h : Sim home s L) (r : Req) :
    Sim home (step cat true (.drop r) s) (ledStep cat (.drop r) L) := by
  show Sim home (dropUser true r s).2 (fun u => if u = r.user then none else L u)
  unfold dropUser
  cases hu : s.users r.user with
  | none =>
    refine h.congr ?_
    funext u
    by_cases e : u = r.user
    · subst e; simp [h.getNone hu]
    · simp [e]
  | some m =>
    obtain ⟨R, hR, hrec⟩ := h.get hu
    refine h.put r.user none none _ _ rfl (by intro m R hm; cases hm) ?_ ?_ ?_ ?_
    · intro k w hw; rw [mem_delUser]; simp [hw]
    · intro k
      rw [mem_delUser]
      simp only [true_and, reduceCtorEq, false_and, exists_false, iff_false, not_and, not_not]
      intro hk
      obtain ⟨R', hR', hl⟩ := (h.dbMap k r.user).mp hk
      rw [hR] at hR'; cases hR'
      by_contra hno
      rw [hrec.dbs.absent k hno] at hl
      simp [listed, Cell.empty] at hl
    · intro k w hw; rw [mem_delUser]; simp [hw]
    · intro k
      rw [mem_delUser]
      simp only [true_and, reduceCtorEq, false_and, exists_false, iff_false, not_and, not_not]
      intro hk
      obtain ⟨R', hR', hl⟩ := (h.tblMap k r.user).mp hk
      rw [hR] at hR'; cases hR'
      by_contra hno
      have : (home k, k) ∉ m.tbls.map Ent.key := by
        intro hin
        apply hno
        obtain ⟨e, he, hk⟩ := List.mem_map.mp hin
        exact List.mem_map.mpr ⟨e, he, by rw [hk]⟩
      rw [hrec.tbls.absent _ this] at hl
      simp [listed, Cell.empty] at hl

theorem sim_modify {home : Int → Int} {cat : Catalog} {s : Meta} {L : Ledger}
    (h : Sim home s L) (r : Req) :
    Sim home (step cat true (.modify r) s) (ledStep cat (.modify r) L) := by
  show Sim home (modifyUser cat true r s).2 L
  unfold modifyUser
  cases r.password with
  | none => exact h
  | some pw =>
    cases hu : s.users r.user with
    | none => exact h
    | some m =>
      obtain ⟨R, hR, hrec⟩ := h.get hu
      cases resolve cat r with
      | none => exact h
      | some rs =>
        refine Sim.congr (h.put r.user
          (some { m with ns := rs.ns, password := pw, version := m.version + 1 }) (L r.user)
          s.dbUsers s.tblUsers (by rw [hR]; rfl) ?_ (fun _ _ _ => Iff.rfl)
          (fun k => h.dbMap k _) (fun _ _ _ => Iff.rfl) (fun k => h.tblMap k _)) ?_
        · intro m' R' hm hR'
          cases hm
          rw [hR] at hR'; cases hR'
          exact ⟨hrec.super, hrec.bits, hrec.dbs, hrec.tbls, hrec.homes⟩
        · funext w; by_cases e : w = r.user
          · subst e; simp
          · simp [e]

theorem sim_grant {home : Int → Int} {cat : Catalog} (hh : Homes home cat) {s : Meta} {L : Ledger}
    (h : Sim home s L) (r : Req) :
    Sim home (step cat true (.grant r) s) (ledStep cat (.grant r) L) := by
  show Sim home (addPrivilege cat true r s).2 (fun u => if u = r.user then
      (L u).map (fun R => match ids cat r with | some p => grantRights r p.1 p.2 R | none => R)
    else L u)
  unfold addPrivilege
  cases hu : s.users r.user with
  | none =>
    refine h.congr ?_
    funext u
    by_cases e : u = r.user
    · subst e; simp [h.getNone hu]
    · simp [e]
  | some m =>
    obtain ⟨R, hR, hrec⟩ := h.get hu
    cases hr : resolve cat r with
    | none =>
      refine h.congr ?_
      funext u
      by_cases e : u = r.user
      · subst e; simp [hR, resolve_none hr]
      · simp [e]
    | some rs =>
      obtain ⟨ds, ts, hid, hd, ht⟩ := resolve_some hr
      have hhome := ids_home hh hid
      refine Sim.congr (h.put r.user (some (grantUser r rs m)) (some (grantRights r ds ts R)) _ _
        rfl ?_ ?_ ?_ ?_ ?_) ?_
      · intro m' R' hm hR'
        cases hm; cases hR'
        exact grant_rec hd ht hrec hhome
      · intro k w hw; rw [mem_addUser]; simp [hw]
      · intro k
        rw [mem_addUser, h.dbMap]
        simp only [hR, Option.some.injEq, exists_eq_left', true_and]
        show _ ↔ listed ((ds.foldl grantDb R.db) k)
        rw [grantDb_fold, ← hd, listed_insertAll hrec.dbs]
      · intro k w hw; rw [mem_addUser]; simp [hw]
      · intro k
        rw [mem_addUser, h.tblMap]
        simp only [hR, Option.some.injEq, exists_eq_left', true_and]
        show _ ↔ listed ((ts.foldl grantTbl R.tbl) _)
        rw [grantTbl_fold, ← ht, listed_insertAll hrec.tbls, mem_snd (home := home)]
        intro k hk
        have := insertAll_sub _ _ k hk
        rw [ht, tblEnt_keys] at this
        obtain ⟨p, hp, rfl⟩ := List.mem_map.mp this; exact hhome p hp
      · funext w
        by_cases e : w = r.user
        · subst e; simp [hR, hid]
        · simp [e]

theorem sim_revoke {home : Int → Int} {cat : Catalog} (hh : Homes home cat) {s : Meta} {L : Ledger}
    (h : Sim home s L) (r : Req) (hc : Clean cat L (.revoke r)) :
    Sim home (step cat true (.revoke r) s) (ledStep cat (.revoke r) L) := by
  show Sim home (dropPrivilege cat true r s).2 (fun u => if u = r.user then
      (L u).map (fun R => match ids cat r with | some p => revokeRights r p.1 p.2 R | none => R)
    else L u)
  unfold dropPrivilege
  cases hu : s.users r.user with
  | none =>
    refine h.congr ?_
    funext u
    by_cases e : u = r.user
    · subst e; simp [h.getNone hu]
    · simp [e]
  | some m =>
    obtain ⟨R, hR, hrec⟩ := h.get hu
    cases hr : resolve cat r with
    | none =>
      refine h.congr ?_
      funext u
      by_cases e : u = r.user
      · subst e; simp [hR, resolve_none hr]
      · simp [e]
    | some rs =>
      obtain ⟨ds, ts, hid, hd, ht⟩ := resolve_some hr
      have hhome := ids_home hh hid
      have hcl := hc ds ts R hid hR
      have hdl := revokeAll_ok hrec.dbs (ps := rs.dbs) (by rw [hd, dbEnt_keys]; exact hcl.1) (by
        rw [hd]; intro e he
        obtain ⟨p, hp, rfl⟩ := List.mem_map.mp he
        exact hcl.2.2.1 p hp)
      have htl := revokeAll_ok hrec.tbls (ps := rs.tbls) (by rw [ht, tblEnt_keys]; exact hcl.2.1) (by
        rw [ht]; intro e he
        obtain ⟨p, hp, rfl⟩ := List.mem_map.mp he
        exact hcl.2.2.2 p hp)
      refine Sim.congr (h.put r.user (some (revokeUser r rs m)) (some (revokeRights r ds ts R)) _ _
        rfl ?_ ?_ ?_ ?_ ?_) ?_
      · intro m' R' hm hR'
        cases hm; cases hR'
        exact revoke_rec hd ht hrec hcl
      · intro k w hw; rw [mem_delUser]; simp [hw]
      · intro k
        rw [mem_delUser, h.dbMap]
        simp only [hR, Option.some.injEq, exists_eq_left', true_and]
        show _ ↔ listed ((ds.foldl revokeDb R.db) k)
        rw [revokeDb_fold, ← hd, hdl.2]
      · intro k w hw; rw [mem_delUser]; simp [hw]
      · intro k
        rw [mem_delUser, h.tblMap]
        simp only [hR, Option.some.injEq, exists_eq_left', true_and]
        show _ ↔ listed ((ts.foldl revokeTbl R.tbl) _)
        rw [revokeTbl_fold, ← ht, htl.2, mem_snd (home := home)]
        intro k hk
        have := deleteAll_sub _ _ k hk
        rw [ht, tblEnt_keys] at this
        obtain ⟨p, hp, rfl⟩ := List.mem_map.mp this; exact hhome p hp
      · funext w
        by_cases e : w = r.user
        · subst e; simp [hR, hid]
        · simp [e]

/-! ## Dropping a database or a table -/

/-- The ledger after a list of accounts have had all rights on a database revoked. -/
theorem sim_dropDb_fold {home : Int → Int} {cat : Catalog} (hh : Homes home cat) {ns db : String}
    {id : Int} (hid : cat.dbId ns db = some id) (hns : (cat.nsId ns).isSome) (us : List String) :
    ∀ {s : Meta} {L : Ledger}, Sim home s L →
    Sim home (us.foldl (fun s u => (dropPrivilege cat true (dropDbReq ns db u) s).2) s)
      (fun w => if w ∈ us then
        (L w).map (fun R => { R with db := at' R.db id (fun _ => Cell.empty) }) else L w) := by
  have hids : ∀ u, ids cat (dropDbReq ns db u) = some ([(id, ⟨db, "", none, false, none⟩)], []) := by
    intro u
    simp [ids, dropDbReq, hns, dbOf, hid]
  induction us with
  | nil => intro s L h; exact h.congr (by funext w; simp)
  | cons u us ih =>
    intro s L h
    have h1 := sim_revoke hh h (dropDbReq ns db u) (by
      intro ds ts R he hR
      rw [hids] at he; cases he
      exact ⟨by simp [Distinct], by simp [Distinct], by simp [CleanItem], by simp⟩)
    have h2 := ih h1
    refine h2.congr ?_
    funext w
    have hrw : ∀ R : Rights, revokeRights (dropDbReq ns db u) [(id, ⟨db, "", none, false, none⟩)] [] R
        = { R with db := at' R.db id (fun _ => Cell.empty) } := by
      intro R
      simp only [revokeRights, List.foldl_cons, List.foldl_nil, revokeDb]
      congr 1
      funext b; simp [dropDbReq, inAcl_none]
    have hidem : ∀ f : Int → Cell, at' (at' f id (fun _ => Cell.empty)) id (fun _ => Cell.empty)
        = at' f id (fun _ => Cell.empty) := by
      intro f; funext k; by_cases hk : k = id <;> simp [at', hk]
    by_cases e : w = u
    · subst e
      have : ledStep cat (.revoke (dropDbReq ns db w)) L w =
          (L w).map (fun R => { R with db := at' R.db id (fun _ => Cell.empty) }) := by
        simp only [ledStep, hids]
        rw [if_pos (show w = (dropDbReq ns db w).user from rfl)]
        simp only [hrw]
      by_cases hw : w ∈ us
      · simp only [hw, if_true, List.mem_cons, or_true, this, Option.map_map]
        congr 1; funext R; simp [hidem]
      · simp only [hw, if_false, List.mem_cons, true_or, if_true, this]
    · have : ledStep cat (.revoke (dropDbReq ns db u)) L w = L w := by
        simp only [ledStep]
        rw [if_neg]; exact e
      simp only [this, List.mem_cons, e, false_or]

theorem sim_dropDb {home : Int → Int} {cat : Catalog} (hh : Homes home cat) {s : Meta} {L : Ledger}
    (h : Sim home s L) {ns db : String} {id : Int} (hc : Clean cat L (.dropDb ns db id)) :
    Sim home (step cat true (.dropDb ns db id) s) (ledStep cat (.dropDb ns db id) L) := by
  refine (sim_dropDb_fold hh hc.1 hc.2.1 (s.dbUsers id) h).congr ?_
  funext w
  show _ = (L w).map (fun R => { R with db := at' R.db id (fun _ => Cell.empty) })
  by_cases hw : w ∈ s.dbUsers id
  · simp [hw]
  · simp only [hw, if_false]
    cases hL : L w with
    | none => rfl
    | some R =>
      obtain ⟨m, hm⟩ := Option.isSome_iff_exists.mp (by rw [h.dom w, hL]; rfl)
      have hrec := h.recs w m R hm hL
      have hnl : ¬ listed (R.db id) := fun hl => hw ((h.dbMap id w).mpr ⟨R, hL, hl⟩)
      have hrv := hc.2.2 w R hL
      have hemp : R.db id = Cell.empty := by
        apply hrec.dbs.absent
        intro hin
        obtain ⟨e, he, hk⟩ := List.mem_map.mp hin
        apply hnl
        have := (hrec.dbs.present e he).known
        rw [hk] at this
        exact ⟨this, hrv⟩
      have : at' R.db id (fun _ => Cell.empty) = R.db := by
        funext k; by_cases hk : k = id
        · subst hk; simp [at', hemp]
        · simp [at', hk]
      simp [this]

theorem sim_dropTbl_fold {home : Int → Int} {cat : Catalog} (hh : Homes home cat)
    {ns db t : String} {id d : Int} (hdb : cat.dbId ns db = some d) (hid : cat.tblId ns db t = some id)
    (hns : (cat.nsId ns).isSome) (us : List String) :
    ∀ {s : Meta} {L : Ledger}, Sim home s L →
    Sim home (us.foldl (fun s u => (dropPrivilege cat true (dropTblReq ns db t u) s).2) s)
      (fun w => if w ∈ us then
        (L w).map (fun R => { R with tbl := at' R.tbl (d, id) (fun _ => Cell.empty) }) else L w) := by
  have hids : ∀ u, ids cat (dropTblReq ns db t u) =
      some ([], [((d, id), ⟨db, t, none, false, none⟩)]) := by
    intro u
    simp [ids, dropTblReq, hns, tblOf, hdb, hid]
  induction us with
  | nil => intro s L h; exact h.congr (by funext w; simp)
  | cons u us ih =>
    intro s L h
    have h1 := sim_revoke hh h (dropTblReq ns db t u) (by
      intro ds ts R he hR
      rw [hids] at he; cases he
      exact ⟨by simp [Distinct], by simp [Distinct], by simp, by simp [CleanItem]⟩)
    have h2 := ih h1
    refine h2.congr ?_
    funext w
    have hrw : ∀ R : Rights, revokeRights (dropTblReq ns db t u) []
        [((d, id), ⟨db, t, none, false, none⟩)] R
        = { R with tbl := at' R.tbl (d, id) (fun _ => Cell.empty) } := by
      intro R
      simp only [revokeRights, List.foldl_cons, List.foldl_nil, revokeTbl]
      congr 1
      funext b; simp [dropTblReq, inAcl_none]
    have hidem : ∀ f : Int × Int → Cell,
        at' (at' f (d, id) (fun _ => Cell.empty)) (d, id) (fun _ => Cell.empty)
        = at' f (d, id) (fun _ => Cell.empty) := by
      intro f; funext k; by_cases hk : k = (d, id) <;> simp [at', hk]
    by_cases e : w = u
    · subst e
      have : ledStep cat (.revoke (dropTblReq ns db t w)) L w =
          (L w).map (fun R => { R with tbl := at' R.tbl (d, id) (fun _ => Cell.empty) }) := by
        simp only [ledStep, hids]
        rw [if_pos (show w = (dropTblReq ns db t w).user from rfl)]
        simp only [hrw]
      by_cases hw : w ∈ us
      · simp only [hw, if_true, List.mem_cons, or_true, this, Option.map_map]
        congr 1; funext R; simp [hidem]
      · simp only [hw, if_false, List.mem_cons, true_or, if_true, this]
    · have : ledStep cat (.revoke (dropTblReq ns db t u)) L w = L w := by
        simp only [ledStep]
        rw [if_neg]; exact e
      simp only [this, List.mem_cons, e, false_or]

theorem sim_dropTbl {home : Int → Int} {cat : Catalog} (hh : Homes home cat) {s : Meta} {L : Ledger}
    (h : Sim home s L) {ns db t : String} {id : Int} (hc : Clean cat L (.dropTbl ns db t id)) :
    Sim home (step cat true (.dropTbl ns db t id) s) (ledStep cat (.dropTbl ns db t id) L) := by
  obtain ⟨hid, hns, hdb, hrv⟩ := hc
  obtain ⟨d, hdb⟩ := Option.isSome_iff_exists.mp hdb
  have hhome : home id = d := hh _ _ _ _ _ hdb hid
  refine (sim_dropTbl_fold hh hdb hid hns (s.tblUsers id) h).congr ?_
  funext w
  show _ = (L w).map (fun R => { R with tbl := fun k => if k.2 = id then Cell.empty else R.tbl k })
  cases hL : L w with
  | none => simp
  | some R =>
    obtain ⟨m, hm⟩ := Option.isSome_iff_exists.mp (by rw [h.dom w, hL]; rfl)
    have hrec := h.recs w m R hm hL
    have hother : ∀ k : Int × Int, k.2 = id → k ≠ (d, id) → R.tbl k = Cell.empty := by
      intro k hk hne
      apply hrec.tbls.absent
      intro hin
      obtain ⟨e, he, hek⟩ := List.mem_map.mp hin
      apply hne
      have := hrec.homes e he
      rw [hek, hk, hhome] at this
      exact Prod.ext this hk
    have hat : at' R.tbl (d, id) (fun _ => Cell.empty) =
        fun k => if k.2 = id then Cell.empty else R.tbl k := by
      funext k
      by_cases hk : k = (d, id)
      · subst hk; simp [at']
      · by_cases hk2 : k.2 = id
        · simp [at', hk, hk2, hother k hk2 hk]
        · simp [at', hk, hk2]
    by_cases hw : w ∈ s.tblUsers id
    · simp [hw, hat]
    · simp only [hw, if_false, Option.map_some, Option.some.injEq]
      have hnl : ¬ listed (R.tbl (home id, id)) := fun hl => hw ((h.tblMap id w).mpr ⟨R, hL, hl⟩)
      have hemp : R.tbl (d, id) = Cell.empty := by
        apply hrec.tbls.absent
        intro hin
        obtain ⟨e, he, hk⟩ := List.mem_map.mp hin
        apply hnl
        have := (hrec.tbls.present e he).known
        rw [hk] at this
        rw [hhome]
        exact ⟨this, hrv w R hL d⟩
      have : R.tbl = fun k => if k.2 = id then Cell.empty else R.tbl k := by
        rw [← hat]
        funext k; by_cases hk : k = (d, id)
        · subst hk; simp [at', hemp]
        · simp [at', hk]
      rw [← this]

/-! ## Pruning -/

theorem sim_prune {home : Int → Int} {cat : Catalog} {s : Meta} {L : Ledger} (h : Sim home s L) :
    Sim home (step cat true .prune s) (ledStep cat .prune L) := by
  have hvalid : ∀ u m R, s.users u = some m → L u = some R → hasInvalid cat m = false →
      (∀ k, (if cat.hasDb k then R.db k else Cell.empty) = R.db k) ∧
      (∀ k : Int × Int, (if cat.hasTbl k.2 then R.tbl k else Cell.empty) = R.tbl k) := by
    intro u m R hm hR hv
    have hrec := h.recs u m R hm hR
    simp only [hasInvalid, Bool.or_eq_false_iff, List.any_eq_false, Bool.not_eq_true,
      Bool.not_eq_false'] at hv
    constructor
    · intro k
      by_cases hk : cat.hasDb k = true
      · rw [if_pos hk]
      · rw [if_neg hk, hrec.dbs.absent]
        intro hin
        obtain ⟨e, he, rfl⟩ := List.mem_map.mp hin
        exact hk (hv.1 e he)
    · intro k
      by_cases hk : cat.hasTbl k.2 = true
      · rw [if_pos hk]
      · rw [if_neg hk, hrec.tbls.absent]
        intro hin
        obtain ⟨e, he, rfl⟩ := List.mem_map.mp hin
        exact hk (hv.2 e he)
  refine ⟨?_, ?_, ?_, ?_, ?_⟩
  · intro u
    show (pruneOne cat true (s.users u)).isSome = ((L u).map _).isSome
    rw [Option.isSome_map, ← h.dom]
    unfold pruneOne
    cases s.users u with
    | none => rfl
    | some m => dsimp only; split <;> rfl
  · intro u m R hm hR
    have hm : pruneOne cat true (s.users u) = some m := hm
    cases hu : s.users u with
    | none => rw [hu] at hm; cases hm
    | some m0 =>
      obtain ⟨R0, hR0, hrec⟩ := h.get hu
      have hR : (L u).map (fun R =>
        { R with
          db := fun k => if cat.hasDb k then R.db k else Cell.empty
          tbl := fun k => if cat.hasTbl k.2 then R.tbl k else Cell.empty }) = some R := hR
      rw [hR0, Option.map_some] at hR
      cases hR
      rw [hu] at hm
      unfold pruneOne at hm
      simp only [Bool.and_true] at hm
      by_cases hv : hasInvalid cat m0 = true
      · rw [if_pos hv] at hm
        cases hm
        exact ⟨hrec.super, hrec.bits, CellsOk_filter hrec.dbs cat.hasDb,
          CellsOk_filter hrec.tbls (fun k => cat.hasTbl k.2),
          fun e he => hrec.homes e (List.mem_filter.mp he).1⟩
      · rw [if_neg hv] at hm
        cases hm
        obtain ⟨h1, h2⟩ := hvalid u _ R0 hu hR0 (by simpa using hv)
        refine ⟨hrec.super, hrec.bits, ?_, ?_, hrec.homes⟩
        · show CellsOk _ (fun k => if cat.hasDb k then R0.db k else Cell.empty)
          rw [funext h1]; exact hrec.dbs
        · show CellsOk _ (fun k : Int × Int => if cat.hasTbl k.2 then R0.tbl k else Cell.empty)
          rw [funext h2]; exact hrec.tbls
  · funext u
    show (match s.users u with
        | some m => if (hasInvalid cat m && true) = true then some (pruneUser cat m) else s.disk u
        | none => s.disk u) = pruneOne cat true (s.users u)
    rw [h.disk]
    cases hu : s.users u <;> simp [pruneOne]
  · intro k u
    show u ∈ (s.dbUsers k).filter _ ↔ _
    rw [List.mem_filter, h.dbMap]
    simp only [ledStep, Option.map_eq_some_iff]
    constructor
    · rintro ⟨⟨R, hR, hl⟩, hg⟩
      refine ⟨_, ⟨R, hR, rfl⟩, ?_⟩
      obtain ⟨m, hm⟩ := Option.isSome_iff_exists.mp (by rw [h.dom u, hR]; rfl)
      have hrec := h.recs u m R hm hR
      show listed (if cat.hasDb k then R.db k else Cell.empty)
      by_cases hk : cat.hasDb k = true
      · rw [if_pos hk]; exact hl
      · exfalso
        have hin : k ∈ m.dbs.map Ent.key := by
          by_contra hno; rw [hrec.dbs.absent k hno] at hl; simp [listed, Cell.empty] at hl
        obtain ⟨e, he, rfl⟩ := List.mem_map.mp hin
        rw [hm] at hg
        simp only [Bool.true_and, Bool.not_eq_true', List.any_eq_false, Bool.and_eq_true,
          decide_eq_true_eq, not_and] at hg
        exact hk (by simpa using hg e he rfl)
    · rintro ⟨R', ⟨R, hR, rfl⟩, hl⟩
      have hl : listed (if cat.hasDb k then R.db k else Cell.empty) := hl
      by_cases hk : cat.hasDb k = true
      · rw [if_pos hk] at hl
        refine ⟨⟨R, hR, hl⟩, ?_⟩
        obtain ⟨m, hm⟩ := Option.isSome_iff_exists.mp (by rw [h.dom u, hR]; rfl)
        rw [hm]
        simp only [Bool.true_and, Bool.not_eq_true', List.any_eq_false, Bool.and_eq_true,
          decide_eq_true_eq, not_and]
        intro e _ hek; rw [hek, hk]; simp
      · rw [if_neg hk] at hl; simp [listed, Cell.empty] at hl
  · intro k u
    show u ∈ (s.tblUsers k).filter _ ↔ _
    rw [List.mem_filter, h.tblMap]
    simp only [ledStep, Option.map_eq_some_iff]
    constructor
    · rintro ⟨⟨R, hR, hl⟩, hg⟩
      refine ⟨_, ⟨R, hR, rfl⟩, ?_⟩
      obtain ⟨m, hm⟩ := Option.isSome_iff_exists.mp (by rw [h.dom u, hR]; rfl)
      have hrec := h.recs u m R hm hR
      show listed (if cat.hasTbl k then R.tbl (home k, k) else Cell.empty)
      by_cases hk : cat.hasTbl k = true
      · rw [if_pos hk]; exact hl
      · exfalso
        have hin : (home k, k) ∈ m.tbls.map Ent.key := by
          by_contra hno; rw [hrec.tbls.absent _ hno] at hl; simp [listed, Cell.empty] at hl
        obtain ⟨e, he, hek⟩ := List.mem_map.mp hin
        rw [hm] at hg
        simp only [Bool.true_and, Bool.not_eq_true', List.any_eq_false, Bool.and_eq_true,
          decide_eq_true_eq, not_and] at hg
        have := hg e he (by rw [hek])
        rw [hek] at this
        exact hk (by simpa using this)
    · rintro ⟨R', ⟨R, hR, rfl⟩, hl⟩
      have hl : listed (if cat.hasTbl k then R.tbl (home k, k) else Cell.empty) := hl
      by_cases hk : cat.hasTbl k = true
      · rw [if_pos hk] at hl
        refine ⟨⟨R, hR, hl⟩, ?_⟩
        obtain ⟨m, hm⟩ := Option.isSome_iff_exists.mp (by rw [h.dom u, hR]; rfl)
        rw [hm]
        simp only [Bool.true_and, Bool.not_eq_true', List.any_eq_false, Bool.and_eq_true,
          decide_eq_true_eq, not_and]
        intro e _ hek; rw [hek, hk]; simp
      · rw [if_neg hk] at hl; simp [listed, Cell.empty] at hl

/-- One command. -/
theorem sim_step {home : Int → Int} {cat : Catalog} (hh : Homes home cat) {s : Meta} {L : Ledger}
    (h : Sim home s L) (c : Cmd) (hc : Clean cat L c) :
    Sim home (step cat true c s) (ledStep cat c L) := by
  cases c with
  | create r => exact sim_create hh h r hc
  | drop r => exact sim_drop h r
  | modify r => exact sim_modify h r
  | grant r => exact sim_grant hh h r
  | revoke r => exact sim_revoke hh h r hc
  | dropDb ns db id => exact sim_dropDb hh h hc
  | dropTbl ns db t id => exact sim_dropTbl hh h hc
  | prune => exact sim_prune h

/-- A history. -/
theorem sim_run {home : Int → Int} (h : List Ev) : ∀ {s : Meta} {L : Ledger}, CleanHist home h L →
    Sim home s L → Sim home (run h s) (ledger h L) := by
  induction h with
  | nil => intro s L _ hs; exact hs
  | cons e h ih =>
    intro s L hc hs
    obtain ⟨h1, h2, h3⟩ := hc
    show Sim home (run h (step e.cat e.wr e.cmd s)) (ledger h _)
    cases hw : e.wr with
    | false =>
      rw [hw] at h3
      rw [step_false]
      exact ih h3 hs
    | true =>
      rw [hw] at h3
      exact ih h3 (sim_step h1 hs e.cmd h2)

end BaikalDB.Priv
