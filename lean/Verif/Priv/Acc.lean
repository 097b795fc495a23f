import Verif.Priv.Decide

/-! # Passwords, addresses and the right to change schemas -/

namespace BaikalDB.Priv

open Spec

/-- A record agrees with an account. -/
structure AccOk (m : UserPriv) (a : Account) : Prop where
  password : m.password = a.password
  ips : ∀ x, x ∈ m.ips ↔ a.ips x = true
  bns : ∀ x, x ∈ m.bns ↔ a.bns x = true
  auth : m.needAuth = a.auth
  ddl : m.ddl.getD false = a.ddl

/-- Both absent, or both present and in agreement. -/
def AccRel : Option UserPriv → Option Account → Prop
  | none, none => True
  | some m, some a => AccOk m a
  | _, _ => False

theorem AccRel_none {a : Option Account} (h : AccRel none a) : a = none := by
  cases a with
  | none => rfl
  | some a => cases h

theorem AccRel_some {m : UserPriv} {a : Option Account} (h : AccRel (some m) a) :
    ∃ b, a = some b ∧ AccOk m b := by
  cases a with
  | none => cases h
  | some b => exact ⟨b, rfl, h⟩

/-- The accounts of the meta server agree with those of the specification. -/
def AccSim (s : Meta) (A : String → Option Account) : Prop := ∀ u, AccRel (s.users u) (A u)

theorem AccSim.put {s s' : Meta} {A : String → Option Account} (h : AccSim s A) {w : String}
    {v : Option UserPriv} {b : Option Account} (hs : s'.users = setUser s.users w v)
    (hv : AccRel v b) : AccSim s' (fun u => if u = w then b else A u) := by
  intro u
  rw [hs]
  by_cases e : u = w
  · subst e; rw [setUser_self]; simpa using hv
  · rw [setUser_ne _ _ e]; simpa [e] using h u

theorem AccSim.congr {s : Meta} {A B : String → Option Account} (h : AccSim s A) (e : A = B) :
    AccSim s B := e ▸ h

theorem mem_insertFold (l m : List String) (x : String) :
    x ∈ l.foldl (fun l x => insertStr x l) m ↔ x ∈ m ∨ x ∈ l := by
  induction l generalizing m with
  | nil => simp
  | cons y l ih =>
    rw [List.foldl_cons, ih, List.mem_cons]
    have : x ∈ insertStr y m ↔ x ∈ m ∨ x = y := by
      unfold insertStr
      by_cases hy : y ∈ m
      · rw [if_pos hy]
        constructor
        · exact Or.inl
        · rintro (h | rfl)
          · exact h
          · exact hy
      · rw [if_neg hy]; simp
    rw [this, or_assoc]

theorem mem_deleteFold (l m : List String) (x : String) :
    x ∈ l.foldl (fun l x => deleteStr x l) m ↔ x ∈ m ∧ x ∉ l := by
  induction l generalizing m with
  | nil => simp
  | cons y l ih =>
    rw [List.foldl_cons, ih, List.mem_cons, not_or]
    unfold deleteStr
    rw [List.mem_filter]
    simp only [ne_eq, decide_not, Bool.not_eq_true', decide_eq_false_iff_not, and_assoc]

theorem ids_isSome {cat : Catalog} {r : Req} :
    (ids cat r).isSome = (resolve cat r).isSome := by
  cases h : resolve cat r with
  | none => rw [resolve_none h]; rfl
  | some rs =>
    obtain ⟨ds, ts, hid, _⟩ := resolve_some h
    rw [hid]; rfl

/-- A revoke that names no addresses leaves the account as it is. -/
theorem acc_revoke_plain {s : Meta} {A : String → Option Account} (cat : Catalog) (wr : Bool) (r : Req)
    (h : AccSim s A) (h1 : r.ips = []) (h2 : r.bns = []) (h3 : r.needAuth = none) :
    AccSim (dropPrivilege cat wr r s).2 A := by
  unfold dropPrivilege
  cases hu : s.users r.user with
  | none => exact h
  | some m =>
    cases resolve cat r with
    | none => exact h
    | some rs =>
      cases wr with
      | false => exact h
      | true =>
        have hm := h r.user
        rw [hu] at hm
        obtain ⟨a, ha, hok⟩ := AccRel_some hm
        refine (AccSim.put h (w := r.user) (v := some (revokeUser r rs m)) (b := some a) rfl ?_).congr ?_
        · refine ⟨hok.password, ?_, ?_, ?_, hok.ddl⟩
          · intro x
            show x ∈ r.ips.foldl _ m.ips ↔ _
            rw [h1]; exact hok.ips x
          · intro x
            show x ∈ r.bns.foldl _ m.bns ↔ _
            rw [h2]; exact hok.bns x
          · show r.needAuth.getD m.needAuth = _
            rw [h3]; exact hok.auth
        · funext u; by_cases e : u = r.user
          · subst e; simp [ha]
          · simp [e]

theorem acc_fold {α : Type} {A : String → Option Account} (f : Meta → α → Meta)
    (hf : ∀ s a, AccSim s A → AccSim (f s a) A) (l : List α) :
    ∀ s, AccSim s A → AccSim (l.foldl f s) A := by
  induction l with
  | nil => intro s h; exact h
  | cons a l ih => intro s h; exact ih _ (hf s a h)

theorem acc_step {s : Meta} {A : String → Option Account} (cat : Catalog) (c : Cmd) (h : AccSim s A) :
    AccSim (step cat true c s) (accStep cat c A) := by
  cases c with
  | create r =>
    show AccSim (createUser cat true r s).2 _
    unfold createUser
    rw [accStep]
    cases hpw : r.password with
    | none =>
      refine h.congr ?_
      funext u
      by_cases e : u = r.user ∧ (A u).isNone = true ∧ (ids cat r).isSome = true
      · have := Option.isNone_iff_eq_none.mp e.2.1
        rw [if_pos e, this]; rfl
      · rw [if_neg e]
    | some pw =>
      cases hu : s.users r.user with
      | some m =>
        have hm := h r.user
        rw [hu] at hm
        obtain ⟨a, ha, hok⟩ := AccRel_some hm
        refine h.congr ?_
        funext u
        by_cases e : u = r.user
        · subst e; simp [ha]
        · simp [e]
      | none =>
        have hm := h r.user
        rw [hu] at hm
        have ha := AccRel_none hm
        rw [ids_isSome]
        cases resolve cat r with
        | none => exact h.congr (by funext u; simp)
        | some rs =>
          refine (AccSim.put h (w := r.user) (v := some (freshUser r rs pw))
            (b := some ⟨pw, fun x => decide (x ∈ r.ips), fun x => decide (x ∈ r.bns),
              r.needAuth.getD false, r.ddl.getD false⟩) rfl ?_).congr ?_
          · exact ⟨rfl, fun x => by simp [freshUser], fun x => by simp [freshUser], rfl, rfl⟩
          · funext u; by_cases e : u = r.user
            · subst e; simp [ha]
            · simp [e]
  | drop r =>
    show AccSim (dropUser true r s).2 _
    unfold dropUser
    rw [accStep]
    cases hu : s.users r.user with
    | none =>
      have hm := h r.user
      rw [hu] at hm
      have ha := AccRel_none hm
      refine h.congr ?_
      funext u; by_cases e : u = r.user
      · subst e; simp [ha]
      · simp [e]
    | some m => exact AccSim.put h (w := r.user) (v := none) (b := none) rfl trivial
  | modify r =>
    show AccSim (modifyUser cat true r s).2 _
    unfold modifyUser
    rw [accStep]
    cases hpw : r.password with
    | none =>
      refine h.congr ?_
      funext u
      by_cases e : u = r.user ∧ (ids cat r).isSome = true
      · rw [if_pos e]; cases A u <;> rfl
      · rw [if_neg e]
    | some pw =>
      cases hu : s.users r.user with
      | none =>
        have hm := h r.user
        rw [hu] at hm
        have ha := AccRel_none hm
        refine h.congr ?_
        funext u; by_cases e : u = r.user
        · subst e; simp [ha]
        · simp [e]
      | some m =>
        have hm := h r.user
        rw [hu] at hm
        obtain ⟨a, ha, hok⟩ := AccRel_some hm
        rw [ids_isSome]
        cases resolve cat r with
        | none => exact h.congr (by funext u; simp)
        | some rs =>
          refine (AccSim.put h (w := r.user)
            (v := some { m with ns := rs.ns, password := pw, version := m.version + 1 })
            (b := some { a with password := pw }) rfl ?_).congr ?_
          · exact ⟨rfl, hok.ips, hok.bns, hok.auth, hok.ddl⟩
          · funext u; by_cases e : u = r.user
            · subst e; simp [ha]
            · simp [e]
  | grant r =>
    show AccSim (addPrivilege cat true r s).2 _
    unfold addPrivilege
    rw [accStep]
    cases hu : s.users r.user with
    | none =>
      have hm := h r.user
      rw [hu] at hm
      have ha := AccRel_none hm
      refine h.congr ?_
      funext u; by_cases e : u = r.user
      · subst e; simp [ha]
      · simp [e]
    | some m =>
      have hm := h r.user
      rw [hu] at hm
      obtain ⟨a, ha, hok⟩ := AccRel_some hm
      rw [ids_isSome]
      cases resolve cat r with
      | none => exact h.congr (by funext u; simp)
      | some rs =>
        refine (AccSim.put h (w := r.user) (v := some (grantUser r rs m))
          (b := some { a with
            ips := fun x => a.ips x || decide (x ∈ r.ips)
            bns := fun x => a.bns x || decide (x ∈ r.bns)
            auth := r.needAuth.getD a.auth
            ddl := r.ddl.getD a.ddl }) rfl ?_).congr ?_
        · refine ⟨hok.password, ?_, ?_, ?_, ?_⟩
          · intro x
            show x ∈ r.ips.foldl _ m.ips ↔ (a.ips x || decide (x ∈ r.ips)) = true
            rw [mem_insertFold, hok.ips]; simp
          · intro x
            show x ∈ r.bns.foldl _ m.bns ↔ (a.bns x || decide (x ∈ r.bns)) = true
            rw [mem_insertFold, hok.bns]; simp
          · show r.needAuth.getD m.needAuth = r.needAuth.getD a.auth
            rw [hok.auth]
          · show ((match r.ddl with | some b => some b | none => m.ddl) : Option Bool).getD false
              = r.ddl.getD a.ddl
            cases r.ddl with
            | none => exact hok.ddl
            | some b => rfl
        · funext u; by_cases e : u = r.user
          · subst e; simp [ha]
          · simp [e]
  | revoke r =>
    show AccSim (dropPrivilege cat true r s).2 _
    unfold dropPrivilege
    rw [accStep]
    cases hu : s.users r.user with
    | none =>
      have hm := h r.user
      rw [hu] at hm
      have ha := AccRel_none hm
      refine h.congr ?_
      funext u; by_cases e : u = r.user
      · subst e; simp [ha]
      · simp [e]
    | some m =>
      have hm := h r.user
      rw [hu] at hm
      obtain ⟨a, ha, hok⟩ := AccRel_some hm
      rw [ids_isSome]
      cases resolve cat r with
      | none => exact h.congr (by funext u; simp)
      | some rs =>
        refine (AccSim.put h (w := r.user) (v := some (revokeUser r rs m))
          (b := some { a with
            ips := fun x => a.ips x && !decide (x ∈ r.ips)
            bns := fun x => a.bns x && !decide (x ∈ r.bns)
            auth := r.needAuth.getD a.auth }) rfl ?_).congr ?_
        · refine ⟨hok.password, ?_, ?_, ?_, hok.ddl⟩
          · intro x
            show x ∈ r.ips.foldl _ m.ips ↔ (a.ips x && !decide (x ∈ r.ips)) = true
            rw [mem_deleteFold, hok.ips]; simp
          · intro x
            show x ∈ r.bns.foldl _ m.bns ↔ (a.bns x && !decide (x ∈ r.bns)) = true
            rw [mem_deleteFold, hok.bns]; simp
          · show r.needAuth.getD m.needAuth = r.needAuth.getD a.auth
            rw [hok.auth]
        · funext u; by_cases e : u = r.user
          · subst e; simp [ha]
          · simp [e]
  | dropDb ns db id =>
    exact acc_fold _ (fun s u hs => acc_revoke_plain cat true _ hs rfl rfl rfl) _ s h
  | dropTbl ns db t id =>
    exact acc_fold _ (fun s u hs => acc_revoke_plain cat true _ hs rfl rfl rfl) _ s h
  | prune =>
    intro u
    show AccRel (pruneOne cat true (s.users u)) (A u)
    have hm := h u
    cases hu : s.users u with
    | none => rw [hu] at hm; exact hm
    | some m =>
      rw [hu] at hm
      obtain ⟨a, ha, hok⟩ := AccRel_some hm
      rw [ha]
      unfold pruneOne
      dsimp only
      split
      · exact ⟨hok.password, hok.ips, hok.bns, hok.auth, hok.ddl⟩
      · exact hok

theorem acc_run (h : List Ev) : ∀ {s : Meta} {A : String → Option Account}, AccSim s A →
    AccSim (run h s) (accounts h A) := by
  induction h with
  | nil => intro s A hs; exact hs
  | cons e h ih =>
    intro s A hs
    show AccSim (run h (step e.cat e.wr e.cmd s)) (accounts h _)
    cases hw : e.wr with
    | false => rw [step_false]; exact ih hs
    | true => exact ih (acc_step e.cat e.cmd hs)

theorem AccSim_empty : AccSim Meta.empty (fun _ => none) := fun _ => trivial

end BaikalDB.Priv
