import Verif.Priv.Lemmas

/-! # The meta server follows the ledger -/

namespace BaikalDB.Priv

open Spec

/-! ## Reverse maps -/

theorem mem_addUser (u w : String) (ks : List Int) (k : Int) : ∀ f : Int → List String,
    w ∈ addUser f u ks k ↔ w ∈ f k ∨ (w = u ∧ k ∈ ks) := by
  induction ks with
  | nil => intro f; simp [addUser]
  | cons j ks ih =>
    intro f
    rw [addUser, ih]
    by_cases h : k = j
    · subst h
      simp only [if_true, List.mem_cons, true_or, and_true]
      by_cases hu : u ∈ f k
      · rw [if_pos hu]
        constructor
        · rintro (h | h)
          · exact Or.inl h
          · exact Or.inr h.1
        · rintro (h | h)
          · exact Or.inl h
          · subst h; exact Or.inl hu
      · rw [if_neg hu, List.mem_cons]
        constructor
        · rintro ((h | h) | h)
          · exact Or.inr h
          · exact Or.inl h
          · exact Or.inr h.1
        · rintro (h | h)
          · exact Or.inl (Or.inr h)
          · exact Or.inl (Or.inl h)
    · simp [h]

theorem mem_delUser (u w : String) (ks : List Int) (k : Int) : ∀ f : Int → List String,
    w ∈ delUser f u ks k ↔ w ∈ f k ∧ ¬ (w = u ∧ k ∈ ks) := by
  induction ks with
  | nil => intro f; simp [delUser]
  | cons j ks ih =>
    intro f
    rw [delUser, ih]
    by_cases h : k = j
    · subst h
      simp only [if_true, List.mem_cons, true_or, and_true, List.mem_filter, ne_eq, decide_not,
        Bool.not_eq_true', decide_eq_false_iff_not]
      constructor
      · rintro ⟨⟨h1, h2⟩, _⟩; exact ⟨h1, h2⟩
      · rintro ⟨h1, h2⟩; exact ⟨⟨h1, h2⟩, fun h => h2 h.1⟩
    · simp [h]

/-! ## Which objects list an account -/

/-- The account is in the reverse map of the object. -/
def listed (c : Cell) : Prop := c.known = true ∧ c.revoked = false

section
variable {κ : Type} [DecidableEq κ]

/-- The cells after a list of grants. -/
def grantAll (ps : List (Ent κ)) (C : κ → Cell) : κ → Cell :=
  ps.foldl (fun C p => at' C p.key (grantCell p.rw p.force p.acl p.name)) C

/-- The cells after a list of revokes. -/
def revokeAll (ps : List (Ent κ)) (C : κ → Cell) : κ → Cell :=
  ps.foldl (fun C p => at' C p.key (revokeCell p.rw p.acl p.name)) C

theorem insertAll_ok {ps : List (Ent κ)} {ms : List (Ent κ)} {C : κ → Cell}
    (h : CellsOk ms C) : CellsOk (insertAll ps ms).1 (grantAll ps C) := by
  induction ps generalizing ms C with
  | nil => exact h
  | cons p ps ih => exact ih (insertEnt_ok h)

theorem mem_insertedKeys {p : Ent κ} {ms : List (Ent κ)} {k : κ} :
    k ∈ insertedKeys p ms ↔ k = p.key ∧ p.key ∉ ms.map Ent.key := by
  unfold insertedKeys
  have : (ms.any (fun m => decide (m.key = p.key)) = true) ↔ p.key ∈ ms.map Ent.key := by
    simp [List.any_eq_true, List.mem_map]
  split
  · next h => simp [this.mp h]
  · next h =>
    have : p.key ∉ ms.map Ent.key := fun h' => h (this.mpr h')
    simp [this]

theorem listed_insertAll {ps : List (Ent κ)} {ms : List (Ent κ)} {C : κ → Cell}
    (h : CellsOk ms C) (k : κ) :
    listed (grantAll ps C k) ↔ listed (C k) ∨ k ∈ (insertAll ps ms).2 := by
  induction ps generalizing ms C with
  | nil => simp [grantAll, insertAll]
  | cons p ps ih =>
    show listed (grantAll ps _ k) ↔ _ ∨ k ∈ insertedKeys p ms ++ (insertAll ps (insertEnt p ms)).2
    rw [ih (insertEnt_ok h), List.mem_append, mem_insertedKeys, ← or_assoc]
    apply or_congr_left
    by_cases hk : k = p.key
    · subst hk
      rw [at', if_pos rfl]
      by_cases hm : p.key ∈ ms.map Ent.key
      · obtain ⟨m, hm', hmk⟩ := List.mem_map.mp hm
        have := (h.present m hm').known
        rw [hmk] at this
        simp [listed, grantCell, this, hm]
      · rw [h.absent _ hm]
        simp [listed, grantCell, Cell.empty, hm]
    · rw [at', if_neg hk]; simp [hk]

theorem mem_deletedKeys {p : Ent κ} {ms : List (Ent κ)} {k : κ} :
    k ∈ deletedKeys p ms ↔ k = p.key ∧ ∃ m ∈ ms, m.key = p.key ∧
      ∀ r, p.rw = some r → ¬ r.num < m.rwGet.num := by
  unfold deletedKeys
  have : (ms.any (fun m => decide (m.key = p.key) &&
      !lowers p m) = true) ↔ ∃ m ∈ ms, m.key = p.key ∧
      ∀ r, p.rw = some r → ¬ r.num < m.rwGet.num := by
    rw [List.any_eq_true]
    apply exists_congr; intro m
    apply and_congr_right; intro _
    rw [Bool.and_eq_true, decide_eq_true_eq]
    apply and_congr_right; intro _
    unfold lowers
    cases hr : p.rw <;> simp
  by_cases h : ∃ m ∈ ms, m.key = p.key ∧ ∀ r, p.rw = some r → ¬ r.num < m.rwGet.num
  · rw [if_pos (this.mpr h), List.mem_singleton]
    exact ⟨fun e => ⟨e, h⟩, fun e => e.1⟩
  · rw [if_neg (fun h' => h (this.mp h'))]
    simp only [List.not_mem_nil, h, and_false]

theorem listed_delete {p : Ent κ} {ms : List (Ent κ)} {C : κ → Cell} (h : CellsOk ms C) (k : κ) :
    listed (at' C p.key (revokeCell p.rw p.acl p.name) k) ↔
      listed (C k) ∧ k ∉ deletedKeys p ms := by
  rw [mem_deletedKeys]
  by_cases hk : k = p.key
  · subst hk
    rw [at', if_pos rfl]
    by_cases hm : p.key ∈ ms.map Ent.key
    · obtain ⟨m, hm', hmk⟩ := List.mem_map.mp hm
      have hc := h.present m hm'
      rw [hmk] at hc
      have huniq : ∀ m' ∈ ms, m'.key = p.key → m' = m := by
        intro m' h1 h2
        exact List.inj_on_of_nodup_map h.nodup h1 hm' (h2.trans hmk.symm)
      have hex : (∃ m ∈ ms, m.key = p.key ∧ ∀ r, p.rw = some r → ¬ r.num < m.rwGet.num) ↔
          ∀ r, p.rw = some r → ¬ r.num < m.rwGet.num := by
        constructor
        · rintro ⟨m', h1, h2, h3⟩; rw [← huniq m' h1 h2]; exact h3
        · intro h3; exact ⟨m, hm', hmk, h3⟩
      simp only [true_and, hex]
      have h2 := hc.two
      cases hr : p.rw with
      | none =>
        cases ha : p.acl with
        | none => simp [revokeCell, Cell.empty, listed]
        | some a => simp [revokeCell, listed, hc.known]
      | some r =>
        by_cases hlow : r = .read ∧ (C p.key).level = 2
        · have hw := h2.mp hlow.2
          simp [revokeCell, listed, revokeLevel, hlow, hw, RW.num, hc.known]
        · have hnot : ¬ r.num < m.rwGet.num := by
            intro hlt; apply hlow
            cases r <;> cases hmw : m.rwGet <;> rw [hmw] at hlt <;> simp [RW.num] at hlt
            exact ⟨rfl, h2.mpr hmw⟩
          simp only [revokeCell, listed, revokeLevel, if_neg hlow]
          simp only [Nat.lt_irrefl, decide_false, Bool.false_eq_true, false_and, false_iff,
            not_and]
          intro _ hall
          apply hall
          intro r' hr'; cases hr'; exact hnot
    · rw [h.absent _ hm, revokeCell_empty]
      simp [listed, Cell.empty]
  · rw [at', if_neg hk]; simp [hk]

theorem revokeAll_ok {ps : List (Ent κ)} {ms : List (Ent κ)} {C : κ → Cell} (h : CellsOk ms C)
    (hd : (ps.map Ent.key).Nodup)
    (hc : ∀ p ∈ ps, p.rw.isSome → p.acl = none ∧ ∀ b, (C p.key).bits b = false) :
    CellsOk (deleteAll ps ms).1 (revokeAll ps C) ∧
      ∀ k, listed (revokeAll ps C k) ↔ listed (C k) ∧ k ∉ (deleteAll ps ms).2 := by
  induction ps generalizing ms C with
  | nil => exact ⟨h, by simp [revokeAll, deleteAll]⟩
  | cons p ps ih =>
    simp only [List.map_cons, List.nodup_cons] at hd
    obtain ⟨h1, h2⟩ := ih (deleteEnt_ok h (hc p List.mem_cons_self)) hd.2 (by
      intro q hq
      have hne : q.key ≠ p.key := fun e => hd.1 (by rw [← e]; exact List.mem_map_of_mem hq)
      rw [at', if_neg hne]
      exact hc q (List.mem_cons_of_mem _ hq))
    refine ⟨h1, fun k => ?_⟩
    show listed (revokeAll ps _ k) ↔ _ ∧ k ∉ deletedKeys p ms ++ (deleteAll ps (deleteEnt p ms)).2
    rw [h2, listed_delete h, List.mem_append, not_or, and_assoc]

theorem insertAll_keys (ps : List (Ent κ)) :
    ∀ ms : List (Ent κ), ((ms ++ ps).map Ent.key).Nodup → (insertAll ps ms).2 = ps.map Ent.key := by
  induction ps with
  | nil => intro ms _; rfl
  | cons p ps ih =>
    intro ms hn
    have hp : p.key ∉ ms.map Ent.key := by
      rw [List.map_append, List.nodup_append] at hn
      intro h
      exact hn.2.2 _ h _ (by simp) rfl
    have hins : insertEnt p ms = ms ++ [p] := by
      have := insertAll_nil [p] ms (by
        refine List.Nodup.sublist ?_ hn
        simp only [List.map_append]
        exact List.Sublist.append_left (by simp) _)
      simpa [insertAll] using this
    have hk : insertedKeys p ms = [p.key] := by
      unfold insertedKeys
      rw [if_neg]
      intro h
      apply hp
      simpa [List.any_eq_true, List.mem_map] using h
    show insertedKeys p ms ++ (insertAll ps (insertEnt p ms)).2 = _
    rw [hins, ih _ (by simpa using hn), hk]; rfl

end

theorem grantDb_fold (ds : List (Int × Item)) (C : Int → Cell) :
    ds.foldl grantDb C = grantAll (ds.map dbEnt) C := by
  rw [grantAll, List.foldl_map]; rfl
theorem grantTbl_fold (ds : List ((Int × Int) × Item)) (C : Int × Int → Cell) :
    ds.foldl grantTbl C = grantAll (ds.map tblEnt) C := by
  rw [grantAll, List.foldl_map]; rfl
theorem revokeDb_fold (ds : List (Int × Item)) (C : Int → Cell) :
    ds.foldl revokeDb C = revokeAll (ds.map dbEnt) C := by
  rw [revokeAll, List.foldl_map]; rfl
theorem revokeTbl_fold (ds : List ((Int × Int) × Item)) (C : Int × Int → Cell) :
    ds.foldl revokeTbl C = revokeAll (ds.map tblEnt) C := by
  rw [revokeAll, List.foldl_map]; rfl

theorem dbEnt_keys (ds : List (Int × Item)) : (ds.map dbEnt).map Ent.key = ds.map (·.1) := by
  rw [List.map_map]; rfl
theorem tblEnt_keys (ds : List ((Int × Int) × Item)) :
    (ds.map tblEnt).map Ent.key = ds.map (·.1) := by
  rw [List.map_map]; rfl

/-! ## The relation -/

/-- A record agrees with the rights of the account. -/
structure RecOk (home : Int → Int) (m : UserPriv) (R : Rights) : Prop where
  super : m.super.getD false = R.super
  bits : ∀ b, (m.acl.getD 0).getLsbD b = R.bits b
  dbs : CellsOk m.dbs R.db
  tbls : CellsOk m.tbls R.tbl
  homes : ∀ e ∈ m.tbls, e.key.1 = home e.key.2

/-- The meta server agrees with the ledger. -/
structure Sim (home : Int → Int) (s : Meta) (L : Ledger) : Prop where
  dom : ∀ u, (s.users u).isSome = (L u).isSome
  recs : ∀ u m R, s.users u = some m → L u = some R → RecOk home m R
  disk : s.disk = s.users
  dbMap : ∀ k u, u ∈ s.dbUsers k ↔ ∃ R, L u = some R ∧ listed (R.db k)
  tblMap : ∀ t u, u ∈ s.tblUsers t ↔ ∃ R, L u = some R ∧ listed (R.tbl (home t, t))

theorem Sim_empty (home : Int → Int) : Sim home Meta.empty Ledger.empty :=
  ⟨fun _ => rfl, fun _ _ _ h => by simp [Meta.empty] at h, rfl,
    fun _ _ => by simp [Meta.empty, Ledger.empty], fun _ _ => by simp [Meta.empty, Ledger.empty]⟩

theorem tblOf_home {home : Int → Int} {cat : Catalog} (hh : Homes home cat) {ns : String}
    {is : List Item} {ts : List ((Int × Int) × Item)} (h : is.mapM (tblOf cat ns) = some ts) :
    ∀ p ∈ ts, p.1.1 = home p.1.2 := by
  induction is generalizing ts with
  | nil => simp only [List.mapM_nil, Option.pure_def, Option.some.injEq] at h; subst h; simp
  | cons i is ih =>
    rw [List.mapM_cons] at h
    cases h1 : tblOf cat ns i with
    | none => rw [h1] at h; cases h
    | some q =>
      cases h2 : is.mapM (tblOf cat ns) with
      | none => rw [h1, h2] at h; cases h
      | some qs =>
        rw [h1, h2] at h
        cases h
        intro p hp
        rcases List.mem_cons.mp hp with hp | hp
        · subst hp
          unfold tblOf at h1
          split at h1
          · next d t hd ht => cases h1; exact (hh _ _ _ _ _ hd ht).symm
          · cases h1
        · exact ih h2 p hp

theorem ids_home {home : Int → Int} {cat : Catalog} (hh : Homes home cat) {r : Req}
    {ds : List (Int × Item)} {ts : List ((Int × Int) × Item)} (h : ids cat r = some (ds, ts)) :
    ∀ p ∈ ts, p.1.1 = home p.1.2 := by
  unfold ids at h
  split at h
  · split at h
    · next ds' ts' h1 h2 => cases h; exact tblOf_home hh h2
    · cases h
  · cases h

/-- The image of keys that know their home under the second projection. -/
theorem mem_snd {home : Int → Int} {l : List (Int × Int)} (h : ∀ k ∈ l, k.1 = home k.2) (t : Int) :
    t ∈ l.map (·.2) ↔ (home t, t) ∈ l := by
  constructor
  · intro ht
    obtain ⟨⟨a, b⟩, hk, rfl⟩ := List.mem_map.mp ht
    have := h _ hk
    simp only at this
    rw [← this]; exact hk
  · intro ht; exact List.mem_map.mpr ⟨_, ht, rfl⟩

theorem insertAll_sub {κ : Type} [DecidableEq κ] (ps ms : List (Ent κ)) :
    ∀ k ∈ (insertAll ps ms).2, k ∈ ps.map Ent.key := by
  induction ps generalizing ms with
  | nil => intro k hk; cases hk
  | cons p ps ih =>
    intro k hk
    rcases List.mem_append.mp hk with hk | hk
    · rw [(mem_insertedKeys.mp hk).1]; exact List.mem_cons_self
    · exact List.mem_cons_of_mem _ (ih _ k hk)

theorem deleteAll_sub {κ : Type} [DecidableEq κ] (ps ms : List (Ent κ)) :
    ∀ k ∈ (deleteAll ps ms).2, k ∈ ps.map Ent.key := by
  induction ps generalizing ms with
  | nil => intro k hk; cases hk
  | cons p ps ih =>
    intro k hk
    rcases List.mem_append.mp hk with hk | hk
    · rw [(mem_deletedKeys.mp hk).1]; exact List.mem_cons_self
    · exact List.mem_cons_of_mem _ (ih _ k hk)

theorem insertAll_keys_sub {κ : Type} [DecidableEq κ] (ps ms : List (Ent κ)) :
    ∀ e ∈ (insertAll ps ms).1, e.key ∈ ms.map Ent.key ∨ e.key ∈ ps.map Ent.key := by
  induction ps generalizing ms with
  | nil => intro e he; exact Or.inl (List.mem_map_of_mem he)
  | cons p ps ih =>
    intro e he
    rcases ih _ e he with h | h
    · rw [insertEnt_keys] at h
      split at h
      · exact Or.inl h
      · rcases List.mem_append.mp h with h | h
        · exact Or.inl h
        · exact Or.inr (by rw [List.mem_singleton] at h; rw [h]; exact List.mem_cons_self)
    · exact Or.inr (List.mem_cons_of_mem _ h)

theorem deleteAll_keys_sub {κ : Type} [DecidableEq κ] (ps ms : List (Ent κ)) :
    ∀ e ∈ (deleteAll ps ms).1, e.key ∈ ms.map Ent.key := by
  induction ps generalizing ms with
  | nil => intro e he; exact List.mem_map_of_mem he
  | cons p ps ih =>
    intro e he
    have := ih _ e he
    obtain ⟨e', he', hk⟩ := List.mem_map.mp this
    obtain ⟨m, hm, hm'⟩ := List.mem_flatMap.mp he'
    rw [← hk, deleteOne_key hm']
    exact List.mem_map_of_mem hm

theorem grant_rec {home : Int → Int} {r : Req} {rs : Resolved} {m : UserPriv} {R : Rights}
    {ds : List (Int × Item)} {ts : List ((Int × Int) × Item)}
    (hd : rs.dbs = ds.map dbEnt) (ht : rs.tbls = ts.map tblEnt) (hR : RecOk home m R)
    (hh : ∀ p ∈ ts, p.1.1 = home p.1.2) : RecOk home (grantUser r rs m) (grantRights r ds ts R) := by
  refine ⟨?_, ?_, ?_, ?_, ?_⟩
  · show ((match r.super with | some b => some b | none => m.super) : Option Bool).getD false
      = r.super.getD R.super
    cases r.super with
    | none => exact hR.super
    | some b => rfl
  · intro b
    show _ = (R.bits b || inAcl r.acl b)
    rw [← hR.bits]
    cases h : r.acl <;> simp [grantUser, h, inAcl_some, inAcl_none]
  · show CellsOk (insertAll rs.dbs m.dbs).1 (ds.foldl grantDb R.db)
    rw [hd, grantDb_fold]; exact insertAll_ok hR.dbs
  · show CellsOk (insertAll rs.tbls m.tbls).1 (ts.foldl grantTbl R.tbl)
    rw [ht, grantTbl_fold]; exact insertAll_ok hR.tbls
  · intro e he
    rcases insertAll_keys_sub _ _ e he with h | h
    · obtain ⟨e', he', hk⟩ := List.mem_map.mp h
      rw [← hk]; exact hR.homes e' he'
    · rw [ht, tblEnt_keys] at h
      obtain ⟨p, hp, hk⟩ := List.mem_map.mp h
      rw [← hk]; exact hh p hp

theorem revoke_rec {home : Int → Int} {r : Req} {rs : Resolved} {m : UserPriv} {R : Rights}
    {ds : List (Int × Item)} {ts : List ((Int × Int) × Item)}
    (hd : rs.dbs = ds.map dbEnt) (ht : rs.tbls = ts.map tblEnt) (hR : RecOk home m R)
    (hc : Distinct ds ∧ Distinct ts ∧ (∀ p ∈ ds, CleanItem (R.db p.1) p.2) ∧
      (∀ p ∈ ts, CleanItem (R.tbl p.1) p.2)) :
    RecOk home (revokeUser r rs m) (revokeRights r ds ts R) := by
  refine ⟨hR.super, ?_, ?_, ?_, ?_⟩
  · intro b
    show _ = (R.bits b && !inAcl r.acl b)
    rw [← hR.bits]
    cases h : r.acl with
    | none => simp [revokeUser, h, inAcl_none]
    | some a =>
      rw [← bit_andnot]
      simp [revokeUser, h]
  · show CellsOk (deleteAll rs.dbs m.dbs).1 (ds.foldl revokeDb R.db)
    rw [hd]; exact deleteAll_dbs hR.dbs hc.1 hc.2.2.1
  · show CellsOk (deleteAll rs.tbls m.tbls).1 (ts.foldl revokeTbl R.tbl)
    rw [ht]; exact deleteAll_tbls hR.tbls hc.2.1 hc.2.2.2
  · intro e he
    obtain ⟨e', he', hk⟩ := List.mem_map.mp (deleteAll_keys_sub _ _ e he)
    rw [← hk]; exact hR.homes e' he'

end BaikalDB.Priv
