import Verif.Priv.Step

/-! # What the checks of a SQL node answer -/

namespace BaikalDB.Priv

open Spec

section
variable {α κ β : Type} [DecidableEq κ]

omit [DecidableEq κ] in
theorem lookup_none_iff [BEq κ] [LawfulBEq κ] (l : List (κ × β)) (k : κ) :
    l.lookup k = none ↔ ∀ p ∈ l, p.1 ≠ k := by
  induction l with
  | nil => simp
  | cons p l ih =>
    obtain ⟨a, b⟩ := p
    rw [List.lookup_cons]
    by_cases h : k = a
    · subst h; simp
    · have : (k == a) = false := by simpa using h
      simp only [this, ih, List.mem_cons, forall_eq_or_imp, ne_eq]
      exact ⟨fun h' => ⟨fun e => h e.symm, h'⟩, fun h' => h'.2⟩

omit [DecidableEq κ] in
theorem lookup_mem [BEq κ] [LawfulBEq κ] {l : List (κ × β)} {k : κ} {v : β}
    (h : l.lookup k = some v) : (k, v) ∈ l := by
  induction l with
  | nil => cases h
  | cons p l ih =>
    obtain ⟨a, b⟩ := p
    rw [List.lookup_cons] at h
    by_cases hk : k = a
    · subst hk; simp at h; subst h; exact List.mem_cons_self
    · have : (k == a) = false := by simpa using hk
      rw [this] at h
      exact List.mem_cons_of_mem _ (ih h)

omit [DecidableEq κ] in
theorem lookup_of_mem [BEq κ] [LawfulBEq κ] {l : List (κ × β)} (hn : (l.map (·.1)).Nodup) {k : κ} {v : β}
    (h : (k, v) ∈ l) : l.lookup k = some v := by
  induction l with
  | nil => cases h
  | cons p l ih =>
    obtain ⟨a, b⟩ := p
    rw [List.lookup_cons]
    simp only [List.map_cons, List.nodup_cons] at hn
    rcases List.mem_cons.mp h with e | h'
    · cases e; simp
    · have : k ≠ a := by rintro rfl; exact hn.1 (List.mem_map.mpr ⟨(k, v), h', rfl⟩)
      have : (k == a) = false := by simpa using this
      rw [this]; exact ih hn.2 h'

omit [DecidableEq κ] in
theorem lookup_iff [BEq κ] [LawfulBEq κ] {l : List (κ × β)} (hn : (l.map (·.1)).Nodup) (k : κ) (v : β) :
    l.lookup k = some v ↔ (k, v) ∈ l := ⟨lookup_mem, lookup_of_mem hn⟩

end

theorem nodup_rev_map {α κ β : Type} {l : List α} (f : α → κ) (g : α → β) (h : (l.map f).Nodup) :
    (((l.map (fun e => (f e, g e))).reverse).map (·.1)).Nodup := by
  rw [List.map_reverse, List.nodup_reverse, List.map_map]; exact h

theorem nodup_aclMap {κ : Type} (f : κ → Int) {l : List (Ent κ)}
    (h : (l.map (fun e => f e.key)).Nodup) : ((aclMap f l).map (·.1)).Nodup := by
  unfold aclMap
  rw [List.map_reverse, List.nodup_reverse]
  induction l with
  | nil => simp
  | cons e l ih =>
    simp only [List.map_cons, List.nodup_cons] at h
    cases ha : e.acl with
    | none => simpa [List.filterMap_cons, ha] using ih h.2
    | some a =>
      simp only [List.filterMap_cons, ha, Option.map_some, List.map_cons, List.nodup_cons]
      refine ⟨?_, ih h.2⟩
      intro hin
      obtain ⟨p, hp, hk⟩ := List.mem_map.mp hin
      obtain ⟨e', he', hp'⟩ := List.mem_filterMap.mp hp
      cases ha' : e'.acl with
      | none => rw [ha'] at hp'; cases hp'
      | some a' =>
        rw [ha'] at hp'; cases hp'
        exact h.1 (List.mem_map.mpr ⟨e', he', hk⟩)

theorem mem_aclMap {κ : Type} (f : κ → Int) (l : List (Ent κ)) (k : Int) (a : Acl) :
    (k, a) ∈ aclMap f l ↔ ∃ e ∈ l, f e.key = k ∧ e.acl = some a := by
  unfold aclMap
  rw [List.mem_reverse, List.mem_filterMap]
  apply exists_congr; intro e
  apply and_congr_right; intro _
  simp only [Option.map_eq_some_iff, Prod.mk.injEq]
  constructor
  · rintro ⟨a', h1, h2, rfl⟩; exact ⟨h2, h1⟩
  · rintro ⟨h1, h2⟩; exact ⟨a, h2, h1, rfl⟩

theorem tbl_nodup {home : Int → Int} {m : UserPriv} {R : Rights} (h : RecOk home m R) :
    (m.tbls.map (fun e => e.key.2)).Nodup := by
  have : (m.tbls.map Ent.key).Nodup := h.tbls.nodup
  have hh := h.homes
  revert this hh
  generalize m.tbls = l
  intro hn hh
  induction l with
  | nil => simp
  | cons e l ih =>
    simp only [List.map_cons, List.nodup_cons] at hn ⊢
    refine ⟨?_, ih hn.2 (fun e he => hh e (List.mem_cons_of_mem _ he))⟩
    intro hin
    obtain ⟨e', he', hk⟩ := List.mem_map.mp hin
    apply hn.1
    refine List.mem_map.mpr ⟨e', he', Prod.ext ?_ hk⟩
    rw [hh e' (List.mem_cons_of_mem _ he'), hh e List.mem_cons_self, hk]

/-! ## One entry per object -/

theorem db_lookup {home : Int → Int} {m : UserPriv} {R : Rights} (h : RecOk home m R) {infoDb db : Int}
    (hne : db ≠ infoDb) (r : RW) :
    (dbMap infoDb m.dbs).lookup db = some r ↔ ∃ e ∈ m.dbs, e.key = db ∧ e.rwGet = r := by
  unfold dbMap
  rw [List.lookup_cons]
  have : (db == infoDb) = false := by simpa using hne
  rw [this, lookup_iff (nodup_rev_map Ent.key Ent.rwGet h.dbs.nodup), List.mem_reverse, List.mem_map]
  simp [Prod.ext_iff]

theorem tbl_lookup {home : Int → Int} {m : UserPriv} {R : Rights} (h : RecOk home m R) (t : Int)
    (r : RW) :
    ((m.tbls.map (fun e => (e.key.2, e.rwGet))).reverse).lookup t = some r ↔
      ∃ e ∈ m.tbls, e.key.2 = t ∧ e.rwGet = r := by
  rw [lookup_iff (nodup_rev_map (fun e : Ent (Int × Int) => e.key.2) Ent.rwGet (tbl_nodup h)),
    List.mem_reverse, List.mem_map]
  simp [Prod.ext_iff]

theorem known_iff {κ : Type} [DecidableEq κ] {ms : List (Ent κ)} {C : κ → Cell} (h : CellsOk ms C)
    (k : κ) : (C k).known = true ↔ ∃ e ∈ ms, e.key = k := by
  constructor
  · intro hk
    by_contra hno
    rw [h.absent k (by
      intro hin; obtain ⟨e, he, e2⟩ := List.mem_map.mp hin; exact hno ⟨e, he, e2⟩)] at hk
    simp [Cell.empty] at hk
  · rintro ⟨e, he, rfl⟩; exact (h.present e he).known

theorem two_iff {κ : Type} [DecidableEq κ] {ms : List (Ent κ)} {C : κ → Cell} (h : CellsOk ms C)
    (k : κ) : (C k).level = 2 ↔ ∃ e ∈ ms, e.key = k ∧ e.rwGet = .write := by
  constructor
  · intro hk
    by_cases hin : k ∈ ms.map Ent.key
    · obtain ⟨e, he, rfl⟩ := List.mem_map.mp hin
      exact ⟨e, he, rfl, (h.present e he).two.mp hk⟩
    · rw [h.absent k hin] at hk; simp [Cell.empty] at hk
  · rintro ⟨e, he, rfl, hw⟩; exact (h.present e he).two.mpr hw

theorem bits_iff {κ : Type} [DecidableEq κ] {ms : List (Ent κ)} {C : κ → Cell} (h : CellsOk ms C)
    (k : κ) (b : Nat) : (C k).bits b = true ↔
      ∃ e ∈ ms, e.key = k ∧ ∃ a, e.acl = some a ∧ a.getLsbD b = true := by
  constructor
  · intro hk
    by_cases hin : k ∈ ms.map Ent.key
    · obtain ⟨e, he, rfl⟩ := List.mem_map.mp hin
      have := (h.present e he).bits b
      rw [hk] at this
      cases ha : e.acl with
      | none => simp [Ent.aclGet, ha] at this
      | some a => exact ⟨e, he, rfl, a, ha, by simpa [Ent.aclGet, ha] using this.symm⟩
    · rw [h.absent k hin] at hk; simp [Cell.empty] at hk
  · rintro ⟨e, he, rfl, a, ha, hb⟩
    rw [(h.present e he).bits b]; simpa [Ent.aclGet, ha] using hb

theorem mode_iff {κ : Type} [DecidableEq κ] {ms : List (Ent κ)} {C : κ → Cell} (h : CellsOk ms C)
    (k : κ) : (C k).mode = true ↔ ∃ e ∈ ms, e.key = k ∧ ∃ a, e.acl = some a := by
  constructor
  · intro hk
    by_cases hin : k ∈ ms.map Ent.key
    · obtain ⟨e, he, rfl⟩ := List.mem_map.mp hin
      rw [(h.present e he).mode] at hk
      exact ⟨e, he, rfl, Option.isSome_iff_exists.mp hk⟩
    · rw [h.absent k hin] at hk; simp [Cell.empty] at hk
  · rintro ⟨e, he, rfl, a, ha⟩
    rw [(h.present e he).mode, ha]; rfl

theorem tbl_key {home : Int → Int} {m : UserPriv} {R : Rights} (h : RecOk home m R) {db t : Int}
    (hh : home t = db) {e : Ent (Int × Int)} (he : e ∈ m.tbls) : e.key.2 = t ↔ e.key = (db, t) := by
  constructor
  · intro hk
    refine Prod.ext ?_ hk
    rw [h.homes e he, hk, hh]
  · intro hk; rw [hk]

/-! ## Sets of privileges -/

theorem covers_iff (have' need : Acl) :
    covers have' need = true ↔ ∀ b, need.getLsbD b = true → have'.getLsbD b = true := by
  unfold covers
  rw [decide_eq_true_eq]
  constructor
  · intro h b hb
    rw [h, BitVec.getLsbD_and] at hb
    simp at hb; exact hb.2
  · intro h
    apply BitVec.eq_of_getLsbD_eq
    intro b _
    rw [BitVec.getLsbD_and]
    cases hb : need.getLsbD b with
    | false => rfl
    | true => simp [h b hb]

/-- The set of privileges the code asks for is the documented one. -/
theorem need_iff (op : Op) (b : Nat) : (requireAcl op).getLsbD b = true ↔ b ∈ needs op := by
  by_cases hb : b < 32
  · have : ∀ c : Fin 32, (requireAcl op).getLsbD c.1 = true ↔ c.1 ∈ needs op := by
      cases op <;> decide +kernel
    exact this ⟨b, hb⟩
  · have h1 : (requireAcl op).getLsbD b = false := BitVec.getLsbD_of_ge _ _ (by omega)
    rw [h1]
    simp only [Bool.false_eq_true, false_iff]
    intro hin
    apply hb
    cases op <;> simp only [needs, List.mem_singleton, List.not_mem_nil] at hin <;> omega

theorem covers_bits {have' : Acl} {C : Nat → Bool} (h : ∀ b, have'.getLsbD b = C b) (op : Op) :
    covers have' (requireAcl op) = true ↔ ∀ b ∈ needs op, C b = true := by
  rw [covers_iff]
  constructor
  · intro h' b hb; rw [← h]; exact h' b ((need_iff op b).mpr hb)
  · intro h' b hb; rw [h]; exact h' b ((need_iff op b).mp hb)

theorem exists_need {op : Op} (h : needs op ≠ []) : ∃ b, b ∈ needs op := by
  cases hn : needs op with
  | nil => exact absurd hn h
  | cons b l => exact ⟨b, by simp⟩

/-- What an optional entry of a map covers. -/
def coversOpt (o : Option Acl) (need : Acl) : Bool :=
  match o with
  | some a => covers a need
  | none => false

/-- `contain_privs` answers whether the privileges are held. -/
theorem containPrivs_iff {home : Int → Int} {m : UserPriv} {R : Rights} (h : RecOk home m R)
    {infoDb : Int} {bns : Bns} {last : List String} {db tbl : Int} (hdb : db ≠ -1) (htb : tbl ≠ -1)
    (hh : home tbl = db) (op : Op) :
    containPrivs (buildInfo infoDb bns last m) (requireAcl op) db tbl = true ↔
      Held R (needs op) db tbl := by
  have h1 : covers (m.acl.getD 0) (requireAcl op) = true ↔ ∀ b ∈ needs op, R.bits b = true :=
    covers_bits h.bits op
  have hnd : ((aclMap (fun k => k) m.dbs).map (·.1)).Nodup := nodup_aclMap (fun k : Int => k) h.dbs.nodup
  have hnt : ((aclMap (fun k : Int × Int => k.2) m.tbls).map (·.1)).Nodup :=
    nodup_aclMap (fun k : Int × Int => k.2) (tbl_nodup h)
  by_cases hne : needs op = []
  · have : covers (m.acl.getD 0) (requireAcl op) = true := h1.mpr (by rw [hne]; simp)
    constructor
    · intro _; left; rw [hne]; simp
    · intro _; unfold containPrivs
      rw [if_pos]; exact this
  · obtain ⟨b0, hb0⟩ := exists_need hne
    have h2 : coversOpt ((aclMap (fun k => k) m.dbs).lookup db) (requireAcl op) = true ↔
        ∀ b ∈ needs op, (R.db db).bits b = true := by
      cases hl : (aclMap (fun k => k) m.dbs).lookup db with
      | none =>
        simp only [coversOpt, Bool.false_eq_true, false_iff]
        intro hall
        obtain ⟨e, he, hk, a, ha, _⟩ := (bits_iff h.dbs db b0).mp (hall b0 hb0)
        exact (lookup_none_iff _ _).mp hl (db, a) ((mem_aclMap _ _ _ _).mpr ⟨e, he, hk, ha⟩) rfl
      | some a =>
        obtain ⟨e, he, hk, ha⟩ := (mem_aclMap _ _ _ _).mp (lookup_mem hl)
        have hk : e.key = db := hk
        apply covers_bits
        intro b
        rw [← hk, (h.dbs.present e he).bits, Ent.aclGet, ha]; rfl
    have h3 : coversOpt ((aclMap (fun k : Int × Int => k.2) m.tbls).lookup tbl) (requireAcl op) = true ↔
        ∀ b ∈ needs op, (R.tbl (db, tbl)).bits b = true := by
      cases hl : (aclMap (fun k : Int × Int => k.2) m.tbls).lookup tbl with
      | none =>
        simp only [coversOpt, Bool.false_eq_true, false_iff]
        intro hall
        obtain ⟨e, he, hk, a, ha, _⟩ := (bits_iff h.tbls (db, tbl) b0).mp (hall b0 hb0)
        exact (lookup_none_iff _ _).mp hl (tbl, a)
          ((mem_aclMap _ _ _ _).mpr ⟨e, he, by rw [hk], ha⟩) rfl
      | some a =>
        obtain ⟨e, he, hk, ha⟩ := (mem_aclMap _ _ _ _).mp (lookup_mem hl)
        have hk := (tbl_key h hh he).mp hk
        apply covers_bits
        intro b
        rw [← hk, (h.tbls.present e he).bits, Ent.aclGet, ha]; rfl
    have : containPrivs (buildInfo infoDb bns last m) (requireAcl op) db tbl =
        (covers (m.acl.getD 0) (requireAcl op) ||
        (coversOpt ((aclMap (fun k => k) m.dbs).lookup db) (requireAcl op) ||
        coversOpt ((aclMap (fun k : Int × Int => k.2) m.tbls).lookup tbl) (requireAcl op))) := by
      unfold containPrivs coversOpt
      show (if covers (m.acl.getD 0) (requireAcl op) = true then true else
        if (decide (db ≠ -1) && (match (aclMap (fun k => k) m.dbs).lookup db with
          | some a => covers a (requireAcl op) | none => false)) = true then true
        else if (decide (tbl ≠ -1) && (match (aclMap (fun k : Int × Int => k.2) m.tbls).lookup tbl with
          | some a => covers a (requireAcl op) | none => false)) = true then true else false) = _
      simp only [hdb, htb, ne_eq, not_false_eq_true, decide_true, Bool.true_and]
      cases covers (m.acl.getD 0) (requireAcl op) <;> simp
    rw [this, Bool.or_eq_true, Bool.or_eq_true, h1, h2, h3]
    rfl

/-! ## The two kinds of check -/

theorem count_le_one (l : List (Int × Acl)) (k : Int) : count l k ≤ 1 := by
  unfold count; split <;> omega

theorem allowOp_mode {home : Int → Int} {m : UserPriv} {R : Rights} (h : RecOk home m R)
    {infoDb : Int} {bns : Bns} {last : List String} {db tbl : Int}
    (hh : home tbl = db) (op : Op) (name : String) :
    allowOp (buildInfo infoDb bns last m) op db tbl name =
      if (R.tbl (db, tbl)).mode then containPrivs (buildInfo infoDb bns last m) (requireAcl op) db tbl
      else allowV1 (buildInfo infoDb bns last m) op db tbl name := by
  unfold allowOp
  have hnt : ((aclMap (fun k : Int × Int => k.2) m.tbls).map (·.1)).Nodup :=
    nodup_aclMap (fun k : Int × Int => k.2) (tbl_nodup h)
  have hcount : (decide (0 < count (buildInfo infoDb bns last m).aclTbl tbl)) = (R.tbl (db, tbl)).mode := by
    rw [Bool.eq_iff_iff, decide_eq_true_eq, mode_iff h.tbls]
    show 0 < count (aclMap (fun k : Int × Int => k.2) m.tbls) tbl ↔ _
    constructor
    · intro hc
      cases hl : (aclMap (fun k : Int × Int => k.2) m.tbls).lookup tbl with
      | none => simp [count, hl] at hc
      | some a =>
        obtain ⟨e, he, hk, ha⟩ := (mem_aclMap _ _ _ _).mp (lookup_mem hl)
        exact ⟨e, he, (tbl_key h hh he).mp hk, a, ha⟩
    · rintro ⟨e, he, hk, a, ha⟩
      have := lookup_of_mem hnt ((mem_aclMap (fun k : Int × Int => k.2) m.tbls tbl a).mpr
        ⟨e, he, by rw [hk], ha⟩)
      simp [count, this]
  have hdb0 : decide (1 < count (buildInfo infoDb bns last m).aclDb db) = false := by
    have := count_le_one (buildInfo infoDb bns last m).aclDb db
    simpa using this
  rw [hcount, hdb0, Bool.false_or]
  by_cases hm : (R.tbl (db, tbl)).mode = true
  · have hv : v2Valid (buildInfo infoDb bns last m) = true := by
      obtain ⟨e, he, hk, a, ha⟩ := (mode_iff h.tbls _).mp hm
      have hmem := (mem_aclMap (fun k : Int × Int => k.2) m.tbls tbl a).mpr ⟨e, he, by rw [hk], ha⟩
      have : 0 < (buildInfo infoDb bns last m).aclTbl.length := List.length_pos_of_mem hmem
      simp [v2Valid, this]
    simp [hm, hv]
  · simp [hm]

/-- The account may do `op` by its levels, at the database or at the table. -/
def ByLevel (R : Rights) (op : Op) (db tbl : Int) : Prop :=
  if op = .select then (R.db db).known = true ∨ (R.tbl (db, tbl)).known = true
  else (R.db db).level = 2 ∨ (R.tbl (db, tbl)).level = 2

/-- The account may do `op` by its level at some table that has been called `name`. -/
def ByName (R : Rights) (op : Op) (name : String) : Prop :=
  ∃ k, (R.tbl k).names name = true ∧
    (if op = .select then (R.tbl k).known = true else (R.tbl k).level = 2)

theorem allowV1_complete {home : Int → Int} {m : UserPriv} {R : Rights} (h : RecOk home m R)
    {infoDb : Int} {bns : Bns} {last : List String} {db tbl : Int} (hdb : db ≠ infoDb)
    (op : Op) (name : String)
    (hok : R.super = true ∨ ByLevel R op db tbl) :
    allowV1 (buildInfo infoDb bns last m) op db tbl name = true := by
  have hs : (buildInfo infoDb bns last m).super = R.super := h.super
  unfold allowV1
  rw [hs]
  rcases hok with hok | hok
  · simp [hok]
  · by_cases hsup : R.super = true
    · simp [hsup]
    · rw [if_neg hsup]
      unfold ByLevel at hok
      by_cases hop : op = .select
      · rw [if_pos hop] at hok ⊢
        unfold allowRead
        rcases hok with hok | hok
        · obtain ⟨e, he, hk⟩ := (known_iff h.dbs db).mp hok
          have := (db_lookup h hdb e.rwGet).mpr ⟨e, he, hk, rfl⟩
          rw [if_pos]
          show ((dbMap infoDb m.dbs).lookup db).isSome = true
          rw [this]; rfl
        · obtain ⟨e, he, hk⟩ := (known_iff h.tbls _).mp hok
          have := (tbl_lookup h tbl e.rwGet).mpr ⟨e, he, by rw [hk], rfl⟩
          split
          · rfl
          · rw [if_pos]
            show (((m.tbls.map (fun e => (e.key.2, e.rwGet))).reverse).lookup tbl).isSome = true
            rw [this]; rfl
      · rw [if_neg hop] at hok ⊢
        unfold allowWrite
        rcases hok with hok | hok
        · obtain ⟨e, he, hk, hw⟩ := (two_iff h.dbs db).mp hok
          rw [if_pos]
          exact (db_lookup h hdb .write).mpr ⟨e, he, hk, hw⟩
        · obtain ⟨e, he, hk, hw⟩ := (two_iff h.tbls _).mp hok
          split
          · rfl
          · rw [if_pos]
            exact (tbl_lookup h tbl .write).mpr ⟨e, he, by rw [hk], hw⟩

theorem allowV1_sound {home : Int → Int} {m : UserPriv} {R : Rights} (h : RecOk home m R)
    {infoDb : Int} {bns : Bns} {last : List String} {db tbl : Int} (hdb : db ≠ infoDb)
    (hh : home tbl = db) (op : Op) (name : String)
    (hok : allowV1 (buildInfo infoDb bns last m) op db tbl name = true) :
    R.super = true ∨ ByLevel R op db tbl ∨ ByName R op name := by
  have hs : (buildInfo infoDb bns last m).super = R.super := h.super
  unfold allowV1 at hok
  rw [hs] at hok
  by_cases hsup : R.super = true
  · exact Or.inl hsup
  right
  rw [if_neg hsup] at hok
  unfold ByLevel ByName
  by_cases hop : op = .select
  · rw [if_pos hop] at hok
    simp only [hop, if_true]
    unfold allowRead at hok
    split at hok
    · next h1 =>
      obtain ⟨r, hr⟩ := Option.isSome_iff_exists.mp h1
      obtain ⟨e, he, hk, _⟩ := (db_lookup h hdb r).mp hr
      exact Or.inl (Or.inl ((known_iff h.dbs db).mpr ⟨e, he, hk⟩))
    · split at hok
      · next h1 =>
        obtain ⟨r, hr⟩ := Option.isSome_iff_exists.mp h1
        obtain ⟨e, he, hk, _⟩ := (tbl_lookup h tbl r).mp hr
        exact Or.inl (Or.inr ((known_iff h.tbls _).mpr ⟨e, he, (tbl_key h hh he).mp hk⟩))
      · split at hok
        · next h1 =>
          obtain ⟨r, hr⟩ := Option.isSome_iff_exists.mp h1
          have := lookup_mem hr
          obtain ⟨e, he, hk⟩ := List.mem_map.mp (List.mem_reverse.mp this)
          cases hk
          exact Or.inr ⟨e.key, (h.tbls.present e he).name, (h.tbls.present e he).known⟩
        · cases hok
  · rw [if_neg hop] at hok
    simp only [hop, if_false]
    unfold allowWrite at hok
    split at hok
    · next h1 =>
      obtain ⟨e, he, hk, hw⟩ := (db_lookup h hdb .write).mp h1
      exact Or.inl (Or.inl ((two_iff h.dbs db).mpr ⟨e, he, hk, hw⟩))
    · split at hok
      · next h1 =>
        obtain ⟨e, he, hk, hw⟩ := (tbl_lookup h tbl .write).mp h1
        exact Or.inl (Or.inr ((two_iff h.tbls _).mpr ⟨e, he, (tbl_key h hh he).mp hk, hw⟩))
      · split at hok
        · next h1 =>
          have := lookup_mem h1
          obtain ⟨e, he, hk⟩ := List.mem_map.mp (List.mem_reverse.mp this)
          simp only [Prod.mk.injEq] at hk
          refine Or.inr ⟨e.key, ?_, (two_iff h.tbls _).mpr ⟨e, he, rfl, hk.2⟩⟩
          rw [← hk.1]; exact (h.tbls.present e he).name
        · cases hok

/-! ## Versions -/

/-- The record is as it was, or its version has gone up. -/
def Newer (m m' : UserPriv) : Prop := m' = m ∨ m.version < m'.version

theorem Newer.trans {a b c : UserPriv} (h1 : Newer a b) (h2 : Newer b c) : Newer a c := by
  rcases h1 with rfl | h1
  · exact h2
  · rcases h2 with rfl | h2
    · exact Or.inr h1
    · exact Or.inr (by omega)

/-- Whatever the record of `u` was, it is kept or gets a higher version. -/
def Keeps (u : String) (s s' : Meta) : Prop :=
  ∀ m, s.users u = some m → ∃ m', s'.users u = some m' ∧ Newer m m'

theorem Keeps.refl (u : String) (s : Meta) : Keeps u s s := fun m h => ⟨m, h, Or.inl rfl⟩

theorem Keeps.trans {u : String} {a b c : Meta} (h1 : Keeps u a b) (h2 : Keeps u b c) : Keeps u a c := by
  intro m hm
  obtain ⟨m', h', n'⟩ := h1 m hm
  obtain ⟨m'', h'', n''⟩ := h2 m' h'
  exact ⟨m'', h'', n'.trans n''⟩

theorem Keeps.put {u : String} {s s' : Meta} {w : String} {m1 : UserPriv}
    (hs : s'.users = setUser s.users w (some m1))
    (hv : ∀ m, s.users w = some m → m.version < m1.version) : Keeps u s s' := by
  intro m hm
  by_cases e : u = w
  · subst e
    exact ⟨m1, by rw [hs, setUser_self], Or.inr (hv m hm)⟩
  · exact ⟨m, by rw [hs, setUser_ne _ _ e]; exact hm, Or.inl rfl⟩

theorem keeps_revoke (u : String) (cat : Catalog) (wr : Bool) (r : Req) (s : Meta) :
    Keeps u s (dropPrivilege cat wr r s).2 := by
  unfold dropPrivilege
  cases hu : s.users r.user with
  | none => exact Keeps.refl u s
  | some m =>
    cases hr : resolve cat r with
    | none => exact Keeps.refl u s
    | some rs =>
      cases wr with
      | false => exact Keeps.refl u s
      | true =>
        refine Keeps.put (w := r.user) (m1 := revokeUser r rs m) rfl ?_
        intro m' h'; rw [hu] at h'; cases h'
        show m.version < m.version + 1
        omega

theorem keeps_fold {α : Type} (u : String) (f : Meta → α → Meta) (h : ∀ s a, Keeps u s (f s a))
    (l : List α) (s : Meta) : Keeps u s (l.foldl f s) := by
  induction l generalizing s with
  | nil => exact Keeps.refl u s
  | cons a l ih => exact (h s a).trans (ih _)

theorem keeps_step (u : String) (cat : Catalog) (wr : Bool) (c : Cmd) (s : Meta)
    (hd : ∀ r, c = .drop r → r.user ≠ u) : Keeps u s (step cat wr c s) := by
  cases c with
  | create r =>
    show Keeps u s (createUser cat wr r s).2
    unfold createUser
    cases r.password with
    | none => exact Keeps.refl u s
    | some pw =>
      cases hu : s.users r.user with
      | some m => exact Keeps.refl u s
      | none =>
        cases resolve cat r with
        | none => exact Keeps.refl u s
        | some rs =>
          cases wr with
          | false => exact Keeps.refl u s
          | true =>
            refine Keeps.put (w := r.user) (m1 := freshUser r rs pw) rfl ?_
            intro m' h'; rw [hu] at h'; cases h'
  | drop r =>
    show Keeps u s (dropUser wr r s).2
    unfold dropUser
    cases hu : s.users r.user with
    | none => exact Keeps.refl u s
    | some m =>
      cases wr with
      | false => exact Keeps.refl u s
      | true =>
        intro m' h'
        exact ⟨m', by
          show setUser s.users r.user none u = some m'
          rw [setUser_ne _ _ (fun e => hd r rfl e.symm)]; exact h', Or.inl rfl⟩
  | modify r =>
    show Keeps u s (modifyUser cat wr r s).2
    unfold modifyUser
    cases r.password with
    | none => exact Keeps.refl u s
    | some pw =>
      cases hu : s.users r.user with
      | none => exact Keeps.refl u s
      | some m =>
        cases resolve cat r with
        | none => exact Keeps.refl u s
        | some rs =>
          cases wr with
          | false => exact Keeps.refl u s
          | true =>
            refine Keeps.put (w := r.user)
              (m1 := { m with ns := rs.ns, password := pw, version := m.version + 1 }) rfl ?_
            intro m' h'; rw [hu] at h'; cases h'
            show m.version < m.version + 1
            omega
  | grant r =>
    show Keeps u s (addPrivilege cat wr r s).2
    unfold addPrivilege
    cases hu : s.users r.user with
    | none => exact Keeps.refl u s
    | some m =>
      cases resolve cat r with
      | none => exact Keeps.refl u s
      | some rs =>
        cases wr with
        | false => exact Keeps.refl u s
        | true =>
          refine Keeps.put (w := r.user) (m1 := grantUser r rs m) rfl ?_
          intro m' h'; rw [hu] at h'; cases h'
          show m.version < m.version + 1
          omega
  | revoke r => exact keeps_revoke u cat wr r s
  | dropDb ns db id => exact keeps_fold u _ (fun s w => keeps_revoke u cat wr _ s) _ s
  | dropTbl ns db t id => exact keeps_fold u _ (fun s w => keeps_revoke u cat wr _ s) _ s
  | prune =>
    intro m hm
    refine ⟨if hasInvalid cat m && wr then pruneUser cat m else m, ?_, ?_⟩
    · show pruneOne cat wr (s.users u) = _
      rw [hm]; unfold pruneOne; dsimp only; split <;> rfl
    · split
      · right; show m.version < m.version + 1; omega
      · exact Or.inl rfl

/-! ## Heartbeats -/

theorem buildInfo_open (infoDb : Int) (bns bns' : Bns) (last last' : List String) (m : UserPriv)
    (h : m.needAuth = false) : buildInfo infoDb bns last m = buildInfo infoDb bns' last' m := by
  simp [buildInfo, authSet, h]

/-- What a node knows of `u` is an earlier record, or the present one. -/
def Fresh (infoDb : Int) (u : String) (s : Meta) (n : Node) : Prop :=
  ∀ i, n u = some i → ∃ m, s.users u = some m ∧
    (i.version < m.version ∨ ∃ bns last, i = buildInfo infoDb bns last m)

theorem updateUser_ne (infoDb : Int) (bns : Bns) {w u : String} (m : UserPriv) (n : Node) (h : u ≠ w) :
    updateUser infoDb bns w m n u = n u := by
  unfold updateUser
  cases n w with
  | none => simp [h]
  | some old => dsimp only; split <;> simp [h]

/-- The node's record of `u` is the present one, with the addresses as resolved by `bns`. -/
def Current (infoDb : Int) (bns : Bns) (u : String) (m : UserPriv) (n : Node) : Prop :=
  ∃ last, n u = some (buildInfo infoDb bns last m)

theorem updateUser_self {infoDb : Int} {bns : Bns} {u : String} {s : Meta} {m : UserPriv} {n : Node}
    (hm : s.users u = some m) (hf : Fresh infoDb u s n) :
    Current infoDb bns u m (updateUser infoDb bns u m n) := by
  unfold updateUser
  cases hn : n u with
  | none => exact ⟨[], by simp⟩
  | some old =>
    dsimp only
    split
    · next hc =>
      simp only [Bool.and_eq_true, Bool.not_eq_true', decide_eq_true_eq] at hc
      obtain ⟨m', hm', hv⟩ := hf old hn
      rw [hm] at hm'; cases hm'
      rcases hv with hv | ⟨b, l, hv⟩
      · omega
      · exact ⟨l, by rw [hn, hv, buildInfo_open _ b bns l l _ hc.1]⟩
    · exact ⟨_, by simp; rfl⟩

theorem Current.fresh {infoDb : Int} {bns : Bns} {u : String} {s : Meta} {m : UserPriv} {n : Node}
    (hm : s.users u = some m) (h : Current infoDb bns u m n) : Fresh infoDb u s n := by
  obtain ⟨last, hn⟩ := h
  intro i hi
  rw [hn] at hi; cases hi
  exact ⟨m, hm, Or.inr ⟨bns, last, rfl⟩⟩

/-- One account of a heartbeat. -/
def beatOne (infoDb : Int) (bns : Bns) (s : Meta) (n : Node) (w : String) : Node :=
  match s.users w with
  | some m => updateUser infoDb bns w m n
  | none => n

theorem heartbeat_eq (infoDb : Int) (bns : Bns) (s : Meta) (us : List String) (n : Node) :
    heartbeat infoDb bns s us n = us.foldl (beatOne infoDb bns s) n := rfl

theorem beatOne_fresh {infoDb : Int} {bns : Bns} {u : String} {s : Meta} {n : Node} (w : String)
    (hf : Fresh infoDb u s n) : Fresh infoDb u s (beatOne infoDb bns s n w) := by
  unfold beatOne
  cases hw : s.users w with
  | none => exact hf
  | some m =>
    dsimp only
    by_cases e : u = w
    · subst e; exact (updateUser_self hw hf).fresh hw
    · intro i hi; rw [updateUser_ne _ _ _ _ e] at hi; exact hf i hi

theorem beatOne_current {infoDb : Int} {bns : Bns} {u : String} {s : Meta} {m : UserPriv} {n : Node}
    (w : String) (hm : s.users u = some m) (h : Current infoDb bns u m n) :
    Current infoDb bns u m (beatOne infoDb bns s n w) := by
  unfold beatOne
  cases hw : s.users w with
  | none => exact h
  | some m' =>
    dsimp only
    by_cases e : u = w
    · subst e
      rw [hm] at hw; cases hw
      exact updateUser_self hm (h.fresh hm)
    · obtain ⟨l, hl⟩ := h
      exact ⟨l, by rw [updateUser_ne _ _ _ _ e]; exact hl⟩

theorem heartbeat_fresh {infoDb : Int} {bns : Bns} {u : String} {s : Meta} (us : List String) {n : Node}
    (hf : Fresh infoDb u s n) : Fresh infoDb u s (heartbeat infoDb bns s us n) := by
  rw [heartbeat_eq]
  induction us generalizing n with
  | nil => exact hf
  | cons w us ih => exact ih (beatOne_fresh w hf)

theorem heartbeat_keep {infoDb : Int} {bns : Bns} {u : String} {s : Meta} {m : UserPriv}
    (us : List String) {n : Node} (hm : s.users u = some m) (h : Current infoDb bns u m n) :
    Current infoDb bns u m (heartbeat infoDb bns s us n) := by
  rw [heartbeat_eq]
  induction us generalizing n with
  | nil => exact h
  | cons w us ih => exact ih (beatOne_current w hm h)

theorem heartbeat_current {infoDb : Int} {bns : Bns} {u : String} {s : Meta} {m : UserPriv}
    {us : List String} {n : Node} (hm : s.users u = some m) (hu : u ∈ us)
    (hf : Fresh infoDb u s n) : Current infoDb bns u m (heartbeat infoDb bns s us n) := by
  induction us generalizing n with
  | nil => cases hu
  | cons w us ih =>
    show Current infoDb bns u m (heartbeat infoDb bns s us (beatOne infoDb bns s n w))
    rcases List.mem_cons.mp hu with e | hu
    · subst e
      apply heartbeat_keep us hm
      unfold beatOne; rw [hm]; exact updateUser_self hm hf
    · exact ih hu (beatOne_fresh w hf)

theorem Fresh.step {infoDb : Int} {u : String} {s s' : Meta} {n : Node} (hf : Fresh infoDb u s n)
    (hk : Keeps u s s') : Fresh infoDb u s' n := by
  intro i hi
  obtain ⟨m, hm, hv⟩ := hf i hi
  obtain ⟨m', hm', hn⟩ := hk m hm
  refine ⟨m', hm', ?_⟩
  rcases hn with rfl | hn
  · exact hv
  · left
    rcases hv with hv | ⟨b, l, rfl⟩
    · omega
    · exact hn

theorem runBoth_fresh {infoDb : Int} {u : String} (as : List Act) : ∀ {p : Meta × Node},
    NeverDropped u (events as) → Fresh infoDb u p.1 p.2 →
    Fresh infoDb u (runBoth infoDb as p).1 (runBoth infoDb as p).2 := by
  induction as with
  | nil => intro p _ h; exact h
  | cons a as ih =>
    intro p hd hf
    cases a with
    | ev e =>
      exact ih (fun e' he' => hd e' (List.mem_cons_of_mem _ he'))
        (hf.step (keeps_step u e.cat e.wr e.cmd p.1 (fun r hr => hd e List.mem_cons_self r hr)))
    | beat bns us => exact ih hd (heartbeat_fresh us hf)

theorem runBoth_meta (infoDb : Int) (as : List Act) : ∀ p : Meta × Node,
    (runBoth infoDb as p).1 = run (events as) p.1 := by
  induction as with
  | nil => intro p; rfl
  | cons a as ih =>
    intro p
    cases a with
    | ev e => exact ih _
    | beat bns us => exact ih _

theorem runBoth_append (infoDb : Int) (as bs : List Act) (p : Meta × Node) :
    runBoth infoDb (as ++ bs) p = runBoth infoDb bs (runBoth infoDb as p) := by
  unfold runBoth; rw [List.foldl_append]

theorem events_append (as bs : List Act) : events (as ++ bs) = events as ++ events bs := by
  induction as with
  | nil => rfl
  | cons a as ih => cases a <;> simp [events, ih]

end BaikalDB.Priv
