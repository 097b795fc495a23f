import Verif.Priv.Spec
import Mathlib.Data.List.Nodup

/-! # The record of an account against its ledger -/

namespace BaikalDB.Priv

open Spec

/-! ## Names -/

/-- The entry a database item stands for. -/
def dbEnt (p : Int × Item) : Ent Int := ⟨p.1, p.2.db, p.2.rw, p.2.force, p.2.acl⟩
/-- The entry a table item stands for. -/
def tblEnt (p : (Int × Int) × Item) : Ent (Int × Int) := ⟨p.1, p.2.tbl, p.2.rw, p.2.force, p.2.acl⟩

theorem resolveDbs_eq (cat : Catalog) (ns : String) (is : List Item) :
    resolveDbs cat ns is =
      (is.mapM (dbOf cat ns)).map (List.map dbEnt) := by
  induction is with
  | nil => simp [resolveDbs]
  | cons i is ih =>
    rw [resolveDbs, ih, List.mapM_cons, dbOf]
    cases cat.dbId ns i.db with
    | none => rfl
    | some d =>
      cases is.mapM (dbOf cat ns) <;> simp [dbEnt]

theorem resolveTbls_eq (cat : Catalog) (ns : String) (is : List Item) :
    resolveTbls cat ns is =
      (is.mapM (tblOf cat ns)).map (List.map tblEnt) := by
  induction is with
  | nil => simp [resolveTbls]
  | cons i is ih =>
    rw [resolveTbls, ih, List.mapM_cons, tblOf]
    cases cat.dbId ns i.db with
    | none => rfl
    | some d =>
      cases cat.tblId ns i.db i.tbl with
      | none => rfl
      | some t =>
        cases is.mapM (tblOf cat ns) <;> simp [tblEnt]

theorem resolve_some {cat : Catalog} {r : Req} {rs : Resolved} (h : resolve cat r = some rs) :
    ∃ ds ts, ids cat r = some (ds, ts) ∧ rs.dbs = ds.map dbEnt ∧ rs.tbls = ts.map tblEnt := by
  unfold resolve at h
  rw [resolveDbs_eq, resolveTbls_eq] at h
  unfold ids
  cases hn : cat.nsId r.ns with
  | none => rw [hn] at h; cases h
  | some n =>
    rw [hn] at h
    simp only [Option.isSome_some, if_true]
    cases hd : r.dbs.mapM (dbOf cat r.ns) with
    | none => rw [hd] at h; cases h
    | some ds =>
      rw [hd] at h
      simp only [Option.map_some] at h
      split at h
      · cases h
      · next ts heq =>
        cases h
        cases ht : r.tbls.mapM (tblOf cat r.ns) with
        | none => rw [ht] at heq; cases heq
        | some ts' =>
          rw [ht] at heq
          cases heq
          exact ⟨ds, ts', rfl, rfl, rfl⟩

theorem resolve_none {cat : Catalog} {r : Req} (h : resolve cat r = none) : ids cat r = none := by
  unfold resolve at h
  rw [resolveDbs_eq, resolveTbls_eq] at h
  unfold ids
  cases hn : cat.nsId r.ns with
  | none => rfl
  | some n =>
    rw [hn] at h
    simp only [Option.isSome_some, if_true]
    cases hd : r.dbs.mapM (dbOf cat r.ns) with
    | none => rfl
    | some ds =>
      rw [hd] at h
      simp only [Option.map_some] at h
      split at h
      · next heq =>
        cases ht : r.tbls.mapM (tblOf cat r.ns) with
        | none => rfl
        | some ts' => rw [ht] at heq; cases heq
      · cases h

/-! ## Bits -/

theorem inAcl_some (a : Acl) (b : Nat) : inAcl (some a) b = a.getLsbD b := by
  simp [inAcl, BitVec.getLsbD]

theorem inAcl_none (b : Nat) : inAcl none b = false := rfl

theorem bit_or (m : Acl) (a : Option Acl) (b : Nat) :
    ((match a with | some a => m ||| a | none => m) : Acl).getLsbD b =
      (m.getLsbD b || inAcl a b) := by
  cases a <;> simp [inAcl_some, inAcl_none]

theorem bit_andnot (m a : Acl) (b : Nat) :
    (m &&& ~~~a).getLsbD b = (m.getLsbD b && !inAcl (some a) b) := by
  rw [inAcl_some, BitVec.getLsbD_and, BitVec.getLsbD_not]
  by_cases h : b < 32
  · simp [h]
  · have : m.getLsbD b = false := BitVec.getLsbD_of_ge _ _ (by omega)
    simp [this]

/-! ## Entries against cells -/

section
variable {κ : Type} [DecidableEq κ]

/-- An entry agrees with a cell. -/
structure CellOk (e : Ent κ) (c : Cell) : Prop where
  known : c.known = true
  mode : c.mode = e.acl.isSome
  bits : ∀ b, c.bits b = e.aclGet.getLsbD b
  le2 : c.level ≤ 2
  two : c.level = 2 ↔ e.rwGet = .write
  name : c.names e.name = true

/-- A list of entries agrees with cells. -/
structure CellsOk (ms : List (Ent κ)) (C : κ → Cell) : Prop where
  nodup : (ms.map Ent.key).Nodup
  absent : ∀ k, k ∉ ms.map Ent.key → C k = Cell.empty
  present : ∀ e ∈ ms, CellOk e (C e.key)

omit [DecidableEq κ] in
theorem CellOk_merge {p m : Ent κ} {c : Cell} (h : CellOk m c) :
    CellOk (mergeEnt p m) (grantCell p.rw p.force p.acl p.name c) := by
  refine ⟨rfl, ?_, ?_, ?_, ?_, ?_⟩
  · show (c.mode || p.acl.isSome) = _
    rw [h.mode]
    cases hp : p.acl <;> cases hm : m.acl <;> simp [mergeEnt, hp, hm]
  · intro b
    show (c.bits b || inAcl p.acl b) = _
    rw [h.bits]
    cases hp : p.acl with
    | none => simp [mergeEnt, Ent.aclGet, hp, inAcl_none]
    | some a => simp [mergeEnt, Ent.aclGet, hp, inAcl_some]
  · have := h.le2
    simp only [grantCell]
    split
    · exact this
    · split <;> omega
    · omega
  · have h2 := h.two
    have hl := h.le2
    cases hp : p.rw with
    | none => simpa [mergeEnt, Ent.rwGet, hp, grantCell] using h2
    | some r =>
      rw [Ent.rwGet] at h2 ⊢
      cases r <;> cases hf : p.force <;> cases hm : m.rw.getD .read <;> rw [hm] at h2 <;>
        simp [mergeEnt, Ent.rwGet, grantCell, RW.num, hp, hf, hm] <;> simp at h2 <;> omega
  · show (c.names m.name || m.name == p.name) = true
    rw [h.name]; rfl

omit [DecidableEq κ] in
theorem CellOk_new (p : Ent κ) : CellOk p (grantCell p.rw p.force p.acl p.name Cell.empty) := by
  refine ⟨rfl, ?_, ?_, ?_, ?_, ?_⟩
  · simp [grantCell, Cell.empty]
  · intro b
    cases hp : p.acl <;> simp [grantCell, Cell.empty, Ent.aclGet, hp, inAcl_some, inAcl_none]
  · simp only [grantCell, Cell.empty]
    split
    · omega
    · split <;> omega
    · omega
  · cases hp : p.rw with
    | none => simp [grantCell, Cell.empty, Ent.rwGet, hp]
    | some r => cases r <;> cases hf : p.force <;> simp [grantCell, Cell.empty, Ent.rwGet, hp]
  · simp [grantCell, Cell.empty]

theorem insertEnt_keys (p : Ent κ) (ms : List (Ent κ)) :
    (insertEnt p ms).map Ent.key =
      if p.key ∈ ms.map Ent.key then ms.map Ent.key else ms.map Ent.key ++ [p.key] := by
  induction ms with
  | nil => simp [insertEnt]
  | cons m ms ih =>
    rw [insertEnt]
    by_cases h : m.key = p.key
    · rw [if_pos h]; simp [mergeEnt, h]
    · rw [if_neg h, List.map_cons, ih]
      by_cases h' : p.key ∈ ms.map Ent.key
      · simp only [List.map_cons, List.mem_cons, h', or_true, if_true]
      · have : p.key ∉ (m :: ms).map Ent.key := by
          simp only [List.map_cons, List.mem_cons, not_or]; exact ⟨Ne.symm h, h'⟩
        rw [if_neg h', if_neg this]; rfl

theorem insertEnt_ok {p : Ent κ} {ms : List (Ent κ)} {C : κ → Cell} (h : CellsOk ms C) :
    CellsOk (insertEnt p ms) (at' C p.key (grantCell p.rw p.force p.acl p.name)) := by
  refine ⟨?_, ?_, ?_⟩
  · rw [insertEnt_keys]
    split
    · exact h.nodup
    · next hp =>
      rw [List.nodup_append]
      refine ⟨h.nodup, by simp, ?_⟩
      intro a ha b hb e
      rw [List.mem_singleton] at hb
      exact hp (by rw [← hb, ← e]; exact ha)
  · intro k hk
    rw [insertEnt_keys] at hk
    have hkp : k ≠ p.key := by
      intro e; apply hk; subst e
      split <;> simp_all
    have hk' : k ∉ ms.map Ent.key := by
      intro e; apply hk; split
      · exact e
      · exact List.mem_append_left _ e
    rw [at', if_neg hkp]; exact h.absent k hk'
  · have key : ∀ ms : List (Ent κ), (ms.map Ent.key).Nodup →
        (∀ e ∈ ms, CellOk e (C e.key)) → (p.key ∉ ms.map Ent.key → C p.key = Cell.empty) →
        ∀ e ∈ insertEnt p ms,
          CellOk e (at' C p.key (grantCell p.rw p.force p.acl p.name) e.key) := by
      intro ms
      induction ms with
      | nil =>
        intro _ _ ha e he
        simp only [insertEnt, List.mem_singleton] at he
        subst he
        rw [at', if_pos rfl, ha (by simp)]
        exact CellOk_new e
      | cons m ms ih =>
        intro hn hp ha e he
        rw [insertEnt] at he
        simp only [List.map_cons, List.nodup_cons] at hn
        by_cases hk : m.key = p.key
        · rw [if_pos hk] at he
          rcases List.mem_cons.mp he with he | he
          · subst he
            have : (mergeEnt p m).key = m.key := rfl
            rw [this, at', if_pos hk]
            exact CellOk_merge (hp m List.mem_cons_self)
          · have hne : e.key ≠ p.key := by
              intro e'; apply hn.1; rw [hk, ← e']; exact List.mem_map_of_mem he
            rw [at', if_neg hne]
            exact hp e (List.mem_cons_of_mem _ he)
        · rw [if_neg hk] at he
          rcases List.mem_cons.mp he with he | he
          · subst he
            rw [at', if_neg hk]
            exact hp e List.mem_cons_self
          · refine ih hn.2 (fun e he => hp e (List.mem_cons_of_mem _ he)) (fun h => ha ?_) e he
            simp only [List.map_cons, List.mem_cons, not_or]
            exact ⟨Ne.symm hk, h⟩
    exact key ms h.nodup h.present (h.absent p.key)

/-- What a revoke leaves of the entry with its key. -/
theorem deleteOne_key {p m e : Ent κ} (he : e ∈ deleteOne p m) : e.key = m.key := by
  unfold deleteOne at he
  split at he
  · next hk =>
    rcases List.mem_append.mp he with h | h
    · split at h
      · simp only [List.mem_singleton] at h; subst h; exact hk.symm
      · cases h
    · split at h
      · simp only [List.mem_singleton] at h; subst h; rfl
      · cases h
  · simp only [List.mem_singleton] at he; subst he; rfl

/-- The list a revoke that does not name both kinds leaves of an entry has at most one element. -/
theorem deleteOne_len {p : Ent κ} (m : Ent κ) (hp : p.rw.isSome → p.acl = none) :
    deleteOne p m = [] ∨ ∃ e, deleteOne p m = [e] := by
  unfold deleteOne
  split
  · cases hr : p.rw with
    | none =>
      cases ha : p.acl with
      | none => simp [lowers, hr]
      | some a => simp [lowers, hr]
    | some r =>
      rw [hp (by rw [hr]; rfl)]
      simp only [List.append_nil]
      split <;> simp
  · simp

theorem deleteEnt_nodup {p : Ent κ} {ms : List (Ent κ)} (hp : p.rw.isSome → p.acl = none)
    (hn : (ms.map Ent.key).Nodup) : ((deleteEnt p ms).map Ent.key).Nodup := by
  induction ms with
  | nil => simp [deleteEnt]
  | cons m ms ih =>
    simp only [List.map_cons, List.nodup_cons] at hn
    have hsub : ∀ k ∈ (deleteEnt p ms).map Ent.key, k ∈ ms.map Ent.key := by
      intro k hk
      obtain ⟨e, he, rfl⟩ := List.mem_map.mp hk
      obtain ⟨m', hm', he'⟩ := List.mem_flatMap.mp he
      rw [deleteOne_key he']; exact List.mem_map_of_mem hm'
    have hd : deleteEnt p (m :: ms) = deleteOne p m ++ deleteEnt p ms := by
      simp [deleteEnt]
    rw [hd]
    rcases deleteOne_len m hp with h | ⟨e, h⟩
    · rw [h]; exact ih hn.2
    · rw [h, List.cons_append, List.nil_append, List.map_cons, List.nodup_cons]
      refine ⟨fun hm => hn.1 ?_, ih hn.2⟩
      have : e.key = m.key := deleteOne_key (by rw [h]; exact List.mem_singleton_self e)
      rw [← this]; exact hsub _ hm

theorem revokeCell_empty (rw : Option RW) (acl : Option Acl) (name : String) :
    revokeCell rw acl name Cell.empty = Cell.empty := by
  cases rw <;> cases acl <;> simp [revokeCell, Cell.empty, revokeLevel]

theorem deleteOne_ok {p m : Ent κ} {c : Cell} (h : CellOk m c) (hk : m.key = p.key)
    (hp : p.rw.isSome → p.acl = none ∧ ∀ b, c.bits b = false) :
    (deleteOne p m = [] ∧ revokeCell p.rw p.acl p.name c = Cell.empty) ∨
    ∃ e, deleteOne p m = [e] ∧ CellOk e (revokeCell p.rw p.acl p.name c) := by
  have h2 := h.two
  have hl := h.le2
  unfold deleteOne
  rw [if_pos hk]
  cases hr : p.rw with
  | none =>
    cases ha : p.acl with
    | none => left; simp [revokeCell, lowers, hr]
    | some a =>
      right
      refine ⟨{ m with acl := some (m.aclGet &&& ~~~a) }, by simp [lowers, hr], ?_⟩
      refine ⟨h.known, ?_, ?_, h.le2, h.two, h.name⟩
      · show c.known = _; rw [h.known]; rfl
      · intro b
        show (c.bits b && !inAcl (some a) b) = (m.aclGet &&& ~~~a).getLsbD b
        rw [bit_andnot, h.bits]
  | some r =>
    obtain ⟨ha, hb⟩ := hp (by rw [hr]; rfl)
    rw [ha]
    simp only [List.append_nil]
    have hbits : (fun b => c.bits b && !inAcl none b) = fun _ => false := by
      funext b; simp [hb b]
    by_cases hlow : r = .read ∧ c.level = 2
    · right
      have hw : m.rwGet = .write := h2.mp hlow.2
      refine ⟨p, ?_, ?_⟩
      · rw [if_pos]; rw [lowers, hr, hw, hlow.1]; decide
      · refine ⟨?_, ?_, ?_, ?_, ?_, ?_⟩
        · simp [revokeCell, revokeLevel, hlow]
        · simp [revokeCell, ha]
        · intro b
          simp [revokeCell, hb b, Ent.aclGet, ha]
        · simp [revokeCell, revokeLevel, hlow]
        · simp [revokeCell, revokeLevel, hlow, Ent.rwGet, hr]
        · simp [revokeCell, revokeLevel, hlow]
    · left
      constructor
      · rw [if_neg]
        intro hlt
        rw [lowers, hr] at hlt
        replace hlt := of_decide_eq_true hlt
        apply hlow
        cases r <;> cases hm : m.rwGet <;> rw [hm] at hlt <;> simp [RW.num] at hlt
        exact ⟨rfl, h2.mpr hm⟩
      · simp only [revokeCell, hbits, revokeLevel, if_neg hlow]
        simp [Cell.empty]

theorem deleteEnt_ok {p : Ent κ} {ms : List (Ent κ)} {C : κ → Cell} (h : CellsOk ms C)
    (hp : p.rw.isSome → p.acl = none ∧ ∀ b, (C p.key).bits b = false) :
    CellsOk (deleteEnt p ms) (at' C p.key (revokeCell p.rw p.acl p.name)) := by
  refine ⟨deleteEnt_nodup (fun h => (hp h).1) h.nodup, ?_, ?_⟩
  · intro k hk
    by_cases hkp : k = p.key
    · subst hkp
      rw [at', if_pos rfl]
      by_cases hm : p.key ∈ ms.map Ent.key
      · obtain ⟨m, hm, hmk⟩ := List.mem_map.mp hm
        have hc := h.present m hm
        rw [hmk] at hc
        rcases deleteOne_ok hc hmk hp with ⟨_, h2⟩ | ⟨e, he, _⟩
        · exact h2
        · exfalso; apply hk
          have : e ∈ deleteOne p m := by rw [he]; exact List.mem_singleton_self e
          rw [← hmk, ← deleteOne_key this]
          exact List.mem_map_of_mem (List.mem_flatMap.mpr ⟨m, hm, this⟩)
      · rw [h.absent _ hm]; exact revokeCell_empty _ _ _
    · rw [at', if_neg hkp]
      apply h.absent
      intro hm
      apply hk
      obtain ⟨m, hm', rfl⟩ := List.mem_map.mp hm
      refine List.mem_map_of_mem (List.mem_flatMap.mpr ⟨m, hm', ?_⟩)
      rw [deleteOne, if_neg hkp]; exact List.mem_singleton_self m
  · intro e he
    obtain ⟨m, hm, he⟩ := List.mem_flatMap.mp he
    have hek := deleteOne_key he
    by_cases hkp : m.key = p.key
    · rw [hek, hkp, at', if_pos rfl]
      have hc := h.present m hm
      rw [hkp] at hc
      rcases deleteOne_ok hc hkp hp with ⟨h1, _⟩ | ⟨e', h1, h2⟩
      · rw [h1] at he; cases he
      · rw [h1, List.mem_singleton] at he; subst he; exact h2
    · rw [deleteOne, if_neg hkp, List.mem_singleton] at he
      subst he
      rw [at', if_neg hkp]; exact h.present _ hm

end

theorem insertAll_dbs {ds : List (Int × Item)} {ms : List (Ent Int)} {C : Int → Cell}
    (h : CellsOk ms C) : CellsOk (insertAll (ds.map dbEnt) ms).1 (ds.foldl grantDb C) := by
  induction ds generalizing ms C with
  | nil => exact h
  | cons p ds ih => exact ih (insertEnt_ok (p := dbEnt p) h)

theorem insertAll_tbls {ts : List ((Int × Int) × Item)} {ms : List (Ent (Int × Int))}
    {C : Int × Int → Cell} (h : CellsOk ms C) :
    CellsOk (insertAll (ts.map tblEnt) ms).1 (ts.foldl grantTbl C) := by
  induction ts generalizing ms C with
  | nil => exact h
  | cons p ts ih => exact ih (insertEnt_ok (p := tblEnt p) h)

theorem deleteAll_dbs {ds : List (Int × Item)} {ms : List (Ent Int)} {C : Int → Cell}
    (h : CellsOk ms C) (hd : Distinct ds) (hc : ∀ p ∈ ds, CleanItem (C p.1) p.2) :
    CellsOk (deleteAll (ds.map dbEnt) ms).1 (ds.foldl revokeDb C) := by
  induction ds generalizing ms C with
  | nil => exact h
  | cons p ds ih =>
    simp only [Distinct, List.map_cons, List.nodup_cons] at hd
    refine ih (deleteEnt_ok (p := dbEnt p) h (hc p List.mem_cons_self)) hd.2 ?_
    intro q hq
    have hne : q.1 ≠ p.1 := fun e => hd.1 (by rw [← e]; exact List.mem_map_of_mem hq)
    show CleanItem (at' C p.1 _ q.1) q.2
    rw [at', if_neg hne]
    exact hc q (List.mem_cons_of_mem _ hq)

theorem deleteAll_tbls {ts : List ((Int × Int) × Item)} {ms : List (Ent (Int × Int))}
    {C : Int × Int → Cell} (h : CellsOk ms C) (hd : Distinct ts)
    (hc : ∀ p ∈ ts, CleanItem (C p.1) p.2) :
    CellsOk (deleteAll (ts.map tblEnt) ms).1 (ts.foldl revokeTbl C) := by
  induction ts generalizing ms C with
  | nil => exact h
  | cons p ts ih =>
    simp only [Distinct, List.map_cons, List.nodup_cons] at hd
    refine ih (deleteEnt_ok (p := tblEnt p) h (hc p List.mem_cons_self)) hd.2 ?_
    intro q hq
    have hne : q.1 ≠ p.1 := fun e => hd.1 (by rw [← e]; exact List.mem_map_of_mem hq)
    show CleanItem (at' C p.1 _ q.1) q.2
    rw [at', if_neg hne]
    exact hc q (List.mem_cons_of_mem _ hq)

/-- Granting items for distinct objects to an empty list gives the items. -/
theorem insertAll_nil {κ : Type} [DecidableEq κ] (ps : List (Ent κ)) :
    ∀ ms : List (Ent κ), ((ms ++ ps).map Ent.key).Nodup → (insertAll ps ms).1 = ms ++ ps := by
  induction ps with
  | nil => intro ms _; simp [insertAll]
  | cons p ps ih =>
    intro ms hn
    have hins : insertEnt p ms = ms ++ [p] := by
      have hp : p.key ∉ ms.map Ent.key := by
        rw [List.map_append, List.nodup_append] at hn
        intro h
        exact hn.2.2 _ h _ (by simp) rfl
      clear hn ih
      induction ms with
      | nil => rfl
      | cons m ms ih =>
        simp only [List.map_cons, List.mem_cons, not_or] at hp
        rw [insertEnt, if_neg (Ne.symm hp.1), ih hp.2]; rfl
    show (insertAll ps (insertEnt p ms)).1 = _
    rw [hins, ih _ (by simpa using hn)]; simp

theorem CellsOk_nil {κ : Type} : CellsOk ([] : List (Ent κ)) (fun _ => Cell.empty) :=
  ⟨by simp, fun _ _ => rfl, by simp⟩

theorem CellsOk_filter {κ : Type} {ms : List (Ent κ)} {C : κ → Cell} (h : CellsOk ms C)
    (q : κ → Bool) :
    CellsOk (ms.filter (fun e => q e.key)) (fun k => if q k then C k else Cell.empty) := by
  refine ⟨h.nodup.sublist (List.filter_sublist.map _), ?_, ?_⟩
  · intro k hk
    show (if q k = true then C k else Cell.empty) = Cell.empty
    by_cases hq : q k = true
    · rw [if_pos hq]
      apply h.absent
      intro hm
      obtain ⟨e, he, rfl⟩ := List.mem_map.mp hm
      exact hk (List.mem_map_of_mem (List.mem_filter.mpr ⟨he, hq⟩))
    · rw [if_neg hq]
  · intro e he
    obtain ⟨he, hq⟩ := List.mem_filter.mp he
    show CellOk e (if q e.key = true then C e.key else Cell.empty)
    rw [if_pos hq]; exact h.present e he

end BaikalDB.Priv
