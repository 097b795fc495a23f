import Verif.Alter.Lemmas

/-! Every request keeps the invariant and does to the table what the specification says. -/

namespace BaikalDB.Alter

/-! ### Numbers -/

/-- Numbers are kept, a deleted field stays deleted, and new fields have new numbers. -/
def Kept (s s' : State) : Prop :=
  s.schema.maxId ≤ s'.schema.maxId ∧
    ∀ f' ∈ s'.schema.fields,
      (∃ f ∈ s.schema.fields, f.id = f'.id ∧ (f.deleted = true → f'.deleted = true)) ∨
        s.schema.maxId < f'.id

theorem Kept.refl (s : State) : Kept s s :=
  ⟨Nat.le_refl _, fun f hf => Or.inl ⟨f, hf, rfl, id⟩⟩

theorem Kept.trans {s s1 s2 : State} (h1 : Kept s s1) (h2 : Kept s1 s2) : Kept s s2 := by
  refine ⟨Nat.le_trans h1.1 h2.1, fun f hf => ?_⟩
  rcases h2.2 f hf with ⟨g, hg, he, hd⟩ | h
  · rcases h1.2 g hg with ⟨k, hk, he', hd'⟩ | h
    · exact Or.inl ⟨k, hk, he'.trans he, fun x => hd (hd' x)⟩
    · exact Or.inr (he ▸ h)
  · exact Or.inr (Nat.lt_of_le_of_lt h1.1 h)

theorem ids_map {fs : List Field} {g : Field → Field} (h : ∀ f, (g f).id = f.id) :
    (fs.map g).map (·.id) = fs.map (·.id) := by
  rw [List.map_map]; exact List.map_congr_left (fun f _ => h f)

theorem renameFirst_ids (n n' : Name) : ∀ fs : List Field,
    (renameFirst n n' fs).map (·.id) = fs.map (·.id)
  | [] => rfl
  | f :: fs => by
    rw [renameFirst]
    split_ifs
    · simp
    · simp [renameFirst_ids n n' fs]

theorem mem_renameFirst {n n' : Name} : ∀ {fs : List Field} {f' : Field}, f' ∈ renameFirst n n' fs →
    ∃ f ∈ fs, f.id = f'.id ∧ f.deleted = f'.deleted ∧ f.dflt = f'.dflt
  | [], f', h => by simp [renameFirst] at h
  | f :: fs, f', h => by
    rw [renameFirst] at h
    split_ifs at h
    · rcases List.mem_cons.1 h with rfl | h
      · exact ⟨f, List.mem_cons_self, rfl, rfl, rfl⟩
      · exact ⟨f', List.mem_cons_of_mem _ h, rfl, rfl, rfl⟩
    · rcases List.mem_cons.1 h with rfl | h
      · exact ⟨f', List.mem_cons_self, rfl, rfl, rfl⟩
      · obtain ⟨k, hk, h1⟩ := mem_renameFirst h
        exact ⟨k, List.mem_cons_of_mem _ hk, h1⟩

theorem modifyOne_id (n : Name) (new : Option Name) (d : Option Val) (f : Field) :
    (modifyOne n new d f).id = f.id ∧ (modifyOne n new d f).deleted = f.deleted := by
  unfold modifyOne; split_ifs <;> exact ⟨rfl, rfl⟩

theorem resolve_mem {sc : Schema} {n : Name} {f : Field} (h : resolve sc n = some f) :
    f ∈ sc.fields ∧ f.deleted = false ∧ sameName f.name n = true := by
  have h1 := List.mem_of_find?_eq_some h
  have h2 := List.find?_some h
  obtain ⟨h3, h4⟩ := mem_live.1 h1
  refine ⟨h3, h4, ?_⟩
  rw [sameName_eq]
  exact h2

theorem step_ids {s s' : State} {op : Op} (h : IdsOk s) (hs : step s op = some s') :
    IdsOk s' ∧ Kept s s' := by
  cases op with
  | add cols =>
    simp only [step, addField] at hs
    cases hl : addLoop s.map cols s.schema.maxId with
    | none => rw [hl] at hs; simp at hs
    | some fs =>
      rw [hl] at hs
      simp only [Option.some.injEq] at hs
      subst hs
      obtain ⟨h1, h2, h3, h4⟩ := addLoop_spec hl
      have hlen : fs.length = cols.length := by
        have := congrArg List.length h1
        simpa using this
      have hid : ∀ f ∈ fs, s.schema.maxId < f.id ∧ f.id ≤ s.schema.maxId + fs.length := by
        intro f hf
        have : f.id ∈ fs.map (·.id) := List.mem_map.2 ⟨f, hf, rfl⟩
        rw [h2, List.mem_range'_1] at this
        omega
      refine ⟨⟨?_, ?_, ?_⟩, Nat.le_add_right _ _, ?_⟩
      · rw [List.map_append, List.nodup_append]
        refine ⟨h.nodup, by rw [h2]; exact List.nodup_range', ?_⟩
        intro a ha b hb
        obtain ⟨f, hf, rfl⟩ := List.mem_map.1 ha
        obtain ⟨g, hg, rfl⟩ := List.mem_map.1 hb
        have := (h.bound f hf).2
        have := (hid g hg).1
        omega
      · intro f hf
        rcases List.mem_append.1 hf with hf | hf
        · have := h.bound f hf
          exact ⟨this.1, Nat.le_trans this.2 (Nat.le_add_right _ _)⟩
        · have := hid f hf
          exact ⟨by omega, this.2⟩
      · intro r hr e he
        exact Nat.le_trans (h.rows r hr e he) (Nat.le_add_right _ _)
      · intro f hf
        rcases List.mem_append.1 hf with hf | hf
        · exact Or.inl ⟨f, hf, rfl, id⟩
        · exact Or.inr (hid f hf).1
  | drop n =>
    simp only [step, dropField] at hs
    split_ifs at hs
    simp only [Option.some.injEq] at hs
    subst hs
    have hid : ∀ f : Field, (if f.name = n then { f with deleted := true } else f).id = f.id := by
      intro f; split_ifs <;> rfl
    refine ⟨⟨?_, ?_, h.rows⟩, Nat.le_refl _, ?_⟩
    · exact (ids_map (fs := s.schema.fields) hid) ▸ h.nodup
    · intro f hf
      obtain ⟨g, hg, rfl⟩ := List.mem_map.1 hf
      rw [hid]
      exact h.bound g hg
    · intro f hf
      obtain ⟨g, hg, rfl⟩ := List.mem_map.1 hf
      refine Or.inl ⟨g, hg, (hid g).symm, fun x => ?_⟩
      split_ifs
      · rfl
      · exact x
  | rename n n' =>
    simp only [step, renameField] at hs
    split_ifs at hs
    simp only [Option.some.injEq] at hs
    subst hs
    refine ⟨⟨?_, ?_, h.rows⟩, Nat.le_refl _, ?_⟩
    · exact (renameFirst_ids n n' s.schema.fields) ▸ h.nodup
    · intro f hf
      obtain ⟨g, hg, h1, -⟩ := mem_renameFirst hf
      rw [← h1]
      exact h.bound g hg
    · intro f hf
      obtain ⟨g, hg, h1, h2, -⟩ := mem_renameFirst hf
      exact Or.inl ⟨g, hg, h1, fun x => h2 ▸ x⟩
  | modify n new d =>
    simp only [step, modifyField] at hs
    split_ifs at hs
    simp only [Option.some.injEq] at hs
    subst hs
    refine ⟨⟨?_, ?_, h.rows⟩, Nat.le_refl _, ?_⟩
    · exact (ids_map (fs := s.schema.fields) (fun f => (modifyOne_id n new d f).1)) ▸ h.nodup
    · intro f hf
      obtain ⟨g, hg, rfl⟩ := List.mem_map.1 hf
      rw [(modifyOne_id n new d g).1]
      exact h.bound g hg
    · intro f hf
      obtain ⟨g, hg, rfl⟩ := List.mem_map.1 hf
      exact Or.inl ⟨g, hg, (modifyOne_id n new d g).1.symm, fun x => by
        rw [(modifyOne_id n new d g).2]; exact x⟩
  | insert given =>
    simp only [step, Option.some.injEq] at hs
    subst hs
    refine ⟨⟨h.nodup, h.bound, ?_⟩, Kept.refl s⟩
    intro r hr e he
    rcases List.mem_append.1 hr with hr | hr
    · exact h.rows r hr e he
    · simp only [List.mem_singleton] at hr
      subst hr
      obtain ⟨f, hf, h1⟩ := mem_build he
      rw [h1]
      exact (h.bound f (mem_live.1 hf).1).2
  | update i n v =>
    simp only [step, update] at hs
    cases hr : resolve s.schema n with
    | none => rw [hr] at hs; simp at hs
    | some f =>
      rw [hr] at hs
      simp only [Option.some.injEq] at hs
      subst hs
      refine ⟨⟨h.nodup, h.bound, ?_⟩, Kept.refl s⟩
      intro r hr' e he
      obtain ⟨k, hk, hke⟩ := List.getElem_of_mem hr'
      rw [List.getElem_modify] at hke
      have hk' : k < s.rows.length := by simpa using hk
      split_ifs at hke
      · subst hke
        rcases mem_write he with h1 | h1
        · rw [h1]; exact (h.bound f (resolve_mem hr).1).2
        · exact h.rows _ (List.getElem_mem _) e h1
      · subst hke
        exact h.rows _ (List.getElem_mem _) e he
  | restart =>
    simp only [step, Option.some.injEq] at hs
    subst hs
    exact ⟨⟨h.nodup, h.bound, h.rows⟩, Kept.refl s⟩

/-! ### Renaming -/

theorem getFieldId_mem {s : State} (h : Inv s) {n : Name} (hn : getFieldId s.map n ≠ 0) :
    ∃ f ∈ s.schema.fields, f.deleted = false ∧ f.name = n ∧ getFieldId s.map n = f.id := by
  have hx : fieldExists s.map n = true := by
    cases hx : fieldExists s.map n with
    | true => rfl
    | false => exact absurd (getFieldId_absent hx) hn
  obtain ⟨f, hf, hd, hfn⟩ := (h.map.only n).1 hx
  exact ⟨f, hf, hd, hfn, hfn ▸ h.map.here f hf hd⟩

theorem getFieldId_zero {s : State} (h : Inv s) {n : Name} (hn : getFieldId s.map n = 0) :
    ∀ f ∈ s.schema.fields, f.deleted = false → f.name ≠ n := by
  intro f hf hd hfn
  have := h.map.here f hf hd
  rw [hfn, hn] at this
  have := (h.ids.bound f hf).1
  omega

/-- A live field of this name gets the new name. -/
def renameAll (n n' : Name) (f : Field) : Field :=
  if !f.deleted && f.name == n then { f with name := n' } else f

theorem renameAll_skip {n n' : Name} {fs : List Field}
    (h : ∀ f ∈ fs, f.deleted = false → f.name ≠ n) : fs.map (renameAll n n') = fs := by
  conv_rhs => rw [← List.map_id fs]
  refine List.map_congr_left (fun f hf => ?_)
  unfold renameAll
  cases hd : f.deleted with
  | true => simp
  | false => simp [h f hf hd]

theorem renameFirst_eq {n n' : Name} : ∀ {fs : List Field}, Apart fs →
    renameFirst n n' fs = fs.map (renameAll n n')
  | [], _ => rfl
  | f :: fs, h => by
    unfold Apart at h
    rw [List.pairwise_cons] at h
    rw [renameFirst, List.map_cons]
    by_cases hc : (!f.deleted && f.name == n) = true
    · rw [if_pos hc, renameAll, if_pos hc, renameAll_skip]
      intro g hg hgd he
      simp only [Bool.and_eq_true, Bool.not_eq_true', beq_iff_eq] at hc
      exact h.1 g hg hc.1 hgd (hc.2.trans he.symm)
    · rw [if_neg hc, renameAll, if_neg hc, renameFirst_eq h.2]

theorem firstId_eq {n : Name} : ∀ {fs : List Field} {f : Field}, Apart fs → f ∈ fs →
    f.deleted = false → f.name = n → firstId n fs = f.id
  | [], f, _, hf, _, _ => by simp at hf
  | g :: fs, f, h, hf, hd, hn => by
    unfold Apart at h
    rw [List.pairwise_cons] at h
    rw [firstId]
    rcases List.mem_cons.1 hf with rfl | hf
    · rw [if_pos (by simp [hd, hn])]
    · rw [if_neg]
      · exact firstId_eq h.2 hf hd hn
      · intro hc
        simp only [Bool.and_eq_true, Bool.not_eq_true', beq_iff_eq] at hc
        exact h.1 f hf hc.1 hd (hc.2.trans hn.symm)

theorem modifyOne_eq (n : Name) (new : Option Name) (d : Option Val) (f : Field)
    (h : f.deleted = false → f.name = n → f.dflt = d) :
    modifyOne n new d f = renameAll n (new.getD n) f := by
  unfold modifyOne renameAll
  by_cases hc : (!f.deleted && f.name == n) = true
  · rw [if_pos hc, if_pos hc]
    simp only [Bool.and_eq_true, Bool.not_eq_true', beq_iff_eq] at hc
    rw [← h hc.1 hc.2]
  · rw [if_neg hc, if_neg hc]

theorem renameAll_facts (n n' : Name) (f : Field) :
    (renameAll n n' f).id = f.id ∧ (renameAll n n' f).deleted = f.deleted ∧
      (renameAll n n' f).dflt = f.dflt := by
  unfold renameAll; split_ifs <;> exact ⟨rfl, rfl, rfl⟩

theorem renameAll_live {n n' : Name} {f : Field} (h : f.deleted = false) :
    (renameAll n n' f).name = if f.name = n then n' else f.name := by
  unfold renameAll
  by_cases hn : f.name = n
  · simp [h, hn]
  · simp [hn]

theorem filter_renameAll (n n' : Name) (fs : List Field) :
    (fs.map (renameAll n n')).filter (fun f => !f.deleted) =
      (fs.filter (fun f => !f.deleted)).map (renameAll n n') := by
  rw [List.filter_map]
  congr 1
  refine List.filter_congr (fun f _ => ?_)
  simp [(renameAll_facts n n' f).2.1]

theorem mapOk_rename {m : List (Name × Nat)} {fs : List Field} {n n' : Name} {i : Nat}
    (h : MapOk m fs) {k : Field} (hk : k ∈ fs) (hkd : k.deleted = false)
    (hkn : k.name = n) (hki : i = k.id) (hnew : ∀ f ∈ fs, f.deleted = false → f.name ≠ n')
    (hinj : ∀ f ∈ fs, f.deleted = false → f.name = n → f = k) :
    MapOk (mapPut (mapErase m n) n' i) (fs.map (renameAll n n')) := by
  constructor
  · intro f' hf' hd'
    obtain ⟨f, hf, rfl⟩ := List.mem_map.1 hf'
    obtain ⟨h1, h2, h3⟩ := renameAll_facts n n' f
    rw [h2] at hd'
    rw [renameAll_live hd', h1]
    by_cases hn : f.name = n
    · rw [if_pos hn, getFieldId_put_self, hki, hinj f hf hd' hn]
    · rw [if_neg hn, getFieldId_put (hnew f hf hd'), getFieldId_erase hn]
      exact h.here f hf hd'
  · intro x
    rw [exists_put, exists_erase, Bool.or_eq_true, Bool.and_eq_true, h.only]
    constructor
    · rintro (hx | ⟨⟨f, hf, hd, rfl⟩, hx⟩)
      · refine ⟨renameAll n n' k, List.mem_map.2 ⟨k, hk, rfl⟩, ?_, ?_⟩
        · rw [(renameAll_facts n n' k).2.1]; exact hkd
        · rw [renameAll_live hkd, if_pos hkn]
          exact (by simpa using hx : x = n').symm
      · refine ⟨renameAll n n' f, List.mem_map.2 ⟨f, hf, rfl⟩, ?_, ?_⟩
        · rw [(renameAll_facts n n' f).2.1]; exact hd
        · rw [renameAll_live hd, if_neg (by simpa using hx)]
    · rintro ⟨f', hf', hd', rfl⟩
      obtain ⟨f, hf, rfl⟩ := List.mem_map.1 hf'
      obtain ⟨h1, h2, h3⟩ := renameAll_facts n n' f
      rw [h2] at hd'
      rw [renameAll_live hd']
      by_cases hn : f.name = n
      · left; simp [hn]
      · right
        rw [if_neg hn]
        exact ⟨⟨f, hf, hd', rfl⟩, by simpa using hn⟩

/-- Invariant and table after a rename of the live fields of one name. -/
theorem rename_ok {s s' : State} {t : Table} {n n' : Name} (hr : Rel s t)
    (hp : Distinct ((t.cols.map (renameEntry n n')).map (·.1)))
    (hids : IdsOk s') (hrows : s'.rows = s.rows)
    (hf : s'.schema.fields = s.schema.fields.map (renameAll n n'))
    (hm : MapOk s'.map s'.schema.fields) :
    Inv s' ∧ Rel s' ⟨t.cols.map (renameEntry n n'), t.rows.map (·.map (renameEntry n n'))⟩ := by
  have hlive : live s'.schema = (live s.schema).map (renameAll n n') := by
    simp only [live, hf]; exact filter_renameAll n n' _
  have hcol : columns s' = t.cols.map (renameEntry n n') := by
    rw [hr.1]
    simp only [columns, hlive, List.map_map]
    refine List.map_congr_left (fun f hf => ?_)
    have hd := (mem_live.1 hf).2
    simp only [Function.comp, renameEntry, renameAll_live hd, (renameAll_facts n n' f).2.2]
    split_ifs <;> rfl
  refine ⟨⟨hids, ?_, hm⟩, hcol.symm, ?_⟩
  · have : (live s'.schema).map (·.name) = (columns s').map (·.1) := by
      simp [columns, List.map_map, Function.comp]
    rw [this, hcol]
    exact hp
  · simp only [hr.2, selectAll, hrows, hlive, List.map_map]
    refine List.map_congr_left (fun r _ => ?_)
    simp only [Function.comp, List.map_map]
    refine List.map_congr_left (fun f hf => ?_)
    have hd := (mem_live.1 hf).2
    have hread : readField (renameAll n n' f) r = readField f r := by
      simp only [readField, (renameAll_facts n n' f).1, (renameAll_facts n n' f).2.2]
    simp only [Function.comp, renameEntry, renameAll_live hd, hread]
    split_ifs <;> rfl

theorem cols_mem {s : State} {t : Table} (hr : Rel s t) {f : Field} (hf : f ∈ s.schema.fields)
    (hd : f.deleted = false) : (f.name, f.dflt) ∈ t.cols := by
  rw [hr.1]
  exact List.mem_map.2 ⟨f, mem_live.2 ⟨hf, hd⟩, rfl⟩

theorem step_ok {s s' : State} {t : Table} {op : Op} (h : Inv s) (hr : Rel s t) (hp : Proper t op)
    (hs : step s op = some s') : Inv s' ∧ Rel s' (t.apply op) := by
  have hids := (step_ids h.ids hs).1
  have hapart : Apart s.schema.fields := apart_of_distinct h.names
  cases op with
  | add cols =>
    simp only [step, addField] at hs
    cases hl : addLoop s.map cols s.schema.maxId with
    | none => rw [hl] at hs; simp at hs
    | some fs =>
      rw [hl] at hs
      simp only [Option.some.injEq] at hs
      obtain ⟨h1, h2, h3, h4⟩ := addLoop_spec hl
      have hlive : live s'.schema = live s.schema ++ fs := by
        subst hs
        simp only [live, List.filter_append]
        congr 1
        rw [List.filter_eq_self]
        intro f hf
        simp [h3 f hf]
      have hcol : columns s' = t.cols ++ cols := by
        rw [hr.1]
        simp only [columns, hlive, List.map_append, h1]
      have hname : Distinct ((live s'.schema).map (·.name)) := by
        have : (live s'.schema).map (·.name) = (columns s').map (·.1) := by
          simp [columns, List.map_map, Function.comp]
        rw [this, hcol]
        exact hp
      refine ⟨⟨hids, hname, ?_⟩, hcol.symm, ?_⟩
      · have ha' : Apart s'.schema.fields := apart_of_distinct hname
        subst hs
        dsimp only
        rw [foldl_live h3]
        exact mapOk_foldl fs s.schema.fields s.map h.map ha'
      · have hrows : s'.rows = s.rows := by subst hs; rfl
        simp only [Table.apply, hr.2, selectAll, hrows, hlive, List.map_map]
        refine List.map_congr_left (fun r hrm => ?_)
        simp only [Function.comp, List.map_append]
        congr 1
        rw [← h1]
        refine List.map_congr_left (fun f hf => ?_)
        rw [read_absent]
        intro e he heq
        have := h.ids.rows r hrm e he
        have hm : f.id ∈ fs.map (·.id) := List.mem_map.2 ⟨f, hf, rfl⟩
        rw [h2, List.mem_range'_1] at hm
        omega
  | drop n =>
    simp only [step, dropField] at hs
    split_ifs at hs
    simp only [Option.some.injEq] at hs
    have hlive : live s'.schema = (live s.schema).filter (fun f => f.name ≠ n) := by
      subst hs
      simp only [live]
      generalize s.schema.fields = fs
      induction fs with
      | nil => rfl
      | cons f fs ih =>
        rw [List.map_cons]
        by_cases hn : f.name = n
        · rw [if_pos hn, List.filter_cons_of_neg (by simp), ih]
          cases hd : f.deleted with
          | true => rw [List.filter_cons_of_neg (by simp [hd])]
          | false =>
            rw [List.filter_cons_of_pos (by simp [hd]), List.filter_cons_of_neg (by simp [hn])]
        · rw [if_neg hn]
          cases hd : f.deleted with
          | true => rw [List.filter_cons_of_neg (by simp [hd]), List.filter_cons_of_neg (by simp [hd]), ih]
          | false =>
            rw [List.filter_cons_of_pos (by simp [hd]), List.filter_cons_of_pos (by simp [hd]),
              List.filter_cons_of_pos (by simp [hn]), ih]
    refine ⟨⟨hids, ?_, ?_⟩, ?_, ?_⟩
    · rw [hlive]
      exact List.Pairwise.sublist (List.filter_sublist.map _) h.names
    · subst hs
      constructor
      · intro f' hf' hd'
        obtain ⟨f, hf, rfl⟩ := List.mem_map.1 hf'
        by_cases hn : f.name = n
        · simp [hn] at hd'
        · rw [if_neg hn] at hd' ⊢
          dsimp only
          rw [getFieldId_erase hn]
          exact h.map.here f hf hd'
      · intro x
        dsimp only
        rw [exists_erase, Bool.and_eq_true, h.map.only]
        constructor
        · rintro ⟨⟨f, hf, hd, rfl⟩, hx⟩
          have hx' : f.name ≠ n := by simpa using hx
          exact ⟨f, List.mem_map.2 ⟨f, hf, by rw [if_neg hx']⟩, hd, rfl⟩
        · rintro ⟨f', hf', hd', rfl⟩
          obtain ⟨f, hf, rfl⟩ := List.mem_map.1 hf'
          by_cases hn : f.name = n
          · simp [hn] at hd'
          · rw [if_neg hn] at hd' ⊢
            exact ⟨⟨f, hf, hd', rfl⟩, by simpa using hn⟩
    · simp only [Table.apply, hr.1, columns, hlive, List.filter_map]
      rfl
    · have hrows : s'.rows = s.rows := by subst hs; rfl
      simp only [Table.apply, hr.2, selectAll, hrows, hlive, List.map_map]
      refine List.map_congr_left (fun r _ => ?_)
      simp only [Function.comp, List.filter_map]
      rfl
  | rename n n' =>
    simp only [step, renameField] at hs
    split_ifs at hs with c1 c2 c3
    simp only [Option.some.injEq] at hs
    obtain ⟨k, hk, hkd, hkn, hki⟩ := getFieldId_mem h c1
    have hinj : ∀ f ∈ s.schema.fields, f.deleted = false → f.name = n → f = k :=
      fun f hf hd hn => names_inj' h.names hf hd hk hkd (hn.trans hkn.symm)
    have c3' : getFieldId s.map n' = 0 := by simpa using c3
    refine rename_ok hr hp hids (by subst hs; rfl) ?_ ?_
    · subst hs; exact renameFirst_eq hapart
    · subst hs
      dsimp only
      rw [renameFirst_eq hapart]
      exact mapOk_rename h.map hk hkd hkn (firstId_eq hapart hk hkd hkn)
        (getFieldId_zero h c3') hinj
  | modify n new d =>
    simp only [step, modifyField] at hs
    split_ifs at hs with c1 c2 c3
    simp only [Option.some.injEq] at hs
    obtain ⟨k, hk, hkd, hkn, hki⟩ := getFieldId_mem h c1
    have hinj : ∀ f ∈ s.schema.fields, f.deleted = false → f.name = n → f = k :=
      fun f hf hd hn => names_inj' h.names hf hd hk hkd (hn.trans hkn.symm)
    have hfields : s'.schema.fields = s.schema.fields.map (renameAll n (new.getD n)) := by
      subst hs
      refine List.map_congr_left (fun f hf => modifyOne_eq n new d f (fun hd hn => ?_))
      exact hp.2 _ (cols_mem hr hf hd) hn
    have hcols : t.cols.map (fun c => if c.1 = n then (new.getD n, d) else c) =
        t.cols.map (renameEntry n (new.getD n)) := by
      refine List.map_congr_left (fun c hc => ?_)
      unfold renameEntry
      by_cases hn : c.1 = n
      · rw [if_pos hn, if_pos hn, hp.2 c hc hn]
      · rw [if_neg hn, if_neg hn]
    have hm : MapOk s'.map s'.schema.fields := by
      rw [hfields]
      subst hs
      cases new with
      | none =>
        have hid : s.schema.fields.map (renameAll n n) = s.schema.fields := by
          conv_rhs => rw [← List.map_id s.schema.fields]
          refine List.map_congr_left (fun f _ => ?_)
          unfold renameAll
          split_ifs with hc
          · simp only [Bool.and_eq_true, Bool.not_eq_true', beq_iff_eq] at hc
            rw [← hc.2]; rfl
          · rfl
        simp only [Option.getD_none]
        rw [hid]
        exact h.map
      | some n' =>
        have c3' : getFieldId s.map n' = 0 := by simpa using c3
        exact mapOk_rename h.map hk hkd hkn hki (getFieldId_zero h c3') hinj
    have := rename_ok hr hp.1 hids (by subst hs; rfl) hfields hm
    simp only [Table.apply]
    rw [hcols]
    exact this
  | insert given =>
    simp only [step, Option.some.injEq] at hs
    subst hs
    refine ⟨⟨hids, h.names, h.map⟩, hr.1, ?_⟩
    simp only [Table.apply, hr.2, selectAll, insert, List.map_append]
    congr 1
    rw [List.map_singleton]
    congr 1
    rw [hr.1]
    simp only [columns, List.map_map]
    refine List.map_congr_left (fun f hf => ?_)
    simp only [Function.comp]
    congr 1
    have hgiven : ∀ g : Field, g ∈ live s.schema → (givenValue given g.name).getD g.dflt = none →
        g.dflt = none := by
      intro g hg hnone
      obtain ⟨hg1, hg2⟩ := mem_live.1 hg
      simp only [givenValue] at hnone
      cases hfd : given.find? (fun e => lower e.1 == lower g.name) with
      | none => rw [hfd] at hnone; simpa using hnone
      | some e =>
        rw [hfd] at hnone
        have he := List.find?_some hfd
        refine hp _ (cols_mem hr hg1 hg2) e (List.mem_of_find?_eq_some hfd) ?_ (by simpa using hnone)
        rw [sameName_eq]
        exact he
    rw [read_build (live_nodup h.ids.nodup) hgiven hf]
    simp only [givenValue, sameName_eq]
    cases given.find? (fun e => lower e.1 == lower f.name) <;> rfl
  | update i n v =>
    simp only [step, update] at hs
    cases hrs : resolve s.schema n with
    | none => rw [hrs] at hs; simp at hs
    | some f =>
      rw [hrs] at hs
      simp only [Option.some.injEq] at hs
      subst hs
      obtain ⟨hf, hfd, hfn⟩ := resolve_mem hrs
      refine ⟨⟨hids, h.names, h.map⟩, hr.1, ?_⟩
      simp only [Table.apply, hr.2, selectAll]
      refine List.ext_getElem (by simp) (fun k hk1 hk2 => ?_)
      simp only [List.getElem_modify, List.getElem_map]
      split_ifs with hik
      · rw [List.map_map]
        refine List.map_congr_left (fun g hg => ?_)
        obtain ⟨hg1, hg2⟩ := mem_live.1 hg
        simp only [Function.comp]
        by_cases hgn : sameName g.name n = true
        · have hgf : g = f := by
            refine names_inj h.names hg1 hg2 hf hfd ?_
            rw [sameName_iff] at hgn hfn ⊢
            rw [hgn, hfn]
          rw [if_pos hgn, hgf, readField_write_self (fun hv => hp _ (cols_mem hr hf hfd) hfn hv)]
        · have hgf : g.id ≠ f.id := by
            intro he
            have := ids_inj h.ids.nodup hg1 hf he
            exact hgn (this ▸ hfn)
          rw [if_neg hgn, readField_write_ne hgf]
      · rfl
  | restart =>
    simp only [step, Option.some.injEq] at hs
    subst hs
    refine ⟨⟨hids, h.names, ?_⟩, hr⟩
    have := mapOk_foldl s.schema.fields [] [] ⟨by simp, by simp [fieldExists]⟩ (by simpa using hapart)
    simpa [restart] using this

/-! ### CREATE TABLE -/

theorem alloc_ok : ∀ {cols : List (Name × Option Val)} {i : Nat} {m : List (Name × Nat)} {fs0 : List Field}
    {fs : List Field} {m' : List (Name × Nat)} {mx : Nat},
    allocFields cols i m = some (fs, m', mx) → MapOk m fs0 →
    MapOk m' (fs0 ++ fs) ∧ fs.map (fun f => (f.name, f.dflt)) = cols ∧
      fs.map (·.id) = List.range' (i + 1) cols.length ∧ (∀ f ∈ fs, f.deleted = false) ∧
      mx = i + cols.length
  | [], i, m, fs0, fs, m', mx, h, hm => by
    simp only [allocFields, Option.some.injEq, Prod.mk.injEq] at h
    obtain ⟨rfl, rfl, rfl⟩ := h
    simpa using hm
  | (n, d) :: cols, i, m, fs0, fs, m', mx, h, hm => by
    by_cases hx : fieldExists m n = true
    · simp [allocFields, hx] at h
    · rw [allocFields, if_neg hx] at h
      cases hl : allocFields cols (i + 1) (mapPut m n (i + 1)) with
      | none => rw [hl] at h; simp at h
      | some p =>
        obtain ⟨gs, m1, j⟩ := p
        rw [hl] at h
        simp only [Option.some.injEq, Prod.mk.injEq] at h
        obtain ⟨rfl, rfl, rfl⟩ := h
        have hm1 : MapOk (mapPut m n (i + 1)) (fs0 ++ [⟨i + 1, n, false, d⟩]) := by
          refine mapOk_cons (f := ⟨i + 1, n, false, d⟩) hm rfl (fun g hg hgd he => hx ?_)
          exact (hm.only n).2 ⟨g, hg, hgd, he⟩
        obtain ⟨h1, h2, h3, h4, h5⟩ := alloc_ok hl hm1
        refine ⟨by simpa using h1, by simp [h2], by simp [h3, List.range'_succ], ?_, ?_⟩
        · intro f hf
          rcases List.mem_cons.1 hf with rfl | hf
          · rfl
          · exact h4 f hf
        · rw [h5, List.length_cons]; omega

theorem create_ids {cols : List (Name × Option Val)} {idx : List (List Name)} {part ttl link : Option Name}
    {c : Bool} {s : State} (h : create cols idx part ttl link c = some s) :
    IdsOk s ∧ MapOk s.map s.schema.fields ∧ columns s = cols ∧ s.rows = [] ∧
      (∀ f ∈ s.schema.fields, f.deleted = false) := by
  unfold create at h
  cases hl : allocFields cols 0 [] with
  | none => rw [hl] at h; simp at h
  | some p =>
    obtain ⟨fs, m, mx⟩ := p
    rw [hl] at h
    dsimp only at h
    cases hi : idx.mapM (indexIds m) with
    | none => rw [hi] at h; simp at h
    | some ids =>
      rw [hi] at h
      simp only [Option.some.injEq] at h
      subst h
      obtain ⟨h1, h2, h3, h4, h5⟩ := alloc_ok hl (fs0 := []) ⟨by simp, by simp [fieldExists]⟩
      have hall : fs.filter (fun f => !f.deleted) = fs := by
        rw [List.filter_eq_self]; intro f hf; simp [h4 f hf]
      refine ⟨⟨?_, ?_, by simp⟩, by simpa using h1, ?_, rfl, h4⟩
      · dsimp only; rw [h3]; exact List.nodup_range'
      · intro f hf
        have : f.id ∈ fs.map (·.id) := List.mem_map.2 ⟨f, hf, rfl⟩
        rw [h3, List.mem_range'_1] at this
        dsimp only
        omega
      · simp only [columns, live, hall, h2]

theorem create_ok {cols : List (Name × Option Val)} {idx : List (List Name)} {part ttl link : Option Name}
    {c : Bool} {s : State} (h : create cols idx part ttl link c = some s)
    (hd : Distinct (cols.map (·.1))) : Inv s ∧ Rel s ⟨cols, []⟩ := by
  obtain ⟨h1, h2, h3, h4, h5⟩ := create_ids h
  refine ⟨⟨h1, ?_, h2⟩, h3.symm, by simp [selectAll, h4]⟩
  have : (live s.schema).map (·.name) = (columns s).map (·.1) := by
    simp [columns, List.map_map, Function.comp]
  rw [this, h3]
  exact hd

theorem exec_ok {s s' : State} {t t' : Table} (he : Exec s t s' t') (h : Inv s) (hr : Rel s t) :
    Inv s' ∧ Rel s' t' := by
  induction he with
  | refl => exact ⟨h, hr⟩
  | tail _ hp hs ih => exact step_ok ih.1 ih.2 hp hs

end BaikalDB.Alter
