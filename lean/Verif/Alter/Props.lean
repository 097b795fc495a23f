import Verif.Alter.Steps

/-! Theorems C72: what a user sees of a table under ALTER TABLE. -/

namespace BaikalDB.Alter

/-- **C72 (rows).** Whatever columns are added, dropped, renamed and changed, and whatever rows are written
in between, the columns and `SELECT *` are those of the table that the user expects. -/
theorem C72_rows {cols : List (Name × Option Val)} {idx : List (List Name)} {part ttl link : Option Name}
    {c : Bool} {s s' : State} {t' : Table} (hc : create cols idx part ttl link c = some s)
    (hd : Distinct (cols.map (·.1))) (he : Exec s ⟨cols, []⟩ s' t') :
    columns s' = t'.cols ∧ selectAll s' = t'.rows := by
  obtain ⟨h, hr⟩ := create_ok hc hd
  have := (exec_ok he h hr).2
  exact ⟨this.1.symm, this.2.symm⟩

/-- **C72 (by name).** A column selected by name, in any case, reads as in the expected table. -/
theorem C72_by_name {cols : List (Name × Option Val)} {idx : List (List Name)}
    {part ttl link : Option Name} {c : Bool} {s s' : State} {t' : Table}
    (hc : create cols idx part ttl link c = some s) (hd : Distinct (cols.map (·.1)))
    (he : Exec s ⟨cols, []⟩ s' t') (i : Nat) (n : Name) : selectOne s' i n = t'.value i n := by
  have hrel := (C72_rows hc hd he).2
  unfold selectOne Table.value
  rw [← hrel]
  simp only [selectAll, List.getElem?_map]
  cases s'.rows[i]? with
  | none => rfl
  | some r =>
    simp only [Option.map_some, resolve]
    generalize live s'.schema = l
    induction l with
    | nil => rfl
    | cons f l ih =>
      simp only [List.map_cons, List.find?_cons, sameName_eq]
      cases hx : (lower f.name == lower n) with
      | true => rfl
      | false => simpa only [sameName_eq] using ih

/-- **C72 (numbers).** The number of a column is never given to another one: numbers are unique, a column
that was dropped stays dropped, and a column that was not there before has a larger number than all before
it.  This holds for all requests. -/
theorem C72_numbers {cols : List (Name × Option Val)} {idx : List (List Name)}
    {part ttl link : Option Name} {c : Bool} {s0 s s' : State}
    (hc : create cols idx part ttl link c = some s0) (h1 : Any s0 s) (h2 : Any s s') :
    (s'.schema.fields.map (·.id)).Nodup ∧
      (∀ f ∈ s.schema.fields, f.deleted = true → ∀ f' ∈ s'.schema.fields, f'.id = f.id →
        f'.deleted = true) ∧
      (∀ f' ∈ s'.schema.fields, (∀ f ∈ s.schema.fields, f.id ≠ f'.id) →
        ∀ f ∈ s.schema.fields, f.id < f'.id) ∧
      (∀ r ∈ s.rows, ∀ e ∈ r, ∀ f' ∈ s'.schema.fields, (∀ f ∈ s.schema.fields, f.id ≠ f'.id) →
        e.1 < f'.id) := by
  have run : ∀ {a b : State}, Any a b → IdsOk a → IdsOk b ∧ Kept a b := by
    intro a b hab ha
    induction hab with
    | refl => exact ⟨ha, Kept.refl _⟩
    | tail _ hs ih =>
      obtain ⟨h1, h2⟩ := step_ids ih.1 hs
      exact ⟨h1, ih.2.trans h2⟩
  have hs := (run h1 (create_ids hc).1).1
  obtain ⟨hs', hk⟩ := run h2 hs
  refine ⟨hs'.nodup, ?_, ?_, ?_⟩
  · intro f hf hfd f' hf' hid
    rcases hk.2 f' hf' with ⟨g, hg, hge, hgd⟩ | hlt
    · have : g = f := ids_inj hs.nodup hg hf (hge.trans hid)
      exact hgd (this ▸ hfd)
    · have := (hs.bound f hf).2
      omega
  · intro f' hf' hnew f hf
    rcases hk.2 f' hf' with ⟨g, hg, hge, -⟩ | hlt
    · exact absurd hge (hnew g hg)
    · have := (hs.bound f hf).2
      omega
  · intro r hr e he f' hf' hnew
    rcases hk.2 f' hf' with ⟨g, hg, hge, -⟩ | hlt
    · exact absurd hge (hnew g hg)
    · have := hs.rows r hr e he
      omega

theorem isNamed_false {c : Option (Name × Nat)} {n : Name} :
    isNamed c n = false ↔ ∀ p, c = some p → p.1 ≠ n := by
  cases c with
  | none => simp [isNamed]
  | some p => simp [isNamed]

theorem inIndex_false {sc : Schema} {n : Name} :
    inIndex sc n = false ↔ ∀ x ∈ sc.indexes, x.dead = false → n ∉ x.names := by
  simp only [inIndex, List.any_eq_false, Bool.and_eq_true, Bool.not_eq_true', not_and,
    List.contains_iff_mem]

/-- **C72 (accepted).** Which ALTER TABLE is accepted: ADD if no name is in use, RENAME and CHANGE of a
column that exists and is not the binlog link to a name not in use, MODIFY of a column that exists and is
not the binlog link, DROP of a column that exists and is not in use by name. -/
theorem C72_accepted {cols : List (Name × Option Val)} {idx : List (List Name)}
    {part ttl link : Option Name} {c : Bool} {s s' : State} {t' : Table}
    (hc : create cols idx part ttl link c = some s) (hd : Distinct (cols.map (·.1)))
    (he : Exec s ⟨cols, []⟩ s' t') :
    (∀ new, (step s' (.add new)).isSome ↔ ∀ a ∈ new, ∀ b ∈ t'.cols, b.1 ≠ a.1) ∧
    (∀ n n', (step s' (.rename n n')).isSome ↔
      (∃ f ∈ s'.schema.fields, f.deleted = false ∧ f.name = n ∧ s'.schema.link ≠ some f.id) ∧
        ∀ b ∈ t'.cols, b.1 ≠ n') ∧
    (∀ n new d, (step s' (.modify n new d)).isSome ↔
      (∃ f ∈ s'.schema.fields, f.deleted = false ∧ f.name = n ∧ s'.schema.link ≠ some f.id) ∧
        ∀ n', new = some n' → ∀ b ∈ t'.cols, b.1 ≠ n') ∧
    (∀ n, (step s' (.drop n)).isSome ↔
      (∃ f ∈ s'.schema.fields, f.deleted = false ∧ f.name = n ∧ s'.schema.link ≠ some f.id) ∧
        (∀ p, s'.schema.ttl = some p → p.1 ≠ n) ∧ (∀ p, s'.schema.part = some p → p.1 ≠ n) ∧
        ∀ x ∈ s'.schema.indexes, x.dead = false → n ∉ x.names) := by
  obtain ⟨h0, hr0⟩ := create_ok hc hd
  obtain ⟨h, hr⟩ := exec_ok he h0 hr0
  have hnot : ∀ n, fieldExists s'.map n = false ↔ ∀ b ∈ t'.cols, b.1 ≠ n := by
    intro n
    rw [← Bool.not_eq_true, h.map.only, hr.1]
    constructor
    · intro hx b hb heq
      obtain ⟨f, hf, rfl⟩ := List.mem_map.1 hb
      exact hx ⟨f, (mem_live.1 hf).1, (mem_live.1 hf).2, heq⟩
    · rintro hx ⟨f, hf, hfd, hfn⟩
      exact hx (f.name, f.dflt) (List.mem_map.2 ⟨f, mem_live.2 ⟨hf, hfd⟩, rfl⟩) hfn
  have hzero : ∀ n, getFieldId s'.map n = 0 ↔ ∀ b ∈ t'.cols, b.1 ≠ n := by
    intro n
    rw [← hnot]
    constructor
    · intro hx
      cases hy : fieldExists s'.map n with
      | false => rfl
      | true =>
        obtain ⟨f, hf, hfd, hfn⟩ := (h.map.only n).1 hy
        exact absurd hfn (getFieldId_zero h hx f hf hfd)
    · exact getFieldId_absent
  have hlink : ∀ n, (¬ getFieldId s'.map n = 0 ∧ ¬ s'.schema.link = some (getFieldId s'.map n)) ↔
      ∃ f ∈ s'.schema.fields, f.deleted = false ∧ f.name = n ∧ s'.schema.link ≠ some f.id := by
    intro n
    constructor
    · rintro ⟨h1, h2⟩
      obtain ⟨f, hf, hfd, hfn, hfi⟩ := getFieldId_mem h h1
      exact ⟨f, hf, hfd, hfn, hfi ▸ h2⟩
    · rintro ⟨f, hf, hfd, rfl, hl⟩
      have := h.map.here f hf hfd
      have hb := (h.ids.bound f hf).1
      exact ⟨by omega, this ▸ hl⟩
  refine ⟨?_, ?_, ?_, ?_⟩
  · intro new
    constructor
    · intro hx a ha
      simp only [step, addField] at hx
      cases hl : addLoop s'.map new s'.schema.maxId with
      | none => rw [hl] at hx; simp at hx
      | some fs => exact (hnot a.1).1 ((addLoop_spec hl).2.2.2 a ha)
    · intro hx
      obtain ⟨fs, hfs⟩ := addLoop_ok (m := s'.map) (i := s'.schema.maxId)
        (fun a ha => (hnot a.1).2 (hx a ha))
      simp [step, addField, hfs]
  · intro n n'
    rw [← hlink, ← hzero]
    simp only [step, renameField]
    by_cases c1 : getFieldId s'.map n = 0
    · simp [c1]
    · by_cases c2 : s'.schema.link = some (getFieldId s'.map n)
      · simp [c1, c2]
      · by_cases c3 : getFieldId s'.map n' = 0 <;> simp [c1, c2, c3]
  · intro n new d
    rw [← hlink]
    simp only [← hzero, step, modifyField]
    by_cases c1 : getFieldId s'.map n = 0
    · simp [c1]
    · by_cases c2 : s'.schema.link = some (getFieldId s'.map n)
      · simp [c1, c2]
      · cases new with
        | none => simp [c1, c2]
        | some n' => by_cases c3 : getFieldId s'.map n' = 0 <;> simp [c1, c2, c3]
  · intro n
    rw [← hlink, ← isNamed_false, ← isNamed_false, ← inIndex_false]
    simp only [step, dropField]
    by_cases c1 : getFieldId s'.map n = 0
    · simp [c1]
    · by_cases c2 : s'.schema.link = some (getFieldId s'.map n)
      · simp [c1, c2]
      · cases isNamed s'.schema.ttl n <;> cases isNamed s'.schema.part n <;>
          cases inIndex s'.schema n <;> simp [c1, c2]

/-! ### Columns in use -/

/-- The columns in use are there, and the names kept for them are theirs. -/
structure Roles (s : State) : Prop where
  part : ∀ p, s.schema.part = some p → ∃ f ∈ s.schema.fields, f.deleted = false ∧ f.id = p.2 ∧ f.name = p.1
  ttl : ∀ p, s.schema.ttl = some p → ∃ f ∈ s.schema.fields, f.deleted = false ∧ f.id = p.2 ∧ f.name = p.1
  link : ∀ i, s.schema.link = some i → ∃ f ∈ s.schema.fields, f.deleted = false ∧ f.id = i
  index : ∀ x ∈ s.schema.indexes, x.dead = false → ∀ i ∈ x.ids,
    ∃ f ∈ s.schema.fields, f.deleted = false ∧ f.id = i ∧ f.name ∈ x.names

theorem Roles.has {s : State} (h : Roles s) {i : Nat} (hu : Used s i) : HasColumn s i := by
  rcases hu with ⟨p, hp, rfl⟩ | ⟨p, hp, rfl⟩ | hl | ⟨x, hx, hd, hi⟩
  · obtain ⟨f, hf, h1, h2, -⟩ := h.part p hp; exact ⟨f, hf, h1, h2⟩
  · obtain ⟨f, hf, h1, h2, -⟩ := h.ttl p hp; exact ⟨f, hf, h1, h2⟩
  · obtain ⟨f, hf, h1, h2⟩ := h.link i hl; exact ⟨f, hf, h1, h2⟩
  · obtain ⟨f, hf, h1, h2, -⟩ := h.index x hx hd i hi; exact ⟨f, hf, h1, h2⟩

theorem named_some {m : List (Name × Nat)} {fs : List Field} (hm : MapOk m fs) {o : Option Name}
    {p : Name × Nat} (h : o.bind (named m) = some p) :
    ∃ f ∈ fs, f.deleted = false ∧ f.id = p.2 ∧ f.name = p.1 := by
  cases o with
  | none => simp at h
  | some n =>
    simp only [Option.bind_some, named] at h
    by_cases hx : fieldExists m n = true
    · rw [if_pos hx] at h
      simp only [Option.some.injEq] at h
      subst h
      obtain ⟨f, hf, hd, rfl⟩ := (hm.only n).1 hx
      exact ⟨f, hf, hd, (hm.here f hf hd).symm, rfl⟩
    · rw [if_neg hx] at h; simp at h

theorem indexIds_spec {m : List (Name × Nat)} {fs : List Field} (hm : MapOk m fs) :
    ∀ {ns : List Name} {ids : List Nat}, indexIds m ns = some ids → ∀ i ∈ ids,
      ∃ f ∈ fs, f.deleted = false ∧ f.id = i ∧ f.name ∈ ns
  | [], ids, h, i, hi => by
    simp only [indexIds, Option.some.injEq] at h
    subst h
    simp at hi
  | n :: ns, ids, h, i, hi => by
    by_cases hx : fieldExists m n = true
    · rw [indexIds, if_pos hx] at h
      cases hl : indexIds m ns with
      | none => rw [hl] at h; simp at h
      | some js =>
        rw [hl] at h
        simp only [Option.map_some, Option.some.injEq] at h
        subst h
        rcases List.mem_cons.1 hi with rfl | hi
        · obtain ⟨f, hf, hd, rfl⟩ := (hm.only n).1 hx
          exact ⟨f, hf, hd, (hm.here f hf hd).symm, List.mem_cons_self⟩
        · obtain ⟨f, hf, h1, h2, h3⟩ := indexIds_spec hm hl i hi
          exact ⟨f, hf, h1, h2, List.mem_cons_of_mem _ h3⟩
    · rw [indexIds, if_neg hx] at h; simp at h

theorem mapM_zip {m : List (Name × Nat)} : ∀ {idx : List (List Name)} {ids : List (List Nat)},
    idx.mapM (indexIds m) = some ids → ∀ p ∈ idx.zip ids, indexIds m p.1 = some p.2
  | [], ids, _, p, hp => by simp at hp
  | ns :: idx, ids, h, p, hp => by
    rw [List.mapM_cons] at h
    cases h1 : indexIds m ns with
    | none => rw [h1] at h; simp at h
    | some is =>
      rw [h1] at h
      cases h2 : idx.mapM (indexIds m) with
      | none => rw [h2] at h; simp at h
      | some iss =>
        rw [h2] at h
        have h' : ids = is :: iss := by simpa using h.symm
        subst h'
        rw [List.zip_cons_cons] at hp
        rcases List.mem_cons.1 hp with rfl | hp
        · exact h1
        · exact mapM_zip h2 p hp

theorem create_roles {cols : List (Name × Option Val)} {idx : List (List Name)}
    {part ttl link : Option Name} {c : Bool} {s : State}
    (h : create cols idx part ttl link c = some s) : Roles s := by
  have hm := (create_ids h).2.1
  unfold create at h
  cases hl : allocFields cols 0 [] with
  | none => rw [hl] at h; simp at h
  | some p =>
    obtain ⟨fs, m, mx⟩ := p
    rw [hl] at h
    dsimp only at h
    cases hi : idx.mapM (indexIds m) with
    | none => rw [hi] at h; simp at h
    | some ids =>
      rw [hi] at h
      simp only [Option.some.injEq] at h
      subst h
      dsimp only at hm
      refine ⟨fun p hp => named_some hm hp, fun p hp => named_some hm hp, ?_, ?_⟩
      · intro i hl
        dsimp only at hl
        rw [Option.map_eq_some_iff] at hl
        obtain ⟨p, hp, rfl⟩ := hl
        obtain ⟨f, hf, h1, h2, -⟩ := named_some hm hp
        exact ⟨f, hf, h1, h2⟩
      · intro x hx _ i hix
        obtain ⟨p, hp, rfl⟩ := List.mem_map.1 hx
        exact indexIds_spec hm (mapM_zip hi p hp) i hix

theorem mem_replaceFirst {n n' x : Name} : ∀ {l : List Name}, x ∈ l → x ≠ n → x ∈ replaceFirst n n' l
  | [], h, _ => by simp at h
  | y :: l, h, hx => by
    rw [replaceFirst]
    by_cases hy : (y == n) = true
    · rw [if_pos hy]
      rcases List.mem_cons.1 h with rfl | h
      · exact absurd (by simpa using hy) hx
      · exact List.mem_cons_of_mem _ h
    · rw [if_neg hy]
      rcases List.mem_cons.1 h with rfl | h
      · exact List.mem_cons_self
      · exact List.mem_cons_of_mem _ (mem_replaceFirst h hx)

theorem mem_replaceFirst_new {n n' : Name} : ∀ {l : List Name}, n ∈ l → n' ∈ replaceFirst n n' l
  | [], h => by simp at h
  | y :: l, h => by
    rw [replaceFirst]
    by_cases hy : (y == n) = true
    · rw [if_pos hy]; exact List.mem_cons_self
    · rw [if_neg hy]
      rcases List.mem_cons.1 h with rfl | h
      · simp at hy
      · exact List.mem_cons_of_mem _ (mem_replaceFirst_new h)

/-- A field of the schema after live fields of one name got another. -/
theorem mem_renamed {fs : List Field} {n n' : Name} {f : Field} (hf : f ∈ fs) (hd : f.deleted = false) :
    ∃ f' ∈ fs.map (renameAll n n'), f'.deleted = false ∧ f'.id = f.id ∧
      f'.name = if f.name = n then n' else f.name := by
  obtain ⟨h1, h2, -⟩ := renameAll_facts n n' f
  exact ⟨renameAll n n' f, List.mem_map.2 ⟨f, hf, rfl⟩, h2.trans hd, h1, renameAll_live hd⟩

theorem step_roles {s s' : State} {t : Table} {op : Op} (h : Inv s) (hr : Rel s t) (hp : Proper t op)
    (hq : Quiet s op) (hs : step s op = some s') (ho : Roles s) :
    Roles s' ∧ ∀ i, Used s i → Used s' i := by
  have hapart : Apart s.schema.fields := apart_of_distinct h.names
  cases op with
  | add cols =>
    simp only [step, addField] at hs
    cases hl : addLoop s.map cols s.schema.maxId with
    | none => rw [hl] at hs; simp at hs
    | some fs =>
      rw [hl] at hs
      simp only [Option.some.injEq] at hs
      subst hs
      refine ⟨⟨?_, ?_, ?_, ?_⟩, fun i hi => hi⟩
      · intro p hp
        obtain ⟨f, hf, h1⟩ := ho.part p hp
        exact ⟨f, List.mem_append_left _ hf, h1⟩
      · intro p hp
        obtain ⟨f, hf, h1⟩ := ho.ttl p hp
        exact ⟨f, List.mem_append_left _ hf, h1⟩
      · intro i hi
        obtain ⟨f, hf, h1⟩ := ho.link i hi
        exact ⟨f, List.mem_append_left _ hf, h1⟩
      · intro x hx hd i hi
        obtain ⟨f, hf, h1⟩ := ho.index x hx hd i hi
        exact ⟨f, List.mem_append_left _ hf, h1⟩
  | drop n =>
    simp only [step, dropField] at hs
    split_ifs at hs with c1 c2 c3 c4 c5
    simp only [Option.some.injEq] at hs
    subst hs
    have keep : ∀ f ∈ s.schema.fields, f.name ≠ n →
        f ∈ s.schema.fields.map (fun f => if f.name = n then { f with deleted := true } else f) :=
      fun f hf hn => List.mem_map.2 ⟨f, hf, if_neg hn⟩
    have c1' := isNamed_false.1 (by simpa using c1 : isNamed s.schema.ttl n = false)
    have c4' := isNamed_false.1 (by simpa using c4 : isNamed s.schema.part n = false)
    have c5' := inIndex_false.1 (by simpa using c5 : inIndex s.schema n = false)
    refine ⟨⟨?_, ?_, ?_, ?_⟩, fun i hi => hi⟩
    · intro p hp
      obtain ⟨f, hf, h1, h2, h3⟩ := ho.part p hp
      exact ⟨f, keep f hf (h3 ▸ c4' p hp), h1, h2, h3⟩
    · intro p hp
      obtain ⟨f, hf, h1, h2, h3⟩ := ho.ttl p hp
      exact ⟨f, keep f hf (h3 ▸ c1' p hp), h1, h2, h3⟩
    · intro i hi
      obtain ⟨f, hf, h1, h2⟩ := ho.link i hi
      refine ⟨f, keep f hf ?_, h1, h2⟩
      intro hn
      have := h.map.here f hf h1
      rw [hn] at this
      exact c3 (by rw [this, h2]; exact hi)
    · intro x hx hd i hi
      obtain ⟨f, hf, h1, h2, h3⟩ := ho.index x hx hd i hi
      exact ⟨f, keep f hf (fun hn => c5' x hx hd (hn ▸ h3)), h1, h2, h3⟩
  | rename n n' =>
    simp only [step, renameField] at hs
    split_ifs at hs with c1 c2 c3
    simp only [Option.some.injEq] at hs
    rw [renameFirst_eq hapart] at hs
    subst hs
    refine ⟨⟨?_, ?_, ?_, ?_⟩, ?_⟩
    · intro p hp
      obtain ⟨f, hf, h1, h2, h3⟩ := ho.part p hp
      obtain ⟨f', hf', a1, a2, a3⟩ := mem_renamed (n := n) (n' := n') hf h1
      rw [if_neg (h3 ▸ hq.1 p hp)] at a3
      exact ⟨f', hf', a1, a2.trans h2, a3.trans h3⟩
    · intro p hp
      obtain ⟨f, hf, h1, h2, h3⟩ := ho.ttl p hp
      obtain ⟨f', hf', a1, a2, a3⟩ := mem_renamed (n := n) (n' := n') hf h1
      rw [if_neg (h3 ▸ hq.2 p hp)] at a3
      exact ⟨f', hf', a1, a2.trans h2, a3.trans h3⟩
    · intro i hi
      obtain ⟨f, hf, h1, h2⟩ := ho.link i hi
      obtain ⟨f', hf', a1, a2, a3⟩ := mem_renamed (n := n) (n' := n') hf h1
      exact ⟨f', hf', a1, a2.trans h2⟩
    · intro x hx hd i hi
      obtain ⟨y, hy, rfl⟩ := List.mem_map.1 hx
      obtain ⟨f, hf, h1, h2, h3⟩ := ho.index y hy hd i hi
      obtain ⟨f', hf', a1, a2, a3⟩ := mem_renamed (n := n) (n' := n') hf h1
      refine ⟨f', hf', a1, a2.trans h2, ?_⟩
      dsimp only
      rw [a3]
      by_cases hn : f.name = n
      · rw [if_pos hn]; exact mem_replaceFirst_new (hn ▸ h3)
      · rw [if_neg hn]; exact mem_replaceFirst h3 hn
    · rintro i (hi | hi | hi | ⟨x, hx, hd, hi⟩)
      · exact Or.inl hi
      · exact Or.inr (Or.inl hi)
      · exact Or.inr (Or.inr (Or.inl hi))
      · exact Or.inr (Or.inr (Or.inr ⟨_, List.mem_map.2 ⟨x, hx, rfl⟩, hd, hi⟩))
  | modify n new d =>
    simp only [step, modifyField] at hs
    split_ifs at hs with c1 c2 c3
    simp only [Option.some.injEq] at hs
    have hfields : s.schema.fields.map (modifyOne n new d) =
        s.schema.fields.map (renameAll n (new.getD n)) :=
      List.map_congr_left (fun f hf => modifyOne_eq n new d f (fun hd hn =>
        hp.2 _ (cols_mem hr hf hd) hn))
    rw [hfields] at hs
    subst hs
    refine ⟨⟨?_, ?_, ?_, ?_⟩, fun i hi => hi⟩
    · intro p hp
      obtain ⟨f, hf, h1, h2, h3⟩ := ho.part p hp
      obtain ⟨f', hf', a1, a2, a3⟩ := mem_renamed (n := n) (n' := new.getD n) hf h1
      refine ⟨f', hf', a1, a2.trans h2, ?_⟩
      cases new with
      | none => rw [a3]; split_ifs with hn <;> simp_all
      | some n' =>
        rw [if_neg (h3 ▸ (hq (by simp)).1 p hp)] at a3
        exact a3.trans h3
    · intro p hp
      obtain ⟨f, hf, h1, h2, h3⟩ := ho.ttl p hp
      obtain ⟨f', hf', a1, a2, a3⟩ := mem_renamed (n := n) (n' := new.getD n) hf h1
      refine ⟨f', hf', a1, a2.trans h2, ?_⟩
      cases new with
      | none => rw [a3]; split_ifs with hn <;> simp_all
      | some n' =>
        rw [if_neg (h3 ▸ (hq (by simp)).2.1 p hp)] at a3
        exact a3.trans h3
    · intro i hi
      obtain ⟨f, hf, h1, h2⟩ := ho.link i hi
      obtain ⟨f', hf', a1, a2, a3⟩ := mem_renamed (n := n) (n' := new.getD n) hf h1
      exact ⟨f', hf', a1, a2.trans h2⟩
    · intro x hx hd i hi
      obtain ⟨f, hf, h1, h2, h3⟩ := ho.index x hx hd i hi
      obtain ⟨f', hf', a1, a2, a3⟩ := mem_renamed (n := n) (n' := new.getD n) hf h1
      refine ⟨f', hf', a1, a2.trans h2, ?_⟩
      cases new with
      | none => rw [a3]; split_ifs with hn <;> simp_all
      | some n' =>
        have hne : f.name ≠ n := fun hn => (hq (by simp)).2.2 x hx (hn ▸ h3)
        rw [if_neg hne] at a3
        rw [a3]; exact h3
  | insert given =>
    simp only [step, Option.some.injEq] at hs
    subst hs
    exact ⟨⟨ho.part, ho.ttl, ho.link, ho.index⟩, fun i hi => hi⟩
  | update i n v =>
    simp only [step, update] at hs
    cases hrs : resolve s.schema n with
    | none => rw [hrs] at hs; simp at hs
    | some f =>
      rw [hrs] at hs
      simp only [Option.some.injEq] at hs
      subst hs
      exact ⟨⟨ho.part, ho.ttl, ho.link, ho.index⟩, fun i hi => hi⟩
  | restart =>
    simp only [step, Option.some.injEq] at hs
    subst hs
    exact ⟨⟨ho.part, ho.ttl, ho.link, ho.index⟩, fun i hi => hi⟩

/-- **C72 (columns in use).** The partition column, the TTL column, the binlog link column and the columns
of an index stay in the table, if none of them is renamed with a statement that does not follow the name:
RENAME of the partition or TTL column, CHANGE of these or of an index column. -/
theorem C72_in_use {cols : List (Name × Option Val)} {idx : List (List Name)}
    {part ttl link : Option Name} {c : Bool} {s s' : State} {t' : Table}
    (hc : create cols idx part ttl link c = some s) (hd : Distinct (cols.map (·.1)))
    (he : Calm s ⟨cols, []⟩ s' t') (i : Nat) (hu : Used s i) : HasColumn s' i := by
  obtain ⟨h0, hr0⟩ := create_ok hc hd
  have ho := create_roles hc
  have : Inv s' ∧ Rel s' t' ∧ Roles s' ∧ ∀ i, Used s i → Used s' i := by
    clear hc hd
    generalize (⟨cols, []⟩ : Table) = t at he hr0
    induction he with
    | refl => exact ⟨h0, hr0, ho, fun i hi => hi⟩
    | tail _ hp hq hs ih =>
      obtain ⟨a1, a2, a3, a4⟩ := ih
      obtain ⟨b1, b2⟩ := step_ok a1 a2 hp hs
      obtain ⟨b3, b4⟩ := step_roles a1 a2 hp hq hs a3
      exact ⟨b1, b2, b3, fun i hi => b4 i (a4 i hi)⟩
  exact this.2.2.1.has (this.2.2.2 i hu)

/-- **C72 (changed default).** A MODIFY or CHANGE that changes the default changes no other column, and in
its own column only values equal to the old default, which may read as the new one. -/
theorem C72_changed_default {s s' : State} {n : Name} {new : Option Name} {d : Option Val}
    (hs : step s (.modify n new d) = some s') :
    List.Forall₂ (List.Forall₂ (fun a b =>
      b.1 = (if a.1 = n then new.getD n else a.1) ∧
        (b.2 = a.2 ∨ (a.1 = n ∧ a ∈ columns s ∧ b.2 = d)))) (selectAll s) (selectAll s') := by
  simp only [step, modifyField] at hs
  split_ifs at hs
  simp only [Option.some.injEq] at hs
  have hlive : live s'.schema = (live s.schema).map (modifyOne n new d) := by
    subst hs
    simp only [live, List.filter_map]
    congr 1
    refine List.filter_congr (fun f _ => ?_)
    simp [(modifyOne_id n new d f).2]
  have hrows : s'.rows = s.rows := by subst hs; rfl
  simp only [selectAll, hrows, hlive, List.map_map]
  rw [List.forall₂_map_left_iff, List.forall₂_map_right_iff, List.forall₂_same]
  intro r _
  rw [List.forall₂_map_left_iff, List.forall₂_map_right_iff, List.forall₂_same]
  intro f hf
  have hd := (mem_live.1 hf).2
  by_cases hn : f.name = n
  · have hm : modifyOne n new d f = { f with name := new.getD n, dflt := d } := by
      simp [modifyOne, hd, hn]
    simp only [Function.comp, hm, hn, if_true, true_and]
    cases hx : r.find? (fun e => e.1 == f.id) with
    | some e => left; simp [readField, hx]
    | none =>
      right
      refine ⟨List.mem_map.2 ⟨f, hf, ?_⟩, by simp [readField, hx]⟩
      simp [readField, hx, hn]
  · have hm : modifyOne n new d f = f := by simp [modifyOne, hn]
    simp [Function.comp, hm, hn]

end BaikalDB.Alter
