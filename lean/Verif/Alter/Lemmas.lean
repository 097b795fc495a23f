import Verif.Alter.Spec
import Mathlib.Data.List.Basic
import Mathlib.Data.List.Nodup

/-! Invariant of the schema, the name map and the rows, and its preservation by every request. -/

namespace BaikalDB.Alter

theorem sameByte_iff (a b : Nat) : sameByte a b = true ↔ lowerByte a = lowerByte b := by
  unfold sameByte lowerByte
  simp only [Bool.or_eq_true, Bool.and_eq_true, beq_iff_eq, decide_eq_true_eq]
  split_ifs <;> omega

theorem sameName_iff : ∀ a b : Name, sameName a b = true ↔ lower a = lower b
  | [], [] => by simp [sameName, lower]
  | [], b :: bs => by simp [sameName, lower]
  | a :: as, [] => by simp [sameName, lower]
  | a :: as, b :: bs => by
    have := sameName_iff as bs
    simp only [lower] at this
    simp [sameName, lower, sameByte_iff, this]

theorem sameName_false (a b : Name) : sameName a b = false ↔ lower a ≠ lower b := by
  rw [Ne, ← sameName_iff]; simp

theorem sameName_eq (a b : Name) : sameName a b = (lower a == lower b) := by
  rw [Bool.eq_iff_iff, sameName_iff]; simp

/-! ### The name map -/

theorem getFieldId_absent {m : List (Name × Nat)} {n : Name} (h : fieldExists m n = false) :
    getFieldId m n = 0 := by
  have : m.find? (fun e => e.1 == n) = none := by
    rw [List.find?_eq_none]
    simpa [fieldExists] using h
  simp [getFieldId, this]

theorem getFieldId_put_self (m : List (Name × Nat)) (n : Name) (i : Nat) :
    getFieldId (mapPut m n i) n = i := by simp [getFieldId, mapPut]

theorem find_erase {m : List (Name × Nat)} {n k : Name} (h : k ≠ n) :
    (m.filter (fun e => e.1 != n)).find? (fun e => e.1 == k) = m.find? (fun e => e.1 == k) := by
  induction m with
  | nil => rfl
  | cons e m ih =>
    by_cases h1 : e.1 = n
    · have h2 : e.1 ≠ k := fun x => h (x.symm.trans h1)
      have h3 : (e.1 == k) = false := by simpa using h2
      rw [List.filter_cons_of_neg (by simp [h1]), List.find?_cons, h3, ih]
    · rw [List.filter_cons_of_pos (by simpa using h1), List.find?_cons, List.find?_cons, ih]

theorem getFieldId_erase {m : List (Name × Nat)} {n k : Name} (h : k ≠ n) :
    getFieldId (mapErase m n) k = getFieldId m k := by
  simp only [getFieldId, mapErase, find_erase h]

theorem getFieldId_put {m : List (Name × Nat)} {n k : Name} {i : Nat} (h : k ≠ n) :
    getFieldId (mapPut m n i) k = getFieldId m k := by
  have h' : (n == k) = false := by simpa using Ne.symm h
  simp only [getFieldId, mapPut, List.find?_cons, h', find_erase h]

theorem exists_erase (m : List (Name × Nat)) (n k : Name) :
    fieldExists (mapErase m n) k = (fieldExists m k && k != n) := by
  rw [Bool.eq_iff_iff]
  simp only [fieldExists, mapErase, List.any_eq_true, List.mem_filter, beq_iff_eq, bne_iff_ne,
    Bool.and_eq_true]
  constructor
  · rintro ⟨e, ⟨he, h1⟩, h2⟩
    exact ⟨⟨e, he, h2⟩, h2 ▸ h1⟩
  · rintro ⟨⟨e, he, h2⟩, h1⟩
    exact ⟨e, ⟨he, h2 ▸ h1⟩, h2⟩

theorem exists_put (m : List (Name × Nat)) (n k : Name) (i : Nat) :
    fieldExists (mapPut m n i) k = (k == n || fieldExists m k) := by
  have := exists_erase m n k
  simp only [fieldExists, mapErase] at this
  simp only [fieldExists, mapPut, List.any_cons, this]
  by_cases h : k = n
  · simp [h]
  · have h2 : (n == k) = false := by simpa using Ne.symm h
    have h3 : (k == n) = false := by simpa using h
    simp [h2, h3, h]

/-! ### The invariant -/

/-- The map has the live fields and no other name. -/
structure MapOk (m : List (Name × Nat)) (fs : List Field) : Prop where
  here : ∀ f ∈ fs, f.deleted = false → getFieldId m f.name = f.id
  only : ∀ n, fieldExists m n = true ↔ ∃ f ∈ fs, f.deleted = false ∧ f.name = n

/-- Numbers are unique and bounded, rows have no later number. -/
structure IdsOk (s : State) : Prop where
  nodup : (s.schema.fields.map (·.id)).Nodup
  bound : ∀ f ∈ s.schema.fields, 1 ≤ f.id ∧ f.id ≤ s.schema.maxId
  rows : ∀ r ∈ s.rows, ∀ e ∈ r, e.1 ≤ s.schema.maxId

/-- The invariant of a proper execution. -/
structure Inv (s : State) : Prop where
  ids : IdsOk s
  names : Distinct ((live s.schema).map (·.name))
  map : MapOk s.map s.schema.fields

/-- The table that the user expects is the one that is read. -/
def Rel (s : State) (t : Table) : Prop := t.cols = columns s ∧ t.rows = selectAll s

theorem mem_live {sc : Schema} {f : Field} : f ∈ live sc ↔ f ∈ sc.fields ∧ f.deleted = false := by
  simp [live]

theorem names_inj {sc : Schema} (h : Distinct ((live sc).map (·.name))) {f g : Field}
    (hf : f ∈ sc.fields) (hfd : f.deleted = false) (hg : g ∈ sc.fields) (hgd : g.deleted = false)
    (hn : sameName f.name g.name = true) : f = g := by
  have hf' : f ∈ live sc := mem_live.2 ⟨hf, hfd⟩
  have hg' : g ∈ live sc := mem_live.2 ⟨hg, hgd⟩
  generalize live sc = l at h hf' hg'
  unfold Distinct at h
  rw [List.pairwise_map] at h
  induction l with
  | nil => simp at hf'
  | cons x l ih =>
    rw [List.pairwise_cons] at h
    rcases List.mem_cons.1 hf' with rfl | hf1
    · rcases List.mem_cons.1 hg' with rfl | hg1
      · rfl
      · rw [h.1 g hg1] at hn; simp at hn
    · rcases List.mem_cons.1 hg' with rfl | hg1
      · have := h.1 f hf1
        rw [sameName_false] at this
        rw [sameName_iff] at hn
        exact absurd hn.symm this
      · exact ih h.2 hf1 hg1

theorem sameName_refl (n : Name) : sameName n n = true := (sameName_iff n n).2 rfl

theorem names_inj' {sc : Schema} (h : Distinct ((live sc).map (·.name))) {f g : Field}
    (hf : f ∈ sc.fields) (hfd : f.deleted = false) (hg : g ∈ sc.fields) (hgd : g.deleted = false)
    (hn : f.name = g.name) : f = g := names_inj h hf hfd hg hgd (by rw [hn]; exact sameName_refl _)

theorem ids_inj {fs : List Field} (h : (fs.map (·.id)).Nodup) {f g : Field} (hf : f ∈ fs) (hg : g ∈ fs)
    (he : f.id = g.id) : f = g := by
  induction fs with
  | nil => simp at hf
  | cons x l ih =>
    rw [List.map_cons, List.nodup_cons] at h
    rcases List.mem_cons.1 hf with rfl | hf1
    · rcases List.mem_cons.1 hg with rfl | hg1
      · rfl
      · exact absurd (List.mem_map.2 ⟨g, hg1, he.symm⟩) h.1
    · rcases List.mem_cons.1 hg with rfl | hg1
      · exact absurd (List.mem_map.2 ⟨f, hf1, he⟩) h.1
      · exact ih h.2 hf1 hg1

/-! ### Rows -/

theorem readField_write_self {c : Bool} {f : Field} {v : Option Val} {r : Row}
    (h : v = none → f.dflt = none) : readField f (writeField c f v r) = v := by
  have hno : (r.filter (fun e => e.1 != f.id)).find? (fun e => e.1 == f.id) = none := by
    rw [List.find?_eq_none]
    intro e he
    have := (List.mem_filter.1 he).2
    simpa using this
  cases v with
  | none => simp [writeField, readField, hno, h rfl]
  | some x =>
    by_cases hc : (c && f.dflt == some x) = true
    · simp only [writeField, hc, if_true, readField, hno]
      have : (f.dflt == some x) = true := (Bool.and_eq_true _ _ ▸ hc).2
      simpa using this
    · simp [writeField, hc, readField]

theorem readField_write_ne {c : Bool} {f g : Field} {v : Option Val} {r : Row} (h : g.id ≠ f.id) :
    readField g (writeField c f v r) = readField g r := by
  have hfilter : (r.filter (fun e => e.1 != f.id)).find? (fun e => e.1 == g.id) =
      r.find? (fun e => e.1 == g.id) := by
    induction r with
    | nil => rfl
    | cons e r ih =>
      by_cases h1 : e.1 = f.id
      · have h2 : e.1 ≠ g.id := fun x => h (x.symm.trans h1)
        have h3 : (e.1 == g.id) = false := by simpa using h2
        rw [List.filter_cons_of_neg (by simp [h1]), List.find?_cons, h3, ih]
      · rw [List.filter_cons_of_pos (by simpa using h1), List.find?_cons, List.find?_cons, ih]
  have h' : (f.id == g.id) = false := by simpa using Ne.symm h
  cases v with
  | none => simp [writeField, readField, hfilter]
  | some x =>
    by_cases hc : (c && f.dflt == some x) = true
    · simp only [writeField, hc, if_true, readField, hfilter]
    · simp only [writeField, hc, if_false, readField, List.find?_cons, h', hfilter, Bool.false_eq_true]

theorem mem_write {c : Bool} {f : Field} {v : Option Val} {r : Row} {e : Nat × Val}
    (h : e ∈ writeField c f v r) : e.1 = f.id ∨ e ∈ r := by
  cases v with
  | none => exact Or.inr (List.mem_filter.1 h).1
  | some x =>
    simp only [writeField] at h
    split_ifs at h
    · exact Or.inr (List.mem_filter.1 h).1
    · rcases List.mem_cons.1 h with rfl | h
      · exact Or.inl rfl
      · exact Or.inr (List.mem_filter.1 h).1

theorem mem_build {c : Bool} {given : List (Name × Option Val)} {fs : List Field} {e : Nat × Val}
    (h : e ∈ buildRow c given fs) : ∃ f ∈ fs, e.1 = f.id := by
  induction fs with
  | nil => simp [buildRow] at h
  | cons f fs ih =>
    rcases mem_write h with h | h
    · exact ⟨f, List.mem_cons_self, h⟩
    · obtain ⟨g, hg, he⟩ := ih h
      exact ⟨g, List.mem_cons_of_mem _ hg, he⟩

theorem read_build {c : Bool} {given : List (Name × Option Val)} {fs : List Field}
    (hnd : (fs.map (·.id)).Nodup)
    (hnull : ∀ f ∈ fs, (givenValue given f.name).getD f.dflt = none → f.dflt = none)
    {f : Field} (hf : f ∈ fs) :
    readField f (buildRow c given fs) = (givenValue given f.name).getD f.dflt := by
  induction fs with
  | nil => simp at hf
  | cons g fs ih =>
    rw [List.map_cons, List.nodup_cons] at hnd
    by_cases hfg : f = g
    · subst hfg
      exact readField_write_self (hnull f List.mem_cons_self)
    · have hf1 : f ∈ fs := (List.mem_cons.1 hf).resolve_left hfg
      have hne : f.id ≠ g.id := fun x => hnd.1 (List.mem_map.2 ⟨f, hf1, x⟩)
      simp only [buildRow]
      rw [readField_write_ne hne]
      exact ih hnd.2 (fun k hk => hnull k (List.mem_cons_of_mem _ hk)) hf1

theorem read_absent {f : Field} {r : Row} (h : ∀ e ∈ r, e.1 ≠ f.id) : readField f r = f.dflt := by
  have : r.find? (fun e => e.1 == f.id) = none := by
    rw [List.find?_eq_none]
    intro e he
    simpa using h e he
  simp [readField, this]

theorem live_nodup {s : State} (h : (s.schema.fields.map (·.id)).Nodup) :
    ((live s.schema).map (·.id)).Nodup :=
  h.sublist (List.filter_sublist.map _)

/-! ### ADD -/

theorem addLoop_spec {m : List (Name × Nat)} : ∀ {cols : List (Name × Option Val)} {i : Nat}
    {fs : List Field}, addLoop m cols i = some fs →
    fs.map (fun f => (f.name, f.dflt)) = cols ∧ fs.map (·.id) = (List.range' (i + 1) cols.length) ∧
      (∀ f ∈ fs, f.deleted = false) ∧ (∀ c ∈ cols, fieldExists m c.1 = false)
  | [], i, fs, h => by
    simp only [addLoop, Option.some.injEq] at h
    subst h
    simp
  | (n, d) :: cols, i, fs, h => by
    by_cases hx : fieldExists m n = true
    · simp [addLoop, hx] at h
    · rw [addLoop, if_neg hx] at h
      cases hl : addLoop m cols (i + 1) with
      | none => rw [hl] at h; simp at h
      | some gs =>
        rw [hl] at h
        simp only [Option.map_some, Option.some.injEq] at h
        subst h
        obtain ⟨h1, h2, h3, h4⟩ := addLoop_spec hl
        refine ⟨by simp [h1], by simp [h2, List.range'_succ], ?_, ?_⟩
        · intro f hf
          rcases List.mem_cons.1 hf with rfl | hf
          · rfl
          · exact h3 f hf
        · intro c hc
          rcases List.mem_cons.1 hc with rfl | hc
          · simpa using hx
          · exact h4 c hc

theorem addLoop_ok {m : List (Name × Nat)} : ∀ {cols : List (Name × Option Val)} {i : Nat},
    (∀ c ∈ cols, fieldExists m c.1 = false) → ∃ fs, addLoop m cols i = some fs
  | [], _, _ => ⟨[], rfl⟩
  | (n, d) :: cols, i, h => by
    obtain ⟨fs, hfs⟩ := addLoop_ok (i := i + 1) (fun c hc => h c (List.mem_cons_of_mem _ hc))
    have hn : ¬ fieldExists m n = true := by simp [h (n, d) List.mem_cons_self]
    exact ⟨_, by rw [addLoop, if_neg hn, hfs]; rfl⟩

theorem mapOk_cons {m : List (Name × Nat)} {fs : List Field} {f : Field} (h : MapOk m fs)
    (hd : f.deleted = false) (hn : ∀ g ∈ fs, g.deleted = false → g.name ≠ f.name) :
    MapOk (mapPut m f.name f.id) (fs ++ [f]) := by
  constructor
  · intro g hg hgd
    rcases List.mem_append.1 hg with hg | hg
    · rw [getFieldId_put (hn g hg hgd)]; exact h.here g hg hgd
    · simp only [List.mem_singleton] at hg
      subst hg
      exact getFieldId_put_self _ _ _
  · intro n
    rw [exists_put, Bool.or_eq_true, h.only]
    constructor
    · rintro (h1 | ⟨g, hg, h1⟩)
      · exact ⟨f, by simp, hd, by simpa using Eq.symm (by simpa using h1 : n = f.name)⟩
      · exact ⟨g, List.mem_append_left _ hg, h1⟩
    · rintro ⟨g, hg, hgd, h1⟩
      rcases List.mem_append.1 hg with hg | hg
      · exact Or.inr ⟨g, hg, hgd, h1⟩
      · simp only [List.mem_singleton] at hg
        subst hg
        exact Or.inl (by simp [h1])

theorem mapOk_skip {m : List (Name × Nat)} {fs : List Field} {f : Field} (h : MapOk m fs)
    (hd : f.deleted = true) : MapOk m (fs ++ [f]) := by
  constructor
  · intro g hg hgd
    rcases List.mem_append.1 hg with hg | hg
    · exact h.here g hg hgd
    · simp only [List.mem_singleton] at hg
      subst hg
      simp [hd] at hgd
  · intro n
    rw [h.only]
    constructor
    · rintro ⟨g, hg, h1⟩
      exact ⟨g, List.mem_append_left _ hg, h1⟩
    · rintro ⟨g, hg, hgd, h1⟩
      rcases List.mem_append.1 hg with hg | hg
      · exact ⟨g, hg, hgd, h1⟩
      · simp only [List.mem_singleton] at hg
        subst hg
        simp [hd] at hgd

/-- Fields that are not deleted have names of their own. -/
def Apart (fs : List Field) : Prop :=
  fs.Pairwise (fun f g => f.deleted = false → g.deleted = false → f.name ≠ g.name)

theorem mapOk_foldl : ∀ (gs fs : List Field) (m : List (Name × Nat)), MapOk m fs →
    Apart (fs ++ gs) →
    MapOk (gs.foldl (fun m f => if f.deleted then m else mapPut m f.name f.id) m) (fs ++ gs)
  | [], fs, m, h, _ => by simpa using h
  | g :: gs, fs, m, h, ha => by
    have hsplit : fs ++ g :: gs = (fs ++ [g]) ++ gs := by simp
    rw [hsplit] at ha ⊢
    rw [List.foldl_cons]
    refine mapOk_foldl gs (fs ++ [g]) _ ?_ ha
    cases hd : g.deleted with
    | true => simpa [hd] using mapOk_skip h hd
    | false =>
      simp only [Bool.false_eq_true, if_false]
      refine mapOk_cons h hd (fun k hk hkd => ?_)
      unfold Apart at ha
      rw [List.pairwise_append] at ha
      have := ha.1
      rw [List.pairwise_append] at this
      exact this.2.2 k hk g (by simp) hkd hd

theorem apart_of_distinct : ∀ {fs : List Field},
    Distinct ((fs.filter (fun f => !f.deleted)).map (·.name)) → Apart fs
  | [], _ => List.Pairwise.nil
  | f :: fs, h => by
    unfold Apart
    rw [List.pairwise_cons]
    cases hd : f.deleted with
    | true =>
      rw [List.filter_cons_of_neg (by simp [hd])] at h
      exact ⟨fun g _ h1 => by simp at h1, apart_of_distinct h⟩
    | false =>
      rw [List.filter_cons_of_pos (by simp [hd])] at h
      unfold Distinct at h
      rw [List.map_cons, List.pairwise_cons] at h
      refine ⟨fun g hg _ hgd he => ?_, apart_of_distinct h.2⟩
      have := h.1 g.name (List.mem_map.2 ⟨g, List.mem_filter.2 ⟨hg, by simp [hgd]⟩, rfl⟩)
      rw [he, sameName_refl] at this
      simp at this

theorem foldl_live {gs : List Field} (h : ∀ g ∈ gs, g.deleted = false) (m : List (Name × Nat)) :
    gs.foldl (fun m f => mapPut m f.name f.id) m =
      gs.foldl (fun m f => if f.deleted then m else mapPut m f.name f.id) m := by
  induction gs generalizing m with
  | nil => rfl
  | cons g gs ih =>
    rw [List.foldl_cons, List.foldl_cons, ih (fun k hk => h k (List.mem_cons_of_mem _ hk))]
    simp [h g List.mem_cons_self]

end BaikalDB.Alter
