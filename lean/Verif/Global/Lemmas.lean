import Verif.Global.Spec
import Verif.Dml.Lemmas
import Mathlib.Data.List.Basic
/-! # Lemmas about writing and deleting entries -/
namespace BaikalDB.Global
open BaikalDB.Dml

variable {V : Type} [DecidableEq V]

theorem delAll_eq {β : Type} (key : Rec V → Key V) (ds : List (Rec V)) (m : Key V → Option β) (x : Key V) :
    delAll key ds m x = if x ∈ ds.map key then none else m x := by
  induction ds generalizing m with
  | nil => simp [delAll]
  | cons d ds ih =>
    have : delAll key (d :: ds) m = delAll key ds fun x => if x = key d then none else m x := rfl
    rw [this, ih]
    by_cases h1 : x ∈ ds.map key <;> by_cases h2 : x = key d <;> simp_all

theorem writeAll_some {β : Type} {key : Rec V → Key V} {val : Rec V → β} {check : Bool} {rs : List (Rec V)} {m m' : Key V → Option β}
    (h : writeAll key val check rs m = some m') :
    (check = true → (∀ r ∈ rs, m (key r) = none) ∧ rs.Pairwise fun a b => key a ≠ key b) ∧
      (rs.Pairwise (fun a b => key a ≠ key b) →
        ∀ x v, m' x = some v ↔ (∃ r ∈ rs, key r = x ∧ val r = v) ∨ (x ∉ rs.map key ∧ m x = some v)) := by
  induction rs generalizing m with
  | nil => cases h; simp
  | cons r rs ih =>
    simp only [writeAll] at h
    split at h
    · exact nomatch h
    · rename_i hc
      obtain ⟨h1, h2⟩ := ih h
      constructor
      · intro hk
        subst hk
        obtain ⟨h3, h4⟩ := h1 rfl
        have hn : m (key r) = none := by simpa using hc
        have h5 : ∀ a ∈ rs, key r ≠ key a := by
          intro a ha e
          have := h3 a ha
          rw [if_pos e.symm] at this
          exact nomatch this
        refine ⟨fun a ha => ?_, List.pairwise_cons.2 ⟨h5, h4⟩⟩
        rcases List.mem_cons.1 ha with e | ha
        · rw [e]; exact hn
        · have := h3 a ha
          rw [if_neg (Ne.symm (h5 a ha))] at this
          exact this
      · intro hp
        obtain ⟨h5, hp⟩ := List.pairwise_cons.1 hp
        intro x v
        rw [h2 hp x v]
        by_cases e : x = key r
        · subst e
          have hn : key r ∉ rs.map key := by
            rintro hm
            obtain ⟨a, ha, e⟩ := List.mem_map.1 hm
            exact h5 a ha e.symm
          have hn' : ¬∃ a ∈ rs, key a = key r ∧ val a = v := by
            rintro ⟨a, ha, e, _⟩
            exact h5 a ha e.symm
          simp only [List.mem_cons, List.map_cons, not_true, false_and, or_false, if_pos, hn, not_false_iff, true_and,
            Option.some.injEq]
          constructor
          · rintro (h | h)
            · exact absurd h hn'
            · exact ⟨r, Or.inl rfl, rfl, h⟩
          · rintro ⟨a, ha | ha, e, hv⟩
            · subst ha; exact Or.inr hv
            · exact Or.inl ⟨a, ha, e, hv⟩
        · simp only [List.mem_cons, List.map_cons, e, false_or]
          constructor
          · rintro (⟨a, ha, h⟩ | h)
            · exact Or.inl ⟨a, Or.inr ha, h⟩
            · exact Or.inr h
          · rintro (⟨a, ha | ha, h6⟩ | h)
            · subst ha; exact absurd h6.1.symm e
            · exact Or.inl ⟨a, ha, h6⟩
            · exact Or.inr h

theorem writeAll_ok {β : Type} {key : Rec V → Key V} {val : Rec V → β} {check : Bool} {rs : List (Rec V)} {m : Key V → Option β}
    (h : check = true → (∀ r ∈ rs, m (key r) = none) ∧ rs.Pairwise fun a b => key a ≠ key b) :
    ∃ m', writeAll key val check rs m = some m' := by
  induction rs generalizing m with
  | nil => exact ⟨m, rfl⟩
  | cons r rs ih =>
    simp only [writeAll]
    rw [if_neg]
    · apply ih
      intro hk
      obtain ⟨h1, h2⟩ := h hk
      obtain ⟨h3, h4⟩ := List.pairwise_cons.1 h2
      refine ⟨fun a ha => ?_, h4⟩
      rw [if_neg (Ne.symm (h3 a ha))]
      exact h1 a (List.mem_cons_of_mem _ ha)
    · intro hc
      simp only [Bool.and_eq_true] at hc
      rw [(h hc.1).1 r List.mem_cons_self] at hc
      exact absurd hc.2 (by simp)

/-! ### Several indexes -/

theorem dmlIndexes_some {T : Table V} {ds rs : List (Rec V)} {check : Bool} {is : List (Nat × Index)}
    {m m' : Nat → Key V → Option (Key V)} (hn : is.Pairwise fun a b => a.1 ≠ b.1) (h : dmlIndexes T ds rs check is m = some m') :
    (∀ ji ∈ is, writeAll (T.ekey ji.2) T.keyOf (check && ji.2.uniq) rs (delAll (T.ekey ji.2) ds (m ji.1)) = some (m' ji.1)) ∧
      ∀ j, j ∉ is.map (·.1) → m' j = m j := by
  induction is generalizing m with
  | nil => cases h; simp
  | cons ji is ih =>
    obtain ⟨j, i⟩ := ji
    obtain ⟨h1, h2⟩ := List.pairwise_cons.1 hn
    simp only [dmlIndexes] at h
    split at h
    · exact nomatch h
    · rename_i x hx
      obtain ⟨h3, h4⟩ := ih h2 h
      have hj : j ∉ is.map (·.1) := by
        intro hm
        obtain ⟨a, ha, e⟩ := List.mem_map.1 hm
        exact h1 a ha e.symm
      constructor
      · intro a ha
        rcases List.mem_cons.1 ha with e | ha
        · subst e
          rw [h4 j hj, if_pos rfl]
          exact hx
        · have := h3 a ha
          rwa [if_neg (Ne.symm (h1 a ha))] at this
      · intro j' hj'
        simp only [List.map_cons, List.mem_cons, not_or] at hj'
        rw [h4 j' hj'.2, if_neg hj'.1]

theorem dmlIndexes_ok {T : Table V} {ds rs : List (Rec V)} {check : Bool} {is : List (Nat × Index)}
    {m : Nat → Key V → Option (Key V)} (hn : is.Pairwise fun a b => a.1 ≠ b.1)
    (h : ∀ ji ∈ is, (check && ji.2.uniq) = true →
      (∀ r ∈ rs, delAll (T.ekey ji.2) ds (m ji.1) (T.ekey ji.2 r) = none) ∧ rs.Pairwise fun a b => T.ekey ji.2 a ≠ T.ekey ji.2 b) :
    ∃ m', dmlIndexes T ds rs check is m = some m' := by
  induction is generalizing m with
  | nil => exact ⟨m, rfl⟩
  | cons ji is ih =>
    obtain ⟨j, i⟩ := ji
    obtain ⟨h1, h2⟩ := List.pairwise_cons.1 hn
    simp only [dmlIndexes]
    obtain ⟨x, hx⟩ := writeAll_ok (val := T.keyOf) (h (j, i) List.mem_cons_self)
    simp only at hx
    rw [hx]
    apply ih h2
    intro a ha
    rw [if_neg (Ne.symm (h1 a ha))]
    exact h a (List.mem_cons_of_mem _ ha)

/-! ### The table's indexes -/

omit [DecidableEq V] in
theorem all_nodup (T : Table V) : T.all.Pairwise fun a b => a.1 ≠ b.1 := by
  rw [List.pairwise_iff_getElem]
  intro n m hn hm h
  have h1 := all_get T n
  have h2 := all_get T m
  rw [List.getElem?_eq_getElem hn] at h1
  rw [List.getElem?_eq_getElem hm] at h2
  cases h3 : T.indexes[n]? with
  | none => rw [h3] at h1; exact nomatch h1
  | some i =>
    cases h4 : T.indexes[m]? with
    | none => rw [h4] at h2; exact nomatch h2
    | some i' =>
      rw [h3] at h1; rw [h4] at h2
      simp only [Option.map_some, Option.some.injEq] at h1 h2
      rw [h1, h2]
      show n ≠ m
      omega

omit [DecidableEq V] in
theorem affected_sub (T : Table V) (as : List (Assign V)) : (T.affected as).Sublist T.all := by
  unfold Table.affected
  split
  · exact List.Sublist.refl _
  · exact List.filter_sublist

omit [DecidableEq V] in
theorem ekey_conf {T : Table V} {j : Nat} {i : Index} (hi : T.indexes[j]? = some i) {a b : Rec V} (h : T.ekey i a = T.ekey i b) :
    Conf T a b := by
  unfold Table.ekey at h
  by_cases hu : i.uniq = true
  · simp only [hu, if_true, List.append_nil] at h
    exact Or.inr ⟨i, List.mem_of_getElem? hi, hu, h⟩
  · simp only [hu] at h
    exact Or.inl (List.append_inj h (by simp)).2

omit [DecidableEq V] in
theorem conf_symm {T : Table V} {a b : Rec V} (h : Conf T a b) : Conf T b a := by
  rcases h with h | ⟨i, hi, hu, h⟩
  · exact Or.inl h.symm
  · exact Or.inr ⟨i, hi, hu, h.symm⟩

omit [DecidableEq V] in
/-- What the index entries of a consistent table are. -/
theorem Agree.ent {T : Table V} {S : Store V} (h : Agree T S) {j : Nat} {i : Index} (hi : T.indexes[j]? = some i) (x k : Key V) :
    S.idx j x = some k ↔ ∃ r, S.rows k = some r ∧ T.ekey i r = x := by
  rw [h.idx j i hi]
  constructor
  · rintro ⟨r, hr, e⟩
    refine ⟨r, hr, ?_⟩
    rw [e]
    unfold Table.ekey Table.keyOf
    rw [h.own k r hr]
  · rintro ⟨r, hr, e⟩
    refine ⟨r, hr, ?_⟩
    rw [← e]
    unfold Table.ekey Table.keyOf
    rw [h.own k r hr]

omit [DecidableEq V] in
theorem agree_of {T : Table V} {S : Store V} (h1 : ∀ k r, S.rows k = some r → T.keyOf r = k)
    (h2 : ∀ j i, T.indexes[j]? = some i → ∀ x k, S.idx j x = some k ↔ ∃ r, S.rows k = some r ∧ T.ekey i r = x) : Agree T S := by
  refine ⟨h1, fun j i hi x k => ?_⟩
  rw [h2 j i hi]
  constructor
  · rintro ⟨r, hr, e⟩
    refine ⟨r, hr, ?_⟩
    rw [← e]
    unfold Table.ekey
    rw [h1 k r hr]
  · rintro ⟨r, hr, e⟩
    refine ⟨r, hr, ?_⟩
    rw [e]
    unfold Table.ekey
    rw [h1 k r hr]

omit [DecidableEq V] in
/-- No two rows of a consistent table are in each other's way. -/
theorem Agree.unique {T : Table V} {S : Store V} (h : Agree T S) {k k' : Key V} {a b : Rec V} (ha : S.rows k = some a)
    (hb : S.rows k' = some b) (hc : Conf T a b) : k = k' := by
  rcases hc with hc | ⟨i, hi, hu, hc⟩
  · rw [← h.own k a ha, ← h.own k' b hb, hc]
  · obtain ⟨j, hj⟩ := List.mem_iff_getElem?.1 hi
    have e1 : S.idx j (T.ekey i a) = some k := (h.ent hj _ _).2 ⟨a, ha, rfl⟩
    have e2 : S.idx j (T.ekey i a) = some k' := (h.ent hj _ _).2 ⟨b, hb, by unfold Table.ekey; rw [hu]; simp [hc]⟩
    rw [e1] at e2
    exact Option.some.inj e2

/-- What a change leaves behind: the rows without `ds` and with `rs`. -/
def Left (T : Table V) (R : Rows V) (ds rs : List (Rec V)) (R' : Rows V) : Prop :=
  ∀ k r, R' k = some r ↔ (r ∈ rs ∧ T.pk.map r = k) ∨ (k ∉ rs.map (fun r => T.pk.map r) ∧ k ∉ ds.map (fun r => T.pk.map r) ∧ R k = some r)

/-- The change leaves rows that may be together. -/
structure Fits (T : Table V) (R : Rows V) (ds rs : List (Rec V)) : Prop where
  each : rs.Pairwise fun a b => ¬Conf T a b
  free : ∀ r ∈ rs, ∀ k old, k ∉ ds.map (fun r => T.pk.map r) → R k = some old → ¬Conf T old r

theorem left_rows {T : Table V} {R R' : Rows V} {ds rs : List (Rec V)} {check : Bool}
    (hf : Fits T R ds rs) (h : writeAll T.keyOf id check rs (delAll T.keyOf ds R) = some R') : Left T R ds rs R' := by
  have hp : rs.Pairwise fun a b => T.keyOf a ≠ T.keyOf b := hf.each.imp fun h e => h (Or.inl e)
  intro k r
  rw [(writeAll_some h).2 hp k r, delAll_eq]
  constructor
  · rintro (⟨a, ha, e, e'⟩ | ⟨h1, h2⟩)
    · simp only [id] at e'
      subst e'
      exact Or.inl ⟨ha, e⟩
    · split at h2
      · exact nomatch h2
      · rename_i h3
        exact Or.inr ⟨h1, h3, h2⟩
  · rintro (⟨ha, e⟩ | ⟨h1, h2, h3⟩)
    · exact Or.inl ⟨r, ha, e, rfl⟩
    · refine Or.inr ⟨h1, ?_⟩
      rw [if_neg]
      · exact h3
      · exact h2

/-- Rows and indexes that are changed alike agree afterwards. -/
theorem left_agree {T : Table V} {S S' : Store V} {ds rs : List (Rec V)} {check check' : Bool} (hA : Agree T S)
    (hd : ∀ d ∈ ds, S.rows (T.pk.map d) = some d) (hf : Fits T S.rows ds rs)
    (h1 : writeAll T.keyOf id check rs (delAll T.keyOf ds S.rows) = some S'.rows)
    (h2 : ∀ j i, T.indexes[j]? = some i →
      writeAll (T.ekey i) T.keyOf (check' && i.uniq) rs (delAll (T.ekey i) ds (S.idx j)) = some (S'.idx j) ∨
      (S'.idx j = S.idx j ∧ ∀ x k, (∃ r, S'.rows k = some r ∧ T.ekey i r = x) ↔ ∃ r, S.rows k = some r ∧ T.ekey i r = x)) :
    Agree T S' := by
  have hl := left_rows hf h1
  refine agree_of (fun k r h => ?_) fun j i hi x k => ?_
  · rcases (hl k r).1 h with h | h
    · exact h.2
    · exact hA.own k r h.2.2
  rcases h2 j i hi with h2 | h2
  · have hp : rs.Pairwise fun a b => T.ekey i a ≠ T.ekey i b := hf.each.imp fun h e => h (ekey_conf hi e)
    rw [(writeAll_some h2).2 hp x k, delAll_eq]
    constructor
    · rintro (⟨r, hr, e, e'⟩ | ⟨h3, h4⟩)
      · exact ⟨r, (hl k r).2 (Or.inl ⟨hr, e'⟩), e⟩
      · split at h4
        · exact nomatch h4
        · rename_i h5
          obtain ⟨r, hr, e⟩ := (hA.ent hi x k).1 h4
          have hkd : k ∉ ds.map fun r => T.pk.map r := by
            intro hm
            obtain ⟨d, hdm, e1⟩ := List.mem_map.1 hm
            have := hd d hdm
            rw [e1, hr] at this
            cases this
            exact h5 (List.mem_map.2 ⟨_, hdm, e⟩)
          refine ⟨r, (hl k r).2 (Or.inr ⟨?_, hkd, hr⟩), e⟩
          intro hm
          obtain ⟨a, ha, e1⟩ := List.mem_map.1 hm
          exact hf.free a ha k r hkd hr (Or.inl (by rw [hA.own k r hr, e1]))
    · rintro ⟨r, hr, e⟩
      rcases (hl k r).1 hr with ⟨hm, e'⟩ | ⟨h3, h4, h5⟩
      · exact Or.inl ⟨r, hm, e, e'⟩
      · refine Or.inr ⟨?_, ?_⟩
        · intro hm
          obtain ⟨a, ha, e1⟩ := List.mem_map.1 hm
          exact hf.free a ha k r h4 h5 (ekey_conf hi (e.trans e1.symm))
        · rw [if_neg]
          · exact (hA.ent hi x k).2 ⟨r, h5, e⟩
          · intro hm
            obtain ⟨d, hdm, e1⟩ := List.mem_map.1 hm
            have h6 : S.idx j x = some (T.pk.map d) := (hA.ent hi _ _).2 ⟨d, hd d hdm, e1⟩
            rw [(hA.ent hi x k).2 ⟨r, h5, e⟩] at h6
            exact h4 (List.mem_map.2 ⟨d, hdm, (Option.some.inj h6).symm⟩)
  · rw [h2.1, h2.2, hA.ent hi]

/-- LOCK_DML that succeeds. -/
theorem dml_some {T : Table V} {S S' : Store V} {ds rs : List (Rec V)} (hA : Agree T S)
    (hd : ∀ d ∈ ds, S.rows (T.pk.map d) = some d) (h : dml T S true T.all ds rs = some S') :
    Agree T S' ∧ Left T S.rows ds rs S'.rows ∧ Fits T S.rows ds rs := by
  unfold dml at h
  cases h1 : writeAll T.keyOf id true rs (delAll T.keyOf ds S.rows) with
  | none => rw [h1] at h; exact nomatch h
  | some rows =>
    rw [h1] at h
    simp only [Option.bind_some] at h
    cases h2 : dmlIndexes T ds rs true T.all S.idx with
    | none => rw [h2] at h; exact nomatch h
    | some idx =>
      rw [h2] at h
      cases h
      obtain ⟨h3, _⟩ := dmlIndexes_some (all_nodup T) h2
      obtain ⟨hr1, hr2⟩ := (writeAll_some h1).1 rfl
      have hf : Fits T S.rows ds rs := by
        constructor
        · rw [List.pairwise_iff_forall_sublist]
          intro a b hab hc
          rcases hc with hc | ⟨i, hi, hu, hc⟩
          · exact (List.pairwise_iff_forall_sublist.1 hr2) hab hc
          · obtain ⟨j, hj⟩ := List.mem_iff_getElem?.1 hi
            have h4 := ((writeAll_some (h3 (j, i) ((mem_all T j i).2 hj))).1 (by simp [hu])).2
            exact (List.pairwise_iff_forall_sublist.1 h4) hab (by unfold Table.ekey; simp [hu, hc])
        · intro r hr k old hk ho hc
          rcases hc with hc | ⟨i, hi, hu, hc⟩
          · have := hr1 r hr
            rw [delAll_eq, if_neg] at this
            · unfold Table.keyOf at this
              rw [← hc, hA.own k old ho, ho] at this
              exact nomatch this
            · unfold Table.keyOf
              rw [← hc, hA.own k old ho]
              exact hk
          · obtain ⟨j, hj⟩ := List.mem_iff_getElem?.1 hi
            have h4 := ((writeAll_some (h3 (j, i) ((mem_all T j i).2 hj))).1 (by simp [hu])).1 r hr
            have e : T.ekey i r = T.ekey i old := by unfold Table.ekey; simp [hu, hc]
            have h5 : S.idx j (T.ekey i r) = some k := (hA.ent hj _ _).2 ⟨old, ho, e.symm⟩
            simp only at h4
            rw [delAll_eq, if_neg] at h4
            · rw [h4] at h5; exact nomatch h5
            · intro hm
              obtain ⟨d, hdm, e1⟩ := List.mem_map.1 hm
              have h6 : S.idx j (T.ekey i r) = some (T.pk.map d) := (hA.ent hj _ _).2 ⟨d, hd d hdm, e1⟩
              rw [h5] at h6
              exact hk (List.mem_map.2 ⟨d, hdm, (Option.some.inj h6).symm⟩)
      exact ⟨left_agree (check' := true) hA hd hf h1 fun j i hj => Or.inl (h3 (j, i) ((mem_all T j i).2 hj)), left_rows hf h1, hf⟩

/-- LOCK_DML succeeds if the rows may be together. -/
theorem dml_ok {T : Table V} {S : Store V} {ds rs : List (Rec V)} (hA : Agree T S)
    (hd : ∀ d ∈ ds, S.rows (T.pk.map d) = some d) (hf : Fits T S.rows ds rs)
    {check : Bool} {is : List (Nat × Index)} (hi : is.Sublist T.all) :
    ∃ S', dml T S check is ds rs = some S' := by
  unfold dml
  obtain ⟨rows, h1⟩ : ∃ m', writeAll T.keyOf id check rs (delAll T.keyOf ds S.rows) = some m' := by
    apply writeAll_ok
    intro _
    refine ⟨fun r hr => ?_, hf.each.imp fun h e => h (Or.inl e)⟩
    rw [delAll_eq]
    split
    · rfl
    · rename_i hk
      cases h : S.rows (T.keyOf r) with
      | none => rfl
      | some old => exact absurd (Or.inl (hA.own _ _ h)) (hf.free r hr _ old hk h)
  obtain ⟨idx, h2⟩ : ∃ m', dmlIndexes T ds rs true is S.idx = some m' := by
    apply dmlIndexes_ok ((all_nodup T).sublist hi)
    rintro ⟨j, i⟩ hji _
    have hj := (mem_all T j i).1 (hi.subset hji)
    refine ⟨fun r hr => ?_, hf.each.imp fun h e => h (ekey_conf hj e)⟩
    rw [delAll_eq]
    split
    · rfl
    · rename_i hk
      simp only at hk ⊢
      cases h : S.idx j (T.ekey i r) with
      | none => rfl
      | some k =>
        obtain ⟨old, ho, e⟩ := (hA.ent hj _ _).1 h
        refine absurd (ekey_conf hj e) (hf.free r hr k old ?_ ho)
        intro hm
        obtain ⟨d, hdm, e1⟩ := List.mem_map.1 hm
        have := hd d hdm
        rw [e1, ho] at this
        cases this
        exact hk (List.mem_map.2 ⟨_, hdm, e⟩)
  rw [h1, Option.bind_some, h2]
  exact ⟨_, rfl⟩

end BaikalDB.Global
