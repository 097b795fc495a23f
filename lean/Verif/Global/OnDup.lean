import Verif.Global.Update
/-! # C61: ON DUPLICATE KEY UPDATE on a table with global indexes -/
namespace BaikalDB.Global
open BaikalDB.Dml

variable {V : Type} [DecidableEq V]

/-! ### What it ought to do -/

/-- The primary key and the UNIQUE indexes, in their order. -/
def uniqKeys (T : Table V) : List (List Nat) := T.pk :: (T.indexes.filter fun i => i.uniq).map fun i => i.fields

/-- `old`, the row under `k`, is the row that is in the way of `r` by the first key by which there is one. -/
def FirstInWay (T : Table V) (R : Rows V) (r : Rec V) (k : Key V) (old : Rec V) : Prop :=
  ∃ before fs after, uniqKeys T = before ++ fs :: after ∧ R k = some old ∧ fs.map old = fs.map r ∧
    ∀ g ∈ before, ∀ k' o, R k' = some o → g.map o ≠ g.map r

/-! ### One record -/

theorem fold_appends {α β : Type} (step : List α → β → List α) (hs : ∀ s e, ∃ l, step s e = s ++ l) (l : List β) (s : List α) :
    ∃ l', l.foldl step s = s ++ l' := by
  induction l generalizing s with
  | nil => exact ⟨[], by simp⟩
  | cons e l ih =>
    obtain ⟨l1, h1⟩ := hs s e
    obtain ⟨l2, h2⟩ := ih (s ++ l1)
    exact ⟨l1 ++ l2, by rw [List.foldl_cons, h1, h2, List.append_assoc]⟩

omit [DecidableEq V] in
/-- What a tag brings for one record. -/
theorem stored_one {T : Table V} {S : Store V} (hA : Agree T S) {t : Option Nat} (ht : t ∈ tags T) (r : Rec V) :
    (∀ k old, S.rows k = some old → keyAt T t old ≠ keyAt T t r) ∧ stored T S t [r] = [] ∨
      ∃ k old o, S.rows k = some old ∧ keyAt T t old = keyAt T t r ∧ stored T S t [r] = [o] ∧ T.keyOf o = k ∧ keyAt T t o = keyAt T t r := by
  cases t with
  | none =>
    cases h : S.rows (T.keyOf r) with
    | none =>
      refine Or.inl ⟨?_, by simp [stored, getPrimary, h]⟩
      intro k old ho e
      have : T.keyOf r = k := by rw [← hA.own k old ho]; exact e.symm
      rw [this, ho] at h
      exact nomatch h
    | some old =>
      have := hA.own _ _ h
      exact Or.inr ⟨T.keyOf r, old, old, h, this, by simp [stored, getPrimary, h], this, this⟩
  | some j =>
    cases h : S.idx j (keyAt T (some j) r) with
    | none =>
      refine Or.inl ⟨?_, by simp [stored, getUniq, h]⟩
      intro k old ho e
      obtain ⟨i, hi, hu⟩ := mem_tags.1 ht
      rw [← e, keyAt_some hi, (hA.ent hi _ _).2 ⟨old, ho, rfl⟩] at h
      exact nomatch h
    | some k =>
      obtain ⟨old, h1, h2, h3, h4⟩ := withPk_keys hA ht h
      exact Or.inr ⟨k, old, withPk T r k, h1, h2, by simp [stored, getUniq, h], h3, h4⟩

theorem idsOf_one (T : Table V) (r : Rec V) (t : Option Nat) : idsOf T [r] t (keyAt T t r) = [0] := by
  simp [idsOf]

theorem dupTag_one {T : Table V} {S : Store V} {up : Rec V → Rec V → Rec V} {r : Rec V} (d : Dup V) (t : Option Nat) :
    dupTag T S up [r] d t =
      (stored T S t [r]).foldlM (fun d o => hitLoop T up ((owners T S [r]).lookup (t, keyAt T t o)) (idsOf T [r] t (keyAt T t o)) d) d := by
  unfold dupTag
  simp only [List.foldl_cons, List.foldl_nil, idsOf_one, selfLoop]
  exact Option.map_id' ..

/-- Once the record is gone nothing more happens. -/
theorem dupTags_done {T : Table V} {S : Store V} {up : Rec V → Rec V → Rec V} {r : Rec V} (hA : Agree T S) (d : Dup V) (hd : d.ids = [])
    (ts : List (Option Nat)) (hts : ∀ t ∈ ts, t ∈ tags T) : ts.foldlM (dupTag T S up [r]) d = some d := by
  induction ts with
  | nil => rfl
  | cons t ts ih =>
    have h1 : dupTag T S up [r] d t = some d := by
      rw [dupTag_one]
      rcases stored_one hA (hts t List.mem_cons_self) r with ⟨_, h⟩ | ⟨k, old, o, _, _, h, _, e⟩
      · rw [h]; rfl
      · rw [h]
        simp only [List.foldlM_cons, List.foldlM_nil, e, idsOf_one, hitLoop, hd, List.not_mem_nil, if_false]
        rfl
    rw [List.foldlM_cons, h1]
    exact ih fun t ht => hts t (List.mem_cons_of_mem _ ht)

/-- Tags by which nothing is in the way. -/
theorem dupTags_free {T : Table V} {S : Store V} {up : Rec V → Rec V → Rec V} {r : Rec V} (hA : Agree T S) (d : Dup V)
    (ts : List (Option Nat)) (hts : ∀ t ∈ ts, t ∈ tags T)
    (hf : ∀ t ∈ ts, ∀ k old, S.rows k = some old → keyAt T t old ≠ keyAt T t r) : ts.foldlM (dupTag T S up [r]) d = some d := by
  induction ts with
  | nil => rfl
  | cons t ts ih =>
    have h1 : dupTag T S up [r] d t = some d := by
      rw [dupTag_one]
      rcases stored_one hA (hts t List.mem_cons_self) r with ⟨_, h⟩ | ⟨k, old, o, h2, h3, _⟩
      · rw [h]; rfl
      · exact absurd h3 (hf t List.mem_cons_self k old h2)
    rw [List.foldlM_cons, h1]
    exact ih (fun t ht => hts t (List.mem_cons_of_mem _ ht)) fun t ht => hf t (List.mem_cons_of_mem _ ht)

/-- The row of the first key by which one is in the way is known. -/
theorem owners_first {T : Table V} {S : Store V} (hA : Agree T S) {r : Rec V} {t1 t2 : List (Option Nat)} {t : Option Nat}
    (ht : tags T = t1 ++ t :: t2) (hf : ∀ t' ∈ t1, ∀ k old, S.rows k = some old → keyAt T t' old ≠ keyAt T t' r) {k : Key V} {old : Rec V}
    (ho : S.rows k = some old) (he : keyAt T t old = keyAt T t r) : (owners T S [r]).lookup (t, keyAt T t r) = some k := by
  have htm : t ∈ tags T := by rw [ht]; simp
  have hk := hA.own k old ho
  have step : ∀ (pri : List (Rec V)) (s : List ((Option Nat × Key V) × Key V)) (e : Option Nat × Rec V), ∃ l,
      (if T.keyOf e.2 ∈ pri.map T.keyOf ∨ T.keyOf e.2 ∉ s.map (·.2) then s ++ [((e.1, keyAt T e.1 e.2), T.keyOf e.2)] else s) = s ++ l := by
    intro pri s e
    split
    · exact ⟨_, rfl⟩
    · exact ⟨[], by simp⟩
  cases t with
  | none =>
    have e : T.keyOf r = k := by rw [← hk]; exact he.symm
    have hp : getPrimary T S [r] = [old] := by simp [getPrimary, e, ho]
    unfold owners
    simp only [hp]
    obtain ⟨l, hl⟩ := fold_appends _ (step [old]) ((tags T).flatMap fun t => (getUniq T S t [r]).map fun o => (t, o))
      ([old].map fun o => ((none, T.keyOf o), T.keyOf o))
    rw [hl]
    have e2 : keyAt T none r = T.keyOf old := he.symm
    simp only [List.map_cons, List.map_nil, List.cons_append, e2, List.lookup_cons_self]
    exact congrArg some hk
  | some j =>
    have hnone : none ∈ t1 := by
      unfold tags at ht
      cases t1 with
      | nil => simp at ht
      | cons a t1 =>
        simp only [List.cons_append, List.cons.injEq] at ht
        rw [← ht.1]
        simp
    have hp : getPrimary T S [r] = [] := by
      cases h : S.rows (T.keyOf r) with
      | none => simp [getPrimary, h]
      | some o => exact absurd (hA.own _ _ h) (hf none hnone _ o h)
    rcases stored_one hA htm r with ⟨h, _⟩ | ⟨k', old', o, h1, h2, h3, h4, h5⟩
    · exact absurd he (h k old ho)
    · have hkk : k' = k := hA.unique h1 ho (conf_iff.2 ⟨_, htm, by rw [h2, he]⟩)
      subst hkk
      have hu : getUniq T S (some j) [r] = [o] := by simpa [stored] using h3
      have hall : ((tags T).flatMap fun t => (getUniq T S t [r]).map fun o => (t, o)) =
          (some j, o) :: t2.flatMap fun t => (getUniq T S t [r]).map fun o => (t, o) := by
        rw [ht, List.flatMap_append, List.flatMap_cons, hu]
        have : (t1.flatMap fun t => (getUniq T S t [r]).map fun o => (t, o)) = [] := by
          rw [List.flatMap_eq_nil_iff]
          intro t' ht'
          rcases stored_one hA (by rw [ht]; simp [ht'] : t' ∈ tags T) r with ⟨_, h⟩ | ⟨k1, old1, _, h6, h7, _⟩
          · cases t' with
            | none => rfl
            | some j' =>
              have : getUniq T S (some j') [r] = [] := by simpa [stored] using h
              rw [this]; rfl
          · exact absurd h7 (hf t' ht' k1 old1 h6)
        rw [this]
        rfl
      unfold owners
      simp only [hp, hall, List.foldl_cons, List.map_nil, List.not_mem_nil, not_false_iff, or_true, if_true, List.nil_append]
      obtain ⟨l, hl⟩ := fold_appends _ (step []) (t2.flatMap fun t => (getUniq T S t [r]).map fun o => (t, o))
        [((some j, keyAt T (some j) o), T.keyOf o)]
      simp only [List.map_nil, List.not_mem_nil] at hl
      rw [hl, h5, h4, List.cons_append, List.lookup_cons_self]

omit [DecidableEq V] in
theorem uniqKeys_tags (T : Table V) : ∃ g : Option Nat → List Nat, uniqKeys T = (tags T).map g ∧
    ∀ t ∈ tags T, ∀ a : Rec V, keyAt T t a = (g t).map a := by
  refine ⟨fun t => t.elim T.pk fun j => (T.indexes[j]?).elim [] fun i => i.fields, ?_, ?_⟩
  · unfold uniqKeys tags
    simp only [List.map_cons, List.map_map, Option.elim, List.cons.injEq, true_and]
    have h1 : (T.all.filter fun ji => ji.2.uniq).map (fun ji => ji.2.fields) = (T.indexes.filter fun i => i.uniq).map fun i => i.fields := by
      have : T.indexes = T.all.map (·.2) := by
        unfold Table.all
        rw [List.map_snd_zip]
        simp
      conv => rhs; rw [this]
      rw [List.filter_map, List.map_map]
      rfl
    rw [← h1]
    apply List.map_congr_left
    rintro ⟨j, i⟩ hji
    have := (mem_all T j i).1 (List.mem_filter.1 hji).1
    simp [this]
  · intro t ht a
    cases t with
    | none => rfl
    | some j =>
      obtain ⟨i, hi, hu⟩ := mem_tags.1 ht
      rw [keyAt_some hi]
      simp [Table.ekey, hu, hi]

omit [DecidableEq V] in
theorem firstInWay_tags {T : Table V} {R : Rows V} {r : Rec V} {k : Key V} {old : Rec V} (h : FirstInWay T R r k old) :
    ∃ t1 t t2, tags T = t1 ++ t :: t2 ∧ R k = some old ∧ keyAt T t old = keyAt T t r ∧
      ∀ t' ∈ t1, ∀ k o, R k = some o → keyAt T t' o ≠ keyAt T t' r := by
  obtain ⟨g, hg1, hg2⟩ := uniqKeys_tags T
  obtain ⟨before, fs, after, h1, h2, h3, h4⟩ := h
  rw [hg1] at h1
  obtain ⟨t1, l, e1, e2, e3⟩ := List.map_eq_append_iff.1 h1
  obtain ⟨t, t2, rfl, e4, e5⟩ := List.map_eq_cons_iff.1 e3
  refine ⟨t1, t, t2, e1, h2, ?_, ?_⟩
  · rw [hg2 t (by rw [e1]; simp), hg2 t (by rw [e1]; simp), e4]
    exact h3
  · intro t' ht' k o ho
    rw [hg2 t' (by rw [e1]; simp [ht']), hg2 t' (by rw [e1]; simp [ht'])]
    exact h4 (g t') (by rw [← e2]; exact List.mem_map.2 ⟨t', ht', rfl⟩) k o ho

/-- **C61.** INSERT ... ON DUPLICATE KEY UPDATE of one record that has nothing in its way inserts it. -/
theorem C61_on_dup_insert {T : Table V} {S : Store V} (hA : Agree T S) (up : Rec V → Rec V → Rec V) (r : Rec V) (hf : Free T S.rows r) :
    ∃ S', insertDup T S up [r] = some (some S') ∧ S'.rows = put T S.rows r ∧ Agree T S' := by
  have h1 : (tags T).foldlM (dupTag T S up [r]) ⟨List.range [r].length, [r], S.rows⟩ = some ⟨[0], [r], S.rows⟩ :=
    dupTags_free hA _ (tags T) (fun t ht => ht) fun t ht k old ho e => hf k old ho (conf_iff.2 ⟨t, ht, e⟩)
  obtain ⟨del, h2, h3⟩ := rowsInWay_some hA [r]
  have hdel : del = [] := by
    rw [List.eq_nil_iff_forall_not_mem]
    intro o ho
    obtain ⟨h4, r', hr', hc⟩ := (h3 o).1 ho
    rw [show r' = r by simpa using hr'] at hc
    exact hf _ o h4 hc
  subst hdel
  have hfits : Fits T S.rows [] [r] := ⟨List.pairwise_singleton _ _, fun a ha k old _ ho => by
    rw [show a = r by simpa using ha]
    exact hf k old ho⟩
  obtain ⟨S', h4⟩ := dml_ok (ds := []) hA (fun d hd => nomatch hd) hfits (check := true) (List.Sublist.refl T.all)
  obtain ⟨h5, h6, _⟩ := dml_some (ds := []) hA (fun d hd => nomatch hd) h4
  refine ⟨S', ?_, ?_, h5⟩
  · unfold insertDup
    rw [h1, h2]
    simp only [Option.map_some, Option.bind_some, Option.some.injEq]
    exact h4
  · funext k
    apply Option.ext
    intro a
    rw [h6 k a]
    unfold put
    by_cases e : k = T.pk.map r
    · rw [if_pos e]
      constructor
      · rintro (⟨h7, _⟩ | ⟨h7, _⟩)
        · rw [show a = r by simpa using h7]
        · exact absurd (by simp [e]) h7
      · intro h
        cases h
        exact Or.inl ⟨by simp, e.symm⟩
    · rw [if_neg e]
      constructor
      · rintro (⟨h7, h8⟩ | h7)
        · rw [show a = r by simpa using h7] at h8
          exact absurd h8.symm e
        · exact h7.2.2
      · intro h
        exact Or.inr ⟨by simpa using e, by simp, h⟩

/-- **C61.** INSERT ... ON DUPLICATE KEY UPDATE of one record updates the row that is in its way by the first key by which there is
one, and fails exactly if the updated row has another row in its way; all other rows stay as they are and all global indexes agree
with the table. -/
theorem C61_on_dup_update {T : Table V} {S : Store V} (hA : Agree T S) (up : Rec V → Rec V → Rec V) (r : Rec V) (k : Key V) (old : Rec V)
    (hw : FirstInWay T S.rows r k old) :
    ((∀ k' o, k' ≠ k → S.rows k' = some o → ¬Conf T o (up old r)) →
      ∃ S', insertDup T S up [r] = some (some S') ∧ Agree T S' ∧
        S'.rows = fun k' => if k' = T.pk.map (up old r) then some (up old r) else if k' = k then none else S.rows k') ∧
      (¬(∀ k' o, k' ≠ k → S.rows k' = some o → ¬Conf T o (up old r)) → insertDup T S up [r] = some none) := by
  obtain ⟨t1, t, t2, ht, ho, he, hfree⟩ := firstInWay_tags hw
  have htm : t ∈ tags T := by rw [ht]; simp
  have hk := hA.own k old ho
  have hcold : Conf T old r := conf_iff.2 ⟨t, htm, he⟩
  let d1 : Dup V := ⟨[], [r], fun k' => if k' = k then some (up old r) else S.rows k'⟩
  have h1 : (tags T).foldlM (dupTag T S up [r]) ⟨List.range [r].length, [r], S.rows⟩ = some d1 := by
    rw [ht, List.foldlM_append, dupTags_free hA _ t1 (fun t' ht' => by rw [ht]; simp [ht']) hfree]
    have h2 : dupTag T S up [r] ⟨List.range [r].length, [r], S.rows⟩ t = some d1 := by
      rw [dupTag_one]
      rcases stored_one hA htm r with ⟨h, _⟩ | ⟨k', old', o, h3, h4, h5, h6, h7⟩
      · exact absurd he (h k old ho)
      · rw [h5]
        simp only [List.foldlM_cons, List.foldlM_nil, h7, idsOf_one, owners_first hA ht hfree ho he]
        simp [hitLoop, d1, ho]
    show ((t :: t2).foldlM (dupTag T S up [r]) _ : Option (Dup V)) = _
    rw [List.foldlM_cons, h2]
    exact dupTags_done hA d1 rfl t2 fun t' ht' => by rw [ht]; simp [ht']
  obtain ⟨del, h2, h3⟩ := rowsInWay_some hA [r]
  have hd : ∀ d ∈ del, S.rows (T.pk.map d) = some d := fun d hd => ((h3 d).1 hd).1
  have hdel : ∀ k', k' ∈ del.map T.keyOf ↔ ∃ o, S.rows k' = some o ∧ Conf T o r := by
    intro k'
    rw [List.mem_map]
    constructor
    · rintro ⟨o, h4, e⟩
      obtain ⟨h5, r', hr', hc⟩ := (h3 o).1 h4
      rw [show r' = r by simpa using hr'] at hc
      exact ⟨o, by rw [← e]; exact h5, hc⟩
    · rintro ⟨o, h4, hc⟩
      have := hA.own k' o h4
      exact ⟨o, (h3 o).2 ⟨by rw [this]; exact h4, r, by simp, hc⟩, this⟩
  have hkd : k ∈ del.map T.keyOf := (hdel k).2 ⟨old, ho, hcold⟩
  -- the rows that are written again
  let ins : List (Rec V) := (del.map T.keyOf).dedup.filterMap d1.row
  have hins : ∀ x, x ∈ ins ↔ x = up old r ∨ ∃ k', k' ≠ k ∧ S.rows k' = some x ∧ Conf T x r := by
    intro x
    simp only [ins, List.mem_filterMap, List.mem_dedup]
    constructor
    · rintro ⟨k', h4, h5⟩
      simp only [d1] at h5
      split at h5
      · exact Or.inl (Option.some.inj h5).symm
      · rename_i hne
        obtain ⟨o, h6, hc⟩ := (hdel k').1 h4
        rw [h5] at h6
        cases h6
        exact Or.inr ⟨k', hne, h5, hc⟩
    · rintro (e | ⟨k', h4, h5, hc⟩)
      · exact ⟨k, hkd, by simp [d1, e]⟩
      · exact ⟨k', (hdel k').2 ⟨x, h5, hc⟩, by simp [d1, h4, h5]⟩
  have hrun : insertDup T S up [r] = some (dml T S true T.all del ins) := by
    unfold insertDup
    rw [h1, h2]
    simp [d1, ins]
  have hfits : Fits T S.rows del ins ↔ ∀ k' o, k' ≠ k → S.rows k' = some o → ¬Conf T o (up old r) := by
    constructor
    · intro hf k' o hne hk' hc
      by_cases hm : k' ∈ del.map T.keyOf
      · -- both are written again
        have hp := hf.each
        simp only [ins, List.pairwise_filterMap] at hp
        rw [List.pairwise_iff_getElem] at hp
        obtain ⟨a, ha, ea⟩ := List.mem_iff_getElem.1 (List.mem_dedup.2 hm)
        obtain ⟨b, hb, eb⟩ := List.mem_iff_getElem.1 (List.mem_dedup.2 hkd)
        have r1 : d1.row (del.map T.keyOf).dedup[a] = some o := by rw [ea]; simp [d1, hne, hk']
        have r2 : d1.row (del.map T.keyOf).dedup[b] = some (up old r) := by rw [eb]; simp [d1]
        rcases Nat.lt_trichotomy a b with h | h | h
        · exact hp a b ha hb h o r1 _ r2 hc
        · subst h
          exact hne (by rw [← ea, ← eb])
        · exact hp b a hb ha h _ r2 o r1 (conf_symm hc)
      · exact hf.free (up old r) ((hins _).2 (Or.inl rfl)) k' o hm hk' hc
    · intro hf
      constructor
      · simp only [ins, List.pairwise_filterMap]
        refine List.Pairwise.imp ?_ (List.nodup_dedup (del.map T.keyOf))
        intro a b hab x hx y hy hc
        simp only [d1] at hx hy
        split at hx
        · rename_i e1
          cases hx
          rw [if_neg (fun e2 => hab (e1.trans e2.symm))] at hy
          exact hf b y (fun e2 => hab (e1.trans e2.symm)) hy (conf_symm hc)
        · rename_i e1
          split at hy
          · cases hy
            exact hf a x e1 hx hc
          · exact hab (hA.unique hx hy hc)
      · intro a ha k' o hm hk' hc
        rcases (hins a).1 ha with e | ⟨k1, h4, h5, hc1⟩
        · subst e
          exact hf k' o (fun e => hm (e ▸ hkd)) hk' hc
        · have := hA.unique hk' h5 hc
          subst this
          exact hm ((hdel k').2 ⟨a, h5, hc1⟩)
  constructor
  · intro hf
    have hf' := hfits.2 hf
    obtain ⟨S', h4⟩ := dml_ok hA hd hf' (check := true) (List.Sublist.refl T.all)
    obtain ⟨h5, h6, _⟩ := dml_some hA hd h4
    refine ⟨S', by rw [hrun, h4], h5, ?_⟩
    funext k'
    apply Option.ext
    intro a
    rw [h6 k' a, hins a]
    by_cases e1 : k' = T.pk.map (up old r)
    · rw [if_pos e1]
      constructor
      · rintro (⟨e | ⟨k1, h7, h8, _⟩, h9⟩ | ⟨h7, _⟩)
        · rw [e]
        · have := hA.own k1 a h8
          exact absurd (Or.inl (by rw [h9, e1])) (hf k1 a h7 h8)
        · exact absurd (List.mem_map.2 ⟨_, (hins _).2 (Or.inl rfl), e1.symm⟩) h7
      · intro h
        cases h
        exact Or.inl ⟨Or.inl rfl, e1.symm⟩
    · rw [if_neg e1]
      by_cases e2 : k' = k
      · rw [if_pos e2]
        constructor
        · rintro (⟨e | ⟨k1, h7, h8, _⟩, h9⟩ | ⟨_, h7, _⟩)
          · rw [e] at h9; exact absurd h9.symm e1
          · rw [hA.own k1 a h8] at h9
            exact absurd (h9.trans e2) h7
          · rw [e2] at h7; exact absurd hkd h7
        · intro h; exact nomatch h
      · rw [if_neg e2]
        constructor
        · rintro (⟨e | ⟨k1, h7, h8, _⟩, h9⟩ | ⟨_, _, h7⟩)
          · rw [e] at h9; exact absurd h9.symm e1
          · rw [hA.own k1 a h8] at h9
            rw [← h9]; exact h8
          · exact h7
        · intro h7
          by_cases hc : Conf T a r
          · exact Or.inl ⟨Or.inr ⟨k', e2, h7, hc⟩, hA.own k' a h7⟩
          · refine Or.inr ⟨?_, ?_, h7⟩
            · intro hm
              obtain ⟨x, hx, e⟩ := List.mem_map.1 hm
              rcases (hins x).1 hx with e3 | ⟨k1, h8, h9, hc1⟩
              · rw [e3] at e; exact e1 e.symm
              · rw [hA.own k1 x h9] at e
                subst e
                rw [h7] at h9
                cases h9
                exact hc hc1
            · intro hm
              obtain ⟨o, h8, hc1⟩ := (hdel k').1 hm
              rw [h7] at h8
              cases h8
              exact hc hc1
  · intro hf
    rw [hrun]
    cases h4 : dml T S true T.all del ins with
    | none => rfl
    | some S' => exact absurd (hfits.1 (dml_some hA hd h4).2.2) hf

/-! ### Every statement -/

/-- **C61.** Every statement that succeeds leaves all global indexes in agreement with the table, whatever it was and however many
records it had. -/
theorem C61_agree {T : Table V} {S S' : Store V} (hA : Agree T S) (st : Stmt V) (h : exec T S st = some S') : Agree T S' := by
  cases st with
  | insert rs =>
    simp only [exec, Option.map_eq_some_iff] at h
    obtain ⟨⟨S1, n⟩, h1, rfl⟩ := h
    exact (C61_insert hA rs n h1).2.1
  | ignore rs =>
    obtain ⟨S1, left, h1, _, _, _, h2⟩ := C61_ignore hA rs
    simp only [exec, h1, Option.map_some, Option.some.injEq] at h
    exact h ▸ h2
  | replace rs =>
    obtain ⟨S1, h1, _, h2⟩ := C61_replace hA rs
    simp only [exec, h1, Option.some.injEq] at h
    exact h ▸ h2
  | onDup up rs =>
    simp only [exec, Option.join_eq_some_iff] at h
    unfold insertDup at h
    rw [Option.map_eq_some_iff] at h
    obtain ⟨d, _, h⟩ := h
    obtain ⟨del, h1, h2⟩ := rowsInWay_some hA rs
    rw [h1, Option.bind_some] at h
    exact (dml_some hA (fun d hd => ((h2 d).1 hd).1) h).1
  | update as ks =>
    simp only [exec, Option.map_eq_some_iff] at h
    obtain ⟨⟨S1, n⟩, h1, rfl⟩ := h
    exact (C61_update hA as ks n h1).2.1
  | delete ks =>
    obtain ⟨S1, out, h1, _, _, _, h2⟩ := C61_delete hA ks
    simp only [exec, h1, Option.map_some, Option.some.injEq] at h
    exact h ▸ h2

/-- The stores that statements lead to. -/
inductive Reach (T : Table V) : Store V → Prop where
  | empty : Reach T empty
  | exec {S S'} (st : Stmt V) : Reach T S → Global.exec T S st = some S' → Reach T S'

theorem reach_agree {T : Table V} {S : Store V} (h : Reach T S) : Agree T S := by
  induction h with
  | empty => exact ⟨fun k r h => by simp [empty] at h, fun j i _ x k => by simp [empty]⟩
  | exec st _ h ih => exact C61_agree ih st h

/-- **C61.** After any statements, no two rows have the same primary key or the same values of a UNIQUE index, and a global index
has an entry for some values and a primary key exactly if the row with this primary key has these values. -/
theorem C61_unique {T : Table V} {S : Store V} (h : Reach T S) :
    (∀ k k' a b, S.rows k = some a → S.rows k' = some b → Conf T a b → k = k') ∧ (∀ k r, S.rows k = some r → T.pk.map r = k) ∧
      ∀ j i, T.indexes[j]? = some i → ∀ x k, S.idx j x = some k ↔
        ∃ r, S.rows k = some r ∧ x = i.fields.map r ++ if i.uniq then [] else k :=
  ⟨fun _ _ _ _ => (reach_agree h).unique, (reach_agree h).own, (reach_agree h).idx⟩

end BaikalDB.Global
