import Verif.Global.Change
/-!
# C61: statements on a table with global indexes
-/
namespace BaikalDB.Global
open BaikalDB.Dml

variable {V : Type} [DecidableEq V]

/-! ### The rows a statement leaves behind -/

omit [DecidableEq V] in
theorem left_unique {T : Table V} {R R1 R2 : Rows V} {ds rs : List (Rec V)} (h1 : Left T R ds rs R1) (h2 : Left T R ds rs R2) : R1 = R2 := by
  funext k
  apply Option.ext
  intro r
  rw [h1, h2]

theorem inserts_iff {T : Table V} {R R' : Rows V} (rs : List (Rec V)) (ho : ∀ k r, R k = some r → T.pk.map r = k) :
    Inserts T R rs R' ↔ Fits T R [] rs ∧ Left T R [] rs R' := by
  induction rs generalizing R with
  | nil =>
    constructor
    · intro h
      cases h
      exact ⟨⟨List.Pairwise.nil, fun r hr => nomatch hr⟩, fun k r => by simp⟩
    · rintro ⟨_, h⟩
      have e : R = R' := left_unique (T := T) (ds := []) (rs := []) (R := R) (fun k r => by simp) h
      subst e
      exact Each.nil _
  | cons r rs ih =>
    have ho' : ∀ k a, put T R r k = some a → T.pk.map a = k := by
      intro k a h
      unfold put at h
      split at h
      · rename_i e
        cases h
        exact e.symm
      · exact ho k a h
    have hput : Free T R r → ∀ k a, put T R r k = some a ↔ (k = T.pk.map r ∧ a = r) ∨ R k = some a := by
      intro hf k a
      unfold put
      split
      · rename_i e
        subst e
        constructor
        · intro h
          exact Or.inl ⟨rfl, (Option.some.inj h).symm⟩
        · rintro (⟨_, h⟩ | h)
          · rw [h]
          · exact absurd (Or.inl (ho _ _ h)) (hf _ _ h)
      · rename_i e
        constructor
        · exact Or.inr
        · rintro (h | h)
          · exact absurd h.1 e
          · exact h
    have step : Inserts T R (r :: rs) R' ↔ Free T R r ∧ Inserts T (put T R r) rs R' := by
      constructor
      · intro h
        cases h with
        | cons h1 h2 =>
          obtain ⟨h1, rfl⟩ := h1
          exact ⟨h1, h2⟩
      · rintro ⟨h1, h2⟩
        exact Each.cons ⟨h1, rfl⟩ h2
    rw [step]
    constructor
    · rintro ⟨hf, h⟩
      obtain ⟨h1, h2⟩ := (ih ho').1 h
      have hp := hput hf
      have hsep : ∀ b ∈ rs, ¬Conf T r b := fun b hb => h1.free b hb (T.pk.map r) r (by simp) ((hp _ _).2 (Or.inl ⟨rfl, rfl⟩))
      refine ⟨⟨List.pairwise_cons.2 ⟨hsep, h1.each⟩, ?_⟩, ?_⟩
      · intro b hb k old _ hk
        rcases List.mem_cons.1 hb with e | hb
        · subst e; exact hf k old hk
        · exact h1.free b hb k old (by simp) ((hp _ _).2 (Or.inr hk))
      · intro k a
        rw [h2 k a, hp]
        simp only [List.map_nil, List.not_mem_nil, not_false_iff, true_and, List.mem_cons, List.map_cons, not_or]
        constructor
        · rintro (⟨h3, h4⟩ | ⟨h3, ⟨h4, h5⟩ | h4⟩)
          · exact Or.inl ⟨Or.inr h3, h4⟩
          · exact Or.inl ⟨Or.inl h5, by rw [h5, h4]⟩
          · refine Or.inr ⟨⟨fun e => hf k a h4 (Or.inl (by rw [ho k a h4, e])), h3⟩, h4⟩
        · rintro (⟨h3 | h3, h4⟩ | ⟨⟨h3, h4⟩, h5⟩)
          · subst h3
            refine Or.inr ⟨fun hm => ?_, Or.inl ⟨h4.symm, rfl⟩⟩
            obtain ⟨b, hb, e⟩ := List.mem_map.1 hm
            exact hsep b hb (Or.inl (by rw [e, h4]))
          · exact Or.inl ⟨h3, h4⟩
          · exact Or.inr ⟨h4, Or.inr h5⟩
    · rintro ⟨h1, h2⟩
      obtain ⟨hsep, heach⟩ := List.pairwise_cons.1 h1.each
      have hf : Free T R r := fun k old hk => h1.free r List.mem_cons_self k old (by simp) hk
      have hp := hput hf
      refine ⟨hf, (ih ho').2 ⟨⟨heach, ?_⟩, ?_⟩⟩
      · intro b hb k old _ hk
        rcases (hp k old).1 hk with ⟨_, e⟩ | hk
        · subst e; exact hsep b hb
        · exact h1.free b (List.mem_cons_of_mem _ hb) k old (by simp) hk
      · intro k a
        rw [h2 k a, hp]
        simp only [List.map_nil, List.not_mem_nil, not_false_iff, true_and, List.mem_cons, List.map_cons, not_or]
        constructor
        · rintro (⟨h3 | h3, h4⟩ | ⟨⟨h3, h4⟩, h5⟩)
          · subst h3
            refine Or.inr ⟨fun hm => ?_, Or.inl ⟨h4.symm, rfl⟩⟩
            obtain ⟨b, hb, e⟩ := List.mem_map.1 hm
            exact hsep b hb (Or.inl (by rw [e, h4]))
          · exact Or.inl ⟨h3, h4⟩
          · exact Or.inr ⟨h4, Or.inr h5⟩
        · rintro (⟨h3, h4⟩ | ⟨h3, ⟨h4, h5⟩ | h4⟩)
          · exact Or.inl ⟨Or.inr h3, h4⟩
          · exact Or.inl ⟨Or.inl h5, by rw [h5, h4]⟩
          · refine Or.inr ⟨⟨fun e => hf k a h4 (Or.inl (by rw [ho k a h4, e])), h3⟩, h4⟩

/-! ### INSERT -/

/-- **C61.** INSERT of any number of records that succeeds leaves the rows that taking the records one after the other leaves, and
all global indexes agree with the table. -/
theorem C61_insert {T : Table V} {S S' : Store V} (hA : Agree T S) (rs : List (Rec V)) (n : Nat)
    (h : basicInsert T S true T.all rs = some (S', n)) : Inserts T S.rows rs S'.rows ∧ Agree T S' ∧ n = rs.length := by
  unfold basicInsert at h
  split at h
  · exact nomatch h
  · rename_i hb
    rw [Option.map_eq_some_iff] at h
    obtain ⟨S1, h1, e⟩ := h
    cases e
    obtain ⟨h2, h3, h4⟩ := dml_some (ds := []) hA (fun d hd => nomatch hd) h1
    exact ⟨(inserts_iff rs hA.own).2 ⟨h4, h3⟩, h2, rfl⟩

/-- **C61.** INSERT fails only if a record has a row in its way, of the table or of the statement: whenever all records can be
inserted one after the other it succeeds. -/
theorem C61_insert_fails {T : Table V} {S : Store V} (hA : Agree T S) (rs : List (Rec V))
    (h : basicInsert T S true T.all rs = none) : ¬∃ R', Inserts T S.rows rs R' := by
  rintro ⟨R', hi⟩
  obtain ⟨h1, _⟩ := (inserts_iff rs hA.own).1 hi
  unfold basicInsert at h
  rw [if_neg (by rw [(bad_nil T rs).2 h1.each]; simp)] at h
  obtain ⟨S', h2⟩ := dml_ok (ds := []) hA (fun d hd => nomatch hd) h1 (check := true) (List.Sublist.refl T.all)
  rw [h2] at h
  exact nomatch h

/-! ### INSERT IGNORE -/

/-- **C61.** INSERT IGNORE never fails and inserts exactly the records that have neither a row of the table in their way nor an
earlier record of the statement; the number it returns is that of the records inserted, and the indexes agree with the table. -/
theorem C61_ignore {T : Table V} {S : Store V} (hA : Agree T S) (rs : List (Rec V)) :
    ∃ (S' : Store V) (left : List (Rec V)), insertIgnore T S rs = some (S', left.length) ∧ left.Sublist rs ∧
      (∀ r, r ∈ left ↔ ∃ n : Nat, rs[n]? = some r ∧ Free T S.rows r ∧ ∀ m : Nat, m < n → ∀ r', rs[m]? = some r' → ¬Conf T r' r) ∧
      (∀ k r, S'.rows k = some r ↔ (r ∈ left ∧ T.pk.map r = k) ∨ S.rows k = some r) ∧ Agree T S' := by
  unfold insertIgnore
  simp only
  generalize hleft : pick rs (fun n => (see T rs).ids.contains n && !(see T rs).bad.contains n && !List.contains _ n) = left
  have hmem : ∀ r, r ∈ left ↔ ∃ n : Nat, rs[n]? = some r ∧ Free T S.rows r ∧ ∀ m : Nat, m < n → ∀ r', rs[m]? = some r' → ¬Conf T r' r := by
    intro r
    rw [← hleft, mem_pick]
    constructor
    · rintro ⟨n, h1, h2⟩
      obtain ⟨h3, h4⟩ := (ignore_keeps hA rs n r h1).1 h2
      exact ⟨n, h1, h4, h3⟩
    · rintro ⟨n, h1, h2, h3⟩
      exact ⟨n, h1, (ignore_keeps hA rs n r h1).2 ⟨h3, h2⟩⟩
  have hsub : left.Sublist rs := by
    rw [← hleft]
    exact pick_sublist rs _
  have hfits : Fits T S.rows [] left := by
    constructor
    · rw [← hleft]
      apply pick_pairwise
      intro m n hmn a b ha hb _ hok
      exact ((ignore_keeps hA rs n b hb).1 hok).1 m hmn a ha
    · intro r hr k old _ hk
      obtain ⟨n, _, h1, _⟩ := (hmem r).1 hr
      exact h1 k old hk
  by_cases he : left = []
  · rw [if_pos he]
    refine ⟨S, left, by rw [he]; rfl, hsub, hmem, ?_, hA⟩
    intro k r
    rw [he]
    simp
  · rw [if_neg he]
    obtain ⟨S', h1, h2, h3⟩ := dmlNo_ok hA hfits
    refine ⟨S', left, by rw [h1]; rfl, hsub, hmem, ?_, h2⟩
    intro k r
    rw [h3 k r]
    constructor
    · rintro (h | h)
      · exact Or.inl h
      · exact Or.inr h.2.2
    · rintro (h | h)
      · exact Or.inl h
      · refine Or.inr ⟨?_, by simp, h⟩
        intro hm
        obtain ⟨a, ha, e⟩ := List.mem_map.1 hm
        exact hfits.free a ha k r (by simp) h (Or.inl (by rw [hA.own k r h, e]))

omit [DecidableEq V] in
theorem each_append {step : Rows V → Rec V → Rows V → Prop} {R R'' : Rows V} {rs : List (Rec V)} {r : Rec V} :
    Each step R (rs ++ [r]) R'' ↔ ∃ R', Each step R rs R' ∧ step R' r R'' := by
  induction rs generalizing R with
  | nil =>
    constructor
    · intro h
      cases h with
      | cons h1 h2 => cases h2; exact ⟨_, Each.nil _, h1⟩
    · rintro ⟨R', h1, h2⟩
      cases h1
      exact Each.cons h2 (Each.nil _)
  | cons a rs ih =>
    constructor
    · intro h
      cases h with
      | cons h1 h2 =>
        obtain ⟨R', h3, h4⟩ := ih.1 h2
        exact ⟨R', Each.cons h1 h3, h4⟩
    · rintro ⟨R', h1, h2⟩
      cases h1 with
      | cons h3 h4 => exact Each.cons h3 (ih.2 ⟨R', h4, h2⟩)

/-- The records INSERT IGNORE keeps. -/
def Kept (T : Table V) (R : Rows V) (rs : List (Rec V)) (n : Nat) (r : Rec V) : Prop :=
  rs[n]? = some r ∧ Free T R r ∧ ∀ m : Nat, m < n → ∀ r', rs[m]? = some r' → ¬Conf T r' r

omit [DecidableEq V] in
theorem kept_append {T : Table V} {R : Rows V} {rs : List (Rec V)} {a r : Rec V} {n : Nat} :
    Kept T R (rs ++ [a]) n r ↔ Kept T R rs n r ∨ (n = rs.length ∧ a = r ∧ Free T R r ∧ ∀ r' ∈ rs, ¬Conf T r' r) := by
  unfold Kept
  rw [append_get]
  constructor
  · rintro ⟨h1 | ⟨h1, h2⟩, h3, h4⟩
    · have hlt := (List.getElem?_eq_some_iff.1 h1).1
      exact Or.inl ⟨h1, h3, fun m hm r' hr => h4 m hm r' (append_get.2 (Or.inl hr))⟩
    · refine Or.inr ⟨h1, h2, h3, fun r' hr => ?_⟩
      obtain ⟨m, hm⟩ := List.mem_iff_getElem?.1 hr
      exact h4 m (by rw [h1]; exact (List.getElem?_eq_some_iff.1 hm).1) r' (append_get.2 (Or.inl hm))
  · rintro (⟨h1, h3, h4⟩ | ⟨h1, h2, h3, h4⟩)
    · have hlt := (List.getElem?_eq_some_iff.1 h1).1
      refine ⟨Or.inl h1, h3, fun m hm r' hr => ?_⟩
      rcases append_get.1 hr with hr | hr
      · exact h4 m hm r' hr
      · omega
    · refine ⟨Or.inr ⟨h1, h2⟩, h3, fun m hm r' hr => ?_⟩
      rcases append_get.1 hr with hr | hr
      · exact h4 r' (List.mem_of_getElem? hr)
      · omega

/-- What MySQL's INSERT IGNORE leaves: at least the rows that were there and the records BaikalDB keeps, at most the rows that
were there and records of the statement. -/
theorem ignores_between {T : Table V} {R R' : Rows V} (ho : ∀ k r, R k = some r → T.pk.map r = k) (rs : List (Rec V)) (h : Ignores T R rs R') :
    (∀ k r, R k = some r ∨ (∃ n, Kept T R rs n r ∧ T.pk.map r = k) → R' k = some r) ∧
      (∀ k r, R' k = some r → (R k = some r ∨ r ∈ rs) ∧ T.pk.map r = k) := by
  induction rs using List.reverseRecOn generalizing R' with
  | nil =>
    cases h
    refine ⟨fun k r h => ?_, fun k r h => ⟨Or.inl h, ho k r h⟩⟩
    rcases h with h | ⟨n, h, _⟩
    · exact h
    · exact nomatch h.1
  | append_singleton rs a ih =>
    obtain ⟨R1, h1, h2⟩ := each_append.1 h
    obtain ⟨ih1, ih2⟩ := ih h1
    have hgrow : ∀ k r, R1 k = some r → R' k = some r := by
      intro k r hk
      rcases h2 with ⟨hf, e⟩ | ⟨_, e⟩
      · rw [e]
        unfold put
        split
        · rename_i e1
          exact absurd (Or.inl (by rw [(ih2 k r hk).2, e1])) (hf k r hk)
        · exact hk
      · rw [e]; exact hk
    constructor
    · rintro k r (h3 | ⟨n, h3, h4⟩)
      · exact hgrow k r (ih1 k r (Or.inl h3))
      · rcases kept_append.1 h3 with h3 | ⟨_, e, h5, h6⟩
        · exact hgrow k r (ih1 k r (Or.inr ⟨n, h3, h4⟩))
        · subst e
          rcases h2 with ⟨_, e⟩ | ⟨hn, _⟩
          · rw [e]
            unfold put
            rw [if_pos h4.symm]
          · exfalso
            apply hn
            intro k' old hk hc
            rcases (ih2 k' old hk).1 with hk | hm
            · exact h5 k' old hk hc
            · exact h6 old hm hc
    · intro k r hk
      rcases h2 with ⟨_, e⟩ | ⟨_, e⟩
      · rw [e] at hk
        unfold put at hk
        split at hk
        · rename_i e1
          cases hk
          exact ⟨Or.inr (by simp), e1.symm⟩
        · obtain ⟨h3, h4⟩ := ih2 k r hk
          exact ⟨h3.imp id (List.mem_append_left _), h4⟩
      · rw [e] at hk
        obtain ⟨h3, h4⟩ := ih2 k r hk
        exact ⟨h3.imp id (List.mem_append_left _), h4⟩

/-- **C61.** INSERT IGNORE never has a row that taking the records one after the other would not have. -/
theorem C61_ignore_subset {T : Table V} {S S' : Store V} (hA : Agree T S) (rs : List (Rec V)) (n : Nat)
    (h : insertIgnore T S rs = some (S', n)) (R : Rows V) (hR : Ignores T S.rows rs R) (k : Key V) (r : Rec V)
    (hk : S'.rows k = some r) : R k = some r := by
  obtain ⟨S1, left, h1, _, h2, h3, _⟩ := C61_ignore hA rs
  rw [h1] at h
  cases h
  apply (ignores_between hA.own rs hR).1 k r
  rcases (h3 k r).1 hk with ⟨h4, h5⟩ | h4
  · obtain ⟨n, h6⟩ := (h2 r).1 h4
    exact Or.inr ⟨n, h6, h5⟩
  · exact Or.inl h4

/-- **C61.** INSERT IGNORE has the rows that taking the records one after the other leaves, if every record with an earlier
record in its way has one in its way that is inserted (or a row of the table). -/
theorem C61_ignore_same {T : Table V} {S S' : Store V} (hA : Agree T S) (rs : List (Rec V)) (n : Nat)
    (h : insertIgnore T S rs = some (S', n)) (R : Rows V) (hR : Ignores T S.rows rs R)
    (hc : ∀ (n : Nat) r, rs[n]? = some r → (∃ m : Nat, m < n ∧ ∃ r', rs[m]? = some r' ∧ Conf T r' r) →
      ¬Free T S.rows r ∨ ∃ m : Nat, m < n ∧ ∃ r', rs[m]? = some r' ∧ Conf T r' r ∧ Free T S.rows r' ∧
        ∀ l : Nat, l < m → ∀ r'', rs[l]? = some r'' → ¬Conf T r'' r') : S'.rows = R := by
  obtain ⟨S1, left, h1, _, h2, h3, _⟩ := C61_ignore hA rs
  rw [h1] at h
  cases h
  have key : ∀ (rs : List (Rec V)) (R : Rows V), Ignores T S.rows rs R →
      (∀ (n : Nat) r, rs[n]? = some r → (∃ m : Nat, m < n ∧ ∃ r', rs[m]? = some r' ∧ Conf T r' r) →
        ¬Free T S.rows r ∨ ∃ m : Nat, m < n ∧ ∃ r', Kept T S.rows rs m r' ∧ Conf T r' r) →
      ∀ k r, R k = some r → S.rows k = some r ∨ ∃ n, Kept T S.rows rs n r ∧ T.pk.map r = k := by
    intro rs
    induction rs using List.reverseRecOn with
    | nil =>
      intro R hR _ k r hk
      cases hR
      exact Or.inl hk
    | append_singleton rs a ih =>
      intro R hR hc k r hk
      obtain ⟨R1, h4, h5⟩ := each_append.1 hR
      have hc' : ∀ (n : Nat) r, rs[n]? = some r → (∃ m : Nat, m < n ∧ ∃ r', rs[m]? = some r' ∧ Conf T r' r) →
          ¬Free T S.rows r ∨ ∃ m : Nat, m < n ∧ ∃ r', Kept T S.rows rs m r' ∧ Conf T r' r := by
        intro n r hn hm
        have hlt := (List.getElem?_eq_some_iff.1 hn).1
        obtain ⟨m, hmn, r', hr', hcf⟩ := hm
        rcases hc n r (append_get.2 (Or.inl hn)) ⟨m, hmn, r', append_get.2 (Or.inl hr'), hcf⟩ with h | ⟨m, hm, r', h, h'⟩
        · exact Or.inl h
        · refine Or.inr ⟨m, hm, r', ?_, h'⟩
          rcases kept_append.1 h with h | h
          · exact h
          · omega
      have old : ∀ k r, R1 k = some r → S.rows k = some r ∨ ∃ n, Kept T S.rows (rs ++ [a]) n r ∧ T.pk.map r = k := by
        intro k r hk
        rcases ih R1 h4 hc' k r hk with h | ⟨n, h, h'⟩
        · exact Or.inl h
        · exact Or.inr ⟨n, kept_append.2 (Or.inl h), h'⟩
      rcases h5 with ⟨hf, e⟩ | ⟨_, e⟩
      · rw [e] at hk
        unfold put at hk
        split at hk
        · rename_i e1
          cases hk
          refine Or.inr ⟨rs.length, kept_append.2 (Or.inr ⟨rfl, rfl, ?_, ?_⟩), e1.symm⟩
          · intro k' o hk'
            exact hf k' o ((ignores_between hA.own rs h4).1 k' o (Or.inl hk'))
          · intro r' hr' hcf
            obtain ⟨m, hm⟩ := List.mem_iff_getElem?.1 hr'
            rcases hc rs.length a (append_get.2 (Or.inr ⟨rfl, rfl⟩))
              ⟨m, (List.getElem?_eq_some_iff.1 hm).1, r', append_get.2 (Or.inl hm), hcf⟩ with h | ⟨m', hm', r1, h6, h7⟩
            · apply h
              intro k' o hk'
              exact hf k' o ((ignores_between hA.own rs h4).1 k' o (Or.inl hk'))
            · rcases kept_append.1 h6 with h6 | h6
              · exact hf _ r1 ((ignores_between hA.own rs h4).1 _ r1 (Or.inr ⟨m', h6, rfl⟩)) h7
              · omega
        · exact old k r hk
      · rw [e] at hk
        exact old k r hk
  funext k
  apply Option.ext
  intro r
  constructor
  · intro hk
    exact C61_ignore_subset hA rs _ h1 R hR k r hk
  · intro hk
    rw [h3]
    rcases key rs R hR (fun n r hn hm => by
        rcases hc n r hn hm with h | ⟨m, h4, r', h5, h6, h7⟩
        · exact Or.inl h
        · exact Or.inr ⟨m, h4, r', ⟨h5, h7⟩, h6⟩) k r hk with h | ⟨n, h, h'⟩
    · exact Or.inr h
    · exact Or.inl ⟨(h2 r).2 ⟨n, h⟩, h'⟩

/-! ### REPLACE -/

theorem replaces_rows {T : Table V} {R R' : Rows V} (ho : ∀ k r, R k = some r → T.pk.map r = k) (rs : List (Rec V)) (h : Replaces T R rs R') :
    ∀ k r, R' k = some r ↔ T.pk.map r = k ∧ ((∃ n : Nat, rs[n]? = some r ∧ ∀ m : Nat, n < m → ∀ r', rs[m]? = some r' → ¬Conf T r r') ∨
      (R k = some r ∧ ∀ r' ∈ rs, ¬Conf T r r')) := by
  induction rs using List.reverseRecOn generalizing R' with
  | nil =>
    cases h
    intro k r
    simp only [List.getElem?_nil, reduceCtorEq, exists_false, false_or, List.not_mem_nil, false_imp_iff, implies_true, and_true]
    exact ⟨fun h => ⟨ho k r h, h⟩, And.right⟩
  | append_singleton rs a ih =>
    obtain ⟨R1, h1, h2⟩ := each_append.1 h
    subst h2
    intro k r
    have ih := ih h1
    unfold replace1
    split
    · rename_i e
      subst e
      constructor
      · intro h
        cases h
        refine ⟨rfl, Or.inl ⟨rs.length, append_get.2 (Or.inr ⟨rfl, rfl⟩), ?_⟩⟩
        intro m hm r' hr'
        rcases append_get.1 hr' with hr' | hr'
        · have := (List.getElem?_eq_some_iff.1 hr').1
          omega
        · omega
      · rintro ⟨e, ⟨n, h3, h4⟩ | ⟨h3, h4⟩⟩
        · rcases append_get.1 h3 with h3 | h3
          · exact absurd (Or.inl e) (h4 rs.length (List.getElem?_eq_some_iff.1 h3).1 a (append_get.2 (Or.inr ⟨rfl, rfl⟩)))
          · rw [h3.2]
        · exact absurd (Or.inl e) (h4 a (by simp))
    · rename_i e
      rw [Option.filter_eq_some_iff, ih k r]
      simp only [Bool.not_eq_true', decide_eq_false_iff_not]
      constructor
      · rintro ⟨⟨h3, ⟨n, h4, h5⟩ | ⟨h4, h5⟩⟩, h6⟩
        · refine ⟨h3, Or.inl ⟨n, append_get.2 (Or.inl h4), fun m hm r' hr' => ?_⟩⟩
          rcases append_get.1 hr' with hr' | ⟨_, hr'⟩
          · exact h5 m hm r' hr'
          · rw [← hr']; exact h6
        · refine ⟨h3, Or.inr ⟨h4, fun r' hr' => ?_⟩⟩
          rcases List.mem_append.1 hr' with hr' | hr'
          · exact h5 r' hr'
          · rw [show r' = a by simpa using hr']; exact h6
      · rintro ⟨h3, ⟨n, h4, h5⟩ | ⟨h4, h5⟩⟩
        · rcases append_get.1 h4 with h4 | ⟨_, h4⟩
          · have hlt := (List.getElem?_eq_some_iff.1 h4).1
            refine ⟨⟨h3, Or.inl ⟨n, h4, fun m hm r' hr' => h5 m hm r' (append_get.2 (Or.inl hr'))⟩⟩, ?_⟩
            exact h5 rs.length hlt a (append_get.2 (Or.inr ⟨rfl, rfl⟩))
          · subst h4; exact absurd h3.symm e
        · exact ⟨⟨h3, Or.inr ⟨h4, fun r' hr' => h5 r' (List.mem_append_left _ hr')⟩⟩, h5 a (by simp)⟩

/-- **C61.** REPLACE of any number of records never fails, leaves the rows that taking the records one after the other leaves,
and all global indexes agree with the table. -/
theorem C61_replace {T : Table V} {S : Store V} (hA : Agree T S) (rs : List (Rec V)) :
    ∃ S', insertReplace T S rs = some S' ∧ Replaces T S.rows rs S'.rows ∧ Agree T S' := by
  unfold insertReplace
  obtain ⟨del, h1, h2⟩ := rowsInWay_some hA rs
  rw [h1, Option.bind_some]
  generalize hg : ((tags T).flatMap fun t =>
      ((if t = none then del else getUniq T S t rs).flatMap fun o => (idsOf T rs t (keyAt T t o)).dropLast) ++
        rs.flatMap fun r => (idsOf T rs t (keyAt T t r)).dropLast) = gone
  have hgone : ∀ (n : Nat) r, rs[n]? = some r → (n ∈ gone ↔ ∃ m : Nat, n < m ∧ ∃ r', rs[m]? = some r' ∧ Conf T r r') := by
    intro n r hr
    rw [← hg]
    simp only [List.mem_flatMap, List.mem_append, mem_dropLast_sorted (idsOf_sorted T rs _ _), mem_idsOf]
    constructor
    · rintro ⟨t, ht, ⟨o, _, ⟨r1, h3, h4⟩, m, ⟨r', h5, h6⟩, hlt⟩ | ⟨o, _, ⟨r1, h3, h4⟩, m, ⟨r', h5, h6⟩, hlt⟩⟩
      all_goals
        rw [hr] at h3
        cases h3
        exact ⟨m, hlt, r', h5, conf_iff.2 ⟨t, ht, by rw [h4, h6]⟩⟩
    · rintro ⟨m, hlt, r', h3, h4⟩
      obtain ⟨t, ht, e⟩ := conf_iff.1 h4
      exact ⟨t, ht, Or.inr ⟨r, List.mem_of_getElem? hr, ⟨r, hr, rfl⟩, m, ⟨r', h3, e.symm⟩, hlt⟩⟩
  have hmem : ∀ r, r ∈ pick rs (fun n => !gone.contains n) ↔
      ∃ n : Nat, rs[n]? = some r ∧ ∀ m : Nat, n < m → ∀ r', rs[m]? = some r' → ¬Conf T r r' := by
    intro r
    rw [mem_pick]
    constructor
    · rintro ⟨n, h3, h4⟩
      refine ⟨n, h3, fun m hm r' hr' hc => ?_⟩
      have := (hgone n r h3).2 ⟨m, hm, r', hr', hc⟩
      simp [this] at h4
    · rintro ⟨n, h3, h4⟩
      refine ⟨n, h3, ?_⟩
      have : n ∉ gone := fun h => by
        obtain ⟨m, hm, r', hr', hc⟩ := (hgone n r h3).1 h
        exact h4 m hm r' hr' hc
      simp [this]
  have hd : ∀ d ∈ del, S.rows (T.pk.map d) = some d := fun d hd => ((h2 d).1 hd).1
  have hfits : Fits T S.rows del (pick rs fun n => !gone.contains n) := by
    constructor
    · apply pick_pairwise
      intro m n hmn a b ha hb hm _ hc
      have := (hgone m a ha).2 ⟨n, hmn, b, hb, hc⟩
      simp [this] at hm
    · intro r hr k old hk ho hc
      obtain ⟨n, h3, _⟩ := (hmem r).1 hr
      apply hk
      have hown := hA.own k old ho
      exact List.mem_map.2 ⟨old, (h2 old).2 ⟨by rw [hown]; exact ho, r, List.mem_of_getElem? h3, hc⟩, hown⟩
  obtain ⟨S', h3⟩ := dml_ok hA hd hfits (check := true) (List.Sublist.refl T.all)
  obtain ⟨h4, h5, _⟩ := dml_some hA hd h3
  refine ⟨S', h3, ?_, h4⟩
  -- taking them one after the other leaves something, and that is it
  have hex : ∀ (rs : List (Rec V)) (R : Rows V), ∃ R', Replaces T R rs R' := by
    intro rs
    induction rs with
    | nil => exact fun R => ⟨R, Each.nil R⟩
    | cons r rs ih =>
      intro R
      obtain ⟨R', h⟩ := ih (replace1 T R r)
      exact ⟨R', Each.cons rfl h⟩
  obtain ⟨R', hR⟩ := hex rs S.rows
  have e : R' = S'.rows := by
    funext k
    apply Option.ext
    intro r
    rw [replaces_rows hA.own rs hR k r, h5 k r, hmem r]
    constructor
    · rintro ⟨h6, h7 | ⟨h7, h8⟩⟩
      · exact Or.inl ⟨h7, h6⟩
      · refine Or.inr ⟨?_, ?_, h7⟩
        · intro hm
          obtain ⟨a, ha, e⟩ := List.mem_map.1 hm
          obtain ⟨n, h9, _⟩ := (hmem a).1 ha
          exact h8 a (List.mem_of_getElem? h9) (Or.inl (by rw [h6, e]))
        · intro hm
          obtain ⟨d, hdm, e⟩ := List.mem_map.1 hm
          obtain ⟨h9, r', hr', hc⟩ := (h2 d).1 hdm
          rw [e, h7] at h9
          cases h9
          exact h8 r' hr' hc
    · rintro (⟨h6, h7⟩ | ⟨h6, h7, h8⟩)
      · exact ⟨h7, Or.inl h6⟩
      · have hown := hA.own k r h8
        refine ⟨hown, Or.inr ⟨h8, fun r' hr' hc => h7 ?_⟩⟩
        exact List.mem_map.2 ⟨r, (h2 r).2 ⟨by rw [hown]; exact h8, r', hr', hc⟩, hown⟩
  rw [← e]
  exact hR

end BaikalDB.Global
