import Verif.Dml.Lemmas
/-! # The invariant: rows and index entries -/
namespace BaikalDB.Dml
variable {V : Type}

/-- The indexes hold the rows `t`, which are rows of the store. -/
structure Ents (T : Table V) (E : Env V) (S : Store V) (t : Tab V) : Prop where
  sub : ∀ k x, t k = some x → view T E S k = some x
  row_ent : ∀ k x, t k = some x → ∀ (j : Nat) (i : Index), T.indexes[j]? = some i → ∃ e, S.here k = some e ∧ S.idx j (T.ekey i x) = some ⟨k, e⟩
  ent_row : ∀ (j : Nat) (i : Index), T.indexes[j]? = some i → ∀ y k e, S.idx j y = some ⟨k, e⟩ → E.inReg k = true → E.dead e = false →
    ∃ x, t k = some x ∧ y = T.ekey i x

structure Base (T : Table V) (E : Env V) (S : Store V) : Prop where
  clean : T.cstore = true → ∀ k, E.inReg k = true → S.here k = none → ∀ f, S.col k f = none
  noexp : T.ttl = false → ∀ k e, E.inReg k = true → S.here k = some e → e = none
  shape : ∀ k e, E.inReg k = true → S.here k = some e → k.length = T.pk.length

structure Good (T : Table V) (E : Env V) (S : Store V) : Prop where
  ents : Ents T E S (view T E S)
  base : Base T E S

variable {T : Table V} {E : Env V} {S : Store V} {t : Tab V}

theorem good_sound (h : Good T E S) : Sound T E S where
  indexed := by
    intro j i hi y k
    constructor
    · rintro ⟨e, h1, h2, h3⟩
      obtain ⟨x, hx, hy⟩ := h.ents.ent_row j i hi y k e h1 h2 ((dead_false E e).2 h3)
      exact ⟨x, hx, hy⟩
    · rintro ⟨x, hx, hy⟩
      obtain ⟨e, h1, h2⟩ := h.ents.row_ent k x hx j i hi
      obtain ⟨h3, ⟨e', h4, h5⟩, _⟩ := (view_some T E S k x).1 hx
      rw [h1] at h4; cases h4
      exact ⟨e, by rw [hy]; exact h2, h3, (dead_false E e).1 h5⟩
  together := by
    intro j hj y k e h1 h2 h3
    obtain ⟨x, hx, hy⟩ := h.ents.ent_row j _ (List.getElem?_eq_getElem hj) y k e h1 h2 ((dead_false E e).2 h3)
    obtain ⟨e', h4, h5⟩ := h.ents.row_ent k x hx j _ (List.getElem?_eq_getElem hj)
    rw [← hy, h1] at h5
    cases h5
    exact h4
  clean := h.base.clean
  noexp := h.base.noexp
  shape := h.base.shape

theorem sound_good (h : Sound T E S) : Good T E S where
  ents := by
    refine ⟨fun _ _ h => h, ?_, ?_⟩
    · intro k x hx j i hi
      obtain ⟨e, h1, h2, h3⟩ := (h.indexed j i hi (T.ekey i x) k).2 ⟨x, hx, rfl⟩
      exact ⟨e, h.together j (List.getElem?_eq_some_iff.1 hi).1 _ k e h1 h2 h3, h1⟩
    · intro j i hi y k e h1 h2 h3
      exact (h.indexed j i hi y k).1 ⟨e, h1, h2, (dead_false E e).1 h3⟩
  base := ⟨h.clean, h.noexp, h.shape⟩

theorem keyOf_view (hT : T.Ok) (hB : Base T E S) {k : Key V} {x : Rec V} (h : view T E S k = some x) : T.keyOf x = k := by
  obtain ⟨h1, ⟨e, h2, _⟩, rfl⟩ := (view_some T E S k x).1 h
  exact keyOf_row T hT S k (hB.shape k e h1 h2)

theorem ekey_uniq {i : Index} (h : i.uniq = true) (r : Rec V) : T.ekey i r = i.fields.map r := by simp [Table.ekey, h]

theorem ents_inj (he : Ents T E S t) {k k' : Key V} {x x' : Rec V} (h : t k = some x) (h' : t k' = some x') {j : Nat} {i : Index}
    (hi : T.indexes[j]? = some i) (hk : T.ekey i x = T.ekey i x') : k = k' := by
  obtain ⟨e, _, h1⟩ := he.row_ent k x h j i hi
  obtain ⟨e', _, h2⟩ := he.row_ent k' x' h' j i hi
  rw [hk, h2] at h1
  cases h1; rfl

theorem getUniq_iff (he : Ents T E S t) {j : Nat} {i : Index} (hi : T.indexes[j]? = some i) (hu : i.uniq = true) (r : Rec V) (k : Key V) :
    getUniq T E S j i r = some k ↔ ∃ x, t k = some x ∧ i.fields.map x = i.fields.map r := by
  constructor
  · intro h
    unfold getUniq at h
    cases hx : S.idx j (T.ekey i r) with
    | none => rw [hx] at h; simp at h
    | some e =>
      rw [hx] at h
      obtain ⟨k', e⟩ := e
      cases hd : E.dead e with
      | true => simp [hd] at h
      | false =>
        cases hr : E.inReg k' with
        | false => simp [hd, hr] at h
        | true =>
          simp only [hd, hr, Bool.false_eq_true, if_false, if_true, Option.some.injEq] at h
          subst h
          obtain ⟨x, h1, h2⟩ := he.ent_row j i hi _ k' e hx hr hd
          exact ⟨x, h1, by rw [← ekey_uniq hu, ← ekey_uniq hu]; exact h2.symm⟩
  · rintro ⟨x, h1, h2⟩
    obtain ⟨e, h3, h4⟩ := he.row_ent k x h1 j i hi
    obtain ⟨h5, ⟨e', h6, h7⟩, _⟩ := (view_some T E S k x).1 (he.sub k x h1)
    rw [h3] at h6; cases h6
    rw [ekey_uniq (T := T) hu, h2, ← ekey_uniq (T := T) hu] at h4
    unfold getUniq
    simp [h4, h5, h7]

theorem getUniq_none (he : Ents T E S t) {j : Nat} {i : Index} (hi : T.indexes[j]? = some i) (hu : i.uniq = true) (r : Rec V) :
    getUniq T E S j i r = none ↔ ∀ k x, t k = some x → i.fields.map x ≠ i.fields.map r := by
  constructor
  · intro h k x hx e
    rw [(getUniq_iff he hi hu r k).2 ⟨x, hx, e⟩] at h; simp at h
  · intro h
    cases hg : getUniq T E S j i r with
    | none => rfl
    | some k =>
      obtain ⟨x, hx, e⟩ := (getUniq_iff he hi hu r k).1 hg
      exact absurd e (h k x hx)

/-- No row is in the way by a UNIQUE index. -/
def Free (T : Table V) (t : Tab V) (r : Rec V) : Prop :=
  ∀ (j : Nat) (i : Index), T.indexes[j]? = some i → i.uniq = true → ∀ k x, t k = some x → i.fields.map x ≠ i.fields.map r

theorem inWay_free (he : Ents T E S t) (r : Rec V) : inWay T E S r T.all = none ↔ Free T t r := by
  rw [inWay_none]
  constructor
  · intro h j i hi hu; exact (getUniq_none he hi hu r).1 (h j i ((mem_all T j i).2 hi) hu)
  · intro h j i hi hu
    have hi := (mem_all T j i).1 hi
    exact (getUniq_none he hi hu r).2 (h j i hi hu)

theorem clash_iff (t : Tab V) (r : Rec V) (k : Key V) :
    Clash T t r k ↔ ∃ x, t k = some x ∧ (k = T.keyOf r ∨ ∃ (j : Nat) (i : Index), T.indexes[j]? = some i ∧ i.uniq = true ∧ i.fields.map x = i.fields.map r) := by
  unfold Clash
  constructor
  · rintro ⟨x, hx, h | ⟨i, hi, hu, he⟩⟩
    · exact ⟨x, hx, .inl h⟩
    · obtain ⟨j, hj⟩ := List.mem_iff_getElem?.1 hi
      exact ⟨x, hx, .inr ⟨j, i, hj, hu, he⟩⟩
  · rintro ⟨x, hx, h | ⟨j, i, hi, hu, he⟩⟩
    · exact ⟨x, hx, .inl h⟩
    · exact ⟨x, hx, .inr ⟨i, List.mem_iff_getElem?.2 ⟨j, hi⟩, hu, he⟩⟩

theorem free_clash (t : Tab V) (r : Rec V) (hk : t (T.keyOf r) = none) : Free T t r ↔ ¬ ∃ k, Clash T t r k := by
  simp only [clash_iff]
  constructor
  · rintro hf ⟨k, x, hx, h | ⟨j, i, hi, hu, he⟩⟩
    · rw [h, hk] at hx; simp at hx
    · exact hf j i hi hu k x hx he
  · intro h j i hi hu k x hx he
    exact h ⟨k, x, hx, .inr ⟨j, i, hi, hu, he⟩⟩

section
variable [DecidableEq V]

/-! ### Removing a row -/

theorem remove_view (S : Store V) (is) (old : Rec V) :
    view T E (removeRow T S is old true) = (view T E S).erase (T.keyOf old) := by
  funext k
  unfold Tab.erase
  by_cases h : k = T.keyOf old
  · rw [if_pos h, view_none]; right; left; rw [remove_here]; simp [h]
  · rw [if_neg h]
    apply view_congr
    · rw [remove_here]; simp [h]
    · funext f; rw [remove_col]; simp [h]

theorem remove_view_false (S : Store V) (is) (old : Rec V) : view T E (removeRow T S is old false) = view T E S := by
  funext k
  apply view_congr
  · rw [remove_here]; simp
  · funext f; rw [remove_col]; simp

theorem remove_ents (he : Ents T E S t) (old : Rec V) (p : Bool) {k : Key V} (hx : t k = some old) (hk : T.keyOf old = k) :
    Ents T E (removeRow T S T.all old p) (t.erase k) := by
  refine ⟨?_, ?_, ?_⟩
  · intro k' x' h
    unfold Tab.erase at h
    by_cases hkk : k' = k
    · rw [if_pos hkk] at h; simp at h
    · rw [if_neg hkk] at h
      rw [← he.sub k' x' h]
      apply view_congr
      · rw [remove_here, hk]; simp [hkk]
      · funext f; rw [remove_col, hk]; simp [hkk]
  · intro k' x' h j i hi
    unfold Tab.erase at h
    by_cases hkk : k' = k
    · rw [if_pos hkk] at h; simp at h
    · rw [if_neg hkk] at h
      obtain ⟨e, h1, h2⟩ := he.row_ent k' x' h j i hi
      refine ⟨e, by rw [remove_here, hk]; simp [hkk, h1], ?_⟩
      rw [remove_idx_out, h2]
      rintro ⟨i', hi', hy⟩
      rw [mem_all, hi] at hi'
      cases hi'
      exact hkk (ents_inj he h hx hi hy)
  · intro j i hi y k' e h1 h2 h3
    by_cases hr : ∃ i', (j, i') ∈ T.all ∧ y = T.ekey i' old
    · rw [remove_idx_in T S _ _ _ _ _ hr] at h1; simp at h1
    · rw [remove_idx_out T S _ _ _ _ _ hr] at h1
      obtain ⟨x, hx', hy⟩ := he.ent_row j i hi y k' e h1 h2 h3
      refine ⟨x, ?_, hy⟩
      unfold Tab.erase
      rw [if_neg, hx']
      rintro rfl
      rw [hx] at hx'; cases hx'
      exact hr ⟨i, (mem_all T j i).2 hi, hy⟩

theorem remove_base (hB : Base T E S) (is) (old : Rec V) (p : Bool) : Base T E (removeRow T S is old p) := by
  refine ⟨?_, ?_, ?_⟩
  · intro hc k hk h f
    rw [remove_here] at h
    rw [remove_col]
    split
    · rfl
    · rename_i hn; rw [if_neg hn] at h; exact hB.clean hc k hk h f
  · intro hc k e hk h
    rw [remove_here] at h
    split at h
    · simp at h
    · exact hB.noexp hc k e hk h
  · intro k e hk h
    rw [remove_here] at h
    split at h
    · simp at h
    · exact hB.shape k e hk h

theorem remove_good (hT : T.Ok) (hG : Good T E S) {old : Rec V} {k : Key V} (hx : view T E S k = some old) :
    Good T E (removeRow T S T.all old true) := by
  have hk := keyOf_view hT hG.base hx
  refine ⟨?_, remove_base hG.base _ _ _⟩
  rw [remove_view, hk]
  exact remove_ents hG.ents old true hx hk

/-! ### Writing a row -/

/-- What must hold of the columns stored under the key for the new row to be read back. -/
def Fits (T : Table V) (S : Store V) (r : Rec V) : Option (List Nat) → Prop
  | none => T.cstore = true → ∀ f, S.col (T.keyOf r) f = none
  | some us => T.cstore = true → ∀ f ∈ T.nonPk, f ∉ us → T.read S (T.keyOf r) f = r f

theorem write_view_self (hE : E.Ok T) (S : Store V) (is) (r : Rec V) (u) (hr : RecOk T r) (hin : E.inReg (T.keyOf r) = true)
    (hf : Fits T S r u) : view T E (writeRow T E S is r u) (T.keyOf r) = some r := by
  rw [view_some]
  refine ⟨hin, ⟨E.exp, by rw [write_here, if_pos rfl], (dead_false E _).2 hE.live⟩, ?_⟩
  funext f
  unfold rowOf
  by_cases hp : f ∈ T.pk
  · rw [if_pos hp, ofKey_keyOf T r f hp]
  · rw [if_neg hp]
    by_cases hff : f ∈ T.fields
    · rw [if_pos hff]
      have hn : f ∈ T.nonPk := (mem_nonPk T f).2 ⟨hff, hp⟩
      have hst : (T.stored r f).or (T.dflt f) = r f := by
        unfold Table.stored
        split
        · rename_i h; simp [h.2]
        · cases h : r f with
          | some v => rfl
          | none => simp [hr.1 f hff hp h]
      rw [read_or]
      unfold writeRow putPrimary
      simp only [if_true, if_pos hn, (fold_put T E r is S).2.1]
      by_cases hc : T.cstore = true
      · rw [if_pos hc]
        cases u with
        | none => simp only; rw [hf hc f, Option.or_none, hst]
        | some us =>
          simp only
          by_cases hu : f ∈ us
          · rw [if_pos hu, hst]
          · rw [if_neg hu, ← read_or]; exact (hf hc f hn hu).symm
      · rw [if_neg hc, hst]
    · rw [if_neg hff, hr.2 f hff]

theorem write_view_ne (S : Store V) (is) (r : Rec V) (u) (k : Key V) (h : k ≠ T.keyOf r) :
    view T E (writeRow T E S is r u) k = view T E S k := by
  apply view_congr
  · rw [write_here, if_neg h]
  · rw [write_col_ne _ _ _ _ _ _ _ h]

theorem write_ents (hT : T.Ok) (hB : Base T E S) (he : Ents T E S t) (r : Rec V) (u) (hn : t (T.keyOf r) = none) (hf : Free T t r)
    (hv : view T E (writeRow T E S T.all r u) (T.keyOf r) = some r) :
    Ents T E (writeRow T E S T.all r u) (t.put T r) := by
  have hput : ∀ k, t.put T r k = if k = T.keyOf r then some r else t k := fun _ => rfl
  refine ⟨?_, ?_, ?_⟩
  · intro k x h
    rw [hput] at h
    by_cases hk : k = T.keyOf r
    · rw [if_pos hk] at h; cases h; rw [hk, hv]
    · rw [if_neg hk] at h
      rw [write_view_ne _ _ _ _ _ hk]; exact he.sub k x h
  · intro k x h j i hi
    rw [hput] at h
    by_cases hk : k = T.keyOf r
    · rw [if_pos hk] at h; cases h
      refine ⟨E.exp, by rw [write_here, if_pos hk], ?_⟩
      rw [write_idx_in _ _ _ _ _ _ _ _ ⟨i, (mem_all T j i).2 hi, rfl⟩, hk]
    · rw [if_neg hk] at h
      obtain ⟨e, h1, h2⟩ := he.row_ent k x h j i hi
      refine ⟨e, by rw [write_here, if_neg hk, h1], ?_⟩
      rw [write_idx_out, h2]
      rintro ⟨i', hi', hy⟩
      rw [mem_all, hi] at hi'
      cases hi'
      cases hu : i.uniq with
      | true =>
        rw [ekey_uniq hu, ekey_uniq hu] at hy
        exact hf j i hi hu k x h hy
      | false =>
        simp only [Table.ekey, hu, Bool.false_eq_true, if_false] at hy
        have := (List.append_inj hy (by simp)).2
        rw [keyOf_view hT hB (he.sub k x h)] at this
        exact hk this
  · intro j i hi y k e h1 h2 h3
    by_cases hr : ∃ i', (j, i') ∈ T.all ∧ y = T.ekey i' r
    · rw [write_idx_in _ _ _ _ _ _ _ _ hr] at h1
      cases h1
      obtain ⟨i', hi', hy⟩ := hr
      rw [mem_all, hi] at hi'
      cases hi'
      exact ⟨r, by rw [hput, if_pos rfl], hy⟩
    · rw [write_idx_out _ _ _ _ _ _ _ _ hr] at h1
      obtain ⟨x, hx, hy⟩ := he.ent_row j i hi y k e h1 h2 h3
      refine ⟨x, ?_, hy⟩
      rw [hput, if_neg, hx]
      rintro rfl
      rw [hn] at hx; simp at hx

theorem write_base (hE : E.Ok T) (hB : Base T E S) (is) (r : Rec V) (u) : Base T E (writeRow T E S is r u) := by
  refine ⟨?_, ?_, ?_⟩
  · intro hc k hk h f
    rw [write_here] at h
    split at h
    · simp at h
    · rename_i hn; rw [write_col_ne _ _ _ _ _ _ _ hn]; exact hB.clean hc k hk h f
  · intro hc k e hk h
    rw [write_here] at h
    split at h
    · cases h; exact hE.ttl hc
    · exact hB.noexp hc k e hk h
  · intro k e hk h
    rw [write_here] at h
    split at h
    · rename_i hn; rw [hn]; simp [Table.keyOf]
    · exact hB.shape k e hk h

/-- Writing a row when nothing is in the way: `t` are the rows except the one to be overwritten. -/
theorem write_good (hT : T.Ok) (hE : E.Ok T) (hB : Base T E S) (he : Ents T E S t) (r : Rec V) (u)
    (ht : ∀ k, k ≠ T.keyOf r → t k = view T E S k) (hn : t (T.keyOf r) = none) (hf : Free T t r)
    (hr : RecOk T r) (hin : E.inReg (T.keyOf r) = true) (hfit : Fits T S r u) :
    Good T E (writeRow T E S T.all r u) ∧ view T E (writeRow T E S T.all r u) = t.put T r := by
  have hv := write_view_self hE S T.all r u hr hin hfit
  have hview : view T E (writeRow T E S T.all r u) = t.put T r := by
    funext k
    show _ = if k = T.keyOf r then some r else t k
    by_cases hk : k = T.keyOf r
    · rw [if_pos hk, hk, hv]
    · rw [if_neg hk, write_view_ne _ _ _ _ _ hk, ht k hk]
  refine ⟨⟨?_, write_base hE hB _ _ _⟩, hview⟩
  rw [hview]
  exact write_ents hT hB he r u hn hf hv

end
end BaikalDB.Dml
