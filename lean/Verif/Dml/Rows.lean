import Verif.Dml.Inv
/-! # The statements row by row -/
namespace BaikalDB.Dml
variable {V : Type} {T : Table V} {E : Env V} {S : Store V} {t : Tab V}
variable [DecidableEq V]

def Refines (T : Table V) (E : Env V) (S : Store V) (spec : Option (Tab V × Nat) → Prop) : Option (Out V) → Prop
  | none => spec none
  | some o => Good T E o.store ∧ spec (some (view T E o.store, o.rows)) ∧ Counted S o.store o.inc

/-! ### Only the affected indexes -/

theorem write_col_congr (S S' : Store V) (is is') (r : Rec V) (u) (h : S.col = S'.col) :
    (writeRow T E S is r u).col = (writeRow T E S' is' r u).col := by
  unfold writeRow putPrimary
  simp only [(fold_put T E r is S).2.1, (fold_put T E r is' S').2.1, h]

omit [DecidableEq V] in
theorem mem_unique {is : List (Nat × Index)} (hs : ∀ ji ∈ is, ji ∈ T.all) {j : Nat} {i i' : Index} (h : (j, i) ∈ is)
    (h' : T.indexes[j]? = some i') : i = i' := by
  have := (mem_all T j i).1 (hs _ h)
  rw [h'] at this; cases this; rfl

/-- The indexes left alone would be written with what they hold. -/
theorem upd_all (hG : Good T E S) (hexp : E.exp = none) (httl : T.ttl = false) {k : Key V} {x x' : Rec V} (hx : view T E S k = some x)
    (hk : T.keyOf x' = k) (is : List (Nat × Index)) (hs : ∀ ji ∈ is, ji ∈ T.all)
    (hna : ∀ ji ∈ T.all, ji ∉ is → T.ekey ji.2 x' = T.ekey ji.2 x) (u) :
    writeRow T E (removeRow T S is x false) is x' u = writeRow T E (removeRow T S T.all x false) T.all x' u := by
  have hc : (removeRow T S is x false).col = (removeRow T S T.all x false).col := by
    funext k f; rw [remove_col, remove_col]
  ext1
  · funext k'; rw [write_here, write_here, remove_here, remove_here]
  · exact write_col_congr _ _ _ _ _ _ hc
  · funext j y
    cases hj : T.indexes[j]? with
    | none =>
      have h1 : ∀ (is' : List (Nat × Index)) (hs' : ∀ ji ∈ is', ji ∈ T.all) (r : Rec V), ¬ ∃ i, (j, i) ∈ is' ∧ y = T.ekey i r := by
        rintro is' hs' r ⟨i, hi, _⟩
        rw [(mem_all T j i).1 (hs' _ hi)] at hj; simp at hj
      rw [write_idx_out _ _ _ _ _ _ _ _ (h1 _ hs _), write_idx_out _ _ _ _ _ _ _ _ (h1 _ (fun _ h => h) _),
        remove_idx_out _ _ _ _ _ _ _ (h1 _ hs _), remove_idx_out _ _ _ _ _ _ _ (h1 _ (fun _ h => h) _)]
    | some i =>
      have hall := (mem_all T j i).2 hj
      by_cases hin : (j, i) ∈ is
      · have key : ∀ r : Rec V, (∃ i, (j, i) ∈ is ∧ y = T.ekey i r) ↔ ∃ i, (j, i) ∈ T.all ∧ y = T.ekey i r := by
          intro r
          constructor
          · rintro ⟨i', h1, h2⟩; exact ⟨i', hs _ h1, h2⟩
          · rintro ⟨i', h1, h2⟩
            have := mem_unique (T := T) (fun _ h => h) h1 hj
            subst this
            exact ⟨i', hin, h2⟩
        by_cases h1 : ∃ i, (j, i) ∈ is ∧ y = T.ekey i x'
        · rw [write_idx_in _ _ _ _ _ _ _ _ h1, write_idx_in _ _ _ _ _ _ _ _ ((key x').1 h1)]
        · rw [write_idx_out _ _ _ _ _ _ _ _ h1, write_idx_out _ _ _ _ _ _ _ _ (fun h => h1 ((key x').2 h))]
          by_cases h2 : ∃ i, (j, i) ∈ is ∧ y = T.ekey i x
          · rw [remove_idx_in _ _ _ _ _ _ _ h2, remove_idx_in _ _ _ _ _ _ _ ((key x).1 h2)]
          · rw [remove_idx_out _ _ _ _ _ _ _ h2, remove_idx_out _ _ _ _ _ _ _ (fun h => h2 ((key x).2 h))]
      · have hno : ∀ r : Rec V, ¬ ∃ i, (j, i) ∈ is ∧ y = T.ekey i r := by
          rintro r ⟨i', h1, _⟩
          have := mem_unique hs h1 hj
          subst this
          exact hin h1
        rw [write_idx_out _ _ _ _ _ _ _ _ (hno _), remove_idx_out _ _ _ _ _ _ _ (hno _)]
        have heq := hna _ hall hin
        by_cases h1 : y = T.ekey i x'
        · rw [write_idx_in _ _ _ _ _ _ _ _ ⟨i, hall, h1⟩]
          obtain ⟨e, h2, h3⟩ := hG.ents.row_ent k x hx j i hj
          rw [h1, heq, h3, hk, hexp]
          have := hG.base.noexp httl k e ((view_some T E S k x).1 hx).1 h2
          rw [this]
        · have : ¬ ∃ i, (j, i) ∈ T.all ∧ y = T.ekey i x' := by
            rintro ⟨i', h2, h3⟩
            have := mem_unique (T := T) (fun _ h => h) h2 hj
            subst this
            exact h1 h3
          rw [write_idx_out _ _ _ _ _ _ _ _ this, remove_idx_out]
          rintro ⟨i', h2, h3⟩
          have := mem_unique (T := T) (fun _ h => h) h2 hj
          subst this
          exact h1 (h3.trans heq.symm)

theorem upd_inWay (S : Store V) (x x' : Rec V) (is : List (Nat × Index)) (hs : ∀ ji ∈ is, ji ∈ T.all)
    (hna : ∀ ji ∈ T.all, ji ∉ is → T.ekey ji.2 x' = T.ekey ji.2 x) (p : Bool) :
    inWay T E (removeRow T S is x p) x' is = none ↔ inWay T E (removeRow T S T.all x p) x' T.all = none := by
  have same : ∀ j i, (j, i) ∈ is → getUniq T E (removeRow T S is x p) j i x' = getUniq T E (removeRow T S T.all x p) j i x' := by
    intro j i hin
    have hj := (mem_all T j i).1 (hs _ hin)
    have : (removeRow T S is x p).idx j (T.ekey i x') = (removeRow T S T.all x p).idx j (T.ekey i x') := by
      by_cases h : T.ekey i x' = T.ekey i x
      · rw [remove_idx_in _ _ _ _ _ _ _ ⟨i, hin, h⟩, remove_idx_in _ _ _ _ _ _ _ ⟨i, hs _ hin, h⟩]
      · rw [remove_idx_out, remove_idx_out]
        · rintro ⟨i', h2, h3⟩
          have := mem_unique (T := T) (fun _ h => h) h2 hj
          subst this; exact h h3
        · rintro ⟨i', h2, h3⟩
          have := mem_unique hs h2 hj
          subst this; exact h h3
    unfold getUniq; rw [this]
  rw [inWay_none, inWay_none]
  constructor
  · intro h j i hi hu
    by_cases hin : (j, i) ∈ is
    · rw [← same j i hin]; exact h j i hin hu
    · unfold getUniq
      rw [remove_idx_in _ _ _ _ _ _ _ ⟨i, hi, hna _ hi hin⟩]
  · intro h j i hi hu
    rw [same j i hi]; exact h j i (hs _ hi) hu

/-! ### UPDATE -/

/-- `Updated` with the values of an INSERT. -/
def UpdatedV (T : Table V) (as : List (Assign V)) (cond : Cond V) (vals : Rec V) (t : Tab V) (k : Key V) (res : Option (Tab V × Nat)) : Prop :=
  (t k = none → res = some (t, 0)) ∧
  ∀ old, t k = some old →
    (cond.fn (cond.reads.map old) = false → res = some (t, 0)) ∧
    (cond.fn (cond.reads.map old) = true →
      ∃ res', Changed T t k (assigned as old vals) res' ∧ res = res'.map fun t' => (t', 1))

omit [DecidableEq V] in
theorem rowOf_ok (hT : T.Ok) (S : Store V) (k : Key V) : RecOk T (rowOf T S k) := by
  constructor
  · intro f hf hp h
    simp only [rowOf, hp, hf, if_false, if_true, read_or] at h
    cases hc : S.col k f with
    | none => rw [hc] at h; simpa using h
    | some v => rw [hc] at h; simp at h
  · intro f hf
    have hp : f ∉ T.pk := fun h => hf (hT.sub f h)
    simp [rowOf, hp, hf]

omit [DecidableEq V] in
theorem assigned_ok (as : List (Assign V)) (ha : ∀ a ∈ as, AssignOk T a) (x vals : Rec V) (hx : RecOk T x) : RecOk T (assigned as x vals) := by
  constructor
  · intro f hf hp h
    by_cases hh : ∃ a ∈ as, a.field = f
    · obtain ⟨a, ham, haf, he⟩ := assigned_in as vals f hh
      rw [he] at h
      by_contra hd
      exact (ha a ham).2 (haf ▸ hp) (haf ▸ hd) _ _ h
    · rw [assigned_not as x vals f (fun a ha e => hh ⟨a, ha, e⟩)] at h
      exact hx.1 f hf hp h
  · intro f hf
    rw [assigned_not as x vals f (fun a ham e => hf (e ▸ (ha a ham).1))]
    exact hx.2 f hf

omit [DecidableEq V] in
theorem mem_idxFields (T : Table V) (is : List Index) (f : Nat) : f ∈ T.idxFields is ↔ (∃ i ∈ is, f ∈ i.fields) ∧ f ∉ T.pk := by
  simp [Table.idxFields]

omit [DecidableEq V] in
theorem affected_sub (as : List (Assign V)) : ∀ ji ∈ T.affected as, ji ∈ T.all := by
  intro ji h
  unfold Table.affected at h
  split at h
  · exact h
  · exact (List.mem_filter.1 h).1

omit [DecidableEq V] in
theorem all_idx (ji : Nat × Index) (h : ji ∈ T.all) : ji.2 ∈ T.indexes :=
  List.mem_iff_getElem?.2 ⟨ji.1, (mem_all T ji.1 ji.2).1 h⟩

omit [DecidableEq V] in
theorem fieldIds_sub (hT : T.Ok) (as : List (Assign V)) (dup : Bool) (slots : List Nat) : ∀ f ∈ T.fieldIds as dup slots, f ∈ T.nonPk := by
  intro f h
  unfold Table.fieldIds at h
  split at h
  · rcases List.mem_append.1 h with h | h
    · rw [mem_idxFields] at h
      obtain ⟨⟨i, hi, hf⟩, hp⟩ := h
      obtain ⟨ji, hji, rfl⟩ := List.mem_map.1 hi
      exact (mem_nonPk T f).2 ⟨hT.idx ji.2 (all_idx ji (affected_sub as ji hji)) f hf, hp⟩
    · split at h
      · simp at h
      · exact (List.mem_filter.1 h).1
  · exact h

omit [DecidableEq V] in
/-- The record read agrees with the row on the primary key and on the fields read. -/
theorem old_agree (S : Store V) (k : Key V) (fs : List Nat) (hfs : ∀ f ∈ fs, f ∈ T.nonPk) (base : Rec V) (f : Nat)
    (h : f ∈ T.pk ∨ f ∈ fs ∨ (f ∉ T.fields ∧ base f = none)) :
    (if f ∈ fs then T.read S k f else if f ∈ T.pk then T.ofKey k f else base f) = rowOf T S k f := by
  by_cases h1 : f ∈ fs
  · obtain ⟨h2, h3⟩ := (mem_nonPk T f).1 (hfs f h1)
    simp [rowOf, h1, h2, h3]
  · by_cases h2 : f ∈ T.pk
    · simp [rowOf, h1, h2]
    · obtain ⟨h3, h4⟩ := (h.resolve_left h2).resolve_left h1
      simp [rowOf, h1, h2, h3, h4]

omit [DecidableEq V] in
theorem map_congr' {l : List Nat} {a b : Rec V} (h : ∀ f ∈ l, a f = b f) : l.map a = l.map b := List.map_congr_left h

omit [DecidableEq V] in
theorem ekey_congr (i : Index) {a b : Rec V} (h : ∀ f ∈ i.fields, a f = b f) (hk : T.keyOf a = T.keyOf b) : T.ekey i a = T.ekey i b := by
  unfold Table.ekey; rw [map_congr' h, hk]

omit [DecidableEq V] in
theorem affectPk_false {as : List (Assign V)} (h : T.affectPk as = false) : ∀ a ∈ as, a.field ∉ T.pk := by
  intro a ha hp
  have : T.affectPk as = true := by
    unfold Table.affectPk
    rw [List.any_eq_true]
    exact ⟨a, ha, by simpa using hp⟩
  rw [h] at this; simp at this

omit [DecidableEq V] in
theorem affectPk_true {as : List (Assign V)} (h : T.affectPk as = true) : ∃ a ∈ as, a.field ∈ T.pk := by
  unfold Table.affectPk at h
  rw [List.any_eq_true] at h
  obtain ⟨a, ha, hp⟩ := h
  exact ⟨a, ha, by simpa using hp⟩

/-- `Changed` from the facts about the rows without the old one. -/
theorem changed_iff (t : Tab V) (k : Key V) (new : Rec V) (hk : (t.erase k) (T.keyOf new) = none) :
    Free T (t.erase k) new ↔ ¬ ∃ k', k' ≠ k ∧ Clash T t new k' := by
  rw [free_clash _ _ hk]
  apply not_congr
  constructor
  · rintro ⟨k', x, hx, h⟩
    unfold Tab.erase at hx
    by_cases he : k' = k
    · rw [if_pos he] at hx; simp at hx
    · rw [if_neg he] at hx; exact ⟨k', he, x, hx, h⟩
  · rintro ⟨k', hne, x, hx, h⟩
    exact ⟨k', x, by unfold Tab.erase; rw [if_neg hne]; exact hx, h⟩

theorem update_refines (hT : T.Ok) (hE : E.Ok T) (hG : Good T E S) (as : List (Assign V)) (dup : Bool) (slots : List Nat) (cond : Cond V)
    (k : Key V) (vals : Rec V) (ha : ∀ a ∈ as, AssignOk T a)
    (hreads : ∀ a ∈ as, ∀ f ∈ a.reads, f ∈ T.pk ∨ f ∈ T.fieldIds as dup slots ∨ f ∉ T.fields)
    (hcond : ∀ f ∈ cond.reads, f ∈ T.pk ∨ f ∈ T.fieldIds as dup slots ∨ f ∉ T.fields)
    (hpk : T.affectPk as = true → ∀ k, E.inReg k = true) :
    Refines T E S (UpdatedV T as cond vals (view T E S) k) (updateRow T E S as dup slots cond k vals) := by
  have hskip : view T E S k = none → Refines T E S (UpdatedV T as cond vals (view T E S) k) (some ⟨S, 0, 0⟩) := by
    intro h
    exact ⟨hG, ⟨fun _ => rfl, fun old ho => by rw [h] at ho; simp at ho⟩, counted_refl _ _ rfl⟩
  unfold updateRow
  rcases getPrimary_cases T E S k (T.fieldIds as dup slots) (T.bare k) with ⟨h, _, hv⟩ | ⟨h, _, _, hv⟩ | ⟨h, _, _, hv⟩ | ⟨h, hin, ⟨e, hhere, hdead⟩, hv⟩
  · rw [h]; exact hskip hv
  · rw [h]; exact hskip hv
  · rw [h]; exact hskip hv
  rw [h]
  clear hskip
  simp only
  generalize hfs : T.fieldIds as dup slots = fs at *
  have hfsub : ∀ f ∈ fs, f ∈ T.nonPk := by rw [← hfs]; exact fieldIds_sub hT as dup slots
  generalize hold : (fun f => if f ∈ fs then T.read S k f else T.bare k f) = old
  generalize hxd : rowOf T S k = x at hv
  have hag : ∀ f, f ∈ T.pk ∨ f ∈ fs ∨ f ∉ T.fields → old f = x f := by
    intro f hf
    rw [← hold, ← hxd]
    exact old_agree S k fs hfsub (fun _ => none) f (hf.imp id (Or.imp id fun h => ⟨h, rfl⟩))
  have hkx : T.keyOf x = k := keyOf_view hT hG.base hv
  have hko : T.keyOf old = T.keyOf x := map_congr' fun f hf => hag f (.inl hf)
  have hxok : RecOk T x := hxd ▸ rowOf_ok hT S k
  have hca : cond.holds old = cond.fn (cond.reads.map x) := by
    unfold Cond.holds; rw [map_congr' fun f hf => hag f (hcond f hf)]
  rw [hca]
  cases hcv : cond.fn (cond.reads.map x) with
  | false =>
    simp only [Bool.false_eq_true, if_false]
    refine ⟨hG, ⟨fun _ => rfl, fun o ho => ?_⟩, counted_refl _ _ rfl⟩
    rw [hv] at ho; cases ho
    exact ⟨fun _ => rfl, fun h => by rw [hcv] at h; simp at h⟩
  | true =>
  simp only [if_true]
  -- the fields of affected indexes have been read
  have haff : ∀ ji ∈ T.affected as, ∀ f ∈ ji.2.fields, f ∈ T.pk ∨ f ∈ fs := by
    intro ji hji f hf
    by_cases hp : f ∈ T.pk
    · exact .inl hp
    · right
      rw [← hfs]
      unfold Table.fieldIds
      split
      · apply List.mem_append_left
        rw [mem_idxFields]
        exact ⟨⟨ji.2, List.mem_map.2 ⟨ji, hji, rfl⟩, hf⟩, hp⟩
      · exact (mem_nonPk T f).2 ⟨hT.idx ji.2 (all_idx ji (affected_sub as ji hji)) f hf, hp⟩
  -- the new record agrees with the new row
  rw [assign_eq]
  have hnew : ∀ f, (∃ a ∈ as, a.field = f) ∨ old f = x f → assigned as old vals f = assigned as x vals f := by
    intro f hf
    by_cases hh : ∃ a ∈ as, a.field = f
    · obtain ⟨a, ham, _, he⟩ := assigned_in as vals f hh
      rw [he, he, map_congr' fun f hf => hag f (hreads a ham f hf)]
    · rw [assigned_not as _ vals f (fun a ha e => hh ⟨a, ha, e⟩), assigned_not as _ vals f (fun a ha e => hh ⟨a, ha, e⟩)]
      exact hf.resolve_left hh
  generalize hn' : assigned as old vals = new at *
  generalize hx' : assigned as x vals = x' at *
  have hx'ok : RecOk T x' := hx' ▸ assigned_ok as ha x vals hxok
  have hkn : T.keyOf new = T.keyOf x' := map_congr' fun f hf => hnew f (.inr (hag f (.inl hf)))
  have hrem : ∀ p, removeRow T S (T.affected as) old p = removeRow T S (T.affected as) x p := by
    intro p
    apply removeRow_congr _ _ _ _ _ _ _ hko
    intro ji hji
    exact ekey_congr _ (fun f hf => hag f ((haff ji hji f hf).imp id .inl)) hko
  have hek : ∀ ji ∈ T.affected as, T.ekey ji.2 new = T.ekey ji.2 x' := fun ji hji =>
    ekey_congr _ (fun f hf => hnew f (.inr (hag f ((haff ji hji f hf).imp id .inl)))) hkn
  have hway : ∀ S1, inWay T E S1 new (T.affected as) = inWay T E S1 x' (T.affected as) := fun S1 => inWay_congr _ _ _ _ _ _ hek
  have hwr : ∀ S1, writeRow T E S1 (T.affected as) new (T.updFields as) = writeRow T E S1 (T.affected as) x' (T.updFields as) := by
    intro S1
    apply writeRow_congr _ _ _ _ _ _ _ hek hkn
    intro f hf hc
    by_cases hfull : fs = T.nonPk
    · exact hnew f (.inr (hag f (.inr (.inl (hfull ▸ hf)))))
    · have hb : (!T.affectPk as && !T.ttl && T.cstore) = true := by
        by_contra hb
        apply hfull
        rw [← hfs]; unfold Table.fieldIds; rw [if_neg hb]
      simp only [Bool.and_eq_true, Bool.not_eq_true'] at hb
      have := hc hb.2 (as.map (·.field)) (by simp [Table.updFields, hb.1.1, hb.1.2])
      obtain ⟨a, ham, hf'⟩ := List.mem_map.1 this
      exact hnew f (.inl ⟨a, ham, hf'⟩)
  rw [hrem, hkn, hwr, hway]
  clear hrem hwr hway hek hold
  have hspec : ∀ res', Changed T (view T E S) k x' res' → UpdatedV T as cond vals (view T E S) k (res'.map fun t' => (t', 1)) := by
    intro res' hres
    refine ⟨fun h => by rw [hv] at h; simp at h, fun o ho => ?_⟩
    rw [hv] at ho; cases ho
    refine ⟨fun h => by rw [hcv] at h; simp at h, fun _ => ⟨res', ?_, rfl⟩⟩
    rw [hx']; exact hres
  have hfail : (∃ k', k' ≠ k ∧ Clash T (view T E S) x' k') → Refines T E S (UpdatedV T as cond vals (view T E S) k) none := by
    intro h
    exact hspec none ⟨fun _ => rfl, fun h' => absurd h h'⟩
  have hcE : Ents T E (removeRow T S T.all x (T.affectPk as)) ((view T E S).erase k) := remove_ents hG.ents x _ hv hkx
  have hcB := remove_base hG.base T.all x (T.affectPk as)
  cases hp : T.affectPk as with
  | true =>
    rw [hp] at hcE hcB
    have hall : T.affected as = T.all := by simp [Table.affected, hp]
    have hupd : T.updFields as = none := by simp [Table.updFields, hp]
    rw [hall, hupd]
    simp only [if_true]
    generalize hS1 : removeRow T S T.all x true = S1 at *
    have hv1 : view T E S1 = (view T E S).erase k := by rw [← hS1, remove_view, hkx]
    have hcount : Counted S S1 (-1) := by
      have := counted_one S S1 k (fun k' hk' => by rw [← hS1, remove_here, hkx]; simp [hk'])
      have e1 : S1.here k = none := by rw [← hS1, remove_here, hkx]; simp
      simpa [e1, hhere] using this
    have write : ∀ c, view T E S1 (T.keyOf x') = none → (T.cstore = true → S1.here (T.keyOf x') = none) →
        (c = (if (S1.here (T.keyOf x')).isSome then -1 else 0)) →
        Refines T E S (UpdatedV T as cond vals (view T E S) k)
          (if (inWay T E S1 x' T.all).isSome then none else some ⟨writeRow T E S1 T.all x' none, 1, c⟩) := by
      intro c hnone hclean hc
      have hnone' := hnone
      rw [hv1] at hnone'
      have hfc := changed_iff (T := T) (view T E S) k x' hnone'
      cases hw : inWay T E S1 x' T.all with
      | some k' =>
        simp only [Option.isSome_some, if_true]
        apply hfail
        by_contra hno
        rw [(inWay_free hcE x').2 (hfc.2 hno)] at hw; simp at hw
      | none =>
        simp only [Option.isSome_none, Bool.false_eq_true, if_false]
        have hfree := (inWay_free hcE x').1 hw
        obtain ⟨g1, g2⟩ := write_good hT hE hcB hcE x' none (fun k' _ => by rw [hv1]) hnone' hfree hx'ok (hpk hp _)
          (fun hcs f => hcB.clean hcs _ (hpk hp _) (hclean hcs) f)
        refine ⟨g1, ?_, ?_⟩
        · simp only [g2]
          exact hspec (some _) ⟨fun h => absurd h (hfc.1 hfree), fun _ => rfl⟩
        · have := counted_trans hcount (counted_one S1 (writeRow T E S1 T.all x' none) (T.keyOf x')
            (fun k' hk' => by rw [write_here, if_neg hk']))
          rw [write_here, if_pos rfl] at this
          simp only [hc]
          convert this using 1
          split <;> simp
    rcases getPrimary_cases T E S1 (T.keyOf x') [] new with ⟨h, hr, _⟩ | ⟨h, _, hh, hvv⟩ | ⟨h, hr, ⟨e', hh, hd⟩, hvv⟩ | ⟨h, _, _, hvv⟩
    · rw [hpk hp] at hr; simp at hr
    · rw [h]; exact write 0 hvv (fun _ => hh) (by simp [hh])
    · rw [h]
      refine write (-1) hvv (fun hcs => ?_) (by simp [hh])
      have := hcB.noexp (hT.cstore hcs) _ _ hr hh
      subst this
      simp [Env.dead] at hd
    · rw [h]
      simp only
      apply hfail
      rw [hv1] at hvv
      unfold Tab.erase at hvv
      by_cases hkk : T.keyOf x' = k
      · rw [if_pos hkk] at hvv; simp at hvv
      · rw [if_neg hkk] at hvv
        exact ⟨T.keyOf x', hkk, _, hvv, .inl rfl⟩
  | false =>
    rw [hp] at hcE hcB
    simp only [Bool.false_eq_true, if_false]
    have hnopk := affectPk_false hp
    have hkx' : T.keyOf x' = k := by
      rw [← hkx, ← hx']
      exact map_congr' fun f hf => assigned_not as x vals f (fun a ham e => hnopk a ham (e ▸ hf))
    have hna : ∀ ji ∈ T.all, ji ∉ T.affected as → T.ekey ji.2 x' = T.ekey ji.2 x := by
      intro ji hji hn
      apply ekey_congr _ _ (hkx'.trans hkx.symm)
      intro f hf
      rw [← hx']
      apply assigned_not
      intro a ham e
      apply hn
      unfold Table.affected
      split
      · exact hji
      · rw [List.mem_filter]
        refine ⟨hji, ?_⟩
        rw [List.any_eq_true]
        refine ⟨f, hf, ?_⟩
        rw [List.any_eq_true]
        exact ⟨a, ham, by simpa using e⟩
    have hwr : writeRow T E (removeRow T S (T.affected as) x false) (T.affected as) x' (T.updFields as) =
        writeRow T E (removeRow T S T.all x false) T.all x' (T.updFields as) := by
      cases httl : T.ttl with
      | true => rw [show T.affected as = T.all by simp [Table.affected, httl]]
      | false => exact upd_all hG (hE.ttl httl) httl hv hkx' _ (affected_sub as) hna _
    have hwi := upd_inWay (E := E) S x x' _ (affected_sub as) hna false
    rw [hwr]
    clear hwr
    have hnone' : (view T E S).erase k (T.keyOf x') = none := by rw [hkx']; simp [Tab.erase]
    have hfc := changed_iff (T := T) (view T E S) k x' hnone'
    cases hw : inWay T E (removeRow T S (T.affected as) x false) x' (T.affected as) with
    | some k' =>
      simp only [Option.isSome_some, if_true]
      apply hfail
      by_contra hno
      rw [hwi.2 ((inWay_free hcE x').2 (hfc.2 hno))] at hw; simp at hw
    | none =>
      simp only [Option.isSome_none, Bool.false_eq_true, if_false]
      have hfree := (inWay_free hcE x').1 (hwi.1 hw)
      have hfit : Fits T (removeRow T S T.all x false) x' (T.updFields as) := by
        unfold Table.updFields
        rw [hp]
        simp only [Bool.false_eq_true, if_false]
        intro hcs f hf hnu
        rw [hT.cstore hcs] at hnu
        simp only [Bool.false_eq_true, if_false] at hnu
        have h1 : x' f = x f := by
          rw [← hx']
          exact assigned_not as x vals f (fun a ham e => hnu (List.mem_map.2 ⟨a, ham, e⟩))
        rw [h1, ← hxd, hkx']
        have h2 := (mem_nonPk T f).1 hf
        simp only [rowOf, h2.1, h2.2, if_true, if_false, read_or, remove_col, Bool.false_eq_true, false_and]
      obtain ⟨g1, g2⟩ := write_good hT hE hcB hcE x' (T.updFields as)
        (fun k' hk' => by rw [remove_view_false]; unfold Tab.erase; rw [if_neg (hkx' ▸ hk')])
        hnone' hfree hx'ok (by rw [hkx']; exact hin) hfit
      refine ⟨g1, ?_, ?_⟩
      · simp only [g2]
        exact hspec (some _) ⟨fun h => absurd h (hfc.1 hfree), fun _ => rfl⟩
      · have := counted_one S (writeRow T E (removeRow T S T.all x false) T.all x' (T.updFields as)) k
          (fun k' hk' => by rw [write_here, hkx', if_neg hk', remove_here]; simp)
        rw [write_here, hkx', if_pos rfl, hhere] at this
        simpa using this

/-! ### DELETE -/

theorem delete_row (hT : T.Ok) (slots : List Nat) (cond : Cond V) {k : Key V} {x : Rec V} (base : Rec V)
    (hv : view T E S k = some x) (hcond : ∀ f ∈ cond.reads, f ∈ slots) (hbase : (∀ f, f ∉ T.fields → base f = none) ∨ cond.reads = []) :
    deleteRow T E S slots cond k base = if cond.fn (cond.reads.map x) then ⟨removeRow T S T.all x true, 1, -1⟩ else ⟨S, 0, 0⟩ := by
  unfold deleteRow
  generalize hfs : (T.idxFields T.indexes ++ T.nonPk.filter fun f => slots.contains f) = fs
  have hfsub : ∀ f ∈ fs, f ∈ T.nonPk := by
    intro f hf
    rw [← hfs] at hf
    rcases List.mem_append.1 hf with h | h
    · rw [mem_idxFields] at h
      obtain ⟨⟨i, hi, hf⟩, hp⟩ := h
      exact (mem_nonPk T f).2 ⟨hT.idx i hi f hf, hp⟩
    · exact (List.mem_filter.1 h).1
  rcases getPrimary_cases T E S k fs (fun f => if f ∈ T.pk then T.ofKey k f else base f) with ⟨_, _, h⟩ | ⟨_, _, _, h⟩ | ⟨_, _, _, h⟩ | ⟨h, hin, ⟨e, hhere, hdead⟩, hv'⟩
  · rw [hv] at h; simp at h
  · rw [hv] at h; simp at h
  · rw [hv] at h; simp at h
  rw [h]
  rw [hv] at hv'; cases hv'
  simp only
  generalize hold : (fun f => if f ∈ fs then T.read S k f else if f ∈ T.pk then T.ofKey k f else base f) = old at *
  have hag : ∀ f, f ∈ T.pk ∨ f ∈ fs ∨ (f ∉ T.fields ∧ base f = none) → old f = rowOf T S k f := by
    intro f hf
    rw [← hold]
    exact old_agree S k fs hfsub base f hf
  have hko : T.keyOf old = T.keyOf (rowOf T S k) := map_congr' fun f hf => hag f (.inl hf)
  have hca : cond.holds old = cond.fn (cond.reads.map (rowOf T S k)) := by
    unfold Cond.holds
    rcases hbase with hbase | hbase
    · rw [map_congr' fun f hf => ?_]
      apply hag
      by_cases hp : f ∈ T.pk
      · exact .inl hp
      · by_cases hff : f ∈ T.fields
        · right; left
          rw [← hfs]
          apply List.mem_append_right
          rw [List.mem_filter]
          exact ⟨(mem_nonPk T f).2 ⟨hff, hp⟩, by simpa using hcond f hf⟩
        · right; right; exact ⟨hff, hbase f hff⟩
    · rw [hbase]; rfl
  rw [hca]
  have hrem : removeRow T S T.all old true = removeRow T S T.all (rowOf T S k) true := by
    apply removeRow_congr _ _ _ _ _ _ _ hko
    intro ji hji
    apply ekey_congr _ _ hko
    intro f hf
    apply hag
    by_cases hp : f ∈ T.pk
    · exact .inl hp
    · right; left
      rw [← hfs]
      apply List.mem_append_left
      rw [mem_idxFields]
      exact ⟨⟨ji.2, all_idx ji hji, hf⟩, hp⟩
  rw [hrem]

theorem delete_none (S : Store V) (slots : List Nat) (cond : Cond V) {k : Key V} (base : Rec V) (hv : view T E S k = none) :
    deleteRow T E S slots cond k base = ⟨S, 0, 0⟩ := by
  unfold deleteRow
  rcases getPrimary_cases T E S k (T.idxFields T.indexes ++ T.nonPk.filter fun f => slots.contains f)
    (fun f => if f ∈ T.pk then T.ofKey k f else base f) with ⟨h, _⟩ | ⟨h, _⟩ | ⟨h, _⟩ | ⟨_, _, _, h⟩
  · rw [h]
  · rw [h]
  · rw [h]
  · rw [hv] at h; simp at h

theorem remove_counted (hT : T.Ok) (hB : Base T E S) {k : Key V} {x : Rec V} (hv : view T E S k = some x) :
    Counted S (removeRow T S T.all x true) (-1) := by
  have hkx := keyOf_view hT hB hv
  obtain ⟨_, ⟨e, hhere, _⟩, _⟩ := (view_some T E S k x).1 hv
  have := counted_one S (removeRow T S T.all x true) k (fun k' hk' => by rw [remove_here, hkx]; simp [hk'])
  rw [remove_here, hkx, hhere] at this
  simpa using this

theorem delete_refines (hT : T.Ok) (hG : Good T E S) (slots : List Nat) (cond : Cond V) (k : Key V) (hcond : ∀ f ∈ cond.reads, f ∈ slots) :
    Refines T E S (Deleted cond (view T E S) k) (some (deleteRow T E S slots cond k fun _ => none)) := by
  cases hv : view T E S k with
  | none =>
    rw [delete_none S slots cond _ hv]
    exact ⟨hG, ⟨fun _ => rfl, fun o ho => by rw [hv] at ho; simp at ho⟩, counted_refl _ _ rfl⟩
  | some x =>
    rw [delete_row hT slots cond _ hv hcond (.inl fun _ _ => rfl)]
    cases hcv : cond.fn (cond.reads.map x) with
    | false =>
      simp only [Bool.false_eq_true, if_false]
      refine ⟨hG, ⟨fun _ => rfl, fun o ho => ?_⟩, counted_refl _ _ rfl⟩
      rw [hv] at ho; cases ho
      exact ⟨fun _ => rfl, fun h => by rw [hcv] at h; simp at h⟩
    | true =>
      simp only [if_true]
      refine ⟨remove_good hT hG hv, ⟨fun h => by rw [hv] at h; simp at h, fun o ho => ?_⟩, remove_counted hT hG.base hv⟩
      rw [hv] at ho; cases ho
      refine ⟨fun h => by rw [hcv] at h; simp at h, fun _ => ?_⟩
      simp only [remove_view, keyOf_view hT hG.base hv]

end BaikalDB.Dml
