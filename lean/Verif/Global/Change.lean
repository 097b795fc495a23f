import Verif.Global.Statements
/-! # The rows that INSERT IGNORE, REPLACE and ON DUPLICATE KEY UPDATE find in the way -/
namespace BaikalDB.Global
open BaikalDB.Dml

variable {V : Type} [DecidableEq V]

omit [DecidableEq V] in
theorem mem_getPrimary {T : Table V} {S : Store V} (hA : Agree T S) {rs : List (Rec V)} {o : Rec V} :
    o ∈ getPrimary T S rs ↔ ∃ r ∈ rs, S.rows (T.pk.map o) = some o ∧ T.pk.map o = T.pk.map r := by
  unfold getPrimary
  rw [List.mem_filterMap]
  constructor
  · rintro ⟨r, hr, h⟩
    have := hA.own _ _ h
    exact ⟨r, hr, by rw [this]; exact h, this⟩
  · rintro ⟨r, hr, h, e⟩
    exact ⟨r, hr, by rw [show T.keyOf r = T.pk.map o from e.symm]; exact h⟩

omit [DecidableEq V] in
/-- What a UNIQUE index gives for a record: the primary key of the row in the way, and the record's own key. -/
theorem withPk_keys {T : Table V} {S : Store V} (hA : Agree T S) {j : Nat} (hj : some j ∈ tags T) {r : Rec V} {k : Key V}
    (h : S.idx j (keyAt T (some j) r) = some k) :
    ∃ old, S.rows k = some old ∧ keyAt T (some j) old = keyAt T (some j) r ∧ T.pk.map (withPk T r k) = k ∧
      keyAt T (some j) (withPk T r k) = keyAt T (some j) r := by
  obtain ⟨i, hi, hu⟩ := mem_tags.1 hj
  rw [keyAt_some hi] at h
  obtain ⟨old, ho, e⟩ := (hA.ent hi _ _).1 h
  have hk : T.keyOf old = k := hA.own k old ho
  refine ⟨old, ho, ?_, ?_, ?_⟩
  · rw [keyAt_some hi, keyAt_some hi, e]
  · subst hk
    apply List.map_congr_left
    intro f hf
    show (if f ∈ T.pk then T.ofKey (T.keyOf old) f else r f) = old f
    rw [if_pos hf, ofKey_keyOf T old f hf]
  · rw [keyAt_some hi, keyAt_some hi]
    unfold Table.ekey at e ⊢
    simp only [hu, if_true, List.append_nil] at e ⊢
    apply List.map_congr_left
    intro f hf
    show (if f ∈ T.pk then T.ofKey k f else r f) = r f
    split
    · rename_i hp
      rw [← hk, ofKey_keyOf T old f hp]
      exact (List.map_inj_left.1 e) f hf
    · rfl

omit [DecidableEq V] in
theorem mem_getUniq {T : Table V} {S : Store V} (hA : Agree T S) {j : Nat} (hj : some j ∈ tags T) {rs : List (Rec V)} {o : Rec V}
    (h : o ∈ getUniq T S (some j) rs) :
    ∃ r ∈ rs, ∃ old, S.rows (T.pk.map o) = some old ∧ keyAt T (some j) old = keyAt T (some j) r ∧
      keyAt T (some j) o = keyAt T (some j) r := by
  simp only [getUniq, Option.elim, List.mem_filterMap, Option.map_eq_some_iff] at h
  obtain ⟨r, hr, k, hk, rfl⟩ := h
  obtain ⟨old, h1, h2, h3, h4⟩ := withPk_keys hA hj hk
  exact ⟨r, hr, old, by rw [h3]; exact h1, h2, h4⟩

omit [DecidableEq V] in
theorem getUniq_mem {T : Table V} {S : Store V} (hA : Agree T S) {j : Nat} (hj : some j ∈ tags T) {rs : List (Rec V)} {r : Rec V}
    (hr : r ∈ rs) {k : Key V} {old : Rec V} (ho : S.rows k = some old) (e : keyAt T (some j) old = keyAt T (some j) r) :
    ∃ o ∈ getUniq T S (some j) rs, T.pk.map o = k ∧ keyAt T (some j) o = keyAt T (some j) r := by
  obtain ⟨i, hi, hu⟩ := mem_tags.1 hj
  have hx : S.idx j (keyAt T (some j) r) = some k := by
    rw [← e, keyAt_some hi]
    exact (hA.ent hi _ _).2 ⟨old, ho, rfl⟩
  obtain ⟨_, _, _, h3, h4⟩ := withPk_keys hA hj hx
  refine ⟨withPk T r k, ?_, h3, h4⟩
  simp only [getUniq, Option.elim, List.mem_filterMap, Option.map_eq_some_iff]
  exact ⟨r, hr, k, hx, rfl⟩

omit [DecidableEq V] in
/-- A record has a row in its way exactly if one is brought for one of its keys. -/
theorem stored_iff {T : Table V} {S : Store V} (hA : Agree T S) {rs : List (Rec V)} {t : Option Nat} (ht : t ∈ tags T) {r : Rec V}
    (hr : r ∈ rs) :
    (∃ o ∈ stored T S t rs, keyAt T t o = keyAt T t r) ↔ ∃ k old, S.rows k = some old ∧ keyAt T t old = keyAt T t r := by
  unfold stored
  cases t with
  | none =>
    simp only [if_true]
    constructor
    · rintro ⟨o, ho, e⟩
      obtain ⟨_, _, h1, _⟩ := (mem_getPrimary hA).1 ho
      exact ⟨_, o, h1, e⟩
    · rintro ⟨k, old, h1, e⟩
      refine ⟨old, (mem_getPrimary hA).2 ⟨r, hr, ?_, e⟩, e⟩
      rw [hA.own k old h1]; exact h1
  | some j =>
    simp only [reduceCtorEq, if_false]
    constructor
    · rintro ⟨o, ho, e⟩
      obtain ⟨r', _, old, h1, h2, h3⟩ := mem_getUniq hA ht ho
      exact ⟨_, old, h1, by rw [h2, ← h3, e]⟩
    · rintro ⟨k, old, h1, e⟩
      obtain ⟨o, h2, _, h4⟩ := getUniq_mem hA ht hr h1 e
      exact ⟨o, h2, h4⟩

/-! ### INSERT IGNORE -/

/-- The numbers `insertIgnore` keeps. -/
theorem ignore_keeps {T : Table V} {S : Store V} (hA : Agree T S) (rs : List (Rec V)) (n : Nat) (r : Rec V) (hr : rs[n]? = some r) :
    ((see T rs).ids.contains n && !(see T rs).bad.contains n &&
      !((tags T).flatMap fun t => (stored T S t (pick rs fun n => (see T rs).ids.contains n && !(see T rs).bad.contains n)).flatMap fun o =>
        ((see T rs).map.filter fun e => decide (e.1 = (t, keyAt T t o))).map (·.2)).contains n) = true ↔
      NoEarlier T rs n r ∧ Free T S.rows r := by
  have hok := see_ok T rs
  have hids : NoEarlier T rs n r → n ∈ (see T rs).ids := by
    intro h
    refine (hok.ids n).2 ⟨r, hr, none, none_mem T, ?_⟩
    intro m hm r' hr' e
    exact h m hm r' hr' (conf_iff.2 ⟨none, none_mem T, e⟩)
  have hbad : n ∉ (see T rs).bad ↔ NoEarlier T rs n r := by rw [bad_iff T rs n r hr, not_not]
  simp only [Bool.and_eq_true, List.contains_iff_mem, Bool.not_eq_true', ← Bool.not_eq_true, hbad]
  constructor
  · rintro ⟨⟨h1, h2⟩, h3⟩
    refine ⟨h2, fun k old ho hc => h3 ?_⟩
    obtain ⟨t, ht, e⟩ := conf_iff.1 hc
    have hmem : r ∈ pick rs fun n => (see T rs).ids.contains n && !(see T rs).bad.contains n :=
      mem_pick.2 ⟨n, hr, by simp only [Bool.and_eq_true, List.contains_iff_mem, Bool.not_eq_true', ← Bool.not_eq_true, hbad]; exact ⟨h1, h2⟩⟩
    obtain ⟨o, ho, e'⟩ := (stored_iff hA ht hmem).2 ⟨k, old, ho, e⟩
    simp only [List.mem_flatMap, List.mem_map, List.mem_filter, decide_eq_true_eq]
    refine ⟨t, ht, o, ho, ((t, keyAt T t o), n), ⟨?_, rfl⟩, rfl⟩
    rw [hok.map]
    refine ⟨ht, r, hr, e'.symm, ?_⟩
    intro m hm r' hr' e2
    exact h2 m hm r' hr' (conf_iff.2 ⟨t, ht, by rw [e2, e']⟩)
  · rintro ⟨h1, h2⟩
    refine ⟨⟨hids h1, h1⟩, ?_⟩
    intro h3
    simp only [List.mem_flatMap, List.mem_map, List.mem_filter, decide_eq_true_eq] at h3
    obtain ⟨t, ht, o, ho, ⟨⟨t', x⟩, n'⟩, ⟨h4, h5⟩, rfl⟩ := h3
    simp only at h5 hr
    cases h5
    obtain ⟨_, r1, h6, h7, _⟩ := (hok.map _ _ _).1 h4
    rw [hr] at h6
    cases h6
    have hmem : r ∈ pick rs fun n => (see T rs).ids.contains n && !(see T rs).bad.contains n :=
      mem_pick.2 ⟨n', hr, by simp only [Bool.and_eq_true, List.contains_iff_mem, Bool.not_eq_true', ← Bool.not_eq_true, hbad]; exact ⟨hids h1, h1⟩⟩
    obtain ⟨k, old, h8, h9⟩ := (stored_iff hA ht hmem).1 ⟨o, ho, h7.symm⟩
    exact h2 k old h8 (conf_iff.2 ⟨t, ht, h9⟩)

/-- LOCK_NO on records nothing is in the way of. -/
theorem dmlNo_ok {T : Table V} {S : Store V} {rs : List (Rec V)} (hA : Agree T S) (hf : Fits T S.rows [] rs) :
    ∃ S', dmlNo T S rs = some S' ∧ Agree T S' ∧ Left T S.rows [] rs S'.rows := by
  unfold dmlNo
  obtain ⟨rows, h1⟩ : ∃ m', writeAll T.keyOf id false rs S.rows = some m' := writeAll_ok (fun h => absurd h (by simp))
  obtain ⟨idx, h2⟩ : ∃ m', dmlIndexes T [] rs false T.all S.idx = some m' := by
    apply dmlIndexes_ok (all_nodup T)
    intro ji _ h
    simp at h
  rw [h1, Option.bind_some, h2]
  refine ⟨_, rfl, ?_, left_rows hf h1⟩
  exact left_agree (ds := []) (check := false) (check' := false) hA (fun d hd => nomatch hd) hf h1 fun j i hj =>
    Or.inl ((dmlIndexes_some (all_nodup T) h2).1 (j, i) ((mem_all T j i).2 hj))

/-! ### REPLACE -/

theorem mem_idsOf {T : Table V} {rs : List (Rec V)} {t : Option Nat} {x : Key V} {n : Nat} :
    n ∈ idsOf T rs t x ↔ ∃ r, rs[n]? = some r ∧ keyAt T t r = x := by
  unfold idsOf
  simp only [List.mem_map, List.mem_filter, decide_eq_true_eq]
  constructor
  · rintro ⟨⟨r, m⟩, ⟨h1, h2⟩, rfl⟩
    exact ⟨r, List.mem_zipIdx_iff_getElem?.1 h1, h2⟩
  · rintro ⟨r, h1, h2⟩
    exact ⟨(r, n), ⟨List.mem_zipIdx_iff_getElem?.2 h1, h2⟩, rfl⟩

theorem idsOf_sorted (T : Table V) (rs : List (Rec V)) (t : Option Nat) (x : Key V) : (idsOf T rs t x).Pairwise (· < ·) := by
  unfold idsOf
  rw [List.pairwise_map]
  apply List.Pairwise.filter
  rw [List.pairwise_iff_getElem]
  intro m n hm hn h
  simp only [List.getElem_zipIdx, Nat.zero_add]
  exact h

theorem mem_dropLast_sorted {l : List Nat} (h : l.Pairwise (· < ·)) (n : Nat) : n ∈ l.dropLast ↔ n ∈ l ∧ ∃ m ∈ l, n < m := by
  induction l using List.reverseRecOn with
  | nil => simp
  | append_singleton l a ih =>
    rw [List.dropLast_concat]
    obtain ⟨h1, _, h3⟩ := List.pairwise_append.1 h
    have h3 : ∀ m ∈ l, m < a := fun m hm => h3 m hm a (by simp)
    constructor
    · intro hn
      exact ⟨List.mem_append_left _ hn, a, by simp, h3 n hn⟩
    · rintro ⟨hn, m, hm, hlt⟩
      rcases List.mem_append.1 hn with hn | hn
      · exact hn
      · have e : n = a := by simpa using hn
        subst e
        rcases List.mem_append.1 hm with hm | hm
        · have := h3 m hm
          omega
        · have e : m = n := by simpa using hm
          omega

theorem mem_reverseLoop {T : Table V} (known : List (Key V)) (l : List (Rec V)) :
    (∀ r ∈ reverseLoop T known l, r ∈ l ∧ T.keyOf r ∉ known) ∧
      ∀ r ∈ l, T.keyOf r ∉ known → T.keyOf r ∈ (reverseLoop T known l).map T.keyOf := by
  induction l generalizing known with
  | nil => simp [reverseLoop]
  | cons a l ih =>
    simp only [reverseLoop]
    split
    · rename_i hk
      obtain ⟨h1, h2⟩ := ih known
      refine ⟨fun r hr => ⟨List.mem_cons_of_mem _ (h1 r hr).1, (h1 r hr).2⟩, fun r hr hn => ?_⟩
      rcases List.mem_cons.1 hr with e | hr
      · subst e; exact absurd hk hn
      · exact h2 r hr hn
    · rename_i hk
      obtain ⟨h1, h2⟩ := ih (T.keyOf a :: known)
      refine ⟨fun r hr => ?_, fun r hr hn => ?_⟩
      · rcases List.mem_cons.1 hr with e | hr
        · subst e; exact ⟨List.mem_cons_self, hk⟩
        · obtain ⟨h3, h4⟩ := h1 r hr
          exact ⟨List.mem_cons_of_mem _ h3, fun h => h4 (List.mem_cons_of_mem _ h)⟩
      · rw [List.map_cons, List.mem_cons]
        by_cases e : T.keyOf r = T.keyOf a
        · exact Or.inl e
        · rcases List.mem_cons.1 hr with e' | hr
          · subst e'; exact absurd rfl e
          · exact Or.inr (h2 r hr (by simp [e, hn]))

omit [DecidableEq V] in
theorem getOnly_some {T : Table V} {S : Store V} (hA : Agree T S) {l : List (Rec V)} (h : ∀ r ∈ l, ∃ old, S.rows (T.keyOf r) = some old) :
    ∃ l', getOnly T S l = some l' ∧ ∀ o, o ∈ l' ↔ S.rows (T.pk.map o) = some o ∧ T.pk.map o ∈ l.map T.keyOf := by
  induction l with
  | nil => exact ⟨[], rfl, by simp⟩
  | cons r l ih =>
    obtain ⟨l', h1, h2⟩ := ih fun r hr => h r (List.mem_cons_of_mem _ hr)
    obtain ⟨old, ho⟩ := h r List.mem_cons_self
    have hk := hA.own _ _ ho
    refine ⟨old :: l', by simp [getOnly, ho, h1], fun o => ?_⟩
    rw [List.mem_cons, h2, List.map_cons, List.mem_cons]
    constructor
    · rintro (e | ⟨h3, h4⟩)
      · subst e
        exact ⟨by rw [hk]; exact ho, Or.inl hk⟩
      · exact ⟨h3, Or.inr h4⟩
    · rintro ⟨h3, e | h4⟩
      · rw [e, ho] at h3
        exact Or.inl (Option.some.inj h3).symm
      · exact Or.inr ⟨h3, h4⟩

/-- The rows in the way are found. -/
theorem rowsInWay_some {T : Table V} {S : Store V} (hA : Agree T S) (rs : List (Rec V)) :
    ∃ del, rowsInWay T S rs = some del ∧ ∀ o, o ∈ del ↔ S.rows (T.pk.map o) = some o ∧ ∃ r ∈ rs, Conf T o r := by
  unfold rowsInWay
  have hall : ∀ o ∈ (tags T).flatMap fun t => getUniq T S t rs, ∃ j, some j ∈ tags T ∧ o ∈ getUniq T S (some j) rs := by
    intro o ho
    obtain ⟨t, ht, h⟩ := List.mem_flatMap.1 ho
    cases t with
    | none => exact nomatch h
    | some j => exact ⟨j, ht, h⟩
  obtain ⟨h1, h2⟩ := mem_reverseLoop (T := T) ((getPrimary T S rs).map T.keyOf) ((tags T).flatMap fun t => getUniq T S t rs)
  obtain ⟨l', h3, h4⟩ := getOnly_some hA (l := reverseLoop T ((getPrimary T S rs).map T.keyOf) ((tags T).flatMap fun t => getUniq T S t rs))
    (by
      intro r hr
      obtain ⟨j, hj, hm⟩ := hall r (h1 r hr).1
      obtain ⟨_, _, old, ho, _⟩ := mem_getUniq hA hj hm
      exact ⟨old, ho⟩)
  refine ⟨getPrimary T S rs ++ l', by simp [h3], fun o => ?_⟩
  rw [List.mem_append, mem_getPrimary hA, h4]
  constructor
  · rintro (⟨r, hr, h5, e⟩ | ⟨h5, h6⟩)
    · exact ⟨h5, r, hr, Or.inl e⟩
    · refine ⟨h5, ?_⟩
      obtain ⟨o', ho', e⟩ := List.mem_map.1 h6
      obtain ⟨j, hj, hm⟩ := hall o' (h1 o' ho').1
      obtain ⟨r, hr, old, h7, h8, _⟩ := mem_getUniq hA hj hm
      rw [show T.pk.map o' = T.pk.map o from e, h5] at h7
      cases h7
      exact ⟨r, hr, conf_iff.2 ⟨_, hj, h8⟩⟩
  · rintro ⟨h5, r, hr, hc⟩
    by_cases hk : T.keyOf o ∈ (getPrimary T S rs).map T.keyOf
    · obtain ⟨o', ho', e⟩ := List.mem_map.1 hk
      obtain ⟨r', hr', h6, e'⟩ := (mem_getPrimary hA).1 ho'
      refine Or.inl ⟨r', hr', h5, ?_⟩
      rw [← e']; exact e.symm
    · obtain ⟨t, ht, e⟩ := conf_iff.1 hc
      cases t with
      | none => exact Or.inl ⟨r, hr, h5, e⟩
      | some j =>
        obtain ⟨o', ho', h6, h7⟩ := getUniq_mem hA ht hr h5 e
        refine Or.inr ⟨h5, ?_⟩
        have h8 := h2 o' (List.mem_flatMap.2 ⟨_, ht, ho'⟩)
        rw [show T.keyOf o' = T.keyOf o from h6] at h8
        exact h8 hk

end BaikalDB.Global
