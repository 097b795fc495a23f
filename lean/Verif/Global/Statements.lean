import Verif.Global.Lemmas
import Mathlib.Data.Nat.Find
/-! # Lemmas about statements -/
namespace BaikalDB.Global
open BaikalDB.Dml

variable {V : Type} [DecidableEq V]

omit [DecidableEq V] in
theorem mem_tags {T : Table V} {j : Nat} : some j ∈ tags T ↔ ∃ i, T.indexes[j]? = some i ∧ i.uniq = true := by
  unfold tags
  simp only [List.mem_cons, reduceCtorEq, false_or, List.mem_map, List.mem_filter, Option.some.injEq]
  constructor
  · rintro ⟨⟨j', i⟩, ⟨h1, h2⟩, e⟩
    simp only at e h2
    subst e
    exact ⟨i, (mem_all T j' i).1 h1, h2⟩
  · rintro ⟨i, h1, h2⟩
    exact ⟨(j, i), ⟨(mem_all T j i).2 h1, h2⟩, rfl⟩

omit [DecidableEq V] in
theorem tags_nodup (T : Table V) : (tags T).Nodup := by
  unfold tags
  refine List.nodup_cons.2 ⟨by simp, ?_⟩
  rw [List.Nodup, List.pairwise_map]
  exact ((all_nodup T).sublist List.filter_sublist).imp fun h e => h (Option.some.inj e)

omit [DecidableEq V] in
theorem none_mem (T : Table V) : none ∈ tags T := List.mem_cons_self

omit [DecidableEq V] in
theorem keyAt_some {T : Table V} {j : Nat} {i : Index} (hj : T.indexes[j]? = some i) (r : Rec V) : keyAt T (some j) r = T.ekey i r := by
  simp [keyAt, hj]

omit [DecidableEq V] in
/-- Two records are in each other's way if a key is the same. -/
theorem conf_iff {T : Table V} {a b : Rec V} : Conf T a b ↔ ∃ t ∈ tags T, keyAt T t a = keyAt T t b := by
  constructor
  · rintro (h | ⟨i, hi, hu, h⟩)
    · exact ⟨none, none_mem T, h⟩
    · obtain ⟨j, hj⟩ := List.mem_iff_getElem?.1 hi
      refine ⟨some j, mem_tags.2 ⟨i, hj, hu⟩, ?_⟩
      rw [keyAt_some hj, keyAt_some hj]
      unfold Table.ekey
      simp [hu, h]
  · rintro ⟨t, ht, h⟩
    cases t with
    | none => exact Or.inl h
    | some j =>
      obtain ⟨i, hj, hu⟩ := mem_tags.1 ht
      rw [keyAt_some hj, keyAt_some hj] at h
      exact ekey_conf hj h

/-! ### The keys of a statement's records -/

/-- A key that no record before had. -/
def Fresh (m : List ((Option Nat × Key V) × Nat)) (e : Option Nat × Key V) : Prop := ∀ n, (e, n) ∉ m

theorem seeKeys (T : Table V) (r : Rec V) (n : Nat) (ts : List (Option Nat)) (hn : ts.Nodup) (s : Seen V) :
    (∀ e, e ∈ (ts.foldl (seeKey T r n) s).map ↔ e ∈ s.map ∨ ∃ t ∈ ts, e = ((t, keyAt T t r), n) ∧ Fresh s.map (t, keyAt T t r)) ∧
    (∀ m, m ∈ (ts.foldl (seeKey T r n) s).ids ↔ m ∈ s.ids ∨ (m = n ∧ ∃ t ∈ ts, Fresh s.map (t, keyAt T t r))) ∧
    (∀ m, m ∈ (ts.foldl (seeKey T r n) s).bad ↔ m ∈ s.bad ∨ (m = n ∧ ∃ t ∈ ts, ¬Fresh s.map (t, keyAt T t r))) := by
  induction ts generalizing s with
  | nil => simp
  | cons t ts ih =>
    obtain ⟨ht, hn⟩ := List.nodup_cons.1 hn
    obtain ⟨h1, h2, h3⟩ := ih hn (seeKey T r n s t)
    have hiff : (s.map.any fun e => decide (e.1 = (t, keyAt T t r))) = true ↔ ¬Fresh s.map (t, keyAt T t r) := by
      unfold Fresh
      simp only [List.any_eq_true, decide_eq_true_eq, not_forall, not_not]
      constructor
      · rintro ⟨⟨e, m⟩, h, rfl⟩
        exact ⟨m, h⟩
      · rintro ⟨m, h⟩
        exact ⟨_, h, rfl⟩
    have hfr : ∀ t' ∈ ts, (Fresh (seeKey T r n s t).map (t', keyAt T t' r) ↔ Fresh s.map (t', keyAt T t' r)) := by
      intro t' ht'
      have hne : t' ≠ t := fun e => ht (e ▸ ht')
      unfold seeKey Fresh
      split
      · exact Iff.rfl
      · simp [hne]
    rw [List.foldl_cons]
    by_cases hc : Fresh s.map (t, keyAt T t r)
    · have hs : seeKey T r n s t = ⟨((t, keyAt T t r), n) :: s.map, n :: s.ids, s.bad⟩ := if_neg (by rw [hiff]; exact not_not.2 hc)
      refine ⟨fun e => ?_, fun m => ?_, fun m => ?_⟩
      · rw [h1, hs]
        simp only [List.mem_cons]
        constructor
        · rintro ((h | h) | ⟨t', ht', e1, e2⟩)
          · exact Or.inr ⟨t, Or.inl rfl, h, hc⟩
          · exact Or.inl h
          · exact Or.inr ⟨t', Or.inr ht', e1, (hfr t' ht').1 (by rw [hs]; exact e2)⟩
        · rintro (h | ⟨t', ht' | ht', e1, e2⟩)
          · exact Or.inl (Or.inr h)
          · subst ht'; exact Or.inl (Or.inl e1)
          · exact Or.inr ⟨t', ht', e1, by have := (hfr t' ht').2 e2; rwa [hs] at this⟩
      · rw [h2, hs]
        simp only [List.mem_cons]
        constructor
        · rintro ((h | h) | ⟨e, t', ht', e2⟩)
          · exact Or.inr ⟨h, t, Or.inl rfl, hc⟩
          · exact Or.inl h
          · exact Or.inr ⟨e, t', Or.inr ht', (hfr t' ht').1 (by rw [hs]; exact e2)⟩
        · rintro (h | ⟨e, _⟩)
          · exact Or.inl (Or.inr h)
          · exact Or.inl (Or.inl e)
      · rw [h3, hs]
        simp only [List.mem_cons]
        constructor
        · rintro (h | ⟨e, t', ht', e2⟩)
          · exact Or.inl h
          · exact Or.inr ⟨e, t', Or.inr ht', fun h => e2 (by have := (hfr t' ht').2 h; rwa [hs] at this)⟩
        · rintro (h | ⟨e, t', ht' | ht', e2⟩)
          · exact Or.inl h
          · subst ht'; exact absurd hc e2
          · exact Or.inr ⟨e, t', ht', fun h => e2 ((hfr t' ht').1 (by rw [hs]; exact h))⟩
    · have hs : seeKey T r n s t = ⟨s.map, s.ids, n :: s.bad⟩ := if_pos (by rw [hiff]; exact hc)
      refine ⟨fun e => ?_, fun m => ?_, fun m => ?_⟩
      · rw [h1, hs]
        simp only [List.mem_cons]
        constructor
        · rintro (h | ⟨t', ht', e1, e2⟩)
          · exact Or.inl h
          · exact Or.inr ⟨t', Or.inr ht', e1, e2⟩
        · rintro (h | ⟨t', ht' | ht', e1, e2⟩)
          · exact Or.inl h
          · subst ht'; exact absurd e2 hc
          · exact Or.inr ⟨t', ht', e1, e2⟩
      · rw [h2, hs]
        simp only [List.mem_cons]
        constructor
        · rintro (h | ⟨e, t', ht', e2⟩)
          · exact Or.inl h
          · exact Or.inr ⟨e, t', Or.inr ht', e2⟩
        · rintro (h | ⟨e, t', ht' | ht', e2⟩)
          · exact Or.inl h
          · subst ht'; exact absurd e2 hc
          · exact Or.inr ⟨e, t', ht', e2⟩
      · rw [h3, hs]
        simp only [List.mem_cons]
        constructor
        · rintro ((h | h) | ⟨e, t', ht', e2⟩)
          · exact Or.inr ⟨h, t, Or.inl rfl, hc⟩
          · exact Or.inl h
          · exact Or.inr ⟨e, t', Or.inr ht', e2⟩
        · rintro (h | ⟨e, _⟩)
          · exact Or.inl (Or.inr h)
          · exact Or.inl (Or.inl e)

omit [DecidableEq V] in
/-- No record before number `n` has the key. -/
def First (T : Table V) (rs : List (Rec V)) (n : Nat) (t : Option Nat) (x : Key V) : Prop :=
  ∀ m : Nat, m < n → ∀ r', rs[m]? = some r' → keyAt T t r' ≠ x

/-- What `see` has seen. -/
structure SeenOk (T : Table V) (rs : List (Rec V)) (s : Seen V) : Prop where
  map : ∀ t x n, ((t, x), n) ∈ s.map ↔ t ∈ tags T ∧ ∃ r, rs[n]? = some r ∧ keyAt T t r = x ∧ First T rs n t x
  ids : ∀ n, n ∈ s.ids ↔ ∃ r, rs[n]? = some r ∧ ∃ t ∈ tags T, First T rs n t (keyAt T t r)
  bad : ∀ n, n ∈ s.bad ↔ ∃ r, rs[n]? = some r ∧ ∃ t ∈ tags T, ¬First T rs n t (keyAt T t r)

omit [DecidableEq V] in
theorem first_append {T : Table V} {rs : List (Rec V)} {a : Rec V} {n : Nat} {t : Option Nat} {x : Key V} (hn : n ≤ rs.length) :
    First T (rs ++ [a]) n t x ↔ First T rs n t x := by
  unfold First
  constructor
  · intro h m hm r' hr
    exact h m hm r' (by rw [List.getElem?_append_left (by omega)]; exact hr)
  · intro h m hm r' hr
    rw [List.getElem?_append_left (by omega)] at hr
    exact h m hm r' hr

theorem see_append (T : Table V) (rs : List (Rec V)) (a : Rec V) :
    see T (rs ++ [a]) = (tags T).foldl (seeKey T a rs.length) (see T rs) := by
  unfold see
  rw [List.zipIdx_append, List.foldl_append]
  simp

omit [DecidableEq V] in
theorem append_get {rs : List (Rec V)} {a r : Rec V} {n : Nat} : (rs ++ [a])[n]? = some r ↔ rs[n]? = some r ∨ (n = rs.length ∧ a = r) := by
  rcases Nat.lt_trichotomy n rs.length with h | h | h
  · rw [List.getElem?_append_left h]
    constructor
    · exact Or.inl
    · rintro (h' | h')
      · exact h'
      · omega
  · subst h
    simp
  · rw [List.getElem?_eq_none (by simp; omega), List.getElem?_eq_none (by omega)]
    simp
    omega

theorem see_ok (T : Table V) (rs : List (Rec V)) : SeenOk T rs (see T rs) := by
  induction rs using List.reverseRecOn with
  | nil => constructor <;> simp [see]
  | append_singleton rs a ih =>
    rw [see_append]
    obtain ⟨h1, h2, h3⟩ := seeKeys T a rs.length (tags T) (tags_nodup T) (see T rs)
    have hfr : ∀ t ∈ tags T, (Fresh (see T rs).map (t, keyAt T t a) ↔ First T rs rs.length t (keyAt T t a)) := by
      intro t ht
      unfold Fresh
      constructor
      · intro h
        by_contra hc
        unfold First at hc
        push Not at hc
        -- the first of them
        have hex : ∃ m : Nat, ∃ r', rs[m]? = some r' ∧ keyAt T t r' = keyAt T t a := by
          obtain ⟨m, _, r', h4, h5⟩ := hc
          exact ⟨m, r', h4, h5⟩
        classical
        obtain ⟨r', h4, h5⟩ := Nat.find_spec hex
        refine h (Nat.find hex) ((ih.map _ _ _).2 ⟨ht, r', h4, h5, ?_⟩)
        intro m hm r'' h6 h7
        exact Nat.find_min hex hm ⟨r'', h6, h7⟩
      · intro h n hm
        obtain ⟨_, r, h4, h5, _⟩ := (ih.map _ _ _).1 hm
        exact h n (List.getElem?_eq_some_iff.1 h4).1 r h4 h5
    have hlt : ∀ {n : Nat} {r : Rec V}, rs[n]? = some r → n ≤ rs.length := fun h => Nat.le_of_lt (List.getElem?_eq_some_iff.1 h).1
    constructor
    · intro t x n
      rw [h1, ih.map]
      constructor
      · rintro (⟨ht, r, h4, h5, h6⟩ | ⟨t', ht', e1, e2⟩)
        · exact ⟨ht, r, append_get.2 (Or.inl h4), h5, (first_append (hlt h4)).2 h6⟩
        · cases e1
          exact ⟨ht', a, append_get.2 (Or.inr ⟨rfl, rfl⟩), rfl, (first_append (Nat.le_refl _)).2 ((hfr _ ht').1 e2)⟩
      · rintro ⟨ht, r, h4, h5, h6⟩
        rcases append_get.1 h4 with h4 | ⟨e1, e2⟩
        · exact Or.inl ⟨ht, r, h4, h5, (first_append (hlt h4)).1 h6⟩
        · subst e1 e2 h5
          exact Or.inr ⟨t, ht, rfl, (hfr _ ht).2 ((first_append (Nat.le_refl _)).1 h6)⟩
    · intro n
      rw [h2, ih.ids]
      constructor
      · rintro (⟨r, h4, t, ht, h6⟩ | ⟨e, t, ht, h6⟩)
        · exact ⟨r, append_get.2 (Or.inl h4), t, ht, (first_append (hlt h4)).2 h6⟩
        · subst e
          exact ⟨a, append_get.2 (Or.inr ⟨rfl, rfl⟩), t, ht, (first_append (Nat.le_refl _)).2 ((hfr _ ht).1 h6)⟩
      · rintro ⟨r, h4, t, ht, h6⟩
        rcases append_get.1 h4 with h4 | ⟨e1, e2⟩
        · exact Or.inl ⟨r, h4, t, ht, (first_append (hlt h4)).1 h6⟩
        · subst e1 e2
          exact Or.inr ⟨rfl, t, ht, (hfr _ ht).2 ((first_append (Nat.le_refl _)).1 h6)⟩
    · intro n
      rw [h3, ih.bad]
      constructor
      · rintro (⟨r, h4, t, ht, h6⟩ | ⟨e, t, ht, h6⟩)
        · exact ⟨r, append_get.2 (Or.inl h4), t, ht, fun h => h6 ((first_append (hlt h4)).1 h)⟩
        · subst e
          exact ⟨a, append_get.2 (Or.inr ⟨rfl, rfl⟩), t, ht, fun h => h6 ((hfr _ ht).2 ((first_append (Nat.le_refl _)).1 h))⟩
      · rintro ⟨r, h4, t, ht, h6⟩
        rcases append_get.1 h4 with h4 | ⟨e1, e2⟩
        · exact Or.inl ⟨r, h4, t, ht, fun h => h6 ((first_append (hlt h4)).2 h)⟩
        · subst e1 e2
          exact Or.inr ⟨rfl, t, ht, fun h => h6 ((first_append (Nat.le_refl _)).2 ((hfr _ ht).1 h))⟩

/-- No record before number `n` is in its way. -/
def NoEarlier (T : Table V) (rs : List (Rec V)) (n : Nat) (r : Rec V) : Prop :=
  ∀ m : Nat, m < n → ∀ r', rs[m]? = some r' → ¬Conf T r' r

theorem bad_iff (T : Table V) (rs : List (Rec V)) (n : Nat) (r : Rec V) (h : rs[n]? = some r) :
    n ∈ (see T rs).bad ↔ ¬NoEarlier T rs n r := by
  rw [(see_ok T rs).bad]
  unfold NoEarlier First
  push Not
  constructor
  · rintro ⟨r1, h1, t, ht, m, hm, r', h2, h3⟩
    rw [h] at h1
    cases h1
    exact ⟨m, hm, r', h2, conf_iff.2 ⟨t, ht, h3⟩⟩
  · rintro ⟨m, hm, r', h2, h3⟩
    obtain ⟨t, ht, h3⟩ := conf_iff.1 h3
    exact ⟨r, h, t, ht, m, hm, r', h2, h3⟩

theorem bad_nil (T : Table V) (rs : List (Rec V)) : (see T rs).bad = [] ↔ rs.Pairwise fun a b => ¬Conf T a b := by
  constructor
  · intro h
    rw [List.pairwise_iff_getElem]
    intro m n hm hn hmn hc
    have := (bad_iff T rs n rs[n] (List.getElem?_eq_getElem hn)).2 fun hne =>
      hne m hmn rs[m] (List.getElem?_eq_getElem hm) hc
    rw [h] at this
    exact nomatch this
  · intro h
    rw [List.eq_nil_iff_forall_not_mem]
    intro n hn
    obtain ⟨r, hr, _⟩ := ((see_ok T rs).bad n).1 hn
    rw [bad_iff T rs n r hr] at hn
    apply hn
    intro m hm r' hr' hc
    obtain ⟨h1, e1⟩ := List.getElem?_eq_some_iff.1 hr
    obtain ⟨h2, e2⟩ := List.getElem?_eq_some_iff.1 hr'
    exact (List.pairwise_iff_getElem.1 h) m n h2 h1 hm (by rw [e1, e2]; exact hc)

/-! ### Picking records -/

omit [DecidableEq V] in
theorem mem_pick {rs : List (Rec V)} {ok : Nat → Bool} {r : Rec V} : r ∈ pick rs ok ↔ ∃ n, rs[n]? = some r ∧ ok n = true := by
  unfold pick
  simp only [List.mem_map, List.mem_filter]
  constructor
  · rintro ⟨⟨r', n⟩, ⟨h1, h2⟩, e⟩
    simp only at e h2
    subst e
    exact ⟨n, List.mem_zipIdx_iff_getElem?.1 h1, h2⟩
  · rintro ⟨n, h1, h2⟩
    exact ⟨(r, n), ⟨List.mem_zipIdx_iff_getElem?.2 h1, h2⟩, rfl⟩

omit [DecidableEq V] in
theorem pick_pairwise {rs : List (Rec V)} {ok : Nat → Bool} {P : Rec V → Rec V → Prop}
    (h : ∀ m n : Nat, m < n → ∀ a b, rs[m]? = some a → rs[n]? = some b → ok m = true → ok n = true → P a b) : (pick rs ok).Pairwise P := by
  unfold pick
  rw [List.pairwise_map, List.pairwise_filter, List.pairwise_iff_getElem]
  intro m n hm hn hmn h1 h2
  simp only [List.getElem_zipIdx, Nat.zero_add] at h1 h2 ⊢
  simp only [List.length_zipIdx] at hm hn
  exact h m n hmn _ _ (List.getElem?_eq_getElem hm) (List.getElem?_eq_getElem hn) h1 h2

omit [DecidableEq V] in
theorem pick_sublist (rs : List (Rec V)) (ok : Nat → Bool) : (pick rs ok).Sublist rs := by
  unfold pick
  have h1 : (rs.zipIdx.filter fun p => ok p.2).Sublist rs.zipIdx := List.filter_sublist
  have h2 := h1.map Prod.fst
  rwa [List.zipIdx_map_fst] at h2

omit [DecidableEq V] in
theorem pick_congr {rs : List (Rec V)} {ok ok' : Nat → Bool} (h : ∀ n r, rs[n]? = some r → ok n = ok' n) : pick rs ok = pick rs ok' := by
  unfold pick
  congr 1
  apply List.filter_congr
  rintro ⟨r, n⟩ hp
  exact h n r (List.mem_zipIdx_iff_getElem?.1 hp)

end BaikalDB.Global
