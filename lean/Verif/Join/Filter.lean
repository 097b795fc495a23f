import Verif.Join.Keys
/-!
# The IN filter sent to the inner side keeps every partner and drops NULL keys
-/
namespace BaikalDB.Join
open BaikalDB.Expr (VTy EV toStr)
open BaikalDB.Expr.Spec
open BaikalDB.Pred (nullV)
open BaikalDB.Pred.Spec

/-! ## The set of outer keys -/

/-- No key with a NULL keeps a key without NULL out of the set (the comparison in the set reads NULL as 0 or ''). -/
def NoClash (bucket : List EV → Nat) (outer : List (List EV)) : Prop :=
  ∀ a ∈ outer, ∀ b ∈ outer, bucket a = bucket b → eqVec a b = true → (∃ v ∈ a, v.ty = .null) → ∃ v ∈ b, v.ty = .null

/-- Enough: no NULL among the outer keys. -/
theorem noClash_of_notNull (bucket : List EV → Nat) {outer : List (List EV)} (h : ∀ a ∈ outer, ∀ v ∈ a, v.ty ≠ .null) :
    NoClash bucket outer := fun a ha _ _ _ _ ⟨v, hv, hn⟩ => absurd hn (h a ha v hv)

theorem setInsert_sub (bucket : List EV → Nat) (s : List (List EV)) (v : List EV) : ∀ w ∈ s, w ∈ setInsert bucket s v := by
  intro w hw
  unfold setInsert
  split
  · exact hw
  · exact List.mem_append_left _ hw

theorem foldl_sub (bucket : List EV → Nat) (vs : List (List EV)) : ∀ (s : List (List EV)), ∀ w ∈ s, w ∈ vs.foldl (setInsert bucket) s := by
  induction vs with
  | nil => intro s w hw; exact hw
  | cons v vs ih => intro s w hw; exact ih _ w (setInsert_sub bucket s v w hw)

theorem foldl_mem (bucket : List EV → Nat) (vs : List (List EV)) : ∀ (s : List (List EV)), ∀ w ∈ vs.foldl (setInsert bucket) s,
    w ∈ s ∨ w ∈ vs := by
  induction vs with
  | nil => intro s w hw; exact .inl hw
  | cons v vs ih =>
    intro s w hw
    rcases ih _ w hw with h | h
    · unfold setInsert at h
      split at h
      · exact .inl h
      · rcases List.mem_append.mp h with h | h
        · exact .inl h
        · right; simp_all
    · right; simp [h]

theorem foldl_repr (bucket : List EV → Nat) (vs : List (List EV)) : ∀ (s : List (List EV)), ∀ v ∈ vs,
    ∃ w ∈ vs.foldl (setInsert bucket) s, w = v ∨ (bucket w = bucket v ∧ eqVec w v = true) := by
  induction vs with
  | nil => simp
  | cons u vs ih =>
    intro s v hv
    rcases List.mem_cons.mp hv with rfl | hv
    · rw [List.foldl_cons]
      by_cases h : (s.any fun w => decide (bucket w = bucket v) && eqVec w v) = true
      · obtain ⟨w, hw, e⟩ := List.any_eq_true.mp h
        simp only [Bool.and_eq_true, decide_eq_true_eq] at e
        exact ⟨w, foldl_sub bucket vs _ w (setInsert_sub bucket s v w hw), .inr e⟩
      · refine ⟨v, foldl_sub bucket vs _ v ?_, .inl rfl⟩
        simp [setInsert, h]
    · exact ih _ v hv

theorem equalValues_mem {bucket : List EV → Nat} {vs : List (List EV)} {w : List EV} (h : w ∈ equalValues bucket vs) : w ∈ vs :=
  (foldl_mem bucket vs [] w h).resolve_left (by simp)

theorem equalValues_nil {bucket : List EV → Nat} {vs : List (List EV)} (h : equalValues bucket vs = []) : vs = [] := by
  rcases vs with _ | ⟨v, vs⟩
  · rfl
  · obtain ⟨w, hw, _⟩ := foldl_repr bucket (v :: vs) [] v (by simp)
    rw [show (v :: vs).foldl (setInsert bucket) [] = equalValues bucket (v :: vs) from rfl, h] at hw
    simp at hw

theorem eqVec_cons (a b : EV) (as bs : List EV) : eqVec (a :: as) (b :: bs) = true ↔ Expr.compare b a = 0 ∧ eqVec as bs = true := by
  simp only [eqVec, List.length_cons, List.zipWith_cons_cons, List.all_cons, Bool.and_eq_true, decide_eq_true_eq, id]
  constructor
  · rintro ⟨h1, h2, h3⟩; exact ⟨h2, by omega, h3⟩
  · rintro ⟨h1, h2, h3⟩; exact ⟨by omega, h1, h3⟩

theorem eqVec_sem {ts : List VTy} (ht : ∀ t ∈ ts, IntTy t ∨ Direct t) : ∀ {a b : List EV}, RowGood ts a → RowGood ts b →
    eqVec a b = true → a.map sem = b.map sem := by
  induction ts with
  | nil => intro a b ha hb _; cases ha; cases hb; rfl
  | cons t ts ih =>
    intro a b ha hb h
    cases ha with
    | cons a1 ha =>
    cases hb with
    | cons b1 hb =>
    rw [eqVec_cons] at h
    have ho : Expr.Spec.Ordered t := (ht t (by simp)).elim Pred.ordered_of_int Pred.ordered_of_direct
    have := Expr.sem_eq_of_compare (b1.1.trans a1.1.symm) (b1.1 ▸ ho) b1.2.1 a1.2.1 h.1
    rw [List.map_cons, List.map_cons, this, ih (fun u hu => ht u (by simp [hu])) ha hb h.2]

theorem keysEq_congr {a b : List EV} (h : a.map sem = b.map sem) (w : List EV) : keysEq a w = keysEq b w := by
  induction a generalizing b w with
  | nil => cases b <;> simp_all
  | cons x a ih =>
    cases b with
    | nil => simp at h
    | cons y b =>
      simp only [List.map_cons, List.cons.injEq] at h
      cases w with
      | nil => rfl
      | cons z w => simp only [keysEq, sqlEq, h.1, ih h.2]

theorem pair_oty {p : Pair} (h : PairOk p) : IntTy p.oty ∨ Direct p.oty := h.elim (fun h => .inl h.1) (fun h => .inr h.2)
theorem pair_ity {p : Pair} (h : PairOk p) : IntTy p.ity ∨ Direct p.ity := h.elim (fun h => .inl h.2) (fun h => .inr (h.1 ▸ h.2))

/-- A partner of an outer row is a partner of a key of the set. -/
theorem repr_partner {bucket : List EV → Nat} {ps : List Pair} (hp : ∀ p ∈ ps, PairOk p) {outer : List (List EV)}
    (ho : ∀ v ∈ outer, RowOk (ps.map (·.oty)) v) (hc : NoClash bucket outer) {v w : List EV} (hv : v ∈ outer)
    (h : keysEq v w = true) : ∃ u ∈ equalValues bucket outer, RowGood (ps.map (·.oty)) u ∧ keysEq u w = true := by
  have hnn : ∀ x ∈ v, x.ty ≠ .null := fun x hx hn => by
    rw [keysEq_null ⟨x, hx, hn⟩] at h; cases h
  have gv := rowGood_of (ho v hv) hnn
  obtain ⟨u, hu, rfl | ⟨e1, e2⟩⟩ := foldl_repr bucket outer [] v hv
  · exact ⟨u, hu, gv, h⟩
  · have hum : u ∈ outer := equalValues_mem hu
    have hun : ∀ x ∈ u, x.ty ≠ .null := fun x hx hn => by
      obtain ⟨y, hy, hyn⟩ := hc u hum v hv e1 e2 ⟨x, hx, hn⟩
      exact hnn y hy hyn
    have gu := rowGood_of (ho u hum) hun
    have ht : ∀ t ∈ ps.map (·.oty), IntTy t ∨ Direct t := by
      intro t ht
      obtain ⟨p, hpm, rfl⟩ := List.mem_map.mp ht
      exact pair_oty (hp p hpm)
    exact ⟨u, hu, gu, by rw [keysEq_congr (eqVec_sem ht gu gv e2)]; exact h⟩

/-! ## The filter -/

theorem cast_ity (E : Pred.Env) {p : Pair} (h : PairOk p) {v w : EV} (hv : Good p.oty v) (hw : Good p.ity w) (he : sem v = sem w) :
    Good p.ity (Pred.cast E v p.ity) ∧ sem (Pred.cast E v p.ity) = sem w := by
  rcases h with ⟨i1, i2⟩ | ⟨e, d⟩
  · rw [← hv.1] at i1
    have i3 := i2
    rw [← hw.1] at i3
    obtain ⟨y, hy, _, fy⟩ := Expr.sem_int i3
    rw [hw.1] at fy
    obtain ⟨a1, a2⟩ := Pred.cast_int E i1 i2 (he.trans hy) fy
    refine ⟨⟨a1, notNaN_int (by simp [a1, i2]), negZero_int (by simp [a1, i2]), ?_⟩, a2.trans hy.symm⟩
    intro hs; rw [hs] at i2; simp [IntTy] at i2
  · rw [Pred.cast_same' E (hv.1.trans e)]
    exact ⟨e ▸ hv, he⟩

theorem in_key (E : Pred.Env) {t : VTy} (ht : IntTy t ∨ Direct t) {v w : EV} (hv : Good t v) (hw : Good t w) (he : sem v = sem w) :
    Pred.key E (Pred.inTy t t) v = Pred.key E (Pred.inTy t t) w := by
  rcases ht with i | d
  · have iv : IntTy v.ty := by rw [hv.1]; exact i
    have iw : IntTy w.ty := by rw [hw.1]; exact i
    obtain ⟨y, hy, _, _⟩ := Expr.sem_int iw
    rw [Pred.inTy_int i i, Pred.int_key E iv (he.trans hy), Pred.int_key E iw hy]
  · rw [Pred.inTy_direct d]
    exact (Pred.direct_key_iff E d hv.1 hw.1).mpr he

theorem int_text (E : Env) {v w : EV} (hv : IntTy v.ty) (hw : IntTy w.ty) (he : sem v = sem w) :
    getIntString E (Pred.cast E.toEnv v .int64) = getIntString E (Pred.cast E.toEnv w .int64) := by
  obtain ⟨x, hx, _, _⟩ := Expr.sem_int hv
  have hy := he ▸ hx
  have hi : IntTy .int64 := by simp [IntTy]
  have key : ∀ {v : EV}, IntTy v.ty → sem v = some (.num x) → ∃ y, (2 ^ 64 : Int) ∣ y - x ∧ Fits .int64 y ∧
      getIntString E (Pred.cast E.toEnv v .int64) = toStr y := by
    intro v hv hx
    obtain ⟨w, y, h1, h2, h3, h4, h5, _⟩ := Expr.C28_int_cast hv hi hx
    have hc : Pred.cast E.toEnv v .int64 = w := by simp [Pred.cast, h1]
    obtain ⟨z, hz, hg, fz⟩ := Expr.sem_int (v := w) (by rw [h2]; exact hi)
    have : z = y := by rw [h3] at hz; simpa using hz.symm
    subst this
    refine ⟨z, h4, h2 ▸ fz, ?_⟩
    rw [hc]
    have : Expr.getInt w = some (w.sget 64) := by simp [Expr.getInt, h2]
    rw [this] at hg
    have hg := Option.some.inj hg
    simp [getIntString, h2, hg]
  obtain ⟨y, d1, f1, e1⟩ := key hv hx
  obtain ⟨z, d2, f2, e2⟩ := key hw hy
  rw [e1, e2]
  simp only [Fits, range] at f1 f2
  obtain rfl : y = z := by omega
  rfl

theorem row_text (E : Env) {t : VTy} (ht : IntTy t ∨ Direct t) {v w : EV} (hv : Good t v) (hw : Good t w) (he : sem v = sem w) :
    getIntString E (Pred.cast E.toEnv v (Pred.inTy t t)) = getIntString E (Pred.cast E.toEnv w (Pred.inTy t t)) := by
  rcases ht with i | d
  · rw [Pred.inTy_int i i]
    exact int_text E (by rw [hv.1]; exact i) (by rw [hw.1]; exact i) he
  · rw [Pred.inTy_direct d, Pred.cast_same' _ hv.1, Pred.cast_same' _ hw.1]
    obtain ⟨h1, h2, h3, h4⟩ := Expr.stored_of_sem_eq (hv.1.trans hw.1.symm) hv.2.2.1 hw.2.2.1 he
    have e1 := hv.1
    have e2 := hw.1
    clear hv hw he
    obtain ⟨tv, u, s⟩ := v
    obtain ⟨tw, u', s'⟩ := w
    simp only at e1 e2
    subst e1 e2
    cases tw <;> simp [Direct] at d <;> simp [intShape] at h1 h3 h4 <;>
      simp_all [getIntString, EV.uget, EV.sget]

theorem rowKey_isSome {E : Env} : ∀ {ts : List VTy} {vs : List EV}, ts.length = vs.length →
    ((rowKey E ts vs).isSome = true ↔ ∀ v ∈ vs, v.isNull = false)
  | [], [], _ => by simp [rowKey]
  | t :: ts, v :: vs, h => by
    have ih := rowKey_isSome (E := E) (ts := ts) (vs := vs) (by simpa using h)
    by_cases hn : v.isNull = true
    · simp [rowKey, hn]
    · simp only [Bool.not_eq_true] at hn
      simp only [rowKey, hn, Bool.false_eq_true, if_false, Option.isSome_map, ih, List.mem_cons, forall_eq_or_imp, true_and]

theorem good_notNull {t : VTy} (ht : IntTy t ∨ Direct t) {v : EV} (h : Good t v) : v.isNull = false :=
  Pred.not_null_of_ordered (by rw [h.1]; exact ht.elim Pred.ordered_of_int Pred.ordered_of_direct)

theorem rowKey_partner (E : Env) {ps : List Pair} (hp : ∀ p ∈ ps, PairOk p) : ∀ {u w : List EV}, RowGood (ps.map (·.oty)) u →
    RowGood (ps.map (·.ity)) w → keysEq u w = true →
    ∃ k, rowKey E (ps.map fun p => Pred.inTy p.ity p.ity) w = some k ∧
      rowKey E (ps.map fun p => Pred.inTy p.ity p.ity) (List.zipWith (fun p x => Pred.cast E.toEnv x p.ity) ps u) = some k := by
  induction ps with
  | nil =>
    intro u w hu hw _
    cases hu; cases hw
    exact ⟨[], rfl, rfl⟩
  | cons p ps ih =>
    intro u w hu hw h
    simp only [List.map_cons] at hu hw
    cases hu with
    | cons u1 hu =>
    cases hw with
    | cons w1 hw =>
    simp only [keysEq, Bool.and_eq_true, sqlEq, decide_eq_true_eq] at h
    obtain ⟨⟨_, he⟩, h2⟩ := h
    obtain ⟨k, k1, k2⟩ := ih (fun q hq => hp q (by simp [hq])) hu hw h2
    have hpo := hp p (by simp)
    obtain ⟨g, e⟩ := cast_ity E.toEnv hpo u1 w1 he
    simp only [List.map_cons, List.zipWith_cons_cons, rowKey, good_notNull (pair_ity hpo) g, good_notNull (pair_ity hpo) w1,
      Bool.false_eq_true, if_false, k1, k2, Option.map_some, row_text E (pair_ity hpo) g w1 e]
    exact ⟨_, rfl, rfl⟩

theorem rowGood_of_eq {ts : List VTy} {u w : List EV} (hw : RowOk ts w) (h : keysEq u w = true) : RowGood ts w := by
  induction hw generalizing u with
  | nil => exact .nil
  | cons h1 _ ih =>
    cases u with
    | nil => simp [keysEq] at h
    | cons x u =>
      simp only [keysEq, Bool.and_eq_true, sqlEq, decide_eq_true_eq] at h
      refine .cons (good_of_ok h1 fun hn => ?_) (ih h.2)
      rw [Pred.sem_null hn] at h
      exact h.1.1 h.1.2

/-- **C38.** The filter sent to the inner side keeps every inner row that has a partner. -/
theorem C38_filter_keeps_partners (E : Env) (bucket : List EV → Nat) {ps : List Pair} (hp : ∀ p ∈ ps, PairOk p)
    {outer : List (List EV)} (ho : ∀ v ∈ outer, RowOk (ps.map (·.oty)) v) (hc : NoClash bucket outer) {v w : List EV}
    (hv : v ∈ outer) (hw : RowOk (ps.map (·.ity)) w) (h : keysEq v w = true) :
    runtimeFilter E ps (equalValues bucket outer) w = true := by
  obtain ⟨u, hu, gu, hk⟩ := repr_partner hp ho hc hv h
  have gw := rowGood_of_eq hw hk
  rcases ps with _ | ⟨p, _ | ⟨q, ps⟩⟩
  · rfl
  · have hpo := hp p (by simp)
    cases gu with
    | cons u1 gu =>
    cases gu
    cases gw with
    | @cons _ w0 _ _ w1 gw =>
    cases gw
    simp only [keysEq, Bool.and_true, sqlEq, decide_eq_true_eq] at hk
    obtain ⟨g, e⟩ := cast_ity E.toEnv hpo u1 w1 hk.2
    have hin := in_key E.toEnv (pair_ity hpo) g w1 e
    simp only [runtimeFilter, List.headD_cons, Bool.or_eq_true]
    right
    have : Pred.inFn E.toEnv (Pred.inTy p.ity p.ity) ((equalValues bucket outer).map fun w => Pred.cast E.toEnv (w.headD nullV) p.ity)
        false w0 = Pred.boolV true := by
      unfold Pred.inFn
      rw [if_neg (by simp [good_notNull (pair_ity hpo) w1]), if_pos]
      rw [List.contains_iff_mem]
      refine List.mem_map.mpr ⟨_, List.mem_filter.mpr ⟨List.mem_map.mpr ⟨_, hu, rfl⟩, ?_⟩, hin⟩
      simp [good_notNull (pair_ity hpo) g]
    rw [this]
    simp [Pred.boolV, EV.isNull, Pred.truth, Expr.getInt, EV.uget]
  · obtain ⟨k, k1, k2⟩ := rowKey_partner E hp gu gw hk
    simp only [runtimeFilter, k1, Bool.or_eq_true]
    right
    rw [List.contains_iff_mem]
    exact List.mem_filterMap.mpr ⟨u, hu, k2⟩

/-- **C38.** A row with a NULL in a join column does not pass the filter. -/
theorem C38_filter_drops_null (E : Env) (bucket : List EV → Nat) {ps : List Pair} {outer : List (List EV)} (ho : outer ≠ [])
    {w : List EV} (hw : RowOk (ps.map (·.ity)) w) (h : runtimeFilter E ps (equalValues bucket outer) w = true) :
    ∀ v ∈ w, v.ty ≠ .null := by
  have hne : (equalValues bucket outer).isEmpty = false := by
    rw [List.isEmpty_eq_false_iff]
    exact fun e => ho (equalValues_nil e)
  rcases ps with _ | ⟨p, _ | ⟨q, ps⟩⟩
  · cases hw; simp
  · cases hw with
    | cons w1 hw =>
    cases hw
    intro v hv hn
    obtain rfl : v = _ := by simpa using hv
    simp only [runtimeFilter, hne, Bool.false_or, List.headD_cons] at h
    rw [show Pred.inFn E.toEnv (Pred.inTy p.ity p.ity) _ false v = nullV by simp [Pred.inFn, EV.isNull, hn]] at h
    simp [nullV, EV.isNull] at h
  · intro v hv hn
    have hl : ((p :: q :: ps).map fun p => Pred.inTy p.ity p.ity).length = w.length := by
      have := hw.length_eq
      simpa using this
    have hs : rowKey E ((p :: q :: ps).map fun p => Pred.inTy p.ity p.ity) w = none := by
      cases hr : rowKey E ((p :: q :: ps).map fun p => Pred.inTy p.ity p.ity) w with
      | none => rfl
      | some k =>
        have := (rowKey_isSome (E := E) hl).mp (by rw [hr]; rfl) v hv
        simp [EV.isNull, hn] at this
    simp only [runtimeFilter, hne, Bool.false_or, hs] at h
    cases h

end BaikalDB.Join
