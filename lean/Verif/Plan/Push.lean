import Verif.Plan.Lemmas

/-! # The conversion of joins and the push-down keep the rows -/

namespace BaikalDB.Plan

variable {F : Fns} {D : Nat → List (Nat → Val)} {ρ : Row}

/-- The conditions about the tuples `T` only. -/
def about (T : List Nat) (es : List Expr) : List Expr := es.filter (within T)

theorem mem_about {T : List Nat} {es : List Expr} {e : Expr} : e ∈ about T es ↔ e ∈ es ∧ within T e = true := by
  simp [about]

theorem about_nil {T : List Nat} : about T [] = [] := rfl

theorem filter_true {r : List Row} : r.filter (holdsAll F []) = r := by
  rw [List.filter_eq_self]; intro a _; rfl

theorem perm_of_about {T : List Nat} {L L' : List Row}
    (h : (L'.filter (holdsAll F (about T []))).Perm (L.filter (holdsAll F (about T [])))) : L'.Perm L := by
  rw [about_nil, filter_true, filter_true] at h; exact h

/-- The join of converted sides, the type being settled. -/
theorem joinRows_conv {A B : List Nat} {ty : JType} {cs es : List Expr} {L L' R R' : List Row}
    (hd : ∀ t ∈ A, t ∉ B)
    (hL : ∀ xs, (ty = .inner → xs = es ++ cs) → (ty = .left → xs = es) → (ty = .right → xs = cs) → (ty = .full → xs = []) →
      (L'.filter (holdsAll F (about A xs))).Perm (L.filter (holdsAll F (about A xs))))
    (hR : ∀ xs, (ty = .inner → xs = es ++ cs) → (ty = .left → xs = cs) → (ty = .right → xs = es) → (ty = .full → xs = []) →
      (R'.filter (holdsAll F (about B xs))).Perm (R.filter (holdsAll F (about B xs)))) :
    ((joinRows F ρ A B cs L' R' ty).filter (holdsAll F (about (A ++ B) es))).Perm
      ((joinRows F ρ A B cs L R ty).filter (holdsAll F (about (A ++ B) es))) := by
  have ha : ∀ e, within A e = true → within (A ++ B) e = true := fun e => within_mono fun t ht => by simp [ht]
  have hb : ∀ e, within B e = true → within (A ++ B) e = true := fun e => within_mono fun t ht => by simp [ht]
  -- what the conditions above and the join's own say about the two sides
  have eA : ∀ x y, holdsAll F (about (A ++ B) es) (merge B x y) = true → holdsAll F (about A es) x = true := by
    intro x y h
    rw [holdsAll_iff] at h ⊢
    intro e he
    obtain ⟨h1, h2⟩ := mem_about.mp he
    rw [← holds_left hd h2]
    exact h e (mem_about.mpr ⟨h1, ha e h2⟩)
  have eB : ∀ x y, holdsAll F (about (A ++ B) es) (merge B x y) = true → holdsAll F (about B es) y = true := by
    intro x y h
    rw [holdsAll_iff] at h ⊢
    intro e he
    obtain ⟨h1, h2⟩ := mem_about.mp he
    rw [← holds_right (a := x) h2]
    exact h e (mem_about.mpr ⟨h1, hb e h2⟩)
  have cA : ∀ x y, holdsAll F cs (merge B x y) = true → holdsAll F (about A cs) x = true := by
    intro x y h
    rw [holdsAll_iff] at h ⊢
    intro e he
    obtain ⟨h1, h2⟩ := mem_about.mp he
    rw [← holds_left hd h2]
    exact h e h1
  have cB : ∀ x y, holdsAll F cs (merge B x y) = true → holdsAll F (about B cs) y = true := by
    intro x y h
    rw [holdsAll_iff] at h ⊢
    intro e he
    obtain ⟨h1, h2⟩ := mem_about.mp he
    rw [← holds_right (a := x) h2]
    exact h e h1
  have app : ∀ T, about T (es ++ cs) = about T es ++ about T cs := fun T => by simp [about]
  cases ty with
  | inner =>
    have hL := hL (es ++ cs) (fun _ => rfl) (fun h => nomatch h) (fun h => nomatch h) (fun h => nomatch h)
    have hR := hR (es ++ cs) (fun _ => rfl) (fun h => nomatch h) (fun h => nomatch h) (fun h => nomatch h)
    show ((joinI _ _ _ _).filter _).Perm ((joinI _ _ _ _).filter _)
    rw [filter_joinI, filter_joinI]
    have key : ∀ (X Y : List Row), joinI (merge B) (fun x => holdsAll F cs x && holdsAll F (about (A ++ B) es) x) X Y =
        joinI (merge B) (fun x => holdsAll F cs x && holdsAll F (about (A ++ B) es) x)
          (X.filter (holdsAll F (about A (es ++ cs)))) (Y.filter (holdsAll F (about B (es ++ cs)))) := by
      intro X Y
      refine joinI_eq fun x _ y _ => ?_
      rw [Bool.eq_iff_iff]
      simp only [Bool.and_eq_true, app, holdsAll_append]
      constructor
      · rintro ⟨h1, h2⟩
        exact ⟨⟨⟨h1, h2⟩, eA x y h2, cA x y h1⟩, eB x y h2, cB x y h1⟩
      · rintro ⟨⟨h, -⟩, -⟩; exact h
    rw [key L' R', key L R]
    exact joinI_perm hL hR
  | left =>
    have hL := hL es (fun h => nomatch h) (fun _ => rfl) (fun h => nomatch h) (fun h => nomatch h)
    have hR := hR cs (fun h => nomatch h) (fun _ => rfl) (fun h => nomatch h) (fun h => nomatch h)
    have key : ∀ (X Y : List Row), (joinL (merge B) (holdsAll F cs) (nulls B ρ) X Y).filter (holdsAll F (about (A ++ B) es)) =
        (joinL (merge B) (holdsAll F cs) (nulls B ρ) (X.filter (holdsAll F (about A es))) (Y.filter (holdsAll F (about B cs)))).filter
          (holdsAll F (about (A ++ B) es)) := by
      intro X Y
      rw [joinL_inner (P := holdsAll F cs) (q := holdsAll F (about B cs)) (R := Y)]
      · exact filter_joinL_restrict (fun x _ y _ => eA x y) (fun x _ => eA x _)
      · intro x _ y _
        rw [Bool.eq_iff_iff, Bool.and_eq_true]
        exact ⟨fun h => ⟨h, cB x y h⟩, fun h => h.1⟩
    show ((joinL _ _ _ _ _).filter _).Perm ((joinL _ _ _ _ _).filter _)
    rw [key L' R', key L R]
    exact (joinL_perm hL hR).filter _
  | right =>
    have hL := hL cs (fun h => nomatch h) (fun h => nomatch h) (fun _ => rfl) (fun h => nomatch h)
    have hR := hR es (fun h => nomatch h) (fun h => nomatch h) (fun _ => rfl) (fun h => nomatch h)
    have key : ∀ (X Y : List Row),
        (joinL (fun b a => merge B a b) (holdsAll F cs) (nulls A ρ) Y X).filter (holdsAll F (about (A ++ B) es)) =
        (joinL (fun b a => merge B a b) (holdsAll F cs) (nulls A ρ) (Y.filter (holdsAll F (about B es)))
          (X.filter (holdsAll F (about A cs)))).filter (holdsAll F (about (A ++ B) es)) := by
      intro X Y
      rw [joinL_inner (P := holdsAll F cs) (q := holdsAll F (about A cs)) (R := X)]
      · exact filter_joinL_restrict (fun y _ x _ => eB x y) (fun y _ => eB _ y)
      · intro y _ x _
        rw [Bool.eq_iff_iff, Bool.and_eq_true]
        exact ⟨fun h => ⟨h, cA x y h⟩, fun h => h.1⟩
    show ((joinL _ _ _ _ _).filter _).Perm ((joinL _ _ _ _ _).filter _)
    rw [key L' R', key L R]
    exact (joinL_perm hR hL).filter _
  | full =>
    have hL := perm_of_about (hL [] (fun h => nomatch h) (fun h => nomatch h) (fun h => nomatch h) (fun _ => rfl))
    have hR := perm_of_about (hR [] (fun h => nomatch h) (fun h => nomatch h) (fun h => nomatch h) (fun _ => rfl))
    exact ((joinL_perm hL hR).append ((lone_perm hL hR).map _)).filter _

/-- A condition from above that changes a join on a side an outer join may leave without rows changes that outer join. -/
theorem unused_right {nf : Bool} {es : List Expr} {l r : Tree} {ty : JType} (hd : ∀ t ∈ tups l, t ∉ tups r)
    (hf : nf = true → noFull r = true) (hes : ∀ e ∈ es, Fit F nf e)
    (ht : newType es (tups l) (tups r) ty = .left ∨ newType es (tups l) (tups r) ty = .full) :
    ∀ e ∈ es, uses e r = false := by
  intro e he
  rw [← Bool.not_eq_true]
  intro hu
  obtain ⟨h1, h2, h3⟩ := uses_facts hu
  have hne : tupsE e ≠ [] := by
    rcases h3 with h3 | h3
    · exact h3
    · rcases (hes e he).const with hc | hc | hc
      · rw [hf hc] at h3; cases h3
      · exact hc
      · rw [h2] at hc; cases hc
  have ho : within (tups l) e = false := by
    rw [← Bool.not_eq_true, within_iff]
    intro hc
    obtain ⟨t, ht⟩ := List.exists_mem_of_ne_nil _ hne
    exact hd t (hc t ht) (within_iff.mp h1 t ht)
  have hin : needsInner (tups l) (tups r) e = true := by simp [needsInner, ho, h1, h2]
  have hti : toInner (tups l) (tups r) e = true := by simp [toInner, ho, h1, h2]
  cases ty with
  | inner => rcases ht with ht | ht <;> cases ht
  | left =>
    simp only [newType] at ht
    rw [if_pos (List.any_eq_true.mpr ⟨e, he, hti⟩)] at ht
    rcases ht with ht | ht <;> cases ht
  | right =>
    simp only [newType] at ht
    rcases ht with ht | ht <;> split at ht <;> cases ht
  | full =>
    simp only [newType] at ht
    rw [List.any_eq_true.mpr ⟨e, he, hin⟩] at ht
    rcases ht with ht | ht <;> (repeat' split at ht) <;> simp_all

theorem unused_left {nf : Bool} {es : List Expr} {l r : Tree} {ty : JType} (hd : ∀ t ∈ tups l, t ∉ tups r)
    (hf : nf = true → noFull l = true) (hes : ∀ e ∈ es, Fit F nf e)
    (ht : newType es (tups l) (tups r) ty = .right ∨ newType es (tups l) (tups r) ty = .full) :
    ∀ e ∈ es, uses e l = false := by
  intro e he
  rw [← Bool.not_eq_true]
  intro hu
  obtain ⟨h1, h2, h3⟩ := uses_facts hu
  have hne : tupsE e ≠ [] := by
    rcases h3 with h3 | h3
    · exact h3
    · rcases (hes e he).const with hc | hc | hc
      · rw [hf hc] at h3; cases h3
      · exact hc
      · rw [h2] at hc; cases hc
  have ho : within (tups r) e = false := by
    rw [← Bool.not_eq_true, within_iff]
    intro hc
    obtain ⟨t, ht⟩ := List.exists_mem_of_ne_nil _ hne
    exact hd t (within_iff.mp h1 t ht) (hc t ht)
  have hin : needsOuter (tups l) (tups r) e = true := by simp [needsOuter, h1, h2]
  have hti : toInner (tups r) (tups l) e = true := by simp [toInner, ho, h1, h2]
  cases ty with
  | inner => rcases ht with ht | ht <;> cases ht
  | left =>
    simp only [newType] at ht
    rcases ht with ht | ht <;> split at ht <;> cases ht
  | right =>
    simp only [newType] at ht
    rw [if_pos (List.any_eq_true.mpr ⟨e, he, hti⟩)] at ht
    rcases ht with ht | ht <;> cases ht
  | full =>
    simp only [newType] at ht
    rw [List.any_eq_true.mpr ⟨e, he, hin⟩] at ht
    rcases ht with ht | ht <;> (repeat' split at ht) <;> simp_all

/-- The rows that pass the conditions above stay the same under the conversion. -/
theorem conv_sem {nf : Bool} {es : List Expr} {p : Tree} (hw : Wf p) (hf : nf = true → noFull p = true)
    (hp : ∀ e ∈ conds p, Fit F nf e) (hes : ∀ e ∈ es, Fit F nf e) :
    ((sem F D ρ (conv es p)).filter (holdsAll F (about (tups p) es))).Perm
      ((sem F D ρ p).filter (holdsAll F (about (tups p) es))) := by
  induction p generalizing es with
  | scan t => exact .refl _
  | filter cs p => exact .refl _
  | join ty cs l r ihl ihr =>
    obtain ⟨hwl, hwr, hd, hcl, hcr⟩ := hw
    have hfl : nf = true → noFull l = true := fun h => by
      have := hf h; simp only [noFull, Bool.and_eq_true] at this; exact this.1.2
    have hfr : nf = true → noFull r = true := fun h => by
      have := hf h; simp only [noFull, Bool.and_eq_true] at this; exact this.2
    have hft : nf = true → ty ≠ .full := fun h => by
      have := hf h; simp only [noFull, Bool.and_eq_true, decide_eq_true_eq] at this; exact this.1.1
    have hcs : ∀ e ∈ cs, Fit F nf e := fun e he => hp e (by simp [conds, he])
    have hpl : ∀ e ∈ conds l, Fit F nf e := fun e he => hp e (by simp [conds, he])
    have hpr : ∀ e ∈ conds r, Fit F nf e := fun e he => hp e (by simp [conds, he])
    simp only [conv, sem, tups_conv, tups]
    have ht : newType es (tups l) (tups r) ty = newType (about (tups l ++ tups r) es) (tups l) (tups r) ty :=
      newType_any fun e he => by simp [mem_about, (newType_facts he).1]
    have step1 := newType_sem (F := F) (ρ := ρ) (nf := nf) (A := tups l) (B := tups r) (ty := ty) (cs := cs)
      (es := about (tups l ++ tups r) es) (L := sem F D ρ l) (R := sem F D ρ r) hd hft
      (fun e he => hes e (mem_about.mp he).1)
    rw [← ht] at step1
    refine List.Perm.trans ?_ step1
    have ihl' : ∀ xs : List Expr, (∀ e ∈ xs, e ∈ es ++ cs) → (∀ e ∈ es ++ cs, e ∉ xs → uses e l = false) →
        ((sem F D ρ (conv (es ++ cs) l)).filter (holdsAll F (about (tups l) xs))).Perm
          ((sem F D ρ l).filter (holdsAll F (about (tups l) xs))) := by
      intro xs h1 h2
      rw [conv_congr (es' := xs) fun e he => ⟨fun h => (by
        by_contra hc; have := h2 e h hc; rw [he] at this; cases this), h1 e⟩]
      exact ihl hwl hfl hpl fun e he => (List.mem_append.mp (h1 e he)).elim (hes e) (hcs e)
    have ihr' : ∀ xs : List Expr, (∀ e ∈ xs, e ∈ es ++ cs) → (∀ e ∈ es ++ cs, e ∉ xs → uses e r = false) →
        ((sem F D ρ (conv (es ++ cs) r)).filter (holdsAll F (about (tups r) xs))).Perm
          ((sem F D ρ r).filter (holdsAll F (about (tups r) xs))) := by
      intro xs h1 h2
      rw [conv_congr (es' := xs) fun e he => ⟨fun h => (by
        by_contra hc; have := h2 e h hc; rw [he] at this; cases this), h1 e⟩]
      exact ihr hwr hfr hpr fun e he => (List.mem_append.mp (h1 e he)).elim (hes e) (hcs e)
    refine joinRows_conv hd ?_ ?_
    · intro xs h1 h2 h3 h4
      cases hty : newType es (tups l) (tups r) ty with
      | inner =>
        rw [h1 hty]
        exact ihl' _ (fun e he => he) fun e he hc => absurd he hc
      | left =>
        rw [h2 hty]
        refine ihl' _ (fun e he => List.mem_append_left _ he) fun e he hc => ?_
        exact hcl (newType_left hty) e ((List.mem_append.mp he).resolve_left hc)
      | right =>
        rw [h3 hty]
        refine ihl' _ (fun e he => List.mem_append_right _ he) fun e he hc => ?_
        exact unused_left hd hfl hes (.inl hty) e ((List.mem_append.mp he).resolve_right hc)
      | full =>
        rw [h4 hty]
        refine ihl' _ (fun e he => nomatch he) fun e he _ => ?_
        rcases List.mem_append.mp he with he | he
        · exact unused_left hd hfl hes (.inr hty) e he
        · exact hcl (.inr (newType_full hty)) e he
    · intro xs h1 h2 h3 h4
      cases hty : newType es (tups l) (tups r) ty with
      | inner =>
        rw [h1 hty]
        exact ihr' _ (fun e he => he) fun e he hc => absurd he hc
      | left =>
        rw [h2 hty]
        refine ihr' _ (fun e he => List.mem_append_right _ he) fun e he hc => ?_
        exact unused_right hd hfr hes (.inl hty) e ((List.mem_append.mp he).resolve_right hc)
      | right =>
        rw [h3 hty]
        refine ihr' _ (fun e he => List.mem_append_left _ he) fun e he hc => ?_
        exact hcr (newType_right hty) e ((List.mem_append.mp he).resolve_left hc)
      | full =>
        rw [h4 hty]
        refine ihr' _ (fun e he => nomatch he) fun e he _ => ?_
        rcases List.mem_append.mp he with he | he
        · exact unused_right hd hfr hes (.inr hty) e he
        · exact hcr (.inr (newType_full hty)) e he

theorem conv_filter {nf : Bool} {es : List Expr} {p : Tree} (hw : Wf p) (hf : nf = true → noFull p = true)
    (hp : ∀ e ∈ conds p, Fit F nf e) (hes : ∀ e ∈ es, Fit F nf e) :
    ((sem F D ρ (conv es p)).filter (holdsAll F es)).Perm ((sem F D ρ p).filter (holdsAll F es)) := by
  have key : ∀ X : List Row, X.filter (holdsAll F es) = (X.filter (holdsAll F (about (tups p) es))).filter (holdsAll F es) := by
    intro X
    rw [filter_and]
    refine List.filter_congr fun x _ => ?_
    rw [Bool.eq_iff_iff, Bool.and_eq_true]
    refine ⟨fun h => ⟨?_, h⟩, fun h => h.2⟩
    rw [holdsAll_iff] at h ⊢
    exact fun e he => h e (mem_about.mp he).1
  rw [key, key (sem F D ρ p)]
  exact (conv_sem hw hf hp hes).filter _

/-! ## Where the conditions go -/

theorem holdsAll_filter {es : List Expr} {f : Expr → Bool} {r : Row} :
    holdsAll F (es.filter f) r = true ↔ ∀ e ∈ es, f e = true → holds F r e = true := by
  rw [holdsAll_iff]
  constructor
  · exact fun h e he hf => h e (List.mem_filter.mpr ⟨he, hf⟩)
  · exact fun h e he => h e (List.mem_filter.mp he).1 (List.mem_filter.mp he).2

/-- An INNER JOIN: `O` and `I` are the two sides, in either order. -/
theorem split_inner {B O I : List Nat} {cs es : List Expr} {a b x y : Row} (ho : ∀ e, within O e = true → holds F (merge B a b) e = holds F x e)
    (hi : ∀ e, within I e = true → holds F (merge B a b) e = holds F y e) :
    (holdsAll F cs (merge B a b) && holdsAll F es (merge B a b)) =
      (holdsAll F (split .inner O I cs es).stay (merge B a b) && holdsAll F (split .inner O I cs es).back (merge B a b) &&
        holdsAll F (split .inner O I cs es).outer x && holdsAll F (split .inner O I cs es).inner y) := by
  rw [Bool.eq_iff_iff]
  simp only [split, holdsAll_append, Bool.and_eq_true, holdsAll_filter, List.mem_filter, Bool.not_eq_true', and_imp]
  rw [holdsAll_iff, holdsAll_iff]
  constructor
  · rintro ⟨h1, h2⟩
    refine ⟨⟨⟨⟨fun e he _ _ => h1 e he, fun e he _ _ _ => h2 e he⟩, fun e he _ => h2 e he⟩, ?_, ?_⟩, ?_, ?_⟩
    · exact fun e he hw => by rw [← ho e hw]; exact h1 e he
    · exact fun e he _ hw => by rw [← ho e hw]; exact h2 e he
    · exact fun e he _ hw => by rw [← hi e hw]; exact h1 e he
    · exact fun e he _ _ hw => by rw [← hi e hw]; exact h2 e he
  · rintro ⟨⟨⟨⟨s1, s2⟩, b1⟩, o1, o2⟩, i1, i2⟩
    constructor
    · intro e he
      cases h1 : within O e with
      | true => rw [ho e h1]; exact o1 e he h1
      | false =>
        cases h2 : within I e with
        | true => rw [hi e h2]; exact i1 e he h1 h2
        | false => exact s1 e he h1 h2
    · intro e he
      cases h0 : foreign (O ++ I) e with
      | true => exact b1 e he h0
      | false =>
        cases h1 : within O e with
        | true => rw [ho e h1]; exact o2 e he h0 h1
        | false =>
          cases h2 : within I e with
          | true => rw [hi e h2]; exact i2 e he h0 h1 h2
          | false => exact s2 e he h0 h1 h2

/-- The conditions of a LEFT or RIGHT JOIN. -/
theorem split_cs {T O I : List Nat} {ty : JType} (hty : ty = .left ∨ ty = .right) {cs es : List Expr} {a b y : Row}
    (hi : ∀ e, within I e = true → holds F (merge T a b) e = holds F y e) :
    holdsAll F cs (merge T a b) =
      (holdsAll F (split ty O I cs es).stay (merge T a b) && holdsAll F (split ty O I cs es).inner y) := by
  rw [Bool.eq_iff_iff]
  have hs : (split ty O I cs es).stay = cs.filter fun e => !within I e := by rcases hty with h | h <;> subst h <;> rfl
  have hn : (split ty O I cs es).inner = cs.filter (within I) := by rcases hty with h | h <;> subst h <;> rfl
  rw [hs, hn]
  simp only [Bool.and_eq_true, holdsAll_filter, Bool.not_eq_true']
  rw [holdsAll_iff]
  constructor
  · exact fun h => ⟨fun e he _ => h e he, fun e he hw => by rw [← hi e hw]; exact h e he⟩
  · rintro ⟨h1, h2⟩ e he
    cases hc : within I e with
    | true => rw [hi e hc]; exact h2 e he hc
    | false => exact h1 e he hc

/-- The conditions above a LEFT or RIGHT JOIN. -/
theorem split_es {O I : List Nat} {ty : JType} (hty : ty = .left ∨ ty = .right) {cs es : List Expr}
    (hfo : ∀ e ∈ es, foreign (O ++ I) e = false) {r : Row} :
    holdsAll F es r = (holdsAll F (split ty O I cs es).outer r && holdsAll F (split ty O I cs es).back r) := by
  rw [Bool.eq_iff_iff]
  have hs : (split ty O I cs es).outer = es.filter (within O) := by
    have : es.filter (fun e => !foreign (O ++ I) e) = es := List.filter_eq_self.mpr fun e he => by simp [hfo e he]
    rcases hty with h | h <;> subst h <;> simp only [split, this]
  have hn : (split ty O I cs es).back = es.filter fun e => !within O e := by
    have : es.filter (fun e => !foreign (O ++ I) e) = es := List.filter_eq_self.mpr fun e he => by simp [hfo e he]
    rcases hty with h | h <;> subst h <;> simp only [split, this]
  rw [hs, hn]
  simp only [Bool.and_eq_true, holdsAll_filter, Bool.not_eq_true']
  rw [holdsAll_iff]
  constructor
  · exact fun h => ⟨fun e he _ => h e he, fun e he _ => h e he⟩
  · rintro ⟨h1, h2⟩ e he
    cases hc : within O e with
    | true => exact h1 e he hc
    | false => exact h2 e he hc

theorem split_mem {ty : JType} (hty : ty ≠ .full) {O I : List Nat} {cs es : List Expr} {e : Expr} :
    (e ∈ (split ty O I cs es).outer → (e ∈ es ∨ e ∈ cs) ∧ within O e = true) ∧
      (e ∈ (split ty O I cs es).inner → (e ∈ es ∨ e ∈ cs) ∧ within I e = true) := by
  cases ty with
  | full => exact absurd rfl hty
  | inner =>
    simp only [split, List.mem_append, List.mem_filter, Bool.and_eq_true]
    constructor
    · rintro (h | h)
      · exact ⟨.inr h.1, h.2⟩
      · exact ⟨.inl h.1.1, h.2⟩
    · rintro (h | h)
      · exact ⟨.inr h.1, h.2.2⟩
      · exact ⟨.inl h.1.1, h.2.2⟩
  | left =>
    simp only [split, List.mem_filter]
    exact ⟨fun h => ⟨.inl h.1.1, h.2⟩, fun h => ⟨.inr h.1, h.2⟩⟩
  | right =>
    simp only [split, List.mem_filter]
    exact ⟨fun h => ⟨.inl h.1.1, h.2⟩, fun h => ⟨.inr h.1, h.2⟩⟩

/-- The rows of a join after its conditions and those above have been handed out. -/
theorem joinRows_split {A B : List Nat} {ty : JType} {swap : Bool} {cs es : List Expr} {L R : List Row} (hd : ∀ t ∈ A, t ∉ B)
    (hl : ty = .left → swap = false) (hr : ty = .right → swap = true) (hty : ty ≠ .full)
    (hfo : ty ≠ .inner → ∀ e ∈ es, foreign (A ++ B) e = false) {s : Split}
    (hs : s = if swap then split ty B A cs es else split ty A B cs es) :
    (joinRows F ρ A B s.stay (L.filter (holdsAll F (if swap then s.inner else s.outer)))
        (R.filter (holdsAll F (if swap then s.outer else s.inner))) ty).filter (holdsAll F s.back) =
      (joinRows F ρ A B cs L R ty).filter (holdsAll F es) := by
  have hA : ∀ a b e, within A e = true → holds F (merge B a b) e = holds F a e := fun a b e h => holds_left hd h
  have hB : ∀ a b e, within B e = true → holds F (merge B a b) e = holds F b e := fun a b e h => holds_right h
  cases ty with
  | full => exact absurd rfl hty
  | inner =>
    show (joinI _ _ _ _).filter _ = (joinI _ _ _ _).filter _
    rw [filter_joinI, filter_joinI]
    symm
    refine joinI_eq fun a _ b _ => ?_
    cases swap with
    | false =>
      simp only [Bool.false_eq_true, if_false] at hs ⊢
      subst hs
      exact split_inner (hA a b) (hB a b)
    | true =>
      simp only [if_true] at hs ⊢
      subst hs
      rw [split_inner (O := B) (I := A) (x := b) (y := a) (hB a b) (hA a b)]
      simp only [Bool.and_assoc, Bool.and_comm (holdsAll F (split .inner B A cs es).outer b)]
  | left =>
    have := hl rfl
    subst this
    simp only [Bool.false_eq_true, if_false] at hs ⊢
    subst hs
    have hfo := hfo (by decide)
    show (joinL _ _ _ _ _).filter _ = (joinL _ _ _ _ _).filter _
    rw [joinL_inner (P := holdsAll F (split .left A B cs es).stay) (Q := holdsAll F cs)
      fun a _ b _ => split_cs (.inl rfl) (hB a b)]
    have he : holdsAll F es = fun x => holdsAll F (split .left A B cs es).outer x && holdsAll F (split .left A B cs es).back x :=
      funext fun r => split_es (.inl rfl) hfo
    rw [he, ← filter_and]
    congr 1
    have ho : ∀ a b, holdsAll F (split .left A B cs es).outer (merge B a b) = holdsAll F (split .left A B cs es).outer a :=
      fun a b => holdsAll_left hd fun e he => ((split_mem (by decide)).1 he).2
    exact (filter_joinL (fun a _ b _ => ho a b) (fun a _ => ho a _)).symm
  | right =>
    have := hr rfl
    subst this
    simp only [if_true] at hs ⊢
    subst hs
    have hfo : ∀ e ∈ es, foreign (B ++ A) e = false := fun e he => by
      have := hfo (by decide) e he
      simpa [foreign, within, or_comm] using this
    show (joinL _ _ _ _ _).filter _ = (joinL _ _ _ _ _).filter _
    rw [joinL_inner (P := holdsAll F (split .right B A cs es).stay) (Q := holdsAll F cs)
      fun b _ a _ => split_cs (.inr rfl) (hA a b)]
    have he : holdsAll F es = fun x => holdsAll F (split .right B A cs es).outer x && holdsAll F (split .right B A cs es).back x :=
      funext fun r => split_es (.inr rfl) hfo
    rw [he, ← filter_and]
    congr 1
    have ho : ∀ a b, holdsAll F (split .right B A cs es).outer (merge B a b) = holdsAll F (split .right B A cs es).outer b :=
      fun a b => holdsAll_right fun e he => ((split_mem (by decide)).1 he).2
    exact (filter_joinL (fun b _ a _ => ho a b) (fun b _ => ho _ b)).symm

theorem joinRows_perm {A B : List Nat} {ty : JType} {cs : List Expr} {L L' R R' : List Row} (hL : L.Perm L') (hR : R.Perm R') :
    (joinRows F ρ A B cs L R ty).Perm (joinRows F ρ A B cs L' R' ty) := by
  cases ty with
  | inner => exact joinI_perm hL hR
  | left => exact joinL_perm hL hR
  | right => exact joinL_perm hR hL
  | full => exact (joinL_perm hL hR).append ((lone_perm hL hR).map _)

theorem tups_wrap {es : List Expr} {p : Tree} : tups (wrap es p) = tups p := by
  unfold wrap; split <;> rfl

theorem sem_wrap {es : List Expr} {p : Tree} : sem F D ρ (wrap es p) = (sem F D ρ p).filter (holdsAll F es) := by
  unfold wrap
  split
  · rename_i h; rw [List.isEmpty_iff.mp h, filter_true]
  · rfl

/-- What the push-down makes of a join that is not a FULL JOIN. -/
def pushJoin (ty ty' : JType) (cs es : List Expr) (l r l' r' : Tree) : Tree × List Expr :=
  let swap := decide (ty = .right) || decide (ty' = .right)
  let s := if swap then split ty' (tups r) (tups l) cs es else split ty' (tups l) (tups r) cs es
  let pl := push false (if swap then s.inner else s.outer) l'
  let pr := push false (if swap then s.outer else s.inner) r'
  (.join ty' s.stay (wrap pl.2 pl.1) (wrap pr.2 pr.1), s.back)

theorem push_join (pf : Bool) (es cs : List Expr) (ty : JType) (l r : Tree) :
    push pf es (.join ty cs l r) =
      if newType es (tups l) (tups r) ty = .full then (.join .full cs (conv (es ++ cs) l) (conv (es ++ cs) r), es)
      else pushJoin ty (newType es (tups l) (tups r) ty) cs es l r (conv (es ++ cs) l) (conv (es ++ cs) r) := by
  rw [push]
  unfold pushJoin
  cases newType es (tups l) (tups r) ty <;> rfl

theorem tups_push (pf : Bool) (es : List Expr) : (p : Tree) → tups (push pf es p).1 = tups p
  | .scan t => by
    rw [push]; split
    · rfl
    · exact tups_wrap
  | .filter cs p => by
    rw [push]; exact tups_push true (es ++ cs) p
  | .join ty cs l r => by
    rw [push_join]
    split
    · simp [tups, tups_conv]
    · simp only [pushJoin, tups, tups_wrap]
      rw [tups_push false _ (conv (es ++ cs) l), tups_push false _ (conv (es ++ cs) r), tups_conv, tups_conv]
termination_by p => size p
decreasing_by
  all_goals simp only [size, size_conv]; omega

theorem corrOk_append {es cs : List Expr} {p : Tree} (h1 : CorrOk es p) (h2 : CorrOk cs p) : CorrOk (es ++ cs) p := by
  induction p with
  | scan t => trivial
  | filter cs' p ih => exact ih h1 h2
  | join ty cs' l r =>
    rcases h1 with h1 | h1
    · exact .inl h1
    rcases h2 with h2 | h2
    · exact .inl h2
    exact .inr fun e he => (List.mem_append.mp he).elim (h1 e) (h2 e)

theorem conv_inner {es : List Expr} {p : Tree} (h : allInner p = true) : conv es p = p := by
  induction p generalizing es with
  | scan t => rfl
  | filter cs p => rfl
  | join ty cs l r ihl ihr =>
    simp only [allInner, Bool.and_eq_true, decide_eq_true_eq] at h
    obtain ⟨⟨rfl, hl⟩, hr⟩ := h
    rw [conv, ihl hl, ihr hr]; rfl

/-- What is asked of the conditions `es` above `p` and of those in it: nothing if there are only INNER JOINs. -/
def Good (F : Fns) (nf : Bool) (es : List Expr) (p : Tree) : Prop :=
  allInner p = true ∨ (nf = true → noFull p = true) ∧ (∀ e ∈ conds p, Fit F nf e) ∧ ∀ e ∈ es, Fit F nf e

/-- The rows of the new plan that pass the conditions handed back are the rows of the plan that pass the conditions handed
down. -/
theorem push_sem {nf : Bool} (pf : Bool) (es : List Expr) : (p : Tree) → Wf p → CorrOk es p → Good F nf es p →
    ((sem F D ρ (push pf es p).1).filter (holdsAll F (push pf es p).2)).Perm ((sem F D ρ p).filter (holdsAll F es))
  | .scan t, _, _, _ => by
    rw [push]; split
    · exact .refl _
    · rw [sem_wrap, filter_true]
  | .filter cs p, hw, hc, hg => by
    rw [push]
    simp only [filter_true, sem]
    have hc' : CorrOk (es ++ cs) p := corrOk_append hc hw.2
    have hg' : Good F nf (es ++ cs) p := hg.imp id fun ⟨hf, hp, hes⟩ => ⟨hf, fun e he => hp e (by simp [conds, he]),
      fun e he => (List.mem_append.mp he).elim (hes e) fun h => hp e (by simp [conds, h])⟩
    have := push_sem true (es ++ cs) p hw.1 hc' hg'
    refine this.trans ?_
    rw [filter_and]
    refine .of_eq (List.filter_congr fun x _ => ?_)
    rw [holdsAll_append, Bool.and_comm]
  | .join ty cs l r, hw, hc, hg => by
    have hw0 := hw
    obtain ⟨hwl, hwr, hd, hcl, hcr⟩ := hw
    have h0 : ((sem F D ρ (conv es (.join ty cs l r))).filter (holdsAll F es)).Perm
        ((sem F D ρ (.join ty cs l r)).filter (holdsAll F es)) := by
      rcases hg with hg | ⟨hf, hp, hes⟩
      · rw [conv_inner hg]
      · exact conv_filter hw0 hf hp hes
    have good : ∀ xs, (∀ e ∈ xs, e ∈ es ∨ e ∈ cs) → Good F nf xs (conv (es ++ cs) l) ∧ Good F nf xs (conv (es ++ cs) r) := by
      intro xs hx
      rcases hg with hg | ⟨hf, hp, hes⟩
      · simp only [allInner, Bool.and_eq_true] at hg
        rw [conv_inner hg.1.2, conv_inner hg.2]
        exact ⟨.inl hg.1.2, .inl hg.2⟩
      · have hcs : ∀ e ∈ cs, Fit F nf e := fun e he => hp e (by simp [conds, he])
        have hxs : ∀ e ∈ xs, Fit F nf e := fun e he => (hx e he).elim (hes e) (hcs e)
        refine ⟨.inr ⟨fun h => noFull_conv _ _ ?_, ?_, hxs⟩, .inr ⟨fun h => noFull_conv _ _ ?_, ?_, hxs⟩⟩
        · have := hf h; simp only [noFull, Bool.and_eq_true] at this; exact this.1.2
        · rw [conds_conv]; exact fun e he => hp e (by simp [conds, he])
        · have := hf h; simp only [noFull, Bool.and_eq_true] at this; exact this.2
        · rw [conds_conv]; exact fun e he => hp e (by simp [conds, he])
    refine List.Perm.trans ?_ h0
    rw [push_join]
    by_cases hfull : newType es (tups l) (tups r) ty = .full
    · rw [if_pos hfull, conv, hfull]
    rw [if_neg hfull]
    simp only [conv, pushJoin, sem, tups_wrap, tups_push, sem_wrap, tups_conv]
    have hl : newType es (tups l) (tups r) ty = .left →
        (decide (ty = .right) || decide (newType es (tups l) (tups r) ty = .right)) = false := fun h => by
      rw [h]; rcases newType_left h with h | h <;> rw [h] <;> rfl
    have hr : newType es (tups l) (tups r) ty = .right →
        (decide (ty = .right) || decide (newType es (tups l) (tups r) ty = .right)) = true := fun h => by simp [h]
    have hfo : newType es (tups l) (tups r) ty ≠ .inner → ∀ e ∈ es, foreign (tups l ++ tups r) e = false := fun h => by
      rcases hc with hc | hc
      · subst hc; exact absurd rfl h
      · exact hc
    rw [← joinRows_split hd hl hr hfull hfo rfl]
    generalize hsw : (decide (ty = .right) || decide (newType es (tups l) (tups r) ty = .right)) = swap
    have mem : ∀ e, (e ∈ (if swap then (if swap then split (newType es (tups l) (tups r) ty) (tups r) (tups l) cs es
            else split (newType es (tups l) (tups r) ty) (tups l) (tups r) cs es).inner
          else (if swap then split (newType es (tups l) (tups r) ty) (tups r) (tups l) cs es
            else split (newType es (tups l) (tups r) ty) (tups l) (tups r) cs es).outer) →
          (e ∈ es ∨ e ∈ cs) ∧ within (tups l) e = true) ∧
        (e ∈ (if swap then (if swap then split (newType es (tups l) (tups r) ty) (tups r) (tups l) cs es
            else split (newType es (tups l) (tups r) ty) (tups l) (tups r) cs es).outer
          else (if swap then split (newType es (tups l) (tups r) ty) (tups r) (tups l) cs es
            else split (newType es (tups l) (tups r) ty) (tups l) (tups r) cs es).inner) →
          (e ∈ es ∨ e ∈ cs) ∧ within (tups r) e = true) := by
      intro e
      cases swap with
      | true => exact ⟨(split_mem hfull).2, (split_mem hfull).1⟩
      | false => exact split_mem hfull
    refine (joinRows_perm ?_ ?_).filter _
    · refine push_sem false _ (conv (es ++ cs) l) (wf_conv _ _ hwl) ?_ (good _ fun e he => ((mem e).1 he).1).1
      exact corrOk_of_within fun e he => by rw [tups_conv]; exact ((mem e).1 he).2
    · refine push_sem false _ (conv (es ++ cs) r) (wf_conv _ _ hwr) ?_ (good _ fun e he => ((mem e).2 he).1).2
      exact corrOk_of_within fun e he => by rw [tups_conv]; exact ((mem e).2 he).2
termination_by p => size p
decreasing_by
  all_goals simp only [size, size_conv]; omega

end BaikalDB.Plan
