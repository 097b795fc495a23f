import Verif.Plan.Rows
import Verif.Plan.Spec

/-! # Lemmas about conditions, types of joins and rows -/

namespace BaikalDB.Plan

variable {F : Fns} {D : Nat → List (Nat → Val)} {ρ : Row}

/-! ## Evaluation -/

mutual
theorem eval_congr {r r' : Row} : (e : Expr) → (∀ t ∈ tupsE e, r t = r' t) → eval F r e = eval F r' e
  | .slot t s, h => by rw [eval, eval, h t (by simp [tupsE])]
  | .lit v, _ => rfl
  | .call f as, h => by rw [eval, eval, evalAll_congr as (by simpa [tupsE] using h)]
  | .inList x vs, h => by rw [eval, eval, eval_congr x (by simpa [tupsE] using h)]
  | .and a b, h => by
    rw [eval, eval, eval_congr a (fun t ht => h t (by simp [tupsE, ht])), eval_congr b (fun t ht => h t (by simp [tupsE, ht]))]
  | .or a b, h => by
    rw [eval, eval, eval_congr a (fun t ht => h t (by simp [tupsE, ht])), eval_congr b (fun t ht => h t (by simp [tupsE, ht]))]
  | .xor a b, h => by
    rw [eval, eval, eval_congr a (fun t ht => h t (by simp [tupsE, ht])), eval_congr b (fun t ht => h t (by simp [tupsE, ht]))]
  | .not a, h => by rw [eval, eval, eval_congr a (by simpa [tupsE] using h)]
  | .isNull a, h => by rw [eval, eval, eval_congr a (by simpa [tupsE] using h)]
  | .isTrue a, h => by rw [eval, eval, eval_congr a (by simpa [tupsE] using h)]
theorem evalAll_congr {r r' : Row} : (as : List Expr) → (∀ t ∈ tupsEs as, r t = r' t) → evalAll F r as = evalAll F r' as
  | [], _ => rfl
  | a :: as, h => by
    rw [evalAll, evalAll, eval_congr a (fun t ht => h t (by simp [tupsEs, ht])),
      evalAll_congr as (fun t ht => h t (by simp [tupsEs, ht]))]
end

theorem holds_congr {r r' : Row} {e : Expr} (h : ∀ t ∈ tupsE e, r t = r' t) : holds F r e = holds F r' e := by
  unfold holds; rw [eval_congr e h]

theorem within_iff {T : List Nat} {e : Expr} : within T e = true ↔ ∀ t ∈ tupsE e, t ∈ T := by simp [within]

theorem within_mono {T T' : List Nat} {e : Expr} (h : ∀ t ∈ T, t ∈ T') (hw : within T e = true) : within T' e = true :=
  within_iff.mpr fun t ht => h t (within_iff.mp hw t ht)

theorem holdsAll_iff {es : List Expr} {r : Row} : holdsAll F es r = true ↔ ∀ e ∈ es, holds F r e = true := by
  simp [holdsAll]

theorem holdsAll_append {es es' : List Expr} {r : Row} : holdsAll F (es ++ es') r = (holdsAll F es r && holdsAll F es' r) := by
  simp [holdsAll]

/-- A condition on the left side, on the right side of a joined row. -/
theorem holds_left {A B : List Nat} {a b : Row} {e : Expr} (hd : ∀ t ∈ A, t ∉ B) (h : within A e = true) :
    holds F (merge B a b) e = holds F a e :=
  holds_congr fun t ht => by simp [merge, hd t (within_iff.mp h t ht)]

theorem holds_right {B : List Nat} {a b : Row} {e : Expr} (h : within B e = true) : holds F (merge B a b) e = holds F b e :=
  holds_congr fun t ht => by simp [merge, within_iff.mp h t ht]

theorem holdsAll_left {A B : List Nat} {a b : Row} {es : List Expr} (hd : ∀ t ∈ A, t ∉ B) (h : ∀ e ∈ es, within A e = true) :
    holdsAll F es (merge B a b) = holdsAll F es a := by
  rw [Bool.eq_iff_iff, holdsAll_iff, holdsAll_iff]
  exact forall₂_congr fun e he => by rw [holds_left hd (h e he)]

theorem holdsAll_right {B : List Nat} {a b : Row} {es : List Expr} (h : ∀ e ∈ es, within B e = true) :
    holdsAll F es (merge B a b) = holdsAll F es b := by
  rw [Bool.eq_iff_iff, holdsAll_iff, holdsAll_iff]
  exact forall₂_congr fun e he => by rw [holds_right (h e he)]

/-! ## Changing the type of a join -/

theorem Honest.toInner {e : Expr} (h : Honest F e) {O I : List Nat} (hu : toInner O I e = true) : Rejects F I e := by
  unfold Plan.toInner at hu
  simp only [Bool.and_eq_true, Bool.or_eq_true, Bool.not_eq_true'] at hu
  obtain ⟨ho, hi⟩ := hu
  have hne : ∃ t ∈ tupsE e, t ∉ O := by
    by_contra hc
    push Not at hc
    rw [within_iff.mpr hc] at ho
    cases ho
  obtain ⟨t, ht, hto⟩ := hne
  rcases hi with ⟨h1, h2⟩ | ⟨⟨h1, h2⟩, h3⟩
  · exact h.all (List.ne_nil_of_mem ht) h2 I h1
  · refine h.one h2 h3 I ⟨t, ht, ?_⟩
    rcases List.mem_append.mp (within_iff.mp h1 t ht) with h' | h'
    · exact absurd h' hto
    · exact h'

theorem spans_rejects {e : Expr} (h : Honest F e) {O I : List Nat} (hu : spans O I e = true) : Rejects F O e ∧ Rejects F I e := by
  unfold spans at hu
  simp only [Bool.and_eq_true, Bool.not_eq_true'] at hu
  obtain ⟨⟨⟨⟨ho, hi⟩, hw⟩, hn⟩, hor⟩ := hu
  have key : ∀ X Y : List Nat, within X e = false → within (Y ++ X) e = true → Rejects F Y e := by
    intro X Y hx hw
    have hne : ∃ t ∈ tupsE e, t ∉ X := by
      by_contra hc
      push Not at hc
      rw [within_iff.mpr hc] at hx
      cases hx
    obtain ⟨t, ht, hto⟩ := hne
    refine h.one hn hor Y ⟨t, ht, ?_⟩
    rcases List.mem_append.mp (within_iff.mp hw t ht) with h' | h'
    · exact h'
    · exact absurd h' hto
  exact ⟨key I O hi hw, key O I ho (within_mono (fun t ht => by
    rcases List.mem_append.mp ht with h | h <;> simp [h]) hw)⟩

theorem Fit.needsOuter {nf : Bool} {e : Expr} (h : Fit F nf e) (hnf : nf = false) {O I : List Nat}
    (hu : needsOuter O I e = true) : Rejects F O e := by
  unfold Plan.needsOuter at hu
  simp only [Bool.and_eq_true, Bool.or_eq_true, Bool.not_eq_true'] at hu
  rcases hu with ⟨h1, h2⟩ | hu
  · rcases h.const with hc | hc | hc
    · rw [hnf] at hc; cases hc
    · exact h.honest.all hc h2 O h1
    · rw [h2] at hc; cases hc
  · exact (spans_rejects h.honest hu).1

theorem Fit.needsInner {nf : Bool} {e : Expr} (h : Fit F nf e) (hnf : nf = false) {O I : List Nat}
    (hu : needsInner O I e = true) : Rejects F I e := by
  unfold Plan.needsInner at hu
  simp only [Bool.and_eq_true, Bool.or_eq_true] at hu
  rcases hu with ⟨-, h1, h2⟩ | hu
  · simp only [Bool.not_eq_true'] at h2
    rcases h.const with hc | hc | hc
    · rw [hnf] at hc; cases hc
    · exact h.honest.all hc h2 I h1
    · rw [h2] at hc; cases hc
  · exact (spans_rejects h.honest hu).2

/-- A row NULL in the tuples of one side. -/
theorem rejects_nulls {es : List Expr} {T : List Nat} {e : Expr} (he : e ∈ es) (h : Rejects F T e) {r : Row}
    (hr : ∀ t ∈ T, ∀ s, r t s = none) : holdsAll F es r = false := by
  rw [← Bool.not_eq_true, holdsAll_iff]
  intro hc
  have := hc e he
  rw [h r hr] at this
  cases this

theorem merge_nulls_right {B : List Nat} {a : Row} : ∀ t ∈ B, ∀ s, merge B a (nulls B ρ) t s = none := by
  intro t ht s; simp [merge, nulls, ht]

theorem merge_nulls_left {A B : List Nat} {b : Row} (hd : ∀ t ∈ A, t ∉ B) :
    ∀ t ∈ A, ∀ s, merge B (nulls A ρ) b t s = none := by
  intro t ht s; simp [merge, nulls, ht, hd t ht]

/-- The rows that pass the conditions above a join stay the same when its type is changed. -/
theorem newType_sem {nf : Bool} {A B : List Nat} {ty : JType} {cs es : List Expr} {L R : List Row} (hd : ∀ t ∈ A, t ∉ B)
    (hf : nf = true → ty ≠ .full) (hes : ∀ e ∈ es, Fit F nf e) :
    ((joinRows F ρ A B cs L R (newType es A B ty)).filter (holdsAll F es)).Perm
      ((joinRows F ρ A B cs L R ty).filter (holdsAll F es)) := by
  cases ty with
  | inner => exact .refl _
  | left =>
    simp only [newType]
    by_cases h : es.any (toInner A B) = true
    · rw [if_pos h]
      obtain ⟨e, he, hu⟩ := List.any_eq_true.mp h
      refine .of_eq (filter_joinL_reject fun a _ => ?_).symm
      exact rejects_nulls he ((hes e he).honest.toInner hu) merge_nulls_right
    · rw [if_neg h]
  | right =>
    simp only [newType]
    by_cases h : es.any (toInner B A) = true
    · rw [if_pos h]
      obtain ⟨e, he, hu⟩ := List.any_eq_true.mp h
      have h1 : (joinL (fun b a => merge B a b) (holdsAll F cs) (nulls A ρ) R L).filter (holdsAll F es) =
          (joinI (fun b a => merge B a b) (holdsAll F cs) R L).filter (holdsAll F es) :=
        filter_joinL_reject fun a _ => rejects_nulls he ((hes e he).honest.toInner hu) (merge_nulls_left hd)
      show ((joinI _ _ _ _).filter _).Perm ((joinL _ _ _ _ _).filter _)
      rw [h1]
      exact ((joinI_swap L R).filter _).symm
    · rw [if_neg h]
  | full =>
    have hnf : nf = false := by
      cases nf with
      | false => rfl
      | true => exact absurd rfl (hf rfl)
    have hR : es.any (needsOuter A B) = true →
        (((lone (merge B) (holdsAll F cs) L R).map (merge B (nulls A ρ))).filter (holdsAll F es)) = [] := by
      intro h
      obtain ⟨e, he, hu⟩ := List.any_eq_true.mp h
      rw [List.filter_eq_nil_iff]
      intro x hx
      obtain ⟨b, -, rfl⟩ := List.mem_map.mp hx
      rw [rejects_nulls he ((hes e he).needsOuter hnf hu) (merge_nulls_left hd)]
      simp
    have hL : es.any (needsInner A B) = true →
        (joinL (merge B) (holdsAll F cs) (nulls B ρ) L R).filter (holdsAll F es) =
          (joinI (merge B) (holdsAll F cs) L R).filter (holdsAll F es) := by
      intro h
      obtain ⟨e, he, hu⟩ := List.any_eq_true.mp h
      exact filter_joinL_reject fun a _ => rejects_nulls he ((hes e he).needsInner hnf hu) merge_nulls_right
    simp only [newType]
    by_cases h1 : es.any (needsOuter A B) = true
    · by_cases h2 : es.any (needsInner A B) = true
      · rw [if_pos (by simp [h1, h2])]
        show ((joinI _ _ _ _).filter _).Perm ((_ ++ _ : List Row).filter _)
        rw [List.filter_append, hR h1, List.append_nil, hL h2]
      · rw [if_neg (by simp [h2]), if_pos h1]
        show ((joinL _ _ _ _ _).filter _).Perm ((_ ++ _ : List Row).filter _)
        rw [List.filter_append, hR h1, List.append_nil]
    · rw [if_neg (by simp [h1]), if_neg h1]
      by_cases h2 : es.any (needsInner A B) = true
      · rw [if_pos h2]
        show ((joinL _ _ _ _ _).filter _).Perm ((_ ++ _ : List Row).filter _)
        rw [List.filter_append, hL h2]
        refine ((joinL_split R L).filter _).trans ?_
        rw [List.filter_append]
        exact List.Perm.append ((joinI_swap L R).filter _) (.refl _)
      · rw [if_neg h2]

/-! ## Which conditions matter -/

theorem newType_any {es es' : List Expr} {A B : List Nat} {ty : JType}
    (h : ∀ e, newType [e] A B ty ≠ ty → (e ∈ es ↔ e ∈ es')) : newType es A B ty = newType es' A B ty := by
  have key : ∀ f : Expr → Bool, (∀ e, f e = true → newType [e] A B ty ≠ ty) → es.any f = es'.any f := by
    intro f hf
    rw [Bool.eq_iff_iff, List.any_eq_true, List.any_eq_true]
    constructor
    · rintro ⟨e, he, h'⟩; exact ⟨e, (h e (hf e h')).mp he, h'⟩
    · rintro ⟨e, he, h'⟩; exact ⟨e, (h e (hf e h')).mpr he, h'⟩
  cases ty with
  | inner => rfl
  | left => simp only [newType]; rw [key (toInner A B) (fun e he => by simp [newType, he])]
  | right => simp only [newType]; rw [key (toInner B A) (fun e he => by simp [newType, he])]
  | full =>
    simp only [newType]
    rw [key (needsOuter A B) (fun e he => by cases h : needsInner A B e <;> simp [newType, he, h]),
      key (needsInner A B) (fun e he => by cases h : needsOuter A B e <;> simp [newType, he, h])]

theorem newType_facts {e : Expr} {A B : List Nat} {ty : JType} (h : newType [e] A B ty ≠ ty) :
    within (A ++ B) e = true ∧ hasNullFn e = false ∧ (tupsE e ≠ [] ∨ ty = .full) := by
  have ha : within A e = true → within (A ++ B) e = true := within_mono fun t ht => by simp [ht]
  have hb : within B e = true → within (A ++ B) e = true := within_mono fun t ht => by simp [ht]
  have hc : within (B ++ A) e = true → within (A ++ B) e = true :=
    within_mono fun t ht => by rcases List.mem_append.mp ht with h | h <;> simp [h]
  have ne : ∀ O, within O e = false → tupsE e ≠ [] := by
    intro O ho hn
    rw [within, hn] at ho
    cases ho
  cases ty with
  | inner => exact absurd rfl h
  | left =>
    have hu : toInner A B e = true := by
      by_contra hc; apply h; simp [newType, hc]
    unfold toInner at hu
    simp only [Bool.and_eq_true, Bool.or_eq_true, Bool.not_eq_true'] at hu
    obtain ⟨ho, ⟨h1, h2⟩ | ⟨⟨h1, h2⟩, h3⟩⟩ := hu
    · exact ⟨hb h1, h2, .inl (ne _ ho)⟩
    · exact ⟨h1, h2, .inl (ne _ ho)⟩
  | right =>
    have hu : toInner B A e = true := by
      by_contra hc; apply h; simp [newType, hc]
    unfold toInner at hu
    simp only [Bool.and_eq_true, Bool.or_eq_true, Bool.not_eq_true'] at hu
    obtain ⟨ho, ⟨h1, h2⟩ | ⟨⟨h1, h2⟩, h3⟩⟩ := hu
    · exact ⟨ha h1, h2, .inl (ne _ ho)⟩
    · exact ⟨hc h1, h2, .inl (ne _ ho)⟩
  | full =>
    refine ⟨?_, ?_, .inr rfl⟩
    all_goals
      have hu : needsOuter A B e = true ∨ needsInner A B e = true := by
        by_contra hc
        push Not at hc
        apply h; simp [newType, hc.1, hc.2]
      unfold needsOuter needsInner spans at hu
      simp only [Bool.and_eq_true, Bool.or_eq_true, Bool.not_eq_true'] at hu
      rcases hu with (⟨h1, h2⟩ | ⟨⟨⟨⟨-, -⟩, h1⟩, h2⟩, -⟩) | (⟨-, h1, h2⟩ | ⟨⟨⟨⟨-, -⟩, h1⟩, h2⟩, -⟩)
      all_goals first | exact h2 | exact h1 | exact ha h1 | exact hb h1

theorem uses_facts {e : Expr} {p : Tree} (h : uses e p = true) :
    within (tups p) e = true ∧ hasNullFn e = false ∧ (tupsE e ≠ [] ∨ noFull p = false) := by
  induction p with
  | scan t => cases h
  | filter cs p => cases h
  | join ty cs l r ihl ihr =>
    simp only [uses, Bool.or_eq_true, decide_eq_true_eq] at h
    rcases h with (h | h) | h
    · obtain ⟨h1, h2, h3⟩ := newType_facts h
      refine ⟨h1, h2, h3.imp id fun h => ?_⟩
      simp [noFull, h]
    · obtain ⟨h1, h2, h3⟩ := ihl h
      exact ⟨within_mono (fun t ht => by simp [tups, ht]) h1, h2, h3.imp id fun h => by simp [noFull, h]⟩
    · obtain ⟨h1, h2, h3⟩ := ihr h
      exact ⟨within_mono (fun t ht => by simp [tups, ht]) h1, h2, h3.imp id fun h => by simp [noFull, h]⟩

/-- Conversion looks only at the conditions that matter. -/
theorem conv_congr {es es' : List Expr} {p : Tree} (h : ∀ e, uses e p = true → (e ∈ es ↔ e ∈ es')) : conv es p = conv es' p := by
  induction p generalizing es es' with
  | scan t => rfl
  | filter cs p => rfl
  | join ty cs l r ihl ihr =>
    unfold conv
    rw [newType_any (es' := es') fun e he => h e (by simp [uses, he]),
      ihl (es' := es' ++ cs) fun e he => by
        have := h e (by simp [uses, he])
        simp [this],
      ihr (es' := es' ++ cs) fun e he => by
        have := h e (by simp [uses, he])
        simp [this]]

theorem tups_conv (es : List Expr) (p : Tree) : tups (conv es p) = tups p := by
  induction p generalizing es with
  | scan t => rfl
  | filter cs p => rfl
  | join ty cs l r ihl ihr => simp [conv, tups, ihl, ihr]

theorem conds_conv (es : List Expr) (p : Tree) : conds (conv es p) = conds p := by
  induction p generalizing es with
  | scan t => rfl
  | filter cs p => rfl
  | join ty cs l r ihl ihr => simp [conv, conds, ihl, ihr]

theorem newType_full {es : List Expr} {A B : List Nat} {ty : JType} (h : newType es A B ty = .full) : ty = .full := by
  cases ty with
  | inner => exact h
  | left => simp only [newType] at h; split at h <;> cases h
  | right => simp only [newType] at h; split at h <;> cases h
  | full => rfl

theorem noFull_conv (es : List Expr) (p : Tree) (h : noFull p = true) : noFull (conv es p) = true := by
  induction p generalizing es with
  | scan t => rfl
  | filter cs p => exact h
  | join ty cs l r ihl ihr =>
    simp only [noFull, Bool.and_eq_true, decide_eq_true_eq] at h
    simp only [conv, noFull, Bool.and_eq_true, decide_eq_true_eq]
    exact ⟨⟨fun hc => h.1.1 (newType_full hc), ihl _ h.1.2⟩, ihr _ h.2⟩

/-- A condition that changes a join after the conversion changed it before. -/
theorem newType_mono {e : Expr} {es : List Expr} {A B : List Nat} {ty : JType}
    (h : newType [e] A B (newType es A B ty) ≠ newType es A B ty) : newType [e] A B ty ≠ ty := by
  cases ty with
  | inner => exact absurd rfl h
  | left =>
    simp only [newType] at h
    by_cases hc : es.any (toInner A B) = true
    · rw [if_pos hc] at h; exact absurd rfl h
    · rw [if_neg hc] at h; exact h
  | right =>
    simp only [newType] at h
    by_cases hc : es.any (toInner B A) = true
    · rw [if_pos hc] at h; exact absurd rfl h
    · rw [if_neg hc] at h; exact h
  | full =>
    have key : ∀ X Y, toInner X Y e = true → (needsInner X Y e = true) := by
      intro X Y hu
      unfold toInner at hu
      unfold needsInner spans
      simp only [Bool.and_eq_true, Bool.or_eq_true, Bool.not_eq_true'] at hu
      obtain ⟨ho, ⟨h1, h2⟩ | ⟨⟨h1, h2⟩, h3⟩⟩ := hu
      · simp [ho, h1, h2]
      · cases h4 : within Y e <;> simp [ho, h1, h2, h3]
    have key' : ∀ X Y, toInner Y X e = true → (needsOuter X Y e = true) := by
      intro X Y hu
      unfold toInner at hu
      unfold needsOuter spans
      simp only [Bool.and_eq_true, Bool.or_eq_true, Bool.not_eq_true'] at hu
      obtain ⟨ho, ⟨h1, h2⟩ | ⟨⟨h1, h2⟩, h3⟩⟩ := hu
      · simp [h1, h2]
      · have h1' : within (X ++ Y) e = true :=
          within_mono (fun t ht => by rcases List.mem_append.mp ht with h | h <;> simp [h]) h1
        cases h4 : within X e <;> simp [ho, h1', h2, h3]
    by_cases hf : newType es A B .full = .full
    · rw [hf] at h; exact h
    · intro hc
      have hno : needsOuter A B e = false := by
        rw [← Bool.not_eq_true]; intro h1
        cases h2 : needsInner A B e <;> simp [newType, h1, h2] at hc
      have hni : needsInner A B e = false := by
        rw [← Bool.not_eq_true]; intro h1
        simp [newType, hno, h1] at hc
      have t1 : toInner A B e = false := by
        rw [← Bool.not_eq_true]; intro h1; rw [key A B h1] at hni; cases hni
      have t2 : toInner B A e = false := by
        rw [← Bool.not_eq_true]; intro h1; rw [key' A B h1] at hno; cases hno
      apply h
      cases hn : newType es A B .full <;> simp [newType, t1, t2, hno, hni]

theorem uses_conv {e : Expr} {es : List Expr} {p : Tree} (h : uses e (conv es p) = true) : uses e p = true := by
  induction p generalizing es with
  | scan t => exact h
  | filter cs p => exact h
  | join ty cs l r ihl ihr =>
    simp only [conv, uses, Bool.or_eq_true, decide_eq_true_eq, tups_conv] at h ⊢
    rcases h with (h | h) | h
    · exact .inl (.inl (newType_mono h))
    · exact .inl (.inr (ihl h))
    · exact .inr (ihr h)

theorem newType_left {es : List Expr} {A B : List Nat} {ty : JType} (h : newType es A B ty = .left) : ty = .left ∨ ty = .full := by
  cases ty with
  | inner => cases h
  | left => exact .inl rfl
  | right => simp only [newType] at h; split at h <;> cases h
  | full => exact .inr rfl

theorem newType_right {es : List Expr} {A B : List Nat} {ty : JType} (h : newType es A B ty = .right) :
    ty = .right ∨ ty = .full := by
  cases ty with
  | inner => cases h
  | left => simp only [newType] at h; split at h <;> cases h
  | right => exact .inl rfl
  | full => exact .inr rfl

theorem corrOk_of_within {es : List Expr} {p : Tree} (h : ∀ e ∈ es, within (tups p) e = true) : CorrOk es p := by
  induction p with
  | scan t => trivial
  | filter cs p ih => exact ih h
  | join ty cs l r =>
    refine .inr fun e he => ?_
    have := h e he
    simp only [tups] at this
    simp [foreign, this]

theorem wf_conv (es : List Expr) (p : Tree) (h : Wf p) : Wf (conv es p) := by
  induction p generalizing es with
  | scan t => trivial
  | filter cs p => exact h
  | join ty cs l r ihl ihr =>
    obtain ⟨h1, h2, h3, h4, h5⟩ := h
    refine ⟨ihl _ h1, ihr _ h2, by simpa [tups_conv] using h3, ?_, ?_⟩
    · intro ht e he
      rw [← Bool.not_eq_true]
      intro hu
      have hty : ty = .left ∨ ty = .full := by
        rcases ht with ht | ht
        · exact newType_left ht
        · exact .inr (newType_full ht)
      have := h4 hty e he
      rw [uses_conv hu] at this
      cases this
    · intro ht e he
      rw [← Bool.not_eq_true]
      intro hu
      have hty : ty = .right ∨ ty = .full := by
        rcases ht with ht | ht
        · exact newType_right ht
        · exact .inr (newType_full ht)
      have := h5 hty e he
      rw [uses_conv hu] at this
      cases this

end BaikalDB.Plan
