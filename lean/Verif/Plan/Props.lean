import Verif.Plan.Push

/-! # C50: joins rewritten and conditions moved, and the rows are still those of the query -/

namespace BaikalDB.Plan

variable {F : Fns} {D : Nat → List (Nat → Val)} {ρ : Row}

theorem pushDown_sem {nf : Bool} {p : Tree} (hw : Wf p) (hg : Good F nf [] p) :
    (sem F D ρ (pushDown p)).Perm (sem F D ρ p) := by
  unfold pushDown
  rw [sem_wrap]
  have hc : CorrOk [] p := corrOk_of_within fun e he => nomatch he
  have := push_sem (F := F) (D := D) (ρ := ρ) (nf := nf) false [] p hw hc hg
  rw [filter_true] at this
  exact this

/-- **C50.** The plan after the push-down gives the rows of the plan before it, whatever the tables hold and whatever the row
of the enclosing query. -/
theorem C50_pushdown {nf : Bool} {p : Tree} (hw : Wf p) (hf : nf = true → noFull p = true)
    (hp : ∀ e ∈ conds p, Fit F nf e) (D : Nat → List (Nat → Val)) (ρ : Row) :
    (sem F D ρ (pushDown p)).Perm (sem F D ρ p) :=
  pushDown_sem hw (.inr ⟨hf, hp, fun _ he => nomatch he⟩)

/-- **C50.** With INNER JOINs only, nothing is asked of the conditions. -/
theorem C50_inner {p : Tree} (hi : allInner p = true) (hd : (tups p).Nodup) (D : Nat → List (Nat → Val)) (ρ : Row) :
    (sem F D ρ (pushDown p)).Perm (sem F D ρ p) := by
  refine pushDown_sem (nf := true) ?_ (.inl hi)
  induction p with
  | scan t => trivial
  | filter cs p ih =>
    refine ⟨ih hi hd, ?_⟩
    clear hd ih
    induction p with
    | scan t => trivial
    | filter cs' p ih => exact ih hi
    | join ty cs' l r => simp only [allInner, Bool.and_eq_true, decide_eq_true_eq] at hi; exact .inl hi.1.1
  | join ty cs l r ihl ihr =>
    simp only [allInner, Bool.and_eq_true, decide_eq_true_eq] at hi
    obtain ⟨⟨rfl, hl⟩, hr⟩ := hi
    simp only [tups, List.nodup_append] at hd
    refine ⟨ihl hl hd.1, ihr hr hd.2.1, fun t h1 h2 => hd.2.2 t h1 t h2 rfl, ?_, ?_⟩
    · rintro (h | h) <;> cases h
    · rintro (h | h) <;> cases h

/-! ## Conditions of which the planner's rule is true -/

section Plain
variable {S : String → Bool}

mutual
theorem strict_none (hS : StrictFns F S) {T : List Nat} {r : Row} (hr : ∀ t ∈ T, ∀ s, r t s = none) :
    (e : Expr) → strict S e = true → (∃ t ∈ tupsE e, t ∈ T) → eval F r e = none
  | .slot t s, _, h => by
    obtain ⟨t', h1, h2⟩ := h
    simp only [tupsE, List.mem_singleton] at h1
    subst h1
    exact hr _ h2 s
  | .lit v, _, h => by obtain ⟨t', h1, -⟩ := h; cases h1
  | .call f as, hs, h => by
    simp only [strict, Bool.and_eq_true] at hs
    rw [eval]
    exact hS f hs.1 _ (stricts_none hS hr as hs.2 (by simpa [tupsE] using h))
  | .inList x vs, hs, h => by
    rw [eval, strict_none hS hr x (by simpa [strict] using hs) (by simpa [tupsE] using h)]; rfl
  | .and a b, hs, _ => by simp [strict] at hs
  | .or a b, hs, _ => by simp [strict] at hs
  | .xor a b, hs, h => by
    simp only [strict, Bool.and_eq_true] at hs
    obtain ⟨t, h1, h2⟩ := h
    simp only [tupsE, List.mem_append] at h1
    rw [eval]
    rcases h1 with h1 | h1
    · rw [strict_none hS hr a hs.1 ⟨t, h1, h2⟩]; simp [vxor]
    · rw [strict_none hS hr b hs.2 ⟨t, h1, h2⟩]; simp [vxor]
  | .not a, hs, h => by
    rw [eval, strict_none hS hr a (by simpa [strict] using hs) (by simpa [tupsE] using h)]; rfl
  | .isNull a, hs, _ => by simp [strict] at hs
  | .isTrue a, hs, _ => by simp [strict] at hs
theorem stricts_none (hS : StrictFns F S) {T : List Nat} {r : Row} (hr : ∀ t ∈ T, ∀ s, r t s = none) :
    (as : List Expr) → stricts S as = true → (∃ t ∈ tupsEs as, t ∈ T) → none ∈ evalAll F r as
  | [], _, h => by obtain ⟨t', h1, -⟩ := h; cases h1
  | a :: as, hs, h => by
    simp only [stricts, Bool.and_eq_true] at hs
    obtain ⟨t, h1, h2⟩ := h
    simp only [tupsEs, List.mem_append] at h1
    rw [evalAll]
    rcases h1 with h1 | h1
    · rw [strict_none hS hr a hs.1 ⟨t, h1, h2⟩]; exact List.mem_cons_self
    · exact List.mem_cons_of_mem _ (stricts_none hS hr as hs.2 ⟨t, h1, h2⟩)
end

/-- Not TRUE, not FALSE: `b` says which. -/
def Never (b : Bool) (v : Val) : Prop := v = none ∨ tr v = !b

theorem never_not {b : Bool} {v : Val} (h : Never (!b) v) : Never b (vnot v) := by
  cases v with
  | none => exact .inl rfl
  | some x =>
    right
    rcases h with h | h
    · cases h
    · simp only [tr, vnot, Option.map, Bool.not_not] at h ⊢
      by_cases hx : x = 0
      · simp [hx] at h ⊢; exact h
      · rw [← h]; simp [hx]

theorem never_and_one {v w : Val} (h : Never true v ∨ Never true w) : Never true (vand v w) := by
  unfold vand
  split
  · exact .inr rfl
  · rename_i h0
    split
    · exact .inl rfl
    · rename_i h1
      exfalso
      push Not at h0 h1
      have key : ∀ x : Val, x ≠ some 0 → x ≠ none → ¬ Never true x := by
        intro x a b hc
        rcases hc with hc | hc
        · exact b hc
        · cases x with
          | none => exact b rfl
          | some y => simp [tr] at hc; exact a (by rw [hc])
      exact h.elim (key v h0.1 h1.1) (key w h0.2 h1.2)

theorem never_and_both {v w : Val} (h : Never false v) (h' : Never false w) : Never false (vand v w) := by
  have key : ∀ x : Val, Never false x → x ≠ some 0 := by
    intro x hx hc
    rw [hc] at hx
    rcases hx with hx | hx
    · cases hx
    · cases hx
  unfold vand
  rw [if_neg (by push Not; exact ⟨key v h, key w h'⟩)]
  split
  · exact .inl rfl
  · exact .inr rfl

theorem never_or_one {v w : Val} (h : Never false v ∨ Never false w) : Never false (vor v w) := by
  unfold vor
  split
  · exact .inr rfl
  · rename_i h0
    split
    · exact .inl rfl
    · rename_i h1
      exfalso
      push Not at h0 h1
      rcases h with h | h <;> rcases h with h | h
      · exact h1.1 h
      · exact h0.1 h
      · exact h1.2 h
      · exact h0.2 h

theorem never_or_both {v w : Val} (h : Never true v) (h' : Never true w) : Never true (vor v w) := by
  have key : ∀ x : Val, Never true x → ¬ tr x = true := by
    intro x hx hc
    rcases hx with hx | hx
    · rw [hx] at hc; cases hc
    · rw [hx] at hc; cases hc
  unfold vor
  rw [if_neg (by push Not; exact ⟨key v h, key w h'⟩)]
  split
  · exact .inl rfl
  · exact .inr rfl

theorem never_of_strict {b : Bool} {v : Val} (h : v = none) : Never b v := .inl h

theorem one_never (hS : StrictFns F S) {T : List Nat} {r : Row} (hr : ∀ t ∈ T, ∀ s, r t s = none) :
    (b : Bool) → (e : Expr) → one S b e = true → (∃ t ∈ tupsE e, t ∈ T) → Never b (eval F r e)
  | _, .slot t s, _, h => .inl (strict_none hS hr (S := S) (.slot t s) rfl h)
  | _, .lit v, _, h => .inl (strict_none hS hr (S := S) (.lit v) rfl h)
  | _, .call f as, he, h => .inl (strict_none hS hr (.call f as) he h)
  | _, .inList x vs, he, h => .inl (strict_none hS hr (.inList x vs) he h)
  | _, .xor x y, he, h => .inl (strict_none hS hr (.xor x y) he h)
  | b, .not x, he, h => by
    rw [eval]
    exact never_not (one_never hS hr (!b) x he (by simpa [tupsE] using h))
  | b, .and x y, he, h => by
    simp only [one, Bool.and_eq_true, Bool.or_eq_true] at he
    obtain ⟨⟨hx, hy⟩, hb⟩ := he
    obtain ⟨t, ht, hT⟩ := h
    simp only [tupsE, List.mem_append] at ht
    rw [eval]
    cases b with
    | true => exact never_and_one (ht.imp (fun h => one_never hS hr true x hx ⟨t, h, hT⟩) fun h => one_never hS hr true y hy ⟨t, h, hT⟩)
    | false =>
      have hs : t ∈ tupsE x ∧ t ∈ tupsE y := by
        simp only [Bool.false_eq_true, false_or, sameTups, Bool.and_eq_true] at hb
        exact ⟨ht.elim id (within_iff.mp hb.1 t), ht.elim (within_iff.mp hb.2 t) id⟩
      exact never_and_both (one_never hS hr false x hx ⟨t, hs.1, hT⟩) (one_never hS hr false y hy ⟨t, hs.2, hT⟩)
  | b, .or x y, he, h => by
    simp only [one, Bool.and_eq_true, Bool.or_eq_true] at he
    obtain ⟨⟨hx, hy⟩, hb⟩ := he
    obtain ⟨t, ht, hT⟩ := h
    simp only [tupsE, List.mem_append] at ht
    rw [eval]
    cases b with
    | false => exact never_or_one (ht.imp (fun h => one_never hS hr false x hx ⟨t, h, hT⟩) fun h => one_never hS hr false y hy ⟨t, h, hT⟩)
    | true =>
      have hs : t ∈ tupsE x ∧ t ∈ tupsE y := by
        simp only [Bool.not_true, Bool.false_eq_true, false_or, sameTups, Bool.and_eq_true] at hb
        exact ⟨ht.elim id (within_iff.mp hb.1 t), ht.elim (within_iff.mp hb.2 t) id⟩
      exact never_or_both (one_never hS hr true x hx ⟨t, hs.1, hT⟩) (one_never hS hr true y hy ⟨t, hs.2, hT⟩)

theorem meets {T : List Nat} {e : Expr} (hne : tupsE e ≠ []) (hw : within T e = true) : ∃ t ∈ tupsE e, t ∈ T := by
  obtain ⟨t, ht⟩ := List.exists_mem_of_ne_nil _ hne
  exact ⟨t, ht, within_iff.mp hw t ht⟩

theorem every_never (hS : StrictFns F S) {T : List Nat} {r : Row} (hr : ∀ t ∈ T, ∀ s, r t s = none) :
    (b : Bool) → (e : Expr) → every S b e = true → tupsE e ≠ [] → within T e = true → Never b (eval F r e)
  | _, .slot t s, _, h, hw => .inl (strict_none hS hr (S := S) (.slot t s) rfl (meets h hw))
  | _, .lit v, _, h, _ => absurd rfl h
  | _, .call f as, he, h, hw => .inl (strict_none hS hr (.call f as) he (meets h hw))
  | _, .inList x vs, he, h, hw => .inl (strict_none hS hr (.inList x vs) he (meets h hw))
  | _, .xor x y, he, h, hw => .inl (strict_none hS hr (.xor x y) he (meets h hw))
  | b, .not x, he, h, hw => by
    rw [eval]
    exact never_not (every_never hS hr (!b) x he (by simpa [tupsE] using h) (by simpa [within, tupsE] using hw))
  | b, .and x y, he, h, hw => by
    simp only [every, Bool.and_eq_true, Bool.or_eq_true, Bool.not_eq_true', List.isEmpty_eq_false_iff] at he
    obtain ⟨⟨hx, hy⟩, hb⟩ := he
    have hwx : within T x = true := within_iff.mpr fun t ht => within_iff.mp hw t (by simp [tupsE, ht])
    have hwy : within T y = true := within_iff.mpr fun t ht => within_iff.mp hw t (by simp [tupsE, ht])
    rw [eval]
    cases b with
    | true =>
      have : tupsE x ≠ [] ∨ tupsE y ≠ [] := by
        by_contra hc
        push Not at hc
        exact h (by simp [tupsE, hc])
      exact never_and_one (this.imp (fun h => every_never hS hr true x hx h hwx) fun h => every_never hS hr true y hy h hwy)
    | false =>
      simp only [Bool.false_eq_true, false_or] at hb
      exact never_and_both (every_never hS hr false x hx hb.1 hwx) (every_never hS hr false y hy hb.2 hwy)
  | b, .or x y, he, h, hw => by
    simp only [every, Bool.and_eq_true, Bool.or_eq_true, Bool.not_eq_true', List.isEmpty_eq_false_iff] at he
    obtain ⟨⟨hx, hy⟩, hb⟩ := he
    have hwx : within T x = true := within_iff.mpr fun t ht => within_iff.mp hw t (by simp [tupsE, ht])
    have hwy : within T y = true := within_iff.mpr fun t ht => within_iff.mp hw t (by simp [tupsE, ht])
    rw [eval]
    cases b with
    | false =>
      have : tupsE x ≠ [] ∨ tupsE y ≠ [] := by
        by_contra hc
        push Not at hc
        exact h (by simp [tupsE, hc])
      exact never_or_one (this.imp (fun h => every_never hS hr false x hx h hwx) fun h => every_never hS hr false y hy h hwy)
    | true =>
      simp only [Bool.true_eq_false, false_or] at hb
      exact never_or_both (every_never hS hr true x hx hb.1 hwx) (every_never hS hr true y hy hb.2 hwy)

theorem holds_never {r : Row} {e : Expr} (h : Never true (eval F r e)) : holds F r e = false := by
  unfold holds
  rcases h with h | h
  · rw [h]; rfl
  · exact h

mutual
theorem hasNullFn_iff : (e : Expr) → hasNullFn e = anyPart takesNull e
  | .slot _ _ => rfl
  | .lit _ => rfl
  | .call f as => by simp [hasNullFn, anyPart, takesNull, nullFns, hasNullFns_iff as, Bool.or_assoc, beq_eq_decide]
  | .inList x vs => by simp [hasNullFn, anyPart, takesNull, hasNullFn_iff x]
  | .and a b => by simp [hasNullFn, anyPart, takesNull, hasNullFn_iff a, hasNullFn_iff b]
  | .or a b => by simp [hasNullFn, anyPart, takesNull, hasNullFn_iff a, hasNullFn_iff b]
  | .xor a b => by simp [hasNullFn, anyPart, takesNull, hasNullFn_iff a, hasNullFn_iff b]
  | .not a => by simp [hasNullFn, anyPart, takesNull, hasNullFn_iff a]
  | .isNull a => by simp [hasNullFn, anyPart, takesNull]
  | .isTrue a => by simp [hasNullFn, anyPart, takesNull, hasNullFn_iff a]
theorem hasNullFns_iff : (as : List Expr) → hasNullFns as = anyParts takesNull as
  | [] => rfl
  | a :: as => by rw [hasNullFns, anyParts, hasNullFn_iff a, hasNullFns_iff as]
end

mutual
theorem hasOr_iff : (e : Expr) → hasOr e = anyPart isOr e
  | .slot _ _ => rfl
  | .lit _ => rfl
  | .call f as => by simp [hasOr, anyPart, isOr, hasOrs_iff as]
  | .inList x vs => by simp [hasOr, anyPart, isOr, hasOr_iff x]
  | .and a b => by simp [hasOr, anyPart, isOr, hasOr_iff a, hasOr_iff b]
  | .or a b => by simp [hasOr, anyPart, isOr]
  | .xor a b => by simp [hasOr, anyPart, isOr, hasOr_iff a, hasOr_iff b]
  | .not a => by simp [hasOr, anyPart, isOr, hasOr_iff a]
  | .isNull a => by simp [hasOr, anyPart, isOr, hasOr_iff a]
  | .isTrue a => by simp [hasOr, anyPart, isOr, hasOr_iff a]
theorem hasOrs_iff : (as : List Expr) → hasOrs as = anyParts isOr as
  | [] => rfl
  | a :: as => by rw [hasOrs, anyParts, hasOr_iff a, hasOrs_iff as]
end

/-- **C50.** The planner's rule is true of conditions built from comparisons and the like by AND, OR, XOR, NOT and IN, as long
as no OR has a constant side and no AND under NOT has sides on different tables. -/
theorem C50_plain (hS : StrictFns F S) {e : Expr} (h : plain S e = true) : Honest F e := by
  unfold plain at h
  rw [← hasNullFn_iff, ← hasOr_iff] at h
  simp only [Bool.or_eq_true, Bool.and_eq_true] at h
  constructor
  · intro hne hn T hw r hr
    rcases h with h | h
    · rw [hn] at h; cases h
    · exact holds_never (every_never hS hr true e h.1 hne hw)
  · intro hn ho T hT r hr
    rcases h with h | ⟨-, h | h⟩
    · rw [hn] at h; cases h
    · rw [ho] at h; cases h
    · exact holds_never (one_never hS hr true e h hT)

/-- **C50.** Without FULL JOIN and with such conditions. -/
theorem C50_select (hS : StrictFns F S) {p : Tree} (hw : Wf p) (hf : noFull p = true) (hp : ∀ e ∈ conds p, plain S e = true)
    (D : Nat → List (Nat → Val)) (ρ : Row) : (sem F D ρ (pushDown p)).Perm (sem F D ρ p) :=
  C50_pushdown (nf := true) hw (fun _ => hf) (fun e he => ⟨C50_plain hS (hp e he), .inl rfl⟩) D ρ

end Plain

end BaikalDB.Plan
