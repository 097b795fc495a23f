import Verif.Agg.Final

/-!
# Rows an aggregate does not notice
-/

namespace BaikalDB.Agg

variable {ρ V D O : Type}

/-- The rows leave the aggregate as it is over no rows. -/
def Neutral (e : Env V D O) (c : Call ρ V O) (R : List ρ) : Prop :=
  match c.kind with
  | .countStar | .rbOr | .rbAnd | .rbXor | .rbBuild | .multiCount | .multiSum | .multiSumDbl | .multiConcat => R = []
  | .count => cnt c R = 0
  | .sum | .sumDbl | .avg | .min | .max => vals c R = []
  | .concat => texts e c R = []
  | .absent => True

theorem Neutral.nil (e : Env V D O) (c : Call ρ V O) : Neutral e c [] := by
  unfold Neutral
  cases c.kind <;> simp [cnt]

theorem Neutral.append {e : Env V D O} {c : Call ρ V O} {R R' : List ρ} (h : Neutral e c R) (h' : Neutral e c R') :
    Neutral e c (R ++ R') := by
  unfold Neutral at *
  cases hk : c.kind <;> simp only [hk] at h h' ⊢
  case count => simp only [cnt, List.filter_append, List.length_append] at h h' ⊢; omega
  all_goals simp_all

theorem ofNat_eq_zero {n : Nat} (h : n < 2 ^ 64) (h0 : BitVec.ofNat 64 n = 0) : n = 0 := by
  have := congrArg BitVec.toNat h0
  simp only [BitVec.toNat_ofNat, Nat.mod_eq_of_lt h] at this
  simpa using this

theorem neutral_of_isInit [DecidableEq D] {e : Env V D O} {c : Call ρ V O} {p : Slot V D} {R : List ρ} (hp : Rep e c p R)
    (hn : Needs e c R) (hR : R.length < 2 ^ 64) (hi : isInit e c p = true) : Neutral e c R ∧ (c.distinct && !c.kind.isMulti) = false := by
  unfold isInit at hi
  split at hi
  · cases hi
  rename_i hd
  refine ⟨?_, by simpa using hd⟩
  have multi : c.kind.isMulti = true → SetIs e c R p → R = [] ∨ ∃ b l, p = .str (b :: l) := by
    intro hk hs
    rcases hs with ⟨h1, rfl⟩ | ⟨S, l, h0, _, hser, rfl⟩
    · left
      by_contra hR0
      exact hn.2 hk hR0 h1
    · right
      cases S with
      | nil => exact absurd rfl h0
      | cons v S =>
        unfold serialize at hser
        cases hw : width (e.tag v) with
        | none => simp [hw] at hser
        | some w =>
          simp only [hw, le32, List.cons_append, Option.some.injEq] at hser
          exact ⟨_, _, by rw [← hser]⟩
  unfold Rep at hp
  unfold Neutral
  cases hk : c.kind <;> simp only [hk] at hp hi ⊢
  case countStar =>
    subst hp
    simp only [beq_self_eq_true, Bool.true_or, Bool.true_and, beq_iff_eq, reduceCtorEq, if_false] at hi
    exact List.eq_nil_of_length_eq_zero (ofNat_eq_zero hR (by simpa using hi))
  case count =>
    subst hp
    have : cnt c R < 2 ^ 64 := lt_of_le_of_lt (List.length_filter_le _ _) hR
    exact ofNat_eq_zero this (by simpa using hi)
  case sum =>
    rcases hp with ⟨h1, _⟩ | ⟨_, rfl⟩
    · exact h1
    · simp at hi
  case sumDbl =>
    rcases hp with ⟨h1, _⟩ | ⟨_, rfl⟩
    · exact h1
    · simp at hi
  case avg =>
    rcases hp with hp | ⟨h1, _⟩
    · unfold AvgIs at hp
      subst hp
      have : (vals c R).length < 2 ^ 64 := lt_of_le_of_lt (List.length_filterMap_le _ _) hR
      simp only [beq_self_eq_true, Bool.true_and, Bool.and_eq_true, beq_iff_eq, reduceCtorEq, if_false] at hi
      exact List.eq_nil_of_length_eq_zero (ofNat_eq_zero this (by simpa using hi.2))
    · exact h1
  case min =>
    rcases hp with ⟨h1, _⟩ | ⟨v, rfl, _⟩
    · exact h1
    · simp at hi
  case max =>
    rcases hp with ⟨h1, _⟩ | ⟨v, rfl, _⟩
    · exact h1
    · simp at hi
  case rbOr =>
    rcases hp with rfl | ⟨h1, _⟩
    · simp at hi
    · exact h1
  case rbAnd =>
    rcases hp with ⟨h1, _⟩ | ⟨_, rfl⟩
    · by_contra hR0
      exact hn.1 hk hR0 h1
    · simp at hi
  case rbXor =>
    rcases hp with rfl | ⟨h1, _⟩
    · simp at hi
    · exact h1
  case rbBuild =>
    rcases hp with rfl | ⟨h1, _⟩
    · simp at hi
    · exact h1
  case concat =>
    rcases hp with ⟨h1, _⟩ | ⟨_, rfl⟩
    · exact h1
    · simp [Kind.isMulti] at hi
  all_goals
    rcases multi (by simp [hk, Kind.isMulti]) hp with h | ⟨b, l, rfl⟩
    · exact h
    · simp at hi

theorem inv_neutral {e : Env V D O} {c : Call ρ V O} {s : St V D O} {R R' : List ρ} (h : Inv e c s R') (hn : Neutral e c R) :
    Inv e c s (R ++ R') := by
  obtain ⟨hub, h⟩ := h
  refine ⟨hub, ?_⟩
  unfold Neutral at hn
  cases hk : c.kind <;> simp only [hk] at h hn ⊢
  case count =>
    have : cnt c (R ++ R') = cnt c R' := by simp only [cnt, List.filter_append, List.length_append] at hn ⊢; omega
    rw [this]; exact h
  case concat =>
    cases ho : c.order with
    | none =>
      simp only [ho] at h ⊢
      have : texts e c (R ++ R') = texts e c R' := by simp only [texts, List.filterMap_append]; simp only [texts] at hn; rw [hn]; rfl
      rw [this]; exact h
    | some o =>
      simp only [ho] at h ⊢
      obtain ⟨L, rest, h1, h2, h3, h4⟩ := h
      refine ⟨L, R ++ rest, h1, h2, ?_, ?_⟩
      · simp only [texts, List.filterMap_append] at hn h3 ⊢; rw [hn, h3]; rfl
      · rw [← List.append_assoc]
        refine (List.perm_append_comm.append_right rest).trans ?_
        rw [List.append_assoc]
        exact h4.append_left R
  case absent => exact h
  all_goals first
    | (subst hn; simpa using h)
    | (have : vals c (R ++ R') = vals c R' := by simp only [vals, List.filterMap_append]; simp only [vals] at hn; rw [hn]; rfl
       rw [this]; exact h)

/-! ## The row for no rows -/

theorem default_fin {e : Env V D O} (c : Call ρ V O) {le : O → O → Prop} {R : List ρ} (m : Bool) (hn : Neutral e c R)
    (hm : c.kind.isMulti = true → m = true ∧ c.kind = .multiCount) :
    Spec.Answer e le c R (finalize e c m (initAgg e c true {}) : St V D O).fin ∧ (finalize e c m (initAgg e c true {}) : St V D O).ub = false := by
  unfold Spec.Answer
  unfold Neutral at hn
  cases hk : c.kind <;> simp only [hk] at hn ⊢
  case concat =>
    cases ho : c.order with
    | none => simp [finalize, initAgg, hk, ho, Kind.isBitmap, Kind.isMulti, hn]
    | some o => simp [finalize, initAgg, hk, ho, hn]
  case countStar => subst hn; simp [finalize, initAgg, hk, Kind.isBitmap, Kind.isMulti]
  case count => 
    simp only [cnt] at hn
    simp [finalize, initAgg, hk, Kind.isBitmap, Kind.isMulti, hn]
  case multiCount =>
    subst hn
    obtain ⟨rfl, _⟩ := hm (by simp [hk, Kind.isMulti])
    exact ⟨⟨[], by simp [Spec.Distinct], by simp [finalize, initAgg, hk, Kind.isBitmap, Kind.isMulti, mergeSet, serialize]⟩,
      by simp [finalize, initAgg, hk, Kind.isBitmap, Kind.isMulti, mergeSet, serialize]⟩
  case multiSum => simp [hk, Kind.isMulti] at hm
  case multiSumDbl => simp [hk, Kind.isMulti] at hm
  case multiConcat => simp [hk, Kind.isMulti] at hm
  case absent => simp [finalize, initAgg, hk, Kind.isBitmap, Kind.isMulti]
  all_goals simp [finalize, initAgg, hk, Kind.isBitmap, Kind.isMulti, hn]

end BaikalDB.Agg
