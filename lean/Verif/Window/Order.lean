import Verif.Window.Spec
import Verif.Sort.Order
import Mathlib.Tactic.Common
import Mathlib.Data.List.Basic

/-! # Positions in an ordered partition, and frames as stretches of it -/

namespace BaikalDB.Window
open Expr (EV VTy)
open Expr.Spec
open Spec
open BaikalDB.Sort (Key rowCompare rowOrd RowLe RowOK rowCompare_eq)

variable {ρ : Type} {ks : List (Key ρ)} {oty : Key ρ → VTy} {P : List ρ}

/-- A partition in order, whose rows can be compared. -/
structure Ordered (oty : Key ρ → VTy) (ks : List (Key ρ)) (P : List ρ) : Prop where
  sorted : P.Pairwise (RowLe ks)
  ok : ∀ r ∈ P, RowOK oty ks r

theorem rowOrd_lt_not {a b : ρ} (h : rowOrd ks a b = .lt) : ¬ RowLe ks b a := by
  unfold RowLe
  rw [← Sort.rowOrd_swap, h]
  simp

theorem le_of_not_lt {a b : ρ} (h : rowOrd ks a b ≠ .lt) : RowLe ks b a := by
  unfold RowLe
  rw [← Sort.rowOrd_swap]
  cases hh : rowOrd ks a b <;> simp_all

theorem lt_of_le_ne {a b : ρ} (h : RowLe ks a b) (hn : rowOrd ks a b ≠ .eq) : rowOrd ks a b = .lt := by
  unfold RowLe at h
  cases hh : rowOrd ks a b <;> simp_all

theorem lt_iff_not_le {a b : ρ} : rowOrd ks a b = .lt ↔ ¬ RowLe ks b a :=
  ⟨rowOrd_lt_not, fun h => by
    by_contra hc
    exact h (le_of_not_lt hc)⟩

theorem eq_iff_le_le {a b : ρ} : rowOrd ks a b = .eq ↔ RowLe ks a b ∧ RowLe ks b a := by
  unfold RowLe
  rw [← Sort.rowOrd_swap ks a b]
  cases rowOrd ks a b <;> simp

theorem Ordered.le (h : Ordered oty ks P) {i j : Nat} {x y : ρ} (hi : P[i]? = some x) (hj : P[j]? = some y) (hij : i ≤ j) :
    RowLe ks x y := by
  obtain ⟨hi', rfl⟩ := List.getElem?_eq_some_iff.1 hi
  obtain ⟨hj', rfl⟩ := List.getElem?_eq_some_iff.1 hj
  rcases Nat.lt_or_ge i j with h' | h'
  · exact List.pairwise_iff_getElem.1 h.sorted i j hi' hj' h'
  · have : i = j := by omega
    subst this
    exact RowLe.refl ks _

theorem Ordered.cmp (h : Ordered oty ks P) {i j : Nat} {x y : ρ} (hi : P[i]? = some x) (hj : P[j]? = some y) :
    rowCompare ks x y = 0 ↔ rowOrd ks x y = .eq :=
  rowCompare_eq (h.ok x (List.mem_of_getElem? hi)) (h.ok y (List.mem_of_getElem? hj))

theorem countP_cut (p : ρ → Bool) : ∀ (P : List ρ) (k : Nat), k ≤ P.length → (∀ j y, P[j]? = some y → (p y = true ↔ j < k)) →
    P.countP p = k := by
  intro P
  induction P with
  | nil => intro k hk _; simp only [List.length_nil, Nat.le_zero] at hk; subst hk; rfl
  | cons x P ih =>
    intro k hk h
    have h0 := h 0 x rfl
    rcases k with _ | k
    · have : p x = false := by
        by_contra hc
        have := h0.1 (by simpa using hc)
        omega
      rw [List.countP_cons_of_neg (by simp [this])]
      apply ih 0 (by omega)
      intro j y hj
      rw [h (j + 1) y (by simpa using hj)]
      omega
    · have hx : p x = true := h0.2 (by omega)
      rw [List.countP_cons_of_pos hx, ih k (by simpa using hk)]
      intro j y hj
      rw [h (j + 1) y (by simpa using hj)]
      omega

/-- `k` is where the rows not before `x` begin. -/
theorem before_eq (h : Ordered oty ks P) {k : Nat} {x : ρ} (hk : k ≤ P.length)
    (h1 : ∀ y, 0 < k → P[k - 1]? = some y → rowOrd ks y x = .lt) (h2 : ∀ y, P[k]? = some y → RowLe ks x y) : before ks P x = k := by
  unfold before
  apply countP_cut _ _ _ hk
  intro j y hj
  rw [decide_eq_true_iff]
  constructor
  · intro hlt
    by_contra hc
    have hlen := (List.getElem?_eq_some_iff.1 hj).1
    have hz : P[k]? = some P[k] := List.getElem?_eq_getElem (by omega)
    have := h.le hz hj (by omega)
    exact rowOrd_lt_not hlt (RowLe.trans (h2 _ hz) this)
  · intro hlt
    have hz : P[k - 1]? = some P[k - 1] := List.getElem?_eq_getElem (by omega)
    have h3 := h1 _ (by omega) hz
    have h4 := h.le hj hz (by omega)
    rw [lt_iff_not_le] at h3 ⊢
    exact fun hc => h3 (RowLe.trans hc h4)

/-- `k` is where the rows after `x` begin. -/
theorem upTo_eq (h : Ordered oty ks P) {k : Nat} {x : ρ} (hk : k ≤ P.length)
    (h1 : ∀ y, 0 < k → P[k - 1]? = some y → RowLe ks y x) (h2 : ∀ y, P[k]? = some y → ¬ RowLe ks y x) : upTo ks P x = k := by
  unfold upTo
  apply countP_cut _ _ _ hk
  intro j y hj
  rw [decide_eq_true_iff]
  constructor
  · intro hle
    by_contra hc
    have hlen := (List.getElem?_eq_some_iff.1 hj).1
    have hz : P[k]? = some P[k] := List.getElem?_eq_getElem (by omega)
    have := h.le hz hj (by omega)
    exact h2 _ hz (RowLe.trans this hle)
  · intro hlt
    have hz : P[k - 1]? = some P[k - 1] := List.getElem?_eq_getElem (by omega)
    exact RowLe.trans (h.le hj hz (by omega)) (h1 _ (by omega) hz)

/-- In an ordered partition the rows before `x` come first. -/
theorem le_iff_before (h : Ordered oty ks P) {j : Nat} {x y : ρ} (hj : P[j]? = some y) :
    RowLe ks x y ↔ before ks P x ≤ j := by
  have hex : ∃ k, k ≤ P.length ∧ (∀ j y, P[j]? = some y → (rowOrd ks y x = .lt ↔ j < k)) := by
    clear hj y j
    have main : ∀ n, n ≤ P.length → (∀ j y, P[j]? = some y → n ≤ j → ¬ rowOrd ks y x = .lt) →
        ∃ k, k ≤ P.length ∧ (∀ j y, P[j]? = some y → (rowOrd ks y x = .lt ↔ j < k)) := by
      intro n
      induction n with
      | zero => intro _ hn; exact ⟨0, Nat.zero_le _, fun j y hj => ⟨fun hl => absurd hl (hn j y hj (Nat.zero_le _)), fun hl => by omega⟩⟩
      | succ n ih =>
        intro hn1 hn
        have hz : P[n]? = some P[n] := List.getElem?_eq_getElem (by omega)
        by_cases hlt : rowOrd ks P[n] x = .lt
        · refine ⟨n + 1, hn1, fun j y hj => ⟨fun hl => ?_, fun hl => ?_⟩⟩
          · by_contra hc
            exact hn j y hj (by omega) hl
          · rw [lt_iff_not_le] at hlt ⊢
            exact fun hc => hlt (RowLe.trans hc (h.le hj hz (by omega)))
        · apply ih (by omega)
          intro j y hj hle
          rcases Nat.eq_or_lt_of_le hle with e | e
          · subst e
            rw [hz] at hj
            injection hj with hj
            rwa [← hj]
          · exact hn j y hj (by omega)
    exact main P.length (Nat.le_refl _) (fun j y hj hle => by
      have := (List.getElem?_eq_some_iff.1 hj).1
      omega)
  obtain ⟨k, hk, hP⟩ := hex
  have : before ks P x = k := by
    unfold before
    exact countP_cut _ _ _ hk (fun j y hj => by rw [decide_eq_true_iff]; exact hP j y hj)
  rw [this]
  have := hP j y hj
  rw [lt_iff_not_le] at this
  by_cases hle : RowLe ks x y
  · simp only [hle, not_true_eq_false, false_iff, true_iff] at this ⊢; omega
  · simp only [hle, not_false_eq_true, true_iff, false_iff] at this ⊢; omega

/-- In an ordered partition the rows not after `x` come first. -/
theorem le_iff_upTo (h : Ordered oty ks P) {j : Nat} {x y : ρ} (hj : P[j]? = some y) :
    RowLe ks y x ↔ j < upTo ks P x := by
  have hex : ∃ k, k ≤ P.length ∧ (∀ j y, P[j]? = some y → (RowLe ks y x ↔ j < k)) := by
    clear hj y j
    have main : ∀ n, n ≤ P.length → (∀ j y, P[j]? = some y → n ≤ j → ¬ RowLe ks y x) →
        ∃ k, k ≤ P.length ∧ (∀ j y, P[j]? = some y → (RowLe ks y x ↔ j < k)) := by
      intro n
      induction n with
      | zero => intro _ hn; exact ⟨0, Nat.zero_le _, fun j y hj => ⟨fun hl => absurd hl (hn j y hj (Nat.zero_le _)), fun hl => by omega⟩⟩
      | succ n ih =>
        intro hn1 hn
        have hz : P[n]? = some P[n] := List.getElem?_eq_getElem (by omega)
        by_cases hlt : RowLe ks P[n] x
        · refine ⟨n + 1, hn1, fun j y hj => ⟨fun hl => ?_, fun hl => RowLe.trans (h.le hj hz (by omega)) hlt⟩⟩
          by_contra hc
          exact hn j y hj (by omega) hl
        · apply ih (by omega)
          intro j y hj hle
          rcases Nat.eq_or_lt_of_le hle with e | e
          · subst e
            rw [hz] at hj
            injection hj with hj
            rwa [← hj]
          · exact hn j y hj (by omega)
    exact main P.length (Nat.le_refl _) (fun j y hj hle => by
      have := (List.getElem?_eq_some_iff.1 hj).1
      omega)
  obtain ⟨k, hk, hP⟩ := hex
  have : upTo ks P x = k := by
    unfold upTo
    exact countP_cut _ _ _ hk (fun j y hj => by rw [decide_eq_true_iff]; exact hP j y hj)
  rw [this]
  exact hP j y hj

theorem before_le (P : List ρ) (x : ρ) : before ks P x ≤ P.length := List.countP_le_length
theorem upTo_le (P : List ρ) (x : ρ) : upTo ks P x ≤ P.length := List.countP_le_length

theorem before_congr {x y : ρ} (h : rowOrd ks x y = .eq) : before ks P x = before ks P y := by
  obtain ⟨h1, h2⟩ := eq_iff_le_le.1 h
  unfold before
  congr 1
  funext r
  apply decide_eq_decide.2
  rw [lt_iff_not_le, lt_iff_not_le]
  exact ⟨fun a b => a (RowLe.trans h1 b), fun a b => a (RowLe.trans h2 b)⟩

theorem upTo_congr {x y : ρ} (h : rowOrd ks x y = .eq) : upTo ks P x = upTo ks P y := by
  obtain ⟨h1, h2⟩ := eq_iff_le_le.1 h
  unfold upTo
  congr 1
  funext r
  apply decide_eq_decide.2
  exact ⟨fun a => RowLe.trans a h1, fun a => RowLe.trans a h2⟩

/-- The loop of CUME_DIST and of `RANGE … CURRENT ROW`. -/
theorem peersEnd_eq (h : Ordered oty ks P) {i : Nat} {x : ρ} (hi : P[i]? = some x) (fuel : Nat) : ∀ l, i ≤ l → l ≤ P.length →
    P.length - l ≤ fuel → (∀ y, 0 < l → P[l - 1]? = some y → RowLe ks y x) → peersEnd ks P i fuel l = upTo ks P x := by
  induction fuel with
  | zero =>
    intro l h1 h2 h3 h4
    unfold peersEnd
    refine (upTo_eq h h2 h4 (fun y hy => ?_)).symm
    have := (List.getElem?_eq_some_iff.1 hy).1
    omega
  | succ fuel ih =>
    intro l h1 h2 h3 h4
    unfold peersEnd
    rw [hi]
    cases hl : P[l]? with
    | none => exact (upTo_eq h h2 h4 (fun y hy => by rw [hl] at hy; cases hy)).symm
    | some y =>
      have hlen := (List.getElem?_eq_some_iff.1 hl).1
      have hxy := h.le hi hl h1
      simp only
      by_cases hc : rowCompare ks x y = 0
      · rw [if_neg (by simpa using hc)]
        apply ih (l + 1) (by omega) (by omega) (by omega)
        intro z _ hz
        have : z = y := by
          rw [show l + 1 - 1 = l by omega, hl] at hz
          injection hz with hz
          exact hz.symm
        subst this
        exact (eq_iff_le_le.1 ((h.cmp hi hl).1 hc)).2
      · rw [if_pos hc]
        refine (upTo_eq h h2 h4 (fun z hz => ?_)).symm
        rw [hl] at hz
        injection hz with hz
        subst hz
        intro hle
        exact hc ((h.cmp hi hl).2 (eq_iff_le_le.2 ⟨hxy, hle⟩))

/-- The loop of `RANGE CURRENT ROW …`. -/
theorem peerStart_eq (h : Ordered oty ks P) {i : Nat} {x : ρ} (hi : P[i]? = some x) : ∀ k, k ≤ i →
    (∀ y, P[k]? = some y → RowLe ks x y) → peerStart ks P i k = before ks P x := by
  have hil := (List.getElem?_eq_some_iff.1 hi).1
  intro k
  induction k with
  | zero =>
    intro _ h0
    unfold peerStart
    exact (before_eq h (Nat.zero_le _) (fun y hy => by omega) h0).symm
  | succ k ih =>
    intro hk h0
    unfold peerStart
    have hz : P[k]? = some P[k] := List.getElem?_eq_getElem (by omega)
    rw [hi, hz]
    simp only
    by_cases hc : rowCompare ks x P[k] = 0
    · rw [if_neg (by simpa using hc)]
      apply ih (by omega)
      intro y hy
      rw [hz] at hy
      injection hy with hy
      subst hy
      exact (eq_iff_le_le.1 ((h.cmp hi hz).1 hc)).1
    · rw [if_pos hc]
      refine (before_eq h (by omega) (fun y _ hy => ?_) h0).symm
      rw [show k + 1 - 1 = k by omega, hz] at hy
      injection hy with hy
      subst hy
      apply lt_of_le_ne (h.le hz hi (by omega))
      intro he
      apply hc
      apply (h.cmp hi hz).2
      exact eq_iff_le_le.2 (eq_iff_le_le.1 he).symm

/-! ## Frames -/

/-- The rows at the positions from `s` on and before `e`. -/
theorem filter_stretch (p : ρ × Nat → Bool) : ∀ (P : List ρ) (k s e : Nat), e ≤ k + P.length →
    (∀ j y, P[j]? = some y → (p (y, k + j) = true ↔ s ≤ k + j ∧ k + j < e)) →
    ((P.zipIdx k).filter p).map (·.1) = (P.take (e - k)).drop (s - k) := by
  intro P
  induction P with
  | nil => intro k s e _ _; simp
  | cons x P ih =>
    intro k s e he h
    have h0 := h 0 x rfl
    have ih' := ih (k + 1) s e (by simp only [List.length_cons] at he; omega) (fun j y hj => by
      have := h (j + 1) y (by simpa using hj)
      rwa [show k + (j + 1) = k + 1 + j by omega] at this)
    rw [List.zipIdx_cons, List.filter_cons]
    by_cases hp : p (x, k) = true
    · rw [if_pos hp]
      have := h0.1 hp
      have e1 : e - k = (e - (k + 1)) + 1 := by omega
      have e2 : s - k = 0 := by omega
      have e3 : s - (k + 1) = 0 := by omega
      rw [List.map_cons, ih', e1, e2, e3]
      simp
    · rw [if_neg hp, ih']
      have hn : ¬ (s ≤ k ∧ k < e) := fun hc => hp (h0.2 (by simpa using hc))
      by_cases hs : s ≤ k
      · have e1 : e - k = 0 := by omega
        have e2 : e - (k + 1) = 0 := by omega
        simp [e1, e2]
      · rcases Nat.lt_or_ge k e with hke | hke
        · have e1 : e - k = (e - (k + 1)) + 1 := by omega
          have e2 : s - k = (s - (k + 1)) + 1 := by omega
          rw [e1, e2]
          simp
        · have e1 : e - k = 0 := by omega
          have e2 : e - (k + 1) = 0 := by omega
          simp [e1, e2]

theorem frameOf_eq (w : Extent) (x : ρ) (i s e : Nat) (he : e ≤ P.length)
    (h : ∀ j y, P[j]? = some y → (w.has ks x i y j = true ↔ s ≤ j ∧ j < e)) : frameOf ks w P x i = (P.take e).drop s := by
  unfold frameOf
  have := filter_stretch (fun p => w.has ks x i p.1 p.2) P 0 s e (by omega) (fun j y hj => by simpa using h j y hj)
  simpa using this

/-- A planned bound does what the edge says. -/
def Says (b : Bound) (g : Edge) : Prop :=
  match g with
  | .unboundedPreceding => b.ty = .preceding ∧ b.unbounded = true
  | .preceding n => b.ty = .preceding ∧ b.unbounded = false ∧ b.num = n ∧ 0 ≤ n
  | .current => b.ty = .current ∧ b.unbounded = false
  | .following n => b.ty = .following ∧ b.unbounded = false ∧ b.num = n ∧ 0 ≤ n
  | .unboundedFollowing => b.ty = .following ∧ b.unbounded = true

/-- The planned frame does what the extent says, on partitions of up to `N` rows. -/
structure FrameSays (N : Nat) (fr : Frame) (w : Extent) : Prop where
  rows : fr.rows = w.rows
  lo : Says fr.lo w.lo
  hi : Says fr.hi w.hi
  lo_ne : w.lo ≠ .unboundedFollowing
  hi_ne : w.hi ≠ .unboundedPreceding
  range : w.rows = false → (w.lo = .unboundedPreceding ∨ w.lo = .current) ∧ (w.hi = .unboundedFollowing ∨ w.hi = .current)
  small : ∀ n, w.lo = .following n ∨ w.hi = .following n → n + N ≤ 2 ^ 31

theorem rowsStart_spec {b : Bound} {g : Edge} (hs : Says b g) (hne : g ≠ .unboundedFollowing) {i : Nat} (hi : i < P.length)
    (hsm : ∀ n, g = .following n → n + P.length ≤ 2 ^ 31) :
    ∃ s, rowsStart b P.length i = .ok s ∧ ∀ j : Nat, j < P.length → (g.rowsFrom i j = true ↔ s ≤ j) := by
  cases g with
  | unboundedPreceding =>
    obtain ⟨h1, h2⟩ := hs
    exact ⟨0, by unfold rowsStart; simp [h1, h2], fun j _ => by simp [Edge.rowsFrom]⟩
  | preceding n =>
    obtain ⟨h1, h2, h3, h4⟩ := hs
    by_cases hc : n ≤ i
    · refine ⟨(i - n).toNat, by unfold rowsStart; simp [h1, h2, h3, hc], fun j _ => ?_⟩
      simp only [Edge.rowsFrom, decide_eq_true_iff]; omega
    · refine ⟨0, by unfold rowsStart; simp [h1, h2, h3, hc], fun j _ => ?_⟩
      simp only [Edge.rowsFrom, decide_eq_true_iff]; omega
  | current =>
    obtain ⟨h1, h2⟩ := hs
    exact ⟨i, by unfold rowsStart; simp [h1, h2], fun j _ => by simp [Edge.rowsFrom]⟩
  | following n =>
    obtain ⟨h1, h2, h3, h4⟩ := hs
    have hb := hsm n rfl
    have hu : ¬ ((i : Int) + n ≥ 2 ^ 31) := by omega
    by_cases hc : (i : Int) + n < P.length
    · refine ⟨(i + n).toNat, by unfold rowsStart; simp [h1, h2, h3, hc]; omega, fun j _ => ?_⟩
      simp only [Edge.rowsFrom, decide_eq_true_iff]; omega
    · refine ⟨P.length, by unfold rowsStart; simp [h1, h2, h3, hc]; omega, fun j _ => ?_⟩
      simp only [Edge.rowsFrom, decide_eq_true_iff]; omega
  | unboundedFollowing => exact absurd rfl hne

theorem rowsEnd_spec {b : Bound} {g : Edge} (hs : Says b g) (hne : g ≠ .unboundedPreceding) {i : Nat} (hi : i < P.length)
    (hsm : ∀ n, g = .following n → n + P.length ≤ 2 ^ 31) :
    ∃ e, rowsEnd b P.length i = .ok e ∧ e ≤ P.length ∧ ∀ j : Nat, j < P.length → (g.rowsUpto i j = true ↔ j < e) := by
  cases g with
  | unboundedFollowing =>
    obtain ⟨h1, h2⟩ := hs
    exact ⟨P.length, by unfold rowsEnd; simp [h1, h2], Nat.le_refl _, fun j hj => by simp [Edge.rowsUpto, hj]⟩
  | preceding n =>
    obtain ⟨h1, h2, h3, h4⟩ := hs
    by_cases hc : n ≤ i
    · refine ⟨(i - n + 1).toNat, by unfold rowsEnd; simp [h1, h2, h3, hc], by omega, fun j _ => ?_⟩
      simp only [Edge.rowsUpto, decide_eq_true_iff]; omega
    · refine ⟨0, by unfold rowsEnd; simp [h1, h2, h3, hc], by omega, fun j _ => ?_⟩
      simp only [Edge.rowsUpto, decide_eq_true_iff]; omega
  | current =>
    obtain ⟨h1, h2⟩ := hs
    refine ⟨i + 1, by unfold rowsEnd; simp [h1, h2], by omega, fun j _ => ?_⟩
    simp only [Edge.rowsUpto, decide_eq_true_iff]; omega
  | following n =>
    obtain ⟨h1, h2, h3, h4⟩ := hs
    have hb := hsm n rfl
    by_cases hc : (i : Int) + n < P.length
    · refine ⟨(i + n + 1).toNat, by unfold rowsEnd; simp [h1, h2, h3, hc]; omega, by omega, fun j _ => ?_⟩
      simp only [Edge.rowsUpto, decide_eq_true_iff]; omega
    · refine ⟨P.length, by unfold rowsEnd; simp [h1, h2, h3, hc]; omega, by omega, fun j _ => ?_⟩
      simp only [Edge.rowsUpto, decide_eq_true_iff]; omega
  | unboundedPreceding => exact absurd rfl hne

/-- The frame of a row is a stretch of the partition, and the code finds it. -/
theorem frame_spec (h : Ordered oty ks P) {fr : Frame} {w : Extent} {N : Nat} (hf : FrameSays N fr w) (hN : P.length ≤ N) {i : Nat} {x : ρ}
    (hi : P[i]? = some x) :
    ∃ s e, fr.start ks P i = .ok s ∧ fr.stop ks P i = .ok e ∧ e ≤ P.length ∧ frameOf ks w P x i = (P.take e).drop s ∧
      (w.has ks x i x i = true ↔ s ≤ i ∧ i < e) := by
  have hil := (List.getElem?_eq_some_iff.1 hi).1
  cases hr : w.rows with
  | true =>
    obtain ⟨s, hs, hs'⟩ := rowsStart_spec hf.lo hf.lo_ne hil (fun n hn => by have := hf.small n (Or.inl hn); omega)
    obtain ⟨e, he, hel, he'⟩ := rowsEnd_spec hf.hi hf.hi_ne hil (fun n hn => by have := hf.small n (Or.inr hn); omega)
    have hall : ∀ j y, P[j]? = some y → (w.has ks x i y j = true ↔ s ≤ j ∧ j < e) := by
      intro j y hj
      have hjl := (List.getElem?_eq_some_iff.1 hj).1
      unfold Extent.has
      rw [if_pos hr, Bool.and_eq_true, hs' j hjl, he' j hjl]
    refine ⟨s, e, ?_, ?_, hel, frameOf_eq w x i s e hel hall, hall i x hi⟩
    · unfold Frame.start; rw [hf.rows, hr, if_pos rfl]; exact hs
    · unfold Frame.stop; rw [hf.rows, hr, if_pos rfl]; exact he
  | false =>
    obtain ⟨hlo, hhi⟩ := hf.range hr
    have hs : ∃ s, rangeStart ks fr.lo P i = .ok s ∧ ∀ j y, P[j]? = some y → (w.lo.rangeFrom ks x y = true ↔ s ≤ j) := by
      have hsays := hf.lo
      rcases hlo with hlo | hlo <;> rw [hlo] at hsays ⊢ <;> obtain ⟨h1, h2⟩ := hsays
      · exact ⟨0, by unfold rangeStart; simp [h1, h2], fun j y _ => by simp [Edge.rangeFrom]⟩
      · refine ⟨before ks P x, ?_, fun j y hj => ?_⟩
        · unfold rangeStart
          simp only [h1, h2, Bool.false_eq_true, false_and, if_false]
          rw [peerStart_eq h hi i (Nat.le_refl _) (fun y hy => by
            rw [hi] at hy
            injection hy with hy
            subst hy
            exact RowLe.refl ks _)]
        · simp only [Edge.rangeFrom, decide_eq_true_iff]
          exact le_iff_before h hj
    have he : ∃ e, rangeEnd ks fr.hi P i = .ok e ∧ e ≤ P.length ∧ ∀ j y, P[j]? = some y → (w.hi.rangeUpto ks x y = true ↔ j < e) := by
      have hsays := hf.hi
      rcases hhi with hhi | hhi <;> rw [hhi] at hsays ⊢ <;> obtain ⟨h1, h2⟩ := hsays
      · refine ⟨P.length, by unfold rangeEnd; simp [h1, h2], Nat.le_refl _, fun j y hj => ?_⟩
        have := (List.getElem?_eq_some_iff.1 hj).1
        simp [Edge.rangeUpto, this]
      · refine ⟨upTo ks P x, ?_, upTo_le P x, fun j y hj => ?_⟩
        · unfold rangeEnd
          simp only [h1, h2, Bool.false_eq_true, false_and, if_false]
          rw [peersEnd_eq h hi P.length (i + 1) (by omega) (by omega) (by omega) (fun y _ hy => by
            rw [show i + 1 - 1 = i by omega, hi] at hy
            injection hy with hy
            subst hy
            exact RowLe.refl ks _)]
        · simp only [Edge.rangeUpto, decide_eq_true_iff]
          exact le_iff_upTo h hj
    obtain ⟨s, hs, hs'⟩ := hs
    obtain ⟨e, he, hel, he'⟩ := he
    have hall : ∀ j y, P[j]? = some y → (w.has ks x i y j = true ↔ s ≤ j ∧ j < e) := by
      intro j y hj
      unfold Extent.has
      rw [if_neg (by simp [hr]), Bool.and_eq_true, hs' j y hj, he' j y hj]
    refine ⟨s, e, ?_, ?_, hel, frameOf_eq w x i s e hel hall, hall i x hi⟩
    · unfold Frame.start; rw [hf.rows, hr, if_neg (by simp)]; exact hs
    · unfold Frame.stop; rw [hf.rows, hr, if_neg (by simp)]; exact he

end BaikalDB.Window
