import Verif.Window.Fn
import Mathlib.Data.List.Perm.Subperm

/-! # Ranks, buckets and neighbours; one partition through the processors -/

namespace BaikalDB.Window
open Expr (EV VTy)
open Expr.Spec
open Spec
open BaikalDB.Sort (Key rowCompare rowOrd RowLe RowOK rowCompare_eq)

variable {ρ : Type} {ks : List (Key ρ)} {oty : Key ρ → VTy} {P : List ρ} {fp : Fp}

/-- One row of each class of equal rows before `x`. -/
def Reps (ks : List (Key ρ)) (P : List ρ) (x : ρ) (reps : List ρ) : Prop :=
  (∀ q ∈ reps, q ∈ P ∧ rowOrd ks q x = .lt) ∧ (reps.Pairwise fun q q' => rowOrd ks q q' ≠ .eq) ∧
    (∀ r ∈ P, rowOrd ks r x = .lt → ∃ q ∈ reps, rowOrd ks r q = .eq)

/-- Rows in the bucket `g`. -/
def bucketSize (N n g : Nat) : Nat := if g ≤ N % n then N / n + 1 else N / n

theorem bucketStart_succ (N n : Nat) {g : Nat} (hg : 1 ≤ g) : bucketStart N n (g + 1) = bucketStart N n g + bucketSize N n g := by
  obtain ⟨k, rfl⟩ : ∃ k, g = k + 1 := ⟨g - 1, by omega⟩
  unfold bucketStart bucketSize
  rw [show k + 1 + 1 - 1 = k + 1 by omega, show k + 1 - 1 = k by omega, Nat.add_mul, Nat.one_mul]
  split <;> omega

theorem bucket_pos {N n g : Nat} (hg : 1 ≤ g) (h : bucketStart N n g < N) : 0 < bucketSize N n g := by
  unfold bucketSize
  rcases Nat.eq_zero_or_pos (N / n) with hq | hq
  · unfold bucketStart at h
    rw [hq, Nat.mul_zero, Nat.zero_add] at h
    have : N % n + n * (N / n) = N := Nat.mod_add_div N n
    rw [hq, Nat.mul_zero] at this
    rw [if_pos (by omega)]
    omega
  · split <;> omega

theorem bucket_le {N n g i : Nat} (hn : 0 < n) (h1 : bucketStart N n g ≤ i) (h2 : i < N) : g ≤ n := by
  by_contra hc
  have hg : n ≤ g - 1 := by omega
  unfold bucketStart at h1
  have h3 : N % n + n * (N / n) = N := Nat.mod_add_div N n
  have h4 : n * (N / n) ≤ (g - 1) * (N / n) := Nat.mul_le_mul_right _ hg
  have := Nat.mod_lt N hn
  rw [Nat.min_eq_right (by omega)] at h1
  omega

/-- The state before row `i` is asked for; `called`: `call` has been. -/
def Inv (ks : List (Key ρ)) (f : Fn ρ) (P : List ρ) (i : Nat) (called : Bool) (st : Inter ρ) : Prop :=
  match f with
  | .rowNumber => st = .rowNumber i
  | .rank | .percentRank => ∃ c l b, st = .rank c l b ∧ (called = true → b = some P) ∧
      (ks ≠ [] → c = i ∧ ∀ y, 0 < i → P[i - 1]? = some y → l = before ks P y + 1)
  | .denseRank => ∃ c l b, st = .rank c l b ∧ (called = true → b = some P) ∧
      (ks ≠ [] → c = i ∧ ∀ y, 0 < i → P[i - 1]? = some y → ∃ reps, Reps ks P y reps ∧ l = reps.length + 1)
  | .cumeDist => ∃ c l b, st = .rank c l b ∧ (called = true → b = some P) ∧
      (ks ≠ [] → c = i ∧ (i = 0 → l = 0) ∧ ∀ y, 0 < i → P[i - 1]? = some y → l = upTo ks P y)
  | .ntile n => ∃ c g q r, st = .ntile c g q r ∧ (called = true → q = P.length / n.toNat ∧ r = P.length % n.toNat) ∧ 1 ≤ g ∧
      bucketStart P.length n.toNat g + c = i ∧ (i < P.length → c < bucketSize P.length n.toNat g)
  | .lead .. | .lag .. => ∃ b, st = .leadLag i b ∧ (called = true → b = some P)
  | _ => True

theorem inv_weaken {f : Fn ρ} {i : Nat} {st : Inter ρ} (h : Inv ks f P i true st) : Inv ks f P i false st := by
  cases f <;> simp only [Inv] at h ⊢
  case rowNumber => exact h
  case rank => obtain ⟨c, l, b, h1, _, h2⟩ := h; exact ⟨c, l, b, h1, by simp, h2⟩
  case percentRank => obtain ⟨c, l, b, h1, _, h2⟩ := h; exact ⟨c, l, b, h1, by simp, h2⟩
  case denseRank => obtain ⟨c, l, b, h1, _, h2⟩ := h; exact ⟨c, l, b, h1, by simp, h2⟩
  case cumeDist => obtain ⟨c, l, b, h1, _, h2⟩ := h; exact ⟨c, l, b, h1, by simp, h2⟩
  case ntile => obtain ⟨c, g, q, r, h1, _, h2⟩ := h; exact ⟨c, g, q, r, h1, by simp, h2⟩
  case lead => obtain ⟨b, h1, _⟩ := h; exact ⟨b, h1, by simp⟩
  case lag => obtain ⟨b, h1, _⟩ := h; exact ⟨b, h1, by simp⟩

theorem inv_reset (f : Fn ρ) : Inv ks f P 0 false (partitionReset f) := by
  cases f <;> simp only [Inv, partitionReset]
  case rank => exact ⟨0, 0, none, rfl, by simp, fun _ => ⟨rfl, fun _ h => by omega⟩⟩
  case percentRank => exact ⟨0, 0, none, rfl, by simp, fun _ => ⟨rfl, fun _ h => by omega⟩⟩
  case denseRank => exact ⟨0, 0, none, rfl, by simp, fun _ => ⟨rfl, fun _ h => by omega⟩⟩
  case cumeDist => exact ⟨0, 0, none, rfl, by simp, fun _ => ⟨rfl, fun _ => rfl, fun _ h => by omega⟩⟩
  case ntile n =>
    have h0 : bucketStart P.length n.toNat 1 = 0 := by simp [bucketStart]
    exact ⟨0, 1, 0, 0, rfl, by simp, Nat.le_refl _, by rw [h0], fun h => bucket_pos (Nat.le_refl _) (by rw [h0]; exact h)⟩
  case lead => exact ⟨none, rfl, by simp⟩
  case lag => exact ⟨none, rfl, by simp⟩

theorem frameReset_frameless {f : Fn ρ} (hf : f.frameless = true) (st : Inter ρ) : frameReset f st = st := by
  cases f <;> simp_all [Fn.frameless, frameReset]

theorem frameReset_reset {f : Fn ρ} (hf : f.frameless = false) (st : Inter ρ) : frameReset f st = partitionReset f := by
  cases f <;> simp_all [Fn.frameless, frameReset, partitionReset]

theorem inv_call {f : Fn ρ} (hf : f.frameless = true) (hok : FnOk P f) {i : Nat} {st : Inter ρ} (h : Inv ks f P i false st) {s e : Nat}
    (hse : s < e) (he : e ≤ P.length) : ∃ st', call fp f st P s e = .ok st' ∧ Inv ks f P i true st' := by
  have hg : ¬ (P.length ≤ s ∨ e = 0 ∨ P.length < e) := by omega
  cases f <;> simp only [Fn.frameless, Bool.false_eq_true] at hf <;> simp only [Inv] at h
  case rowNumber => subst h; exact ⟨_, by simp only [call, if_neg hg], rfl⟩
  case rank => obtain ⟨c, l, b, rfl, _, h2⟩ := h; exact ⟨_, by simp only [call, if_neg hg], c, l, _, rfl, fun _ => rfl, h2⟩
  case percentRank => obtain ⟨c, l, b, rfl, _, h2⟩ := h; exact ⟨_, by simp only [call, if_neg hg], c, l, _, rfl, fun _ => rfl, h2⟩
  case denseRank => obtain ⟨c, l, b, rfl, _, h2⟩ := h; exact ⟨_, by simp only [call, if_neg hg], c, l, _, rfl, fun _ => rfl, h2⟩
  case cumeDist => obtain ⟨c, l, b, rfl, _, h2⟩ := h; exact ⟨_, by simp only [call, if_neg hg], c, l, _, rfl, fun _ => rfl, h2⟩
  case ntile n =>
    obtain ⟨c, g, q, r, rfl, _, h2⟩ := h
    have hn : ¬ n ≤ 0 := by simp only [FnOk] at hok; omega
    exact ⟨_, by simp only [call, if_neg hg, if_neg hn], c, g, _, _, rfl, fun _ => ⟨rfl, rfl⟩, h2⟩
  case lead => obtain ⟨b, rfl, _⟩ := h; exact ⟨_, by simp only [call, if_neg hg], _, rfl, fun _ => rfl⟩
  case lag => obtain ⟨b, rfl, _⟩ := h; exact ⟨_, by simp only [call, if_neg hg], _, rfl, fun _ => rfl⟩

/-- The rows at and before a position, and where the equals of a row begin. -/
theorem before_step (h : Ordered oty ks P) {i : Nat} {x : ρ} (hi : P[i]? = some x) :
    (∀ y, 0 < i → P[i - 1]? = some y → rowOrd ks y x ≠ .eq → before ks P x = i) ∧ (i = 0 → before ks P x = 0) := by
  have hil := (List.getElem?_eq_some_iff.1 hi).1
  have hself : ∀ z, P[i]? = some z → RowLe ks x z := fun z hz => by
    rw [hi] at hz
    injection hz with hz
    subst hz
    exact RowLe.refl ks _
  constructor
  · intro y h0 hy hne
    refine before_eq h (by omega) (fun z _ hz => ?_) hself
    rw [hy] at hz
    injection hz with hz
    subst hz
    exact lt_of_le_ne (h.le hy hi (by omega)) hne
  · intro h0
    subst h0
    exact before_eq h (by omega) (fun z hz => by omega) hself

/-- The next rank. -/
theorem nextRank_spec (h : Ordered oty ks P) {i : Nat} {x : ρ} (hi : P[i]? = some x) (dense : Bool) (last : Nat) :
    ∃ l, nextRank ks dense i last (some P) = .ok (i + 1, l) ∧ (i = 0 → l = 1) ∧
      (∀ y, 0 < i → P[i - 1]? = some y → (rowOrd ks y x = .eq → l = last) ∧
        (rowOrd ks y x ≠ .eq → l = if dense then last + 1 else i + 1)) := by
  have hil := (List.getElem?_eq_some_iff.1 hi).1
  unfold nextRank
  by_cases h0 : i = 0
  · subst h0
    exact ⟨1, by simp, fun _ => rfl, fun y hy => by omega⟩
  · have hz : P[i - 1]? = some P[i - 1] := List.getElem?_eq_getElem (by omega)
    rw [if_neg (by omega)]
    simp only [if_neg (show ¬ P.length < i + 1 by omega), hz, hi]
    refine ⟨_, rfl, fun hc => absurd hc h0, fun y _ hy => ?_⟩
    injection hy with hy
    subst hy
    have := h.cmp hz hi
    constructor
    · intro he
      rw [if_neg (by simpa using this.2 he)]
    · intro he
      rw [if_pos (fun hc => he (this.1 hc))]

theorem rowOrd_nil (h : ks = []) (a b : ρ) : rowOrd ks a b = .eq := by subst h; rfl

theorem before_nil (h : ks = []) (x : ρ) : before ks P x = 0 := by
  unfold before
  simp [rowOrd_nil h]

theorem upTo_nil (h : ks = []) (x : ρ) : upTo ks P x = P.length := by
  unfold upTo RowLe
  simp [rowOrd_nil h]

/-- One row of each class before the next row. -/
theorem reps_step (h : Ordered oty ks P) {i : Nat} {x y : ρ} (h0 : 0 < i) (hi : P[i]? = some x) (hy : P[i - 1]? = some y) {reps : List ρ}
    (hr : Reps ks P y reps) : (rowOrd ks y x = .eq → Reps ks P x reps) ∧ (rowOrd ks y x ≠ .eq → Reps ks P x (reps ++ [y])) := by
  have hle := h.le hy hi (by omega)
  obtain ⟨h1, h2, h3⟩ := hr
  constructor
  · intro he
    obtain ⟨_, hxy⟩ := eq_iff_le_le.1 he
    refine ⟨fun q hq => ⟨(h1 q hq).1, ?_⟩, h2, fun r hr hlt => h3 r hr ?_⟩
    · have := (h1 q hq).2
      rw [lt_iff_not_le] at this ⊢
      exact fun hc => this (RowLe.trans hle hc)
    · rw [lt_iff_not_le] at hlt ⊢
      exact fun hc => hlt (RowLe.trans hxy hc)
  · intro hne
    have hlt := lt_of_le_ne hle hne
    refine ⟨fun q hq => ?_, ?_, fun r hr hrx => ?_⟩
    · rcases List.mem_append.1 hq with hq | hq
      · refine ⟨(h1 q hq).1, ?_⟩
        have := (h1 q hq).2
        rw [lt_iff_not_le] at this ⊢
        exact fun hc => this (RowLe.trans hle hc)
      · simp only [List.mem_singleton] at hq
        subst hq
        exact ⟨List.mem_of_getElem? hy, hlt⟩
    · rw [List.pairwise_append]
      refine ⟨h2, List.pairwise_singleton _ _, fun q hq z hz => ?_⟩
      simp only [List.mem_singleton] at hz
      subst hz
      rw [(h1 q hq).2]
      simp
    · obtain ⟨j, hj, rfl⟩ := List.getElem_of_mem hr
      have hji : j < i := by
        by_contra hc
        rw [lt_iff_not_le] at hrx
        exact hrx (h.le hi (List.getElem?_eq_getElem hj) (by omega))
      have hry := h.le (List.getElem?_eq_getElem hj) hy (by omega)
      by_cases he : rowOrd ks P[j] y = .eq
      · exact ⟨y, List.mem_append_right _ (List.mem_singleton_self _), he⟩
      · obtain ⟨q, hq, hqe⟩ := h3 _ hr (lt_of_le_ne hry he)
        exact ⟨q, List.mem_append_left _ hq, hqe⟩

theorem prev_eq {i : Nat} {x y : ρ} (hi : P[i]? = some x) (hy : P[i + 1 - 1]? = some y) : y = x := by
  rw [show i + 1 - 1 = i by omega, hi] at hy
  injection hy with hy
  exact hy.symm

/-- RANK and PERCENT_RANK: the rank found is that of the row. -/
theorem rank_next (h : Ordered oty ks P) {i : Nat} {x : ρ} (hi : P[i]? = some x) {l : Nat}
    (hl : ∀ y, 0 < i → P[i - 1]? = some y → l = before ks P y + 1) :
    nextRank ks false i l (some P) = .ok (i + 1, before ks P x + 1) := by
  have hil := (List.getElem?_eq_some_iff.1 hi).1
  obtain ⟨l', e, e0, e1⟩ := nextRank_spec h hi false l
  obtain ⟨b1, b2⟩ := before_step h hi
  have : l' = before ks P x + 1 := by
    by_cases h0 : i = 0
    · rw [e0 h0, b2 h0]
    · have hz : P[i - 1]? = some P[i - 1] := List.getElem?_eq_getElem (by omega)
      by_cases he : rowOrd ks P[i - 1] x = .eq
      · rw [(e1 _ (by omega) hz).1 he, hl _ (by omega) hz, before_congr he]
      · rw [(e1 _ (by omega) hz).2 he, b1 _ (by omega) hz he]
        simp
  rw [e, this]

theorem isEmpty_false (h : ks ≠ []) : ks.isEmpty = false := by
  cases ks with
  | nil => exact absurd rfl h
  | cons => rfl

theorem inv_result (h : Ordered oty ks P) (hfp : FpOk fp) {f : Fn ρ} (hf : f.frameless = true) (hok : FnOk P f) (hP : P.length < 2 ^ 31)
    {i : Nat} {x : ρ} (hi : P[i]? = some x) {st : Inter ρ} (hv : Inv ks f P i true st) (F : List ρ) :
    ∃ v st', getResult fp ks f st = .ok (v, st') ∧ Value fp ks f P x i F v ∧ Inv ks f P (i + 1) true st' := by
  have hil := (List.getElem?_eq_some_iff.1 hi).1
  have hbl := before_le (ks := ks) P x
  cases f <;> simp only [Fn.frameless, Bool.false_eq_true] at hf <;> simp only [Inv] at hv
  case rowNumber =>
    subst hv
    exact ⟨_, _, rfl, isInt_ofNat (by omega), rfl⟩
  case rank =>
    obtain ⟨c, l, b, rfl, hb, h2⟩ := hv
    have := hb (by simp)
    subst this
    by_cases hks : ks = []
    · refine ⟨_, _, (by simp only [getResult, hks, List.isEmpty_nil, if_true]; rfl), ?_, c, l, _, rfl, fun _ => rfl, fun hn => absurd hks hn⟩
      simp only [Value, before_nil hks]
      exact isInt_ofNat (n := 1) (by omega)
    · obtain ⟨rfl, h3⟩ := h2 hks
      have := rank_next h hi h3
      refine ⟨_, _, (by simp only [getResult, isEmpty_false hks, Bool.false_eq_true, if_false, this, Except.map]; rfl), ?_, _, _, _, rfl,
        fun _ => rfl, fun _ => ⟨rfl, fun y _ hy => by rw [prev_eq hi hy]⟩⟩
      exact isInt_ofNat (by omega)
  case denseRank =>
    obtain ⟨c, l, b, rfl, hb, h2⟩ := hv
    have := hb (by simp)
    subst this
    by_cases hks : ks = []
    · refine ⟨_, _, (by simp only [getResult, hks, List.isEmpty_nil, if_true]; rfl), ?_, c, l, _, rfl, fun _ => rfl, fun hn => absurd hks hn⟩
      refine ⟨[], by simp, List.Pairwise.nil, fun r _ hr => ?_, isInt_ofNat (n := 1) (by omega)⟩
      rw [rowOrd_nil hks] at hr
      exact absurd hr (by simp)
    · obtain ⟨rfl, h3⟩ := h2 hks
      obtain ⟨l', e, e0, e1⟩ := nextRank_spec h hi true l
      have hreps : ∃ reps, Reps ks P x reps ∧ l' = reps.length + 1 ∧ reps.length ≤ c := by
        have main : ∃ reps, Reps ks P x reps ∧ l' = reps.length + 1 := by
          by_cases h0 : c = 0
          · refine ⟨[], ⟨by simp, List.Pairwise.nil, fun r hr hlt => ?_⟩, e0 h0⟩
            obtain ⟨j, hj, rfl⟩ := List.getElem_of_mem hr
            rw [lt_iff_not_le] at hlt
            exact absurd (h.le hi (List.getElem?_eq_getElem hj) (by omega)) hlt
          · have hz : P[c - 1]? = some P[c - 1] := List.getElem?_eq_getElem (by omega)
            obtain ⟨reps, hr, hrl⟩ := h3 _ (by omega) hz
            obtain ⟨s1, s2⟩ := reps_step h (by omega) hi hz hr
            by_cases he : rowOrd ks P[c - 1] x = .eq
            · exact ⟨reps, s1 he, by rw [(e1 _ (by omega) hz).1 he, hrl]⟩
            · refine ⟨reps ++ [P[c - 1]], s2 he, ?_⟩
              rw [(e1 _ (by omega) hz).2 he, hrl]
              simp
        obtain ⟨reps, hr, hrl⟩ := main
        refine ⟨reps, hr, hrl, ?_⟩
        -- distinct classes below the row: no more than there are rows before it
        have hinj : ∀ (R : List ρ), (∀ q ∈ R, ∃ j, j < c ∧ P[j]? = some q) → (R.Pairwise fun q q' => rowOrd ks q q' ≠ .eq) → R.length ≤ c := by
          intro R hR hpw
          have hsub : R.Subperm (P.take c) := by
            have hnd : R.Nodup := hpw.imp (fun hne he => hne (by
              subst he
              exact eq_iff_le_le.2 ⟨RowLe.refl ks _, RowLe.refl ks _⟩))
            refine hnd.subperm (fun q hq => ?_)
            obtain ⟨j, hj, hq'⟩ := hR q hq
            exact List.mem_of_getElem? (i := j) (by rw [List.getElem?_take, if_pos hj]; exact hq')
          have := hsub.length_le
          rw [List.length_take] at this
          omega
        apply hinj reps _ hr.2.1
        intro q hq
        obtain ⟨j, hj, rfl⟩ := List.getElem_of_mem (hr.1 q hq).1
        refine ⟨j, ?_, List.getElem?_eq_getElem hj⟩
        by_contra hc
        have := (hr.1 _ hq).2
        rw [lt_iff_not_le] at this
        exact this (h.le hi (List.getElem?_eq_getElem hj) (by omega))
      obtain ⟨reps, hr, hrl, hlen⟩ := hreps
      subst hrl
      refine ⟨_, _, (by simp only [getResult, isEmpty_false hks, Bool.false_eq_true, if_false, e, Except.map]; rfl), ?_, _, _, _, rfl,
        fun _ => rfl, fun _ => ⟨rfl, fun y _ hy => by rw [prev_eq hi hy]; exact ⟨reps, hr, rfl⟩⟩⟩
      exact ⟨reps, hr.1, hr.2.1, hr.2.2, isInt_ofNat (by omega)⟩
  case percentRank =>
    obtain ⟨c, l, b, rfl, hb, h2⟩ := hv
    have := hb (by simp)
    subst this
    by_cases hks : ks = []
    · refine ⟨_, _, (by simp only [getResult, hks, List.isEmpty_nil, if_true]; rfl), ?_, c, l, _, rfl, fun _ => rfl, fun hn => absurd hks hn⟩
      refine ⟨rfl, ?_⟩
      rw [before_nil hks]
      split
      · rfl
      · exact (hfp.zero_div _ (by omega)).symm
    · obtain ⟨rfl, h3⟩ := h2 hks
      have := rank_next h hi h3
      refine ⟨_, _, (by simp only [getResult, isEmpty_false hks, Bool.false_eq_true, if_false, if_neg (show ¬ P.length = 0 by omega), this, Except.map]; rfl), ?_, _, _, _, rfl,
        fun _ => rfl, fun _ => ⟨rfl, fun y _ hy => by rw [prev_eq hi hy]⟩⟩
      refine ⟨rfl, ?_⟩
      have : ((before ks P x + 1 : Nat) : Int) - 1 = (before ks P x : Int) := by omega
      simp only [dblV, this]
  case cumeDist =>
    obtain ⟨c, l, b, rfl, hb, h2⟩ := hv
    have := hb (by simp)
    subst this
    by_cases hks : ks = []
    · refine ⟨_, _, (by simp only [getResult, hks, List.isEmpty_nil, if_true]; rfl), ?_, c, l, _, rfl, fun _ => rfl, fun hn => absurd hks hn⟩
      refine ⟨rfl, ?_⟩
      rw [upTo_nil hks]
      exact (hfp.self_div _ (by omega)).symm
    · obtain ⟨rfl, h3, h4⟩ := h2 hks
      have hend : peersEnd ks P c P.length l = upTo ks P x := by
        by_cases h0 : c = 0
        · have := h3 h0
          subst this
          exact peersEnd_eq h hi _ 0 (by omega) (by omega) (by omega) (fun y hy => by omega)
        · have hz : P[c - 1]? = some P[c - 1] := List.getElem?_eq_getElem (by omega)
          have hl := h4 _ (by omega) hz
          have hcl : c ≤ l := by
            have := (le_iff_upTo h hz (x := P[c - 1])).1 (RowLe.refl ks _)
            omega
          have hl2 := upTo_le (ks := ks) P P[c - 1]
          refine peersEnd_eq h hi _ l hcl (by omega) (by omega) (fun y h5 hy => ?_)
          have : RowLe ks y P[c - 1] := (le_iff_upTo h hy).2 (by omega)
          exact RowLe.trans this (h.le hz hi (by omega))
      refine ⟨_, _, (by simp only [getResult, isEmpty_false hks, Bool.false_eq_true, if_false, if_neg (show ¬ P.length ≤ c by omega), hend]; rfl), ?_, _, _, _, rfl,
        fun _ => rfl, fun _ => ⟨rfl, fun hc => by omega, fun y _ hy => by rw [prev_eq hi hy]⟩⟩
      exact ⟨rfl, rfl⟩
  case ntile n =>
    obtain ⟨c, g, q, r, rfl, hqr, hg, hs, hc⟩ := hv
    obtain ⟨rfl, rfl⟩ := hqr (by simp)
    have hsz := bucketStart_succ P.length n.toNat hg
    have hlt := hc hil
    have hn := hok
    simp only [FnOk] at hn
    have hgn : g ≤ n.toNat := bucket_le (N := P.length) (i := i) (by omega) (by omega) hil
    have hgN : g ≤ P.length + 1 := by
      by_contra hcc
      -- a bucket after the first is not empty
      have : ∀ k, 1 ≤ k → bucketStart P.length n.toNat k ≤ i → k ≤ bucketStart P.length n.toNat k + 1 := by
        intro k
        induction k with
        | zero => intro h; omega
        | succ k ih =>
          intro _ hk
          by_cases hk0 : k = 0
          · subst hk0; omega
          · have e := bucketStart_succ P.length n.toNat (g := k) (by omega)
            have hp := bucket_pos (N := P.length) (n := n.toNat) (g := k) (by omega) (by omega)
            have := ih (by omega) (by omega)
            omega
      have := this g hg (by omega)
      omega
    refine ⟨_, _, rfl, ⟨g, hg, by omega, by omega, by omega, isInt_ofNat (by omega)⟩, ?_⟩
    change Inv ks (.ntile n) P (i + 1) true (if c + 1 = bucketSize P.length n.toNat g then _ else _)
    by_cases he : c + 1 = bucketSize P.length n.toNat g
    · rw [if_pos he]
      refine ⟨0, g + 1, _, _, rfl, fun _ => ⟨rfl, rfl⟩, by omega, by omega, fun hl => ?_⟩
      exact bucket_pos (by omega) (by omega)
    · rw [if_neg he]
      exact ⟨c + 1, g, _, _, rfl, fun _ => ⟨rfl, rfl⟩, hg, by omega, fun hl => by omega⟩
  case lead a k d =>
    obtain ⟨b, rfl, hb⟩ := hv
    have := hb (by simp)
    subst this
    obtain ⟨hk0, hk1⟩ := hok
    have hu : ¬ ((i : Int) + k ≥ 2 ^ 63) := by omega
    by_cases hc : (i : Int) + k < P.length
    · refine ⟨_, _, (by simp only [getResult, if_neg hu, shifted, if_pos (show 0 ≤ (i : Int) + k ∧ (i : Int) + k < P.length from ⟨by omega, hc⟩), Except.map]; rfl), ?_, _, rfl, fun _ => rfl⟩
      simp only [Value, if_pos hc, at?]
    · cases d with
      | none =>
        refine ⟨_, _, (by simp only [getResult, if_neg hu, shifted, if_neg (show ¬ (0 ≤ (i : Int) + k ∧ (i : Int) + k < P.length) by omega), Except.map]; rfl), ?_, _, rfl, fun _ => rfl⟩
        simp only [Value, if_neg hc, Option.map_none, Option.getD_none]
      | some d =>
        refine ⟨_, _, (by simp only [getResult, if_neg hu, shifted, if_neg (show ¬ (0 ≤ (i : Int) + k ∧ (i : Int) + k < P.length) by omega), if_neg (show ¬ P.length ≤ i by omega), Except.map]; rfl), ?_, _, rfl, fun _ => rfl⟩
        simp only [Value, if_neg hc, at?_eq d hi, Option.map_some, Option.getD_some]
  case lag a k d =>
    obtain ⟨b, rfl, hb⟩ := hv
    have := hb (by simp)
    subst this
    have hk0 : 0 ≤ k := hok
    by_cases hc : k ≤ i
    · refine ⟨_, _, (by simp only [getResult, shifted, if_pos (show 0 ≤ (i : Int) - k ∧ (i : Int) - k < P.length by omega), Except.map]; rfl), ?_, _, rfl, fun _ => rfl⟩
      simp only [Value, if_pos hc, at?]
    · cases d with
      | none =>
        refine ⟨_, _, (by simp only [getResult, shifted, if_neg (show ¬ (0 ≤ (i : Int) - k ∧ (i : Int) - k < P.length) by omega), Except.map]; rfl), ?_, _, rfl, fun _ => rfl⟩
        simp only [Value, if_neg hc, Option.map_none, Option.getD_none]
      | some d =>
        refine ⟨_, _, (by simp only [getResult, shifted, if_neg (show ¬ (0 ≤ (i : Int) - k ∧ (i : Int) - k < P.length) by omega), if_neg (show ¬ P.length ≤ i by omega), Except.map]; rfl), ?_, _, rfl, fun _ => rfl⟩
        simp only [Value, if_neg hc, at?_eq d hi, Option.map_some, Option.getD_some]

/-! ## Processors -/

/-- Every row has the value of the function. -/
def Right (fp : Fp) (ks : List (Key ρ)) (f : Fn ρ) (w : Extent) (P : List ρ) (vs : List EV) : Prop :=
  vs.length = P.length ∧ ∀ (i : Nat) (x : ρ), P[i]? = some x → ∃ v : EV, vs[i]? = some v ∧ Value fp ks f P x i (frameOf ks w P x i) v

theorem results_same {f : Fn ρ} {st : Inter ρ} {v : EV} (h : getResult fp ks f st = .ok (v, st)) : ∀ n, results fp ks f n st = .ok (List.replicate n v) := by
  intro n
  induction n with
  | zero => rfl
  | succ n ih =>
    unfold results
    simp only [bind, Except.bind, pure, Except.pure, h, ih]
    rfl

theorem results_inv (h : Ordered oty ks P) (hfp : FpOk fp) {f : Fn ρ} (hf : f.frameless = true) (hok : FnOk P f) (hP : P.length < 2 ^ 31)
    (w : Extent) (n : Nat) : ∀ (i : Nat) (st : Inter ρ), i + n = P.length → Inv ks f P i true st →
    ∃ vs, results fp ks f n st = .ok vs ∧ vs.length = n ∧ ∀ (j : Nat) (x : ρ), P[i + j]? = some x →
      ∃ v : EV, vs[j]? = some v ∧ Value fp ks f P x (i + j) (frameOf ks w P x (i + j)) v := by
  induction n with
  | zero =>
    intro i st hin _
    refine ⟨[], rfl, rfl, fun j x hx => ?_⟩
    have := (List.getElem?_eq_some_iff.1 hx).1
    omega
  | succ n ih =>
    intro i st hin hst
    have hi : P[i]? = some P[i] := List.getElem?_eq_getElem (by omega)
    obtain ⟨v, st', h1, h2, h3⟩ := inv_result h hfp hf hok hP hi hst (frameOf ks w P P[i] i)
    obtain ⟨vs, e1, e2, e3⟩ := ih (i + 1) st' (by omega) h3
    refine ⟨v :: vs, ?_, by simp [e2], fun j x hx => ?_⟩
    · unfold results
      simp only [bind, Except.bind, pure, Except.pure, h1, e1]
    · cases j with
      | zero =>
        rw [Nat.add_zero, hi] at hx
        injection hx with hx
        subst hx
        exact ⟨v, rfl, h2⟩
      | succ j =>
        have := e3 j x (by rw [show i + 1 + j = i + (j + 1) by omega]; exact hx)
        rw [show i + 1 + j = i + (j + 1) by omega] at this
        simpa using this

/-- The whole partition is the frame. -/
def Extent.Whole (w : Extent) : Prop := w.lo = .unboundedPreceding ∧ w.hi = .unboundedFollowing

theorem frameOf_whole {w : Extent} (hw : Extent.Whole w) (x : ρ) (i : Nat) : frameOf ks w P x i = P := by
  obtain ⟨h1, h2⟩ := hw
  have := frameOf_eq (ks := ks) (P := P) w x i 0 P.length (Nat.le_refl _) (fun j y hj => by
    have := (List.getElem?_eq_some_iff.1 hj).1
    unfold Extent.has
    rw [h1, h2]
    simp [Edge.rowsFrom, Edge.rowsUpto, Edge.rangeFrom, Edge.rangeUpto, this])
  simpa using this

theorem processWhole_spec (h : Ordered oty ks P) (hfp : FpOk fp) {f : Fn ρ} (hok : FnOk P f) (hP : P.length < 2 ^ 31) {w : Extent}
    (hw : f.frameless = true ∨ Extent.Whole w) : ∃ vs, processWhole fp ks f P = .ok vs ∧ Right fp ks f w P vs := by
  unfold processWhole
  by_cases hne : P = []
  · subst hne
    exact ⟨[], rfl, rfl, fun i x hx => by simp at hx⟩
  · rw [if_neg hne]
    have hpos : 0 < P.length := List.length_pos_iff.2 hne
    cases hf : f.frameless with
    | true =>
      obtain ⟨st, e1, hinv⟩ := inv_call (fp := fp) (ks := ks) hf hok (inv_reset f) hpos (Nat.le_refl _)
      obtain ⟨vs, e2, e3, e4⟩ := results_inv h hfp hf hok hP w P.length 0 st (by omega) hinv
      refine ⟨vs, ?_, e3, fun i x hx => ?_⟩
      · simp only [bind, Except.bind, e1, e2]
      · have := e4 i x (by rw [Nat.zero_add]; exact hx)
        simpa using this
    | false =>
      have hw' : Extent.Whole w := by
        rcases hw with hw | hw
        · rw [hf] at hw; exact absurd hw (by simp)
        · exact hw
      have hval : ∀ x i, ∃ st' v, call fp f (partitionReset f) P 0 P.length = .ok st' ∧ getResult fp ks f st' = .ok (v, st') ∧
          Value fp ks f P x i P v := by
        intro x i
        obtain ⟨st', v, e1, e2, e3⟩ := frame_value (fp := fp) (ks := ks) hf hok hP (partitionReset f) (Nat.le_refl P.length) (s := 0) x i
        rw [if_pos hpos, frameReset_reset hf] at e1
        refine ⟨st', v, e1, e2, ?_⟩
        simpa using e3
      obtain ⟨st', v, e1, e2, _⟩ := hval (P[0]) 0
      refine ⟨List.replicate P.length v, ?_, by simp, fun i x hx => ⟨v, ?_, ?_⟩⟩
      · simp only [bind, Except.bind, e1]
        exact results_same e2 _
      · have := (List.getElem?_eq_some_iff.1 hx).1
        rw [List.getElem?_replicate, if_pos this]
      · obtain ⟨st2, v2, g1, g2, g3⟩ := hval x i
        rw [e1] at g1
        injection g1 with g1
        subst g1
        rw [e2] at g2
        injection g2 with g2
        injection g2 with g2 _
        subst g2
        rw [frameOf_whole hw']
        exact g3

theorem frameLoop_spec (h : Ordered oty ks P) (hfp : FpOk fp) {f : Fn ρ} (hok : FnOk P f) (hP : P.length < 2 ^ 31) {w : Extent} {fr : Frame}
    {N : Nat} (hw : FrameSays N fr w) (hN : P.length ≤ N) (hr : f.frameless = true → w.rows = false) (n : Nat) :
    ∀ (i : Nat) (st : Inter ρ), i + n = P.length → (f.frameless = true → Inv ks f P i false st) →
    ∃ vs, frameLoop fp ks fr f P n i st = .ok vs ∧ vs.length = n ∧ ∀ (j : Nat) (x : ρ), P[i + j]? = some x →
      ∃ v : EV, vs[j]? = some v ∧ Value fp ks f P x (i + j) (frameOf ks w P x (i + j)) v := by
  induction n with
  | zero =>
    intro i st hin _
    refine ⟨[], rfl, rfl, fun j x hx => ?_⟩
    have := (List.getElem?_eq_some_iff.1 hx).1
    omega
  | succ n ih =>
    intro i st hin hst
    have hi : P[i]? = some P[i] := List.getElem?_eq_getElem (by omega)
    obtain ⟨s, e, es, ee, hel, hfo, hhas⟩ := frame_spec h hw hN hi
    have step : ∃ st₁ v st₂, (if s < e then call fp f (frameReset f st) P s e else .ok (frameReset f st)) = .ok st₁ ∧
        getResult fp ks f st₁ = .ok (v, st₂) ∧ Value fp ks f P P[i] i (frameOf ks w P P[i] i) v ∧
        (f.frameless = true → Inv ks f P (i + 1) false st₂) := by
      cases hf : f.frameless with
      | true =>
        have hin : s ≤ i ∧ i < e := by
          apply hhas.1
          unfold Extent.has
          obtain ⟨r1, r2⟩ := hw.range (hr hf)
          rw [if_neg (by simp [hr hf])]
          rcases r1 with r1 | r1 <;> rcases r2 with r2 | r2 <;> rw [r1, r2] <;> simp [Edge.rangeFrom, Edge.rangeUpto, RowLe.refl]
        have hse : s < e := by omega
        rw [if_pos hse, frameReset_frameless hf]
        obtain ⟨st₁, c1, c2⟩ := inv_call (fp := fp) hf hok (hst hf) hse hel
        obtain ⟨v, st₂, c3, c4, c5⟩ := inv_result h hfp hf hok hP hi c2 (frameOf ks w P P[i] i)
        exact ⟨st₁, v, st₂, c1, c3, c4, fun _ => inv_weaken c5⟩
      | false =>
        obtain ⟨st', v, c1, c2, c3⟩ := frame_value (fp := fp) (ks := ks) hf hok hP st hel (s := s) P[i] i
        exact ⟨st', v, st', c1, c2, by rw [hfo]; exact c3, by simp⟩
    obtain ⟨st₁, v, st₂, h1, h2, h3, h4⟩ := step
    obtain ⟨vs, e1, e2, e3⟩ := ih (i + 1) st₂ (by omega) h4
    refine ⟨v :: vs, ?_, by simp [e2], fun j x hx => ?_⟩
    · unfold frameLoop
      by_cases hse : s < e
      · rw [if_pos hse] at h1
        simp only [bind, Except.bind, pure, Except.pure, es, ee, if_pos hse, h1, h2, e1]
      · rw [if_neg hse] at h1
        injection h1 with h1
        simp only [bind, Except.bind, pure, Except.pure, es, ee, if_neg hse, h1, h2, e1]
    · cases j with
      | zero =>
        rw [Nat.add_zero, hi] at hx
        injection hx with hx
        subst hx
        exact ⟨v, rfl, h3⟩
      | succ j =>
        have := e3 j x (by rw [show i + 1 + j = i + (j + 1) by omega]; exact hx)
        rw [show i + 1 + j = i + (j + 1) by omega] at this
        simpa using this

/-- What a node's frame must be for the function to be right. -/
def FrameFits (N : Nat) (f : Fn ρ) (fr : Option Frame) (w : Extent) : Prop :=
  match fr with
  | none => f.frameless = true ∨ Extent.Whole w
  | some fr => FrameSays N fr w ∧ (f.frameless = true → w.rows = false) ∨ f.frameless = true ∧ ∃ w', FrameSays N fr w' ∧ w'.rows = false

theorem Value_frameless {f : Fn ρ} (hf : f.frameless = true) {x : ρ} {i : Nat} {F F' : List ρ} {v : EV} (h : Value fp ks f P x i F v) :
    Value fp ks f P x i F' v := by
  cases f <;> simp only [Fn.frameless, Bool.false_eq_true] at hf <;> exact h

theorem process_spec (h : Ordered oty ks P) (hfp : FpOk fp) {f : Fn ρ} (hok : FnOk P f) (hP : P.length < 2 ^ 31) {w : Extent}
    {fr : Option Frame} {N : Nat} (hN : P.length ≤ N) (hw : FrameFits N f fr w) : ∃ vs, process fp ks fr f P = .ok vs ∧ Right fp ks f w P vs := by
  unfold process
  cases fr with
  | none => exact processWhole_spec h hfp hok hP hw
  | some fr =>
    have main : ∀ w, FrameSays N fr w → (f.frameless = true → w.rows = false) →
        ∃ vs, (if fr.whole then processWhole fp ks f P else processFrame fp ks fr f P) = .ok vs ∧ Right fp ks f w P vs := by
      intro w hs hr
      cases hwh : fr.whole with
      | true =>
        rw [if_pos rfl]
        apply processWhole_spec h hfp hok hP
        right
        unfold Frame.whole at hwh
        simp only [Bool.and_eq_true, beq_iff_eq] at hwh
        obtain ⟨⟨a1, a2⟩, a3, a4⟩ := hwh
        have hlo := hs.lo
        have hhi := hs.hi
        constructor
        · cases hl : w.lo <;> rw [hl] at hlo <;> simp_all [Says]
        · cases hl : w.hi <;> rw [hl] at hhi <;> simp_all [Says]
      | false =>
        rw [if_neg (by simp)]
        unfold processFrame
        by_cases hne : P = []
        · subst hne
          exact ⟨[], rfl, rfl, fun i x hx => by simp at hx⟩
        · rw [if_neg hne]
          obtain ⟨vs, e1, e2, e3⟩ := frameLoop_spec h hfp hok hP hs hN hr P.length 0 (partitionReset f) (by omega) (fun _ => inv_reset f)
          refine ⟨vs, e1, e2, fun i x hx => ?_⟩
          have := e3 i x (by rw [Nat.zero_add]; exact hx)
          simpa using this
    rcases hw with ⟨h1, h2⟩ | ⟨h1, w', h2, h3⟩
    · exact main w h1 h2
    · obtain ⟨vs, e1, e2, e3⟩ := main w' h2 (fun _ => h3)
      refine ⟨vs, e1, e2, fun i x hx => ?_⟩
      obtain ⟨v, g1, g2⟩ := e3 i x hx
      exact ⟨v, g1, Value_frameless h1 g2⟩

end BaikalDB.Window
