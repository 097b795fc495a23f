import Verif.Datetime.Model
import Verif.Datetime.Spec
import Mathlib.Tactic.Common
import Mathlib.Tactic.IntervalCases
/-!
# The calendar algorithms
-/
namespace BaikalDB.Datetime

theorem divFloor_eq (a b : Int) (hb : 0 < b) : divFloor a b = a / b := by
  unfold divFloor
  split
  · next h => rw [Int.tdiv_eq_ediv_of_nonneg h]
  · next h =>
    have h0 : a < 0 := by omega
    obtain ⟨n, hn⟩ : ∃ n : Nat, a + 1 - b = -(n : Int) := ⟨(-(a + 1 - b)).toNat, by omega⟩
    rw [hn, Int.neg_tdiv, Int.tdiv_eq_ediv_of_nonneg (by omega)]
    have e1 : (n : Int) = b - 1 - a := by omega
    have h1 : b * ((n : Int) / b) + (n : Int) % b = n := Int.mul_ediv_add_emod _ _
    have h2 := Int.emod_nonneg (n : Int) (by omega : b ≠ 0)
    have h3 := Int.emod_lt_of_pos (n : Int) hb
    symm
    have h5 : b * -((n : Int) / b) + (b - 1 - (n : Int) % b) = a := by
      rw [Int.mul_neg]; omega
    rw [Int.ediv_eq_iff_of_pos hb] 
    rw [Int.neg_mul, Int.mul_comm ((n : Int) / b) b]
    rw [Int.mul_neg] at h5
    constructor <;> omega

theorem leap_iff (y : Int) : Spec.Leap y ↔ (y % 4 = 0 ∧ y % 100 ≠ 0) ∨ y % 400 = 0 := by
  unfold Spec.Leap; constructor <;> intro h <;> omega

theorem isLeap_iff (y : Int) : isLeap y = true ↔ Spec.Leap y := by
  rw [leap_iff]
  simp only [isLeap, Bool.and_eq_true, Bool.or_eq_true, beq_iff_eq, bne_iff_ne]
  omega

theorem yoe_of (c q k D : Int) (hc : 0 ≤ c ∧ c ≤ 3) (hq : 0 ≤ q ∧ q ≤ 24) (hk : 0 ≤ k ∧ k ≤ 3) (hD : 0 ≤ D ∧ D ≤ 365)
   (hl : D = 365 → k = 3 ∧ (q < 24 ∨ c = 3)) : yoeOf (36524 * c + 1461 * q + 365 * k + D) = 100 * c + 4 * q + k := by
  obtain ⟨hc0, hc1⟩ := hc
  obtain ⟨hk0, hk1⟩ := hk
  unfold yoeOf
  have h1 : (36524 * c + 1461 * q + 365 * k + D) / 1460 = 25 * c + q + (24 * c + q + 365 * k + D) / 1460 := by omega
  have h2 : (36524 * c + 1461 * q + 365 * k + D) / 36524 = c + (1461 * q + 365 * k + D) / 36524 := by omega
  rw [h1, h2]
  have h3 : (1461 * q + 365 * k + D) / 36524 = if 1461 * q + 365 * k + D = 36524 then 1 else 0 := by split <;> omega
  have h4 : (36524 * c + 1461 * q + 365 * k + D) / 146096 = if 1461 * q + 365 * k + D = 36524 then 1 else 0 := by
    split <;> omega
  rw [h3, h4]
  omega

/-- Days before March 1st of a year, counted from year 0. -/
def before (y : Int) : Int := 365 * y + y / 4 - y / 100 + y / 400

theorem before_eq (y : Int) :
    y / 400 * 146097 + ((y - y / 400 * 400) * 365 + (y - y / 400 * 400) / 4 - (y - y / 400 * 400) / 100) = before y := by
  unfold before; omega

/-- Days from March 1st to a day of the shifted month `m` (March is 0). -/
def doyOf (m d : Int) : Int := (153 * m + 2) / 5 + d - 1

theorem days_eq (y m d : Int) : daysFromCivil y m d =
    before (if m ≤ 2 then y - 1 else y) + doyOf (m + (if m > 2 then -3 else 9)) d - 719468 := by
  have := before_eq (if m ≤ 2 then y - 1 else y)
  simp only [daysFromCivil, divFloor_eq _ 400 (by decide), doyOf]
  omega

theorem days_next (d : Spec.Date) (h : Spec.Valid d) :
    daysFromCivil (Spec.next d).1 (Spec.next d).2.1 (Spec.next d).2.2 = daysFromCivil d.1 d.2.1 d.2.2 + 1 := by
  obtain ⟨y, m, x⟩ := d
  obtain ⟨h1, h2, h3, h4⟩ := h
  simp only at h1 h2 h3 h4
  unfold Spec.next
  simp only
  split
  · next hx => simp only [days_eq, doyOf]; omega
  · next hx =>
    have hx' : x = Spec.monthLen y m := by omega
    subst hx'
    clear h3 h4 hx
    have : m = 1 ∨ m = 2 ∨ m = 3 ∨ m = 4 ∨ m = 5 ∨ m = 6 ∨ m = 7 ∨ m = 8 ∨ m = 9 ∨ m = 10 ∨ m = 11 ∨ m = 12 := by omega
    rcases this with h | h | h | h | h | h | h | h | h | h | h | h <;> subst h <;>
      simp [days_eq, doyOf, Spec.monthLen]
    all_goals first | omega | (simp only [leap_iff, before]; split <;> omega)

/-- A day within the shifted year is determined by the shifted month and the day of the month. -/
theorem doy_month (m d : Int) (_hm : 0 ≤ m ∧ m ≤ 11) (hd : 1 ≤ d)
    (hd' : (m < 11 ∧ d ≤ (153 * (m + 1) + 2) / 5 - (153 * m + 2) / 5) ∨ (m = 11 ∧ d ≤ 29)) :
    (5 * doyOf m d + 2) / 153 = m := by
  unfold doyOf; omega

theorem before_split (y : Int) (_hy : 0 ≤ y ∧ y < 400) :
    y * 365 + y / 4 - y / 100 = 36524 * (y / 100) + 1461 * (y % 100 / 4) + 365 * (y % 4) := by omega

/-- The heart of the inverse: shifted year and day of year back from the day number. -/
theorem shift_civil (y D : Int) (hD : 0 ≤ D ∧ D ≤ 365) (hl : D = 365 → Spec.Leap (y + 1)) :
    (before y + D) / 146097 = y / 400 ∧
    yoeOf (before y + D - (before y + D) / 146097 * 146097) = y % 400 ∧
    before y + D - (before y + D) / 146097 * 146097 - (365 * (y % 400) + y % 400 / 4 - y % 400 / 100) = D := by
  have hb := before_eq y
  have e : y - y / 400 * 400 = y % 400 := by omega
  rw [e] at hb
  have h0 := Int.emod_nonneg y (by decide : (400 : Int) ≠ 0)
  have h1 := Int.emod_lt_of_pos y (by decide : (0 : Int) < 400)
  have hs := before_split (y % 400) ⟨h0, h1⟩
  rw [leap_iff] at hl
  have hE : (before y + D) / 146097 = y / 400 := by
    generalize y / 400 = E at *
    rw [← hb]
    have : 0 ≤ y % 400 * 365 + y % 400 / 4 - y % 400 / 100 + D ∧
        y % 400 * 365 + y % 400 / 4 - y % 400 / 100 + D < 146097 := by
      constructor
      · omega
      · by_cases hh : D = 365
        · have := hl hh; omega
        · omega
    omega
  refine ⟨hE, ?_, ?_⟩
  · rw [hE]
    have e2 : before y + D - y / 400 * 146097 = 36524 * (y % 400 / 100) + 1461 * (y % 400 % 100 / 4) + 365 * (y % 400 % 4) + D := by
      omega
    rw [e2, yoe_of _ _ _ _ (by omega) (by omega) (by omega) hD]
    · omega
    · intro hh; have := hl hh; omega
  · rw [hE]; omega

theorem civil_days (d : Spec.Date) (h : Spec.Valid d) : civil (daysFromCivil d.1 d.2.1 d.2.2) = d := by
  obtain ⟨y, m, x⟩ := d
  obtain ⟨h1, h2, h3, h4⟩ := h
  simp only at h1 h2 h3 h4 ⊢
  obtain ⟨Y, hY⟩ : ∃ Y, Y = if m ≤ 2 then y - 1 else y := ⟨_, rfl⟩
  obtain ⟨M, hM⟩ : ∃ M, M = m + (if m > 2 then -3 else 9) := ⟨_, rfl⟩
  have hM' : 0 ≤ M ∧ M ≤ 11 := by omega
  have hd' : (M < 11 ∧ x ≤ (153 * (M + 1) + 2) / 5 - (153 * M + 2) / 5) ∨ (M = 11 ∧ x ≤ 29) := by
    have : m = 1 ∨ m = 2 ∨ m = 3 ∨ m = 4 ∨ m = 5 ∨ m = 6 ∨ m = 7 ∨ m = 8 ∨ m = 9 ∨ m = 10 ∨ m = 11 ∨ m = 12 := by omega
    rcases this with h | h | h | h | h | h | h | h | h | h | h | h <;> subst h <;>
      simp [Spec.monthLen] at h4 hM <;> subst hM <;> try omega
  have hmp := doy_month M x hM' h3 hd'
  have hD : 0 ≤ doyOf M x ∧ doyOf M x ≤ 365 := by unfold doyOf at *; omega
  have hl : doyOf M x = 365 → Spec.Leap (Y + 1) := by
    intro hh
    have hm2 : m = 2 ∧ x = 29 := by unfold doyOf at hh; omega
    obtain ⟨rfl, rfl⟩ := hm2
    simp [Spec.monthLen] at h4
    rw [hY]; simp only [Int.reduceLE, if_pos]
    have : y - 1 + 1 = y := by omega
    rw [this]
    by_contra hc
    rw [if_neg hc] at h4; omega
  obtain ⟨a1, a2, a3⟩ := shift_civil Y (doyOf M x) hD hl
  have e0 : daysFromCivil y m x + 719468 = before Y + doyOf M x := by
    rw [days_eq, ← hY, ← hM]; omega
  unfold civil
  simp only [e0, divFloor_eq _ 146097 (by decide), a2, a3, hmp]
  rw [a1]
  have : (M + if M < 10 then 3 else -9) = m := by omega
  rw [this]
  refine Prod.ext ?_ (Prod.ext ?_ ?_)
  · simp only; omega
  · rfl
  · simp only [doyOf]; omega

/-- Every day number has a shifted year and day of year. -/
theorem shift_exists (z : Int) : ∃ y D, 0 ≤ D ∧ D ≤ 365 ∧ (D = 365 → Spec.Leap (y + 1)) ∧ z = before y + D := by
  have h : ∃ E e c q k D, z = 146097 * E + e ∧ e = 36524 * c + 1461 * q + 365 * k + D ∧ 0 ≤ c ∧ c ≤ 3 ∧ 0 ≤ q ∧ q ≤ 24 ∧
      0 ≤ k ∧ k ≤ 3 ∧ 0 ≤ D ∧ D ≤ 365 ∧ (D = 365 → k = 3 ∧ (q < 24 ∨ c = 3)) := by
    obtain ⟨E, hE⟩ : ∃ E, E = z / 146097 := ⟨_, rfl⟩
    obtain ⟨e, he⟩ : ∃ e, e = z % 146097 := ⟨_, rfl⟩
    obtain ⟨c, hc⟩ : ∃ c, c = min 3 (e / 36524) := ⟨_, rfl⟩
    obtain ⟨r1, hr1⟩ : ∃ r1, r1 = e - 36524 * c := ⟨_, rfl⟩
    obtain ⟨q, hq⟩ : ∃ q, q = r1 / 1461 := ⟨_, rfl⟩
    obtain ⟨r2, hr2⟩ : ∃ r2, r2 = r1 % 1461 := ⟨_, rfl⟩
    obtain ⟨k, hk⟩ : ∃ k, k = min 3 (r2 / 365) := ⟨_, rfl⟩
    have a : 0 ≤ e ∧ e < 146097 := by omega
    have b : 0 ≤ c ∧ c ≤ 3 ∧ 0 ≤ r1 ∧ r1 ≤ 36524 ∧ (r1 = 36524 → c = 3) := by omega
    have b2 : 0 ≤ q ∧ q ≤ 24 := by omega
    have b3 : 0 ≤ r2 ∧ r2 ≤ 1460 ∧ r1 = 1461 * q + r2 := by omega
    have b4 : 0 ≤ k ∧ k ≤ 3 ∧ 0 ≤ r2 - 365 * k ∧ r2 - 365 * k ≤ 365 ∧ (r2 - 365 * k = 365 → k = 3) := by omega
    refine ⟨E, e, c, q, k, r2 - 365 * k, by omega, by omega, by omega, by omega, by omega, by omega, by omega, by omega,
      by omega, by omega, ?_⟩
    intro hh
    have hk3 := b4.2.2.2.2 hh
    refine ⟨hk3, ?_⟩
    by_cases hq' : q < 24
    · exact Or.inl hq'
    · exact Or.inr (b.2.2.2.2 (by omega))
  obtain ⟨E, e, c, q, k, D, hz, he, c0, c1, q0, q1, k0, k1, D0, D1, hl⟩ := h
  refine ⟨400 * E + 100 * c + 4 * q + k, D, D0, D1, ?_, ?_⟩
  · intro hh
    have := hl hh
    rw [leap_iff]
    omega
  · unfold before
    omega

theorem civil_spec (n : Int) : Spec.Valid (civil n) ∧ daysFromCivil (civil n).1 (civil n).2.1 (civil n).2.2 = n := by
  obtain ⟨y, D, D0, D1, hl, hz⟩ := shift_exists (n + 719468)
  obtain ⟨M, hM⟩ : ∃ M, M = (5 * D + 2) / 153 := ⟨_, rfl⟩
  obtain ⟨x, hx⟩ : ∃ x, x = D - (153 * M + 2) / 5 + 1 := ⟨_, rfl⟩
  have hM' : 0 ≤ M ∧ M ≤ 11 := by omega
  have hdoy : doyOf M x = D := by unfold doyOf; omega
  obtain ⟨m, hm⟩ : ∃ m, m = M + (if M < 10 then 3 else -9) := ⟨_, rfl⟩
  obtain ⟨Y, hY⟩ : ∃ Y, Y = y + (if m ≤ 2 then 1 else 0) := ⟨_, rfl⟩
  have hv : Spec.Valid (Y, m, x) := by
    refine ⟨by simp only; omega, by simp only; omega, by simp only; omega, ?_⟩
    simp only
    have hMc : M = 0 ∨ M = 1 ∨ M = 2 ∨ M = 3 ∨ M = 4 ∨ M = 5 ∨ M = 6 ∨ M = 7 ∨ M = 8 ∨ M = 9 ∨ M = 10 ∨ M = 11 := by omega
    rcases hMc with h | h | h | h | h | h | h | h | h | h | h | h <;> subst h <;> simp at hm <;> subst hm <;>
      simp [Spec.monthLen] <;> try omega
    simp at hY
    by_cases hh : D = 365
    · have := hl hh
      rw [hY, if_pos this]; omega
    · split <;> omega
  have hdays : daysFromCivil Y m x = n := by
    rw [days_eq]
    have e1 : (if m ≤ 2 then Y - 1 else Y) = y := by omega
    have e2 : (m + if m > 2 then -3 else 9) = M := by omega
    rw [e1, e2, hdoy]; omega
  have := civil_days (Y, m, x) hv
  simp only [hdays] at this
  rw [this]
  exact ⟨hv, hdays⟩

theorem civil_succ (n : Int) : civil (n + 1) = Spec.next (civil n) := by
  have h := civil_spec n
  have hn := days_next (civil n) h.1
  have hv : Spec.Valid (Spec.next (civil n)) := by
    obtain ⟨⟨h1, h2, h3, h4⟩, -⟩ := h
    unfold Spec.next
    split
    · exact ⟨h1, h2, by simp only; omega, by simp only; omega⟩
    · split
      · refine ⟨by simp only; omega, by simp only; omega, by simp, ?_⟩
        simp only [Spec.monthLen]; split
        · split <;> omega
        · split <;> omega
      · exact ⟨by simp, by simp, by simp, by simp [Spec.monthLen]⟩
  have := civil_days _ hv
  rw [hn, h.2] at this
  exact this

theorem splitDay_eq (t : Int) : splitDay t = (t / 86400, t % 86400) := by
  unfold splitDay
  have h1 := Int.mul_tdiv_add_tmod t 86400
  by_cases h : 0 ≤ t
  · rw [Int.tmod_eq_emod_of_nonneg h, Int.tdiv_eq_ediv_of_nonneg h, if_neg (by omega)]
  · obtain ⟨n, rfl⟩ : ∃ n : Nat, t = -(n : Int) := ⟨t.natAbs, by omega⟩
    rw [Int.neg_tmod, Int.neg_tdiv, Int.tmod_eq_emod_of_nonneg (by omega), Int.tdiv_eq_ediv_of_nonneg (by omega)]
    split <;> refine Prod.ext ?_ ?_ <;> simp only <;> omega

theorem wdayOf_eq (n : Int) : wdayOf n = (n + 4) % 7 := by
  unfold wdayOf
  split
  · rw [Int.tmod_eq_emod_of_nonneg (by omega)]
  · obtain ⟨k, hk⟩ : ∃ k : Nat, n + 5 = -(k : Int) := ⟨(n + 5).natAbs, by omega⟩
    rw [hk, Int.neg_tmod, Int.tmod_eq_emod_of_nonneg (by omega)]
    omega

/-- Day of the year from January 1st. -/
theorem yday_eq (d : Spec.Date) (h : Spec.Valid d) :
    monthDays (isLeap d.1) (d.2.1 - 1) + d.2.2 - 1 = daysFromCivil d.1 d.2.1 d.2.2 - daysFromCivil d.1 1 1 := by
  obtain ⟨y, m, x⟩ := d
  obtain ⟨h1, h2, -, -⟩ := h
  simp only at *
  have hl : isLeap y = decide (Spec.Leap y) := by
    rw [Bool.eq_iff_iff, isLeap_iff]; simp
  have : m = 1 ∨ m = 2 ∨ m = 3 ∨ m = 4 ∨ m = 5 ∨ m = 6 ∨ m = 7 ∨ m = 8 ∨ m = 9 ∨ m = 10 ∨ m = 11 ∨ m = 12 := by omega
  rw [hl]
  rcases this with h | h | h | h | h | h | h | h | h | h | h | h <;> subst h <;>
    simp [monthDays, days_eq, doyOf, before, leap_iff] <;> omega

theorem monthLen_pos (y m : Int) : 28 ≤ Spec.monthLen y m ∧ Spec.monthLen y m ≤ 31 := by
  unfold Spec.monthLen; constructor <;> split <;> split <;> omega

/-- First day of the month with number `12 * year + month - 1`. -/
def firstOf (k : Int) : Int := daysFromCivil (k / 12) (k % 12 + 1) 1

theorem days_day (y m x : Int) : daysFromCivil y m x = daysFromCivil y m 1 + (x - 1) := by
  simp only [days_eq, doyOf]; omega

theorem firstOf_succ (k : Int) : firstOf (k + 1) = firstOf k + Spec.monthLen (k / 12) (k % 12 + 1) := by
  obtain ⟨L, hL⟩ : ∃ L, L = Spec.monthLen (k / 12) (k % 12 + 1) := ⟨_, rfl⟩
  have hp := monthLen_pos (k / 12) (k % 12 + 1)
  rw [← hL] at hp
  have h := days_next (k / 12, k % 12 + 1, L) ⟨by simp only; omega, by simp only; omega, by simp only; omega, by
    simp only; omega⟩
  have hd := days_day (k / 12) (k % 12 + 1) L
  unfold Spec.next at h
  simp only [← hL, Int.lt_irrefl, if_false] at h
  unfold firstOf
  rw [← hL]
  by_cases hk : k % 12 + 1 < 12
  · rw [if_pos hk] at h
    simp only at h
    have e1 : (k + 1) / 12 = k / 12 := by omega
    have e2 : (k + 1) % 12 + 1 = k % 12 + 1 + 1 := by omega
    rw [e1, e2]; omega
  · rw [if_neg hk] at h
    simp only at h
    have e1 : (k + 1) / 12 = k / 12 + 1 := by omega
    have e2 : (k + 1) % 12 + 1 = 1 := by omega
    rw [e1, e2]; omega

theorem firstOf_lt (k : Int) (n : Nat) : firstOf k + Spec.monthLen (k / 12) (k % 12 + 1) ≤ firstOf (k + 1 + n) := by
  induction n with
  | zero => rw [← firstOf_succ]; simp
  | succ n ih =>
    have := firstOf_succ (k + 1 + n)
    have hp := monthLen_pos ((k + 1 + n) / 12) ((k + 1 + n) % 12 + 1)
    have e : k + 1 + ((n + 1 : Nat) : Int) = k + 1 + n + 1 := by omega
    rw [e, this]; omega

theorem days_lt (a b : Spec.Date) (ha : Spec.Valid a) (hb : Spec.Valid b) (h : Spec.Before a b) :
    daysFromCivil a.1 a.2.1 a.2.2 < daysFromCivil b.1 b.2.1 b.2.2 := by
  obtain ⟨y, m, x⟩ := a
  obtain ⟨y', m', x'⟩ := b
  obtain ⟨a1, a2, a3, a4⟩ := ha
  obtain ⟨b1, b2, b3, b4⟩ := hb
  simp only [Spec.Before] at *
  have da := days_day y m x
  have db := days_day y' m' x'
  by_cases hk : 12 * y + m = 12 * y' + m'
  · obtain rfl : y = y' := by omega
    obtain rfl : m = m' := by omega
    omega
  · obtain ⟨n, hn⟩ : ∃ n : Nat, 12 * y' + m' - 1 = 12 * y + m - 1 + 1 + n := ⟨(12 * y' + m' - (12 * y + m) - 1).toNat, by omega⟩
    have hf := firstOf_lt (12 * y + m - 1) n
    rw [← hn] at hf
    unfold firstOf at hf
    have e1 : (12 * y + m - 1) / 12 = y := by omega
    have e2 : (12 * y + m - 1) % 12 + 1 = m := by omega
    have e3 : (12 * y' + m' - 1) / 12 = y' := by omega
    have e4 : (12 * y' + m' - 1) % 12 + 1 = m' := by omega
    rw [e1, e2, e3, e4] at hf
    omega

theorem before_total (a b : Spec.Date) : Spec.Before a b ∨ a = b ∨ Spec.Before b a := by
  obtain ⟨y, m, x⟩ := a
  obtain ⟨y', m', x'⟩ := b
  simp only [Spec.Before, Prod.mk.injEq]
  omega

end BaikalDB.Datetime
