import Verif.DateFn.Model
import Verif.DateFn.Spec
import Verif.Datetime.TextProps

namespace BaikalDB.DateFn
open BaikalDB.Datetime
open BaikalDB.Datetime.Spec (Valid later epoch yearLen Leap Date)
open Spec

theorem later_civil (k : Nat) (n : Int) : later k (civil n) = civil (n + k) := by
  induction k with
  | zero => simp [later]
  | succ k ih => rw [later, ih, ← civil_succ]; congr 1; omega

theorem civil_inj {a b : Int} (h : civil a = civil b) : a = b := by
  rw [← (civil_spec a).2, ← (civil_spec b).2, h]

theorem dayNo_iff (d : Date) (hd : Valid d) (n : Int) : DayNo d n ↔ n = daysFromCivil d.1 d.2.1 d.2.2 := by
  unfold DayNo
  obtain ⟨N, hN⟩ : ∃ N, N = daysFromCivil d.1 d.2.1 d.2.2 := ⟨_, rfl⟩
  have e1 : later n.toNat epoch = civil (0 + n.toNat) := by rw [← later_civil, C29_calendar.1]
  have e2 : later (-n).toNat d = civil (N + (-n).toNat) := by rw [← later_civil, hN, civil_days d hd]
  rw [e1, e2, ← hN]
  constructor
  · intro h; have := civil_inj h; omega
  · intro h; congr 1; omega

theorem jan1_valid (y : Int) : Valid (y, 1, 1) := by
  have := monthLen_pos y 1
  refine ⟨by simp, by simp, by simp, by simp only; omega⟩

/-- The day number of January 1st. -/
def jan1 (y : Int) : Int := daysFromCivil y 1 1

theorem jan1_succ (y : Int) : jan1 (y + 1) = jan1 y + yearLen y := by
  unfold jan1 yearLen
  simp only [days_eq, doyOf, before, leap_iff]
  simp
  split <;> omega

theorem yearLen_vals (y : Int) : yearLen y = 365 ∨ yearLen y = 366 := by unfold yearLen; split <;> simp

theorem daysInYear_eq (y : Int) : daysInYear y = yearLen y := by
  unfold daysInYear yearLen
  by_cases h : Leap y
  · rw [if_pos h, if_pos ((isLeap_iff y).mpr h)]
  · rw [if_neg h, if_neg (fun h' => h ((isLeap_iff y).mp h'))]

/-- The day week 1 starts. -/
def one (mon four : Bool) (y : Int) : Int :=
  let fw := (jan1 y + 4 - (if mon then 1 else 0)) % 7
  if four then (if fw ≤ 3 then jan1 y - fw else jan1 y - fw + 7) else (if fw = 0 then jan1 y else jan1 y - fw + 7)

theorem weekOne_iff (mon four : Bool) (y w : Int) : WeekOne mon four y w ↔ w = one mon four y := by
  unfold WeekOne Starts OnDay one
  have hj : ∀ j, DayNo (y, 1, 1) j ↔ j = jan1 y := fun j => dayNo_iff _ (jan1_valid y) j
  simp only [hj]
  generalize jan1 y = J
  constructor
  · rintro ⟨⟨-, -, q, hq⟩, j, rfl, h⟩
    cases mon <;> cases four <;> simp at hq h ⊢ <;> split <;> omega
  · rintro rfl
    refine ⟨⟨by split <;> omega, by split <;> omega, ?_⟩, J, rfl, ?_⟩
    · refine ⟨((if four = true then (if (J + 4 - (if mon then 1 else 0)) % 7 ≤ 3 then J - (J + 4 - (if mon then 1 else 0)) % 7 else J - (J + 4 - (if mon then 1 else 0)) % 7 + 7) else (if (J + 4 - (if mon then 1 else 0)) % 7 = 0 then J else J - (J + 4 - (if mon then 1 else 0)) % 7 + 7)) + 4) / 7, ?_⟩
      cases mon <;> cases four <;> simp <;> split <;> omega
    · cases mon <;> cases four <;> simp <;> split <;> omega

theorem one_succ (mon four : Bool) (y : Int) : one mon four y + 357 ≤ one mon four (y + 1) := by
  unfold one
  rw [jan1_succ]
  have := yearLen_vals y
  generalize jan1 y = J at *
  generalize yearLen y = L at *
  cases mon <;> cases four <;> simp <;> split <;> split <;> omega

theorem one_lt (mon four : Bool) (y : Int) (n : Nat) : one mon four (y + 1) ≤ one mon four (y + 1 + n) := by
  induction n with
  | zero => simp
  | succ n ih =>
    have := one_succ mon four (y + 1 + n)
    have e : y + 1 + ((n + 1 : Nat) : Int) = y + 1 + n + 1 := by omega
    rw [e]; omega

theorem one_mono (mon four : Bool) {y y' : Int} (h : y < y') : one mon four (y + 1) ≤ one mon four y' := by
  have := one_lt mon four y (y' - (y + 1)).toNat
  have e : y + 1 + ((y' - (y + 1)).toNat : Int) = y' := by omega
  rwa [e] at this

theorem inWeek_iff (mon four : Bool) (n y k : Int) : InWeek mon four n y k ↔
    one mon four y ≤ n ∧ n < one mon four (y + 1) ∧ k = (n - one mon four y) / 7 + 1 := by
  unfold InWeek
  simp only [weekOne_iff]
  constructor
  · rintro ⟨h1, w, w', rfl, rfl, h2, h3, h4, h5⟩; exact ⟨h2, h3, by omega⟩
  · rintro ⟨h2, h3, rfl⟩; exact ⟨by omega, _, _, rfl, rfl, h2, h3, by omega, by omega⟩

theorem inOwn_iff (mon four : Bool) (n y k : Int) : InOwnYear mon four n y k ↔
    k = if n < one mon four y then 0 else (n - one mon four y) / 7 + 1 := by
  unfold InOwnYear
  simp only [weekOne_iff]
  constructor
  · rintro ⟨w, rfl, h⟩; split <;> omega
  · intro h; refine ⟨_, rfl, ?_⟩; split at h <;> omega

theorem inWeek_unique {mon four : Bool} {n y k y' k' : Int} (h : InWeek mon four n y k) (h' : InWeek mon four n y' k') :
    y = y' ∧ k = k' := by
  rw [inWeek_iff] at h h'
  have e : y = y' := by
    rcases Int.lt_trichotomy y y' with hl | he | hl
    · have := one_mono mon four hl; omega
    · exact he
    · have := one_mono mon four hl; omega
  subst e
  exact ⟨rfl, by omega⟩

/-! ## The code -/

/-- Weekday of January 1st in a week that starts as the mode says. -/
theorem fw_eq (mon : Bool) (J : Int) :
    (if mon = true then (if (J + 4) % 7 = 0 then 6 else (J + 4) % 7 - 1) else (J + 4) % 7) =
      (J + 4 - (if mon then 1 else 0)) % 7 := by
  cases mon
  · simp
  · simp; split <;> omega

theorem tmod7 (x : Int) (h : 0 ≤ x) : x.tmod 7 = x % 7 := Int.tmod_eq_emod_of_nonneg h
theorem tdiv7 (x : Int) (h : 0 ≤ x) : x.tdiv 7 = x / 7 := Int.tdiv_eq_ediv_of_nonneg h

/-- What `weekOf` works on. -/
structure Setting (y month day n : Int) : Prop where
  lo : jan1 y ≤ n
  hi : n < jan1 y + yearLen y
  jan : month = 1 → day = n - jan1 y + 1
  other : month ≠ 1 → jan1 y + 31 ≤ n

theorem setting (y m d : Int) (h : Valid (y, m, d)) : Setting y m d (daysFromCivil y m d) := by
  have hy := yday_eq (y, m, d) h
  obtain ⟨h1, h2, h3, h4⟩ := h
  simp only at h1 h2 h3 h4 hy
  have hl : isLeap y = decide (Leap y) := by rw [Bool.eq_iff_iff, isLeap_iff]; simp
  have key : jan1 y ≤ daysFromCivil y m d ∧ daysFromCivil y m d < jan1 y + yearLen y ∧
      (m = 1 → d = daysFromCivil y m d - jan1 y + 1) ∧ (m ≠ 1 → jan1 y + 31 ≤ daysFromCivil y m d) := by
    unfold jan1
    rw [hl] at hy
    have : m = 1 ∨ m = 2 ∨ m = 3 ∨ m = 4 ∨ m = 5 ∨ m = 6 ∨ m = 7 ∨ m = 8 ∨ m = 9 ∨ m = 10 ∨ m = 11 ∨ m = 12 := by omega
    unfold yearLen
    rcases this with h | h | h | h | h | h | h | h | h | h | h | h <;> subst h <;>
      simp [monthDays, Datetime.Spec.monthLen] at hy h4 ⊢ <;> split <;> simp_all <;> omega
  exact ⟨key.1, key.2.1, key.2.2.1, key.2.2.2⟩

end BaikalDB.DateFn
