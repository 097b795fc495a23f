import Verif.DateFn.Week

/-!
# C47: date and time functions

`f` is a DATETIME with its fields, `pack f` the value the functions get.
-/
namespace BaikalDB.DateFn
open BaikalDB.Datetime
open BaikalDB.Datetime.Spec (Valid later epoch yearLen Leap Date)
open Spec

/-- The date of a DATETIME. -/
def dateOf (f : Fields) : Date := (f.year, f.month, f.day)

theorem boostDate_some (y m d : Int) (h : Valid (y, m, d)) (h0 : 1400 ≤ y) (h1 : y ≤ 9999) :
    boostDate y m d = some (daysFromCivil y m d) := by
  obtain ⟨g1, g2, g3, g4⟩ := h
  simp only at g1 g2 g3 g4
  unfold boostDate
  rw [if_pos]
  refine ⟨h0, h1, g1, g2, g3, ?_⟩
  have : m = 1 ∨ m = 2 ∨ m = 3 ∨ m = 4 ∨ m = 5 ∨ m = 6 ∨ m = 7 ∨ m = 8 ∨ m = 9 ∨ m = 10 ∨ m = 11 ∨ m = 12 := by omega
  rcases this with h | h | h | h | h | h | h | h | h | h | h | h <;> subst h <;>
    simp [daysInMonth, Datetime.Spec.monthLen] at g4 ⊢ <;> try omega
  by_cases hl : Leap y
  · rw [if_pos ((isLeap_iff y).mpr hl)]; rw [if_pos hl] at g4; omega
  · rw [if_neg hl] at g4; split <;> omega

theorem boostDate_none (y m d : Int) (h : ¬ (Valid (y, m, d) ∧ 1400 ≤ y ∧ y ≤ 9999)) : boostDate y m d = none := by
  unfold boostDate
  rw [if_neg]
  rintro ⟨h0, h1, g1, g2, g3, g4⟩
  apply h
  refine ⟨⟨g1, g2, g3, ?_⟩, h0, h1⟩
  simp only
  have : m = 1 ∨ m = 2 ∨ m = 3 ∨ m = 4 ∨ m = 5 ∨ m = 6 ∨ m = 7 ∨ m = 8 ∨ m = 9 ∨ m = 10 ∨ m = 11 ∨ m = 12 := by omega
  rcases this with h | h | h | h | h | h | h | h | h | h | h | h <;> subst h <;>
    simp [daysInMonth, Datetime.Spec.monthLen] at g4 ⊢ <;> try omega
  by_cases hl : Leap y
  · rw [if_pos hl]; split at g4 <;> omega
  · rw [if_neg hl]; rw [if_neg (fun h' => hl ((isLeap_iff y).mp h'))] at g4; omega

/-- A DATETIME whose date exists, in the years these functions take. -/
structure Known (f : Fields) : Prop where
  fits : Fits f
  valid : Valid (dateOf f)
  lo : 1400 ≤ f.year
  hi : f.year ≤ 9999

theorem Known.facts {f : Fields} (h : Known f) :
    yearOf (pack f) = f.year ∧ monthOf (pack f) = f.month ∧ dayOf (pack f) = f.day ∧
      ¬ ((f.month : Int) = 0 ∨ (f.day : Int) = 0) ∧
      boostDate f.year f.month f.day = some (daysFromCivil f.year f.month f.day) := by
  have hu := C30_fields f h.fits
  unfold yearOf monthOf dayOf
  rw [hu]
  have hv := h.valid
  refine ⟨rfl, rfl, rfl, ?_, boostDate_some _ _ _ hv (by have := h.lo; omega) (by have := h.hi; omega)⟩
  obtain ⟨h1, -, h3, -⟩ := hv
  simp only [dateOf] at h1 h3
  omega

/-- C47.  `DAYOFWEEK` counts from Sunday as 1, `WEEKDAY` from Monday as 0. -/
theorem C47_day_of_week (f : Fields) (h : Known f) (n k : Int) (hn : DayNo (dateOf f) n) (hk : OnDay n k) :
    dayofweek (pack f) = some (k + 1) ∧ weekday (pack f) = some (if k = 0 then 6 else k - 1) := by
  obtain ⟨e1, e2, e3, hz, hb⟩ := h.facts
  rw [dayNo_iff _ h.valid] at hn
  simp only [dateOf] at hn
  obtain ⟨h1, h2, w, h3⟩ := hk
  have hd : dayOfWeek n = k := by unfold dayOfWeek; rw [wdayOf_eq]; omega
  unfold dayofweek weekday
  rw [e1, e2, e3, if_neg hz, if_neg hz, hb, ← hn]
  simp only [Option.map_some, hd, Option.some.injEq, true_and]
  split <;> split <;> omega

/-- C47.  `DAYOFYEAR` counts the days from January 1st, which is 1. -/
theorem C47_day_of_year (f : Fields) (h : Known f) (n j : Int) (hn : DayNo (dateOf f) n) (hj : DayNo (f.year, 1, 1) j) :
    dayofyear (pack f) = some (n - j + 1) := by
  obtain ⟨e1, e2, e3, hz, hb⟩ := h.facts
  rw [dayNo_iff _ h.valid] at hn
  rw [dayNo_iff _ (jan1_valid _)] at hj
  simp only [dateOf] at hn hj
  unfold dayofyear dayOfYear
  rw [e1, e2, e3, if_neg hz, hb, ← hn, ← hj]
  rfl

/-- C47.  A date that does not exist, or is out of the years, has no day of the week, day of the year or week. -/
theorem C47_unknown (f : Fields) (hF : Fits f) (h : ¬ Known f) (m : Option Nat) :
    dayofweek (pack f) = none ∧ weekday (pack f) = none ∧ dayofyear (pack f) = none ∧ week (pack f) m = none ∧
      yearweek (pack f) m = none := by
  have hu := C30_fields f hF
  have hb : boostDate f.year f.month f.day = none :=
    boostDate_none _ _ _ fun hv => h ⟨hF, hv.1, by omega, by omega⟩
  have e1 : yearOf (pack f) = f.year := by unfold yearOf; rw [hu]
  have e2 : monthOf (pack f) = f.month := by unfold monthOf; rw [hu]
  have e3 : dayOf (pack f) = f.day := by unfold dayOf; rw [hu]
  unfold dayofweek weekday dayofyear week yearweek calcWeek
  rw [e1, e2, e3, hb]
  split
  · simp
  · simp only [Option.map_none, true_and]
    cases boostDate (f.year : Int) 1 1 <;> simp

theorem calcWeek_eq (f : Fields) (h : Known f) (n : Int) (hn : DayNo (dateOf f) n) (fl : Flags) :
    calcWeek (pack f) fl = some (weekOf fl f.year f.month f.day (n - jan1 f.year + 1) (dayOfWeek (jan1 f.year))) ∧
      Setting f.year f.month f.day n := by
  obtain ⟨e1, e2, e3, hz, hb⟩ := h.facts
  rw [dayNo_iff _ h.valid] at hn
  simp only [dateOf] at hn
  have hl := h.lo
  have hh := h.hi
  have hb1 := boostDate_some f.year 1 1 (jan1_valid _) (by omega) (by omega)
  constructor
  · unfold calcWeek
    rw [e1, e2, e3, if_neg hz, hb, hb1, ← hn]
    rfl
  · rw [hn]; exact setting _ _ _ h.valid

theorem flags_of (m : Nat) (mon z four : Bool) (h : modes (m % 8) = some (mon, z, four)) : flagsOf (some m) = ⟨mon, z, four⟩ := by
  unfold flagsOf
  simp only [Option.elim]
  have : m % 8 < 8 := Nat.mod_lt _ (by decide)
  generalize m % 8 = r at *
  interval_cases r <;> simp [modes, calcMode] at h ⊢ <;> exact h

/-- C47.  `WEEK` in the modes that count from 0: the week within the date's own year. -/
theorem C47_week_own (f : Fields) (h : Known f) (n : Int) (hn : DayNo (dateOf f) n) (m : Nat) (mon four : Bool)
    (hm : modes (m % 8) = some (mon, true, four)) :
    ∃ k, week (pack f) (some m) = some k ∧ InOwnYear mon four n f.year k := by
  obtain ⟨hc, hs⟩ := calcWeek_eq f h n hn (flagsOf (some m))
  rw [flags_of m mon true four hm] at hc
  obtain ⟨k, hk, hi⟩ := week_zero mon four f.year f.month f.day n hs
  refine ⟨k, ?_, hi⟩
  unfold week
  rw [flags_of m mon true four hm, hc, hk]; rfl

/-- C47.  `WEEK` without a mode is `WEEK` in mode 0, and `YEARWEEK` too. -/
theorem C47_week_default (dt : Nat) : week dt none = week dt (some 0) ∧ yearweek dt none = yearweek dt (some 0) :=
  ⟨rfl, rfl⟩

/-- C47.  `WEEK` in the modes that count from 1, and `YEARWEEK`, where week 1 is the first that starts in its year: the
year and the number of the week the day is in. -/
theorem C47_week_year (f : Fields) (h : Known f) (n : Int) (hn : DayNo (dateOf f) n) (m : Nat) (mon z : Bool)
    (hm : modes (m % 8) = some (mon, z, false)) :
    ∃ Y k, InWeek mon false n Y k ∧ yearweek (pack f) (some m) = some (Y * 100 + k) ∧
      (z = false → week (pack f) (some m) = some k) := by
  obtain ⟨hc, hs⟩ := calcWeek_eq f h n hn ⟨mon, false, false⟩
  obtain ⟨Y, k, hk, hi⟩ := week_year mon f.year f.month f.day n hs
  refine ⟨Y, k, hi, ?_, ?_⟩
  · unfold yearweek
    rw [flags_of m mon z false hm, hc, hk]; rfl
  · rintro rfl
    unfold week
    rw [flags_of m mon false false hm, hc, hk]; rfl

/-- C47.  There is one such year and week. -/
theorem C47_week_unique (mon four : Bool) (n y k y' k' : Int) (h : InWeek mon four n y k) (h' : InWeek mon four n y' k') :
    y = y' ∧ k = k' := inWeek_unique h h'

theorem fw_one (mon : Bool) (y : Int) :
    fwOf mon y ≤ 3 ↔ ∃ w j, WeekOne mon true y w ∧ DayNo (y, 1, 1) j ∧ w ≤ j := by
  have hj : ∀ j, DayNo (y, 1, 1) j ↔ j = jan1 y := fun j => dayNo_iff _ (jan1_valid y) j
  simp only [weekOne_iff, hj]
  have hr := fw_range mon y
  have ho : one mon true y = if fwOf mon y ≤ 3 then jan1 y - fwOf mon y else jan1 y - fwOf mon y + 7 := rfl
  constructor
  · intro h; exact ⟨_, _, rfl, rfl, by rw [ho, if_pos h]; omega⟩
  · rintro ⟨w, j, rfl, rfl, h⟩
    apply Classical.byContradiction
    intro hc
    rw [ho, if_neg hc] at h; omega

/-- C47.  Where four days make a first week, the year and week the day is in are found, by `YEARWEEK` and by `WEEK` counting
from 1, exactly when the week is not a week 53 and, if it is week 1 of the next year, the date's own year starts in its own
week 1. -/
theorem C47_week_four (f : Fields) (h : Known f) (n : Int) (hn : DayNo (dateOf f) n) (m : Nat) (mon z : Bool)
    (hm : modes (m % 8) = some (mon, z, true)) (Y k : Int) (hi : InWeek mon true n Y k) :
    (yearweek (pack f) (some m) = some (Y * 100 + k) ↔
      k ≠ 53 ∧ (Y ≤ f.year ∨ ∃ w j, WeekOne mon true f.year w ∧ DayNo (f.year, 1, 1) j ∧ w ≤ j)) ∧
    (z = false → k ≠ 53 → (Y ≤ f.year ∨ ∃ w j, WeekOne mon true f.year w ∧ DayNo (f.year, 1, 1) j ∧ w ≤ j) →
      week (pack f) (some m) = some k) := by
  obtain ⟨hc, hs⟩ := calcWeek_eq f h n hn ⟨mon, false, true⟩
  have hw := week_four mon f.year f.month f.day n Y k hs hi
  have hk := (inWeek_iff _ _ _ _ _).mp hi
  have e1 := one_succ mon true Y
  have hb1 := one_bounds mon true Y
  have hlo := hs.lo
  have hhi := hs.hi
  have v := yearLen_vals f.year
  have e2 := jan1_succ f.year
  rw [← fw_one]
  have hnext : ¬ Y ≤ (f.year : Int) → k = 1 := by
    intro hc
    have hm := one_mono mon true (by omega : (f.year : Int) < Y)
    have hb := one_bounds mon true (f.year + 1)
    omega
  have good : k ≠ 53 → (Y ≤ (f.year : Int) ∨ fwOf mon f.year ≤ 3) →
      weekOf ⟨mon, false, true⟩ f.year f.month f.day (n - jan1 f.year + 1) (dayOfWeek (jan1 f.year)) = (Y, k) := by
    intro g1 g2
    rw [hw]
    by_cases g : Y ≤ (f.year : Int)
    · rw [if_pos g, if_neg g1]
    · rw [if_neg g, if_pos (g2.resolve_left g)]
  refine ⟨⟨?_, ?_⟩, ?_⟩
  · unfold yearweek
    rw [flags_of m mon z true hm]
    simp only
    rw [hc, hw]
    intro g
    by_cases g1 : Y ≤ (f.year : Int)
    · rw [if_pos g1] at g
      refine ⟨?_, .inl g1⟩
      rintro rfl
      simp at g; omega
    · rw [if_neg g1] at g
      have := hnext g1
      refine ⟨by omega, .inr ?_⟩
      apply Classical.byContradiction
      intro g2
      rw [if_neg g2] at g
      simp at g; omega
  · rintro ⟨g1, g2⟩
    unfold yearweek
    rw [flags_of m mon z true hm]
    simp only
    rw [hc, good g1 g2]; rfl
  · rintro rfl g1 g2
    unfold week
    rw [flags_of m mon false true hm, hc, good g1 g2]; rfl

/-- C47.  Where four days make a first week, every day of a week 53 is given as week 1 of the following year: the code
looks at the first week of the wrong year (internal_functions.cpp L2018). -/
theorem C47_week53_counterexample (f : Fields) (h : Known f) (n : Int) (hn : DayNo (dateOf f) n) (m : Nat) (mon z : Bool)
    (hm : modes (m % 8) = some (mon, z, true)) (Y : Int) (hi : InWeek mon true n Y 53) (hY : Y ≤ f.year) :
    yearweek (pack f) (some m) = some ((Y + 1) * 100 + 1) := by
  obtain ⟨hc, hs⟩ := calcWeek_eq f h n hn ⟨mon, false, true⟩
  have hw := week_four mon f.year f.month f.day n Y 53 hs hi
  rw [if_pos hY, if_pos rfl] at hw
  unfold yearweek
  rw [flags_of m mon z true hm, hc, hw]; rfl

/-- 2020-12-31, 2021-01-01 and 2012-12-31. -/
def d20 : Fields := ⟨2020, 12, 31, 0, 0, 0, 0⟩
def d21 : Fields := ⟨2021, 1, 1, 0, 0, 0, 0⟩
def d12 : Fields := ⟨2012, 12, 31, 0, 0, 0, 0⟩

/-- C47.  2012-12-31 is in week 1 of 2013; `WEEK('2012-12-31', 3)` is 53. -/
theorem C47_next_year_counterexample :
    DayNo (dateOf d12) 15705 ∧ InWeek true true 15705 2013 1 ∧ week (pack d12) (some 3) = some 53 ∧
      yearweek (pack d12) (some 3) = some 201253 := by
  refine ⟨(dayNo_iff _ (by decide) _).mpr (by decide), (inWeek_iff _ _ _ _ _).mpr (by decide), by decide, by decide⟩

example : Known d20 ∧ DayNo (dateOf d20) 18627 ∧ InWeek true true 18627 2020 53 ∧ week (pack d20) (some 3) = some 1 ∧
    Known d21 ∧ InWeek true true 18628 2020 53 ∧ week (pack d21) (some 3) = some 1 ∧ week (pack d21) (some 0) = some 0 ∧
    yearweek (pack d21) (some 0) = some 202052 := by
  refine ⟨⟨⟨by decide, by decide, by decide, by decide, by decide, by decide, by decide⟩, by decide, by decide, by decide⟩,
    (dayNo_iff _ (by decide) _).mpr (by decide), (inWeek_iff _ _ _ _ _).mpr (by decide), by decide,
    ⟨⟨by decide, by decide, by decide, by decide, by decide, by decide, by decide⟩, by decide, by decide, by decide⟩,
    (inWeek_iff _ _ _ _ _).mpr (by decide), by decide, by decide, by decide⟩

/-! ## Days and seconds between times -/

/-- `f` is a real time, `s` seconds after 1970-01-01 00:00:00 on the clock of the zone (8 hours east). -/
structure Clock (f : Fields) (s : Int) : Prop where
  fits : Fits f
  valid : Valid (dateOf f)
  hour : f.hour ≤ 23
  minute : f.minute ≤ 59
  second : f.second ≤ 59
  day : ∃ n, DayNo (dateOf f) n ∧ s = n * 86400 + f.hour * 3600 + f.minute * 60 + f.second

theorem Clock.mk_eq {f : Fields} {s : Int} (h : Clock f s) : mktime f.tm 8 = s - 28800 := by
  obtain ⟨n, hn, rfl⟩ := h.day
  rw [dayNo_iff _ h.valid] at hn
  simp only [dateOf] at hn
  simp only [mktime, Fields.tm]
  rw [show (f.month : Int) - 1 + 1 = f.month by omega, ← hn]
  omega

/-- The times a TIMESTAMP can hold. -/
def Stampable (s : Int) : Prop := 28800 < s ∧ s < 2 ^ 32 + 28800

theorem Clock.stamp_eq {f : Fields} {s : Int} (h : Clock f s) (hr : Stampable s) : stamp (pack f) = s - 28800 := by
  have hk := h.mk_eq
  obtain ⟨h1, h2⟩ := hr
  have hne : pack f ≠ 0 := by
    have hv := h.valid
    rw [pack_eq f h.fits]
    obtain ⟨g1, -, -, -⟩ := hv
    simp only [dateOf] at g1
    omega
  unfold stamp toTimestamp
  have hv := h.valid
  obtain ⟨g1, -, g3, -⟩ := hv
  simp only [dateOf] at g1 g3
  rw [if_neg hne, C30_fields f h.fits, if_neg (by omega), if_neg (by omega)]
  simp only [hk]
  rw [if_neg (by omega)]
  omega

/-- C47.  `TO_DAYS` counts the days since 0000-01-01 and `TO_SECONDS` the seconds. -/
theorem C47_to_days (f : Fields) (s z : Int) (h : Clock f s) (hr : Stampable s) (hz : DayNo (0, 1, 1) z) :
    (∀ n, DayNo (dateOf f) n → toDays (pack f) = n - z) ∧ toSecs (pack f) = s - z * 86400 := by
  have hst := h.stamp_eq hr
  rw [dayNo_iff _ (by decide)] at hz
  have e : daysFromCivil 0 1 1 = -719528 := by decide
  simp only [e] at hz
  subst hz
  constructor
  · intro n hn
    obtain ⟨n', hn', hs⟩ := h.day
    rw [dayNo_iff _ h.valid] at hn hn'
    have : n' = n := by omega
    subst this
    have a1 := h.hour
    have a2 := h.minute
    have a3 := h.second
    unfold toDays
    rw [hst]; omega
  · unfold toSecs
    rw [hst]; omega

theorem date_of_pack (f : Fields) (h : Fits f) :
    ofDate (toDate (pack f)) = pack { f with hour := 0, minute := 0, second := 0, micro := 0 } := by
  have h' : Fits { f with hour := 0, minute := 0, second := 0, micro := 0 } :=
    ⟨h.month, h.year, h.day, by simp, by simp, by simp, by simp⟩
  rw [ofDate_eq, toDate_pack f h, pack_eq _ h']
  exact (midnight_eq _ _).symm

/-- C47.  `DATEDIFF` is the number of days from one date to the other, whatever the time of day, from 1970-01-02 to
2106-02-07. -/
theorem C47_datediff (a b : Fields) (na nb : Int) (ha : Fits a) (hb : Fits b) (va : Valid (dateOf a)) (vb : Valid (dateOf b))
    (da : DayNo (dateOf a) na) (db : DayNo (dateOf b) nb) (ra : 1 ≤ na ∧ na ≤ 49710) (rb : 1 ≤ nb ∧ nb ≤ 49710) :
    datediff (pack a) (pack b) = na - nb := by
  have mk : ∀ (f : Fields) (n : Int), Fits f → Valid (dateOf f) → DayNo (dateOf f) n → 1 ≤ n ∧ n ≤ 49710 →
      stamp (ofDate (toDate (pack f))) = n * 86400 - 28800 := by
    intro f n hf hv hd hr
    rw [date_of_pack f hf]
    have hc : Clock { f with hour := 0, minute := 0, second := 0, micro := 0 } (n * 86400) :=
      ⟨⟨hf.month, hf.year, hf.day, by simp, by simp, by simp, by simp⟩, hv, by simp, by simp, by simp,
        n, hd, by simp⟩
    exact hc.stamp_eq ⟨by omega, by omega⟩
  unfold datediff
  rw [mk a na ha va da ra, mk b nb hb vb db rb]
  rw [show na * 86400 - 28800 - (nb * 86400 - 28800) = (na - nb) * (3600 * 24) by omega]
  exact Int.mul_tdiv_cancel _ (by decide)

/-- C47.  Dates before 1970 have no TIMESTAMP and count as the first second of it: `DATEDIFF('1960-03-01', '1960-02-01')` is
0, and `DATEDIFF('1970-01-03', '1970-01-01')` is 1. -/
theorem C47_datediff_counterexample :
    datediff (pack ⟨1960, 3, 1, 0, 0, 0, 0⟩) (pack ⟨1960, 2, 1, 0, 0, 0, 0⟩) = 0 ∧
      datediff (pack ⟨1970, 1, 3, 0, 0, 0, 0⟩) (pack ⟨1970, 1, 1, 0, 0, 0, 0⟩) = 1 ∧
      toDays (pack ⟨1960, 3, 1, 0, 0, 0, 0⟩) = toDays (pack ⟨1970, 1, 1, 0, 0, 0, 0⟩) := by decide

/-- Seconds of a unit. -/
def Spec.unitLen : Unit → Int
  | .second => 1
  | .minute => 60
  | .hour => 3600
  | .day => 86400

theorem quot_tdiv (a b : Int) (hb : 0 < b) : Quot a b (a.tdiv b) := by
  constructor
  · intro h
    rw [Int.tdiv_eq_ediv_of_nonneg h]
    have h1 := Int.mul_ediv_add_emod a b
    have h2 := Int.emod_nonneg a (by omega : b ≠ 0)
    have h3 := Int.emod_lt_of_pos a hb
    omega
  · intro h
    obtain ⟨c, rfl⟩ : ∃ c, a = -c := ⟨-a, by omega⟩
    rw [Int.neg_tdiv, Int.tdiv_eq_ediv_of_nonneg (by omega)]
    have h1 := Int.mul_ediv_add_emod c b
    have h2 := Int.emod_nonneg c (by omega : b ≠ 0)
    have h3 := Int.emod_lt_of_pos c hb
    rw [Int.mul_neg]
    omega

/-- C47.  `TIMESTAMPDIFF(unit, a, b)` is the time from `a` to `b` in whole units, cut towards 0, when it is less than 2^31
seconds. -/
theorem C47_timestampdiff (u : Unit) (a b : Fields) (sa sb : Int) (ha : Clock a sa) (hb : Clock b sb)
    (ra : Stampable sa) (rb : Stampable sb) (hd : (sb - sa).natAbs < 2 ^ 31) :
    Quot (sb - sa) (unitLen u) (timestampdiff u (pack a) (pack b)) := by
  have e : int32 (stamp (pack b) - stamp (pack a)) = sb - sa := by
    rw [ha.stamp_eq ra, hb.stamp_eq rb]
    unfold int32
    rw [show sb - 28800 - (sa - 28800) = sb - sa by omega]
    have hd' : -(2 ^ 31) < sb - sa ∧ sb - sa < 2 ^ 31 := by omega
    rw [Int.bmod_def]; split <;> omega
  unfold timestampdiff
  simp only [e]
  cases u
  · simp only [unitLen]
    constructor <;> intro _ <;> omega
  all_goals exact quot_tdiv _ _ (by decide)

/-- C47.  Over more than 68 years `TIMESTAMPDIFF` has the wrong sign. -/
theorem C47_timestampdiff_counterexample :
    timestampdiff .day (pack ⟨1971, 1, 1, 0, 0, 0, 0⟩) (pack ⟨2105, 1, 1, 0, 0, 0, 0⟩) = -767 := by decide

/-- C47.  `TIMEDIFF(a, b)` is the time from `b` to `a`, when it is less than 1024 hours. -/
theorem C47_timediff (a b : Fields) (sa sb : Int) (ha : Clock a sa) (hb : Clock b sb)
    (ra : Stampable sa) (rb : Stampable sb) (hd : (sa - sb).natAbs < 1024 * 3600) :
    toSeconds (timediff (pack a) (pack b)) = sa - sb := by
  have e : int32 (stamp (pack a) - stamp (pack b)) = sa - sb := by
    rw [ha.stamp_eq ra, hb.stamp_eq rb]
    unfold int32
    rw [show sa - 28800 - (sb - 28800) = sa - sb by omega, Int.bmod_def]; split <;> omega
  unfold timediff
  rw [e]
  exact C31_seconds _ (by omega)

/-- C47.  `TIMESTAMPADD(unit, n, a)` is the TIMESTAMP `n` units later, as long as it can be held. -/
theorem C47_timestampadd (u : Unit) (n : Int) (a : Fields) (sa : Int) (ha : Clock a sa) (ra : Stampable sa)
    (hr : Stampable (sa + n * unitLen u)) : timestampadd u n (pack a) = sa + n * unitLen u - 28800 := by
  have e := ha.stamp_eq ra
  obtain ⟨h1, h2⟩ := hr
  unfold timestampadd
  cases u <;> simp only [unitLen] at h1 h2 ⊢ <;> rw [e] <;> omega

/-- C47.  `EXTRACT` gives the fields of the time. -/
theorem C47_extract (f : Fields) (s : Int) (h : Clock f s) (hr : Stampable s) :
    extract .year (pack f) = f.year ∧ extract .month (pack f) = f.month ∧ extract .day (pack f) = f.day ∧
      extract .hour (pack f) = f.hour ∧ extract .minute (pack f) = f.minute ∧ extract .second (pack f) = f.second := by
  have hst := h.stamp_eq hr
  have hk := h.mk_eq
  have a1 := h.hour
  have a2 := h.minute
  have a3 := h.second
  have hv := h.valid
  simp only [dateOf] at hv
  have hl := C29_localtime_mktime f.tm 8 (by simp only [Fields.tm]; rw [show (f.month : Int) - 1 + 1 = f.month by omega]; exact hv)
    (by simp only [Fields.tm]; omega) (by simp only [Fields.tm]; omega) (by simp only [Fields.tm]; omega)
  rw [hk] at hl
  simp only [Prod.mk.injEq, Fields.tm] at hl
  obtain ⟨r1, r2, r3, r4, r5, r6⟩ := hl
  simp only [extract, hst]
  refine ⟨r1, by omega, r3, r4, r5, r6⟩

example : Clock ⟨2024, 2, 29, 12, 30, 1, 5⟩ (1709181001 + 28800) ∧ Stampable (1709181001 + 28800) ∧
    toDays (pack ⟨2024, 2, 29, 12, 30, 1, 5⟩) = 739310 := by
  refine ⟨⟨⟨by decide, by decide, by decide, by decide, by decide, by decide, by decide⟩, by decide, by decide, by decide,
    by decide, 19782, (dayNo_iff _ (by decide) _).mpr (by decide), by decide⟩, by unfold Stampable; decide, by decide⟩

/-! ## TIME -/

/-- C47.  `HOUR`, `MINUTE`, `SECOND` and `TIME_TO_SEC` of a TIME that is not negative. -/
theorem C47_time_parts (h m s : Nat) (hh : h < 1024) (hm : m < 60) (hs : s < 60) :
    hour (packTime false h m s) = h ∧ minute (packTime false h m s) = m ∧ second (packTime false h m s) = s := by
  rw [packTime_eq _ _ _ _ (by omega) (by omega) (by omega)]
  simp only [Bool.false_eq_true, if_false]
  obtain ⟨f1, f2, f3⟩ := time_fields ((h * 4096 + m * 64 + s : Nat) : Int) h m s (by omega) (by omega) (by omega) (by omega)
  have e : (((h * 4096 + m * 64 + s : Nat) : Int) % 2 ^ 32).toNat = h * 4096 + m * 64 + s := by omega
  refine ⟨f1, ?_, ?_⟩
  · unfold minute; rw [e]; unfold timeMin at f2; rw [Int.natAbs_natCast] at f2; exact f2
  · unfold second; rw [e]; unfold timeSec at f3; rw [Int.natAbs_natCast] at f3; exact f3

/-- C47.  Of a negative TIME the hours are right, minutes and seconds are not: `MINUTE('-01:02:03')` is 61. -/
theorem C47_negative_time_counterexample :
    hour (packTime true 1 2 3) = 1 ∧ minute (packTime true 1 2 3) = 61 ∧ second (packTime true 1 2 3) = 61 := by decide

/-- C47.  `TIME_TO_SEC` and `SEC_TO_TIME` are inverse below 1024 hours, for either sign. -/
theorem C47_seconds (s : Int) (h : s.natAbs < 1024 * 3600) : timeToSec (secToTime s) = s := by
  have e1 : secToTime s = ofSeconds s := by
    unfold secToTime ofSeconds
    congr 1
    omega
  have e2 : ∀ t, timeToSec t = toSeconds t := by
    intro t
    unfold timeToSec toSeconds
    simp only
    split <;> omega
  rw [e1, e2]
  exact C31_seconds s (by omega)

/-- C47.  `TIME_TO_SEC` of hours, minutes and seconds. -/
theorem C47_time_to_sec (minus : Bool) (h m s : Nat) (hh : h < 1024) (hm : m < 60) (hs : s < 60) :
    timeToSec (packTime minus h m s) = if minus then -(h * 3600 + m * 60 + s : Int) else h * 3600 + m * 60 + s := by
  rw [packTime_eq _ _ _ _ (by omega) (by omega) (by omega)]
  obtain ⟨t, ht⟩ : ∃ t : Int, t = if minus = true then -((h * 4096 + m * 64 + s : Nat) : Int)
    else ((h * 4096 + m * 64 + s : Nat) : Int) := ⟨_, rfl⟩
  rw [← ht]
  have ha : t.natAbs = h * 4096 + m * 64 + s := by rw [ht]; split <;> omega
  obtain ⟨f1, f2, f3⟩ := time_fields t _ _ _ (by omega) (by omega) (by omega) ha
  unfold timeToSec
  simp only [f1, f2, f3]
  cases minus
  · simp only [Bool.false_eq_true, if_false] at ht ⊢; rw [if_neg (by omega)]
  · simp only [if_true] at ht ⊢; split <;> omega

/-! ## Months -/

/-- C47.  `QUARTER` of a date. -/
theorem C47_quarter (f : Fields) (h : Fits f) (hm : 1 ≤ f.month ∧ f.month ≤ 12) :
    1 ≤ quarter (toDate (pack f)) ∧ 3 * (quarter (toDate (pack f)) - 1) < f.month ∧ f.month ≤ 3 * quarter (toDate (pack f)) := by
  have hF := h.year
  have hd := h.day
  have e : (toDate (pack f) >>> 5 &&& 0x1FFFF) % 13 = f.month := by
    rw [toDate_pack f h, Nat.shiftRight_eq_div_pow, show (0x1FFFF : Nat) = 2 ^ 17 - 1 by rfl, Nat.and_two_pow_sub_one_eq_mod]
    omega
  unfold quarter
  rw [e]
  simp only
  rw [Int.tdiv_eq_ediv_of_nonneg (by omega)]
  omega

/-- C47.  `PERIOD_ADD(p, n)` is `n` months after the period, `n` of either sign. -/
theorem C47_period_add (y m n : Int) (hy : 0 ≤ y) (hm : 1 ≤ m ∧ m ≤ 12) (hn : 0 ≤ y * 12 + m - 1 + n) :
    let r := periodAdd (y * 100 + m) n
    1 ≤ r.2 ∧ r.2 ≤ 12 ∧ r.1 * 12 + r.2 = y * 12 + m + n := by
  unfold periodAdd
  simp only
  rw [Int.tmod_eq_emod_of_nonneg (by omega : 0 ≤ y * 100 + m), Int.tdiv_eq_ediv_of_nonneg (by omega : 0 ≤ y * 100 + m)]
  have e1 : (y * 100 + m) % 100 = m := by omega
  have e2 : (y * 100 + m) / 100 = y := by omega
  rw [e1, e2, Int.tmod_eq_emod_of_nonneg (by omega), Int.tdiv_eq_ediv_of_nonneg (by omega)]
  omega

example : periodAdd 202311 3 = (2024, 2) ∧ periodAdd 202401 (-1) = (2023, 12) := by decide

/-- C47.  `PERIOD_DIFF` is always 0: both periods are read from the first argument. -/
theorem C47_period_diff_counterexample (p q : Int) : periodDiff p q = 0 := by unfold periodDiff; simp

end BaikalDB.DateFn
