import Verif.Datetime.Lemmas
/-!
# C29, C30, C32: dates, time stamps, packed values and intervals
-/
namespace BaikalDB.Datetime

/-! ## C29: the calendar -/

/-- C29.  Day 0 is 1970-01-01, every day number is a date of the calendar, and the next number is the next day.  This fixes
the date of every day number, before 1970 as well. -/
theorem C29_calendar :
    civil 0 = Spec.epoch ∧ ∀ n, Spec.Valid (civil n) ∧ civil (n + 1) = Spec.next (civil n) :=
  ⟨by decide, fun n => ⟨(civil_spec n).1, civil_succ n⟩⟩

/-- C29.  The day number of a date is the inverse. -/
theorem C29_day_number (n : Int) (d : Spec.Date) (hd : Spec.Valid d) :
    daysFromCivil (civil n).1 (civil n).2.1 (civil n).2.2 = n ∧ civil (daysFromCivil d.1 d.2.1 d.2.2) = d :=
  ⟨(civil_spec n).2, civil_days d hd⟩

/-- C29.  Day numbers order dates as the calendar does. -/
theorem C29_order (a b : Spec.Date) (ha : Spec.Valid a) (hb : Spec.Valid b) :
    daysFromCivil a.1 a.2.1 a.2.2 < daysFromCivil b.1 b.2.1 b.2.2 ↔ Spec.Before a b := by
  constructor
  · intro h
    rcases before_total a b with h1 | rfl | h1
    · exact h1
    · omega
    · have := days_lt b a hb ha h1; omega
  · exact days_lt a b ha hb

/-- C29.  Days after the epoch, counted day by day. -/
theorem C29_later (n : Nat) : civil n = Spec.later n Spec.epoch := by
  induction n with
  | zero => exact C29_calendar.1
  | succ n ih =>
    have := (C29_calendar.2 n).2
    rw [show ((n + 1 : Nat) : Int) = n + 1 by omega, this, ih]; rfl

example : Spec.Valid (2024, 2, 29) ∧ ¬ Spec.Valid (2100, 2, 29) ∧ civil 19782 = (2024, 2, 29) ∧ civil (-1) = (1969, 12, 31) := by
  decide

/-- C29.  Local time in a zone `tz` hours east: the date is that of the local day, hours, minutes and seconds are in range,
together they are the time stamp; the day of the week moves by one each day from Thursday 1970-01-01, and the day of the year
counts from January 1st. -/
theorem C29_localtime (ts tz : Int) :
    let tm := localtime ts tz
    let day := daysFromCivil tm.year (tm.mon + 1) tm.mday
    Spec.Valid (tm.year, tm.mon + 1, tm.mday) ∧
    0 ≤ tm.hour ∧ tm.hour ≤ 23 ∧ 0 ≤ tm.min ∧ tm.min ≤ 59 ∧ 0 ≤ tm.sec ∧ tm.sec ≤ 59 ∧
    ts + tz * 3600 = day * 86400 + tm.hour * 3600 + tm.min * 60 + tm.sec ∧
    tm.wday = (day + 4) % 7 ∧ tm.yday = day - daysFromCivil tm.year 1 1 := by
  intro tm day
  have hs := splitDay_eq (ts + tz * 3600)
  have hc := civil_spec ((ts + tz * 3600) / 86400)
  have hy := yday_eq _ hc.1
  have hw := wdayOf_eq ((ts + tz * 3600) / 86400)
  have e : ∀ x : Int, x - 1 + 1 = x := by omega
  simp only [tm, day, localtime, hs, e]
  rw [hc.2] at hy ⊢
  generalize (ts + tz * 3600) = t at *
  refine ⟨hc.1, ?_, ?_, ?_, ?_, ?_, ?_, ?_, hw, hy⟩ <;> omega

/-- C29.  Time stamp to local time and back. -/
theorem C29_mktime_localtime (ts tz : Int) : mktime (localtime ts tz) tz = ts := by
  have h := C29_localtime ts tz
  simp only at h
  unfold mktime
  omega

/-- C29.  Local time to time stamp and back, for a valid date and time of day. -/
theorem C29_localtime_mktime (tm : Tm) (tz : Int) (hv : Spec.Valid (tm.year, tm.mon + 1, tm.mday))
    (h : 0 ≤ tm.hour ∧ tm.hour ≤ 23) (mi : 0 ≤ tm.min ∧ tm.min ≤ 59) (s : 0 ≤ tm.sec ∧ tm.sec ≤ 59) :
    let r := localtime (mktime tm tz) tz
    (r.year, r.mon, r.mday, r.hour, r.min, r.sec) = (tm.year, tm.mon, tm.mday, tm.hour, tm.min, tm.sec) := by
  have hl := C29_localtime (mktime tm tz) tz
  simp only at hl
  obtain ⟨l1, l2, l3, l4, l5, l6, l7, l8, -⟩ := hl
  have e : mktime tm tz + tz * 3600 = daysFromCivil tm.year (tm.mon + 1) tm.mday * 86400 + tm.hour * 3600 + tm.min * 60 + tm.sec := by
    unfold mktime; omega
  rw [e] at l8
  have c1 := civil_days _ l1
  have c2 := civil_days _ hv
  have hd : daysFromCivil (localtime (mktime tm tz) tz).year ((localtime (mktime tm tz) tz).mon + 1)
      (localtime (mktime tm tz) tz).mday = daysFromCivil tm.year (tm.mon + 1) tm.mday := by omega
  simp only at c1 c2 ⊢
  rw [hd, c2] at c1
  simp only [Prod.mk.injEq] at c1 ⊢
  refine ⟨c1.1.symm, by omega, c1.2.2.symm, by omega, by omega, by omega⟩

example : let tm : Tm := { year := 2024, mon := 1, mday := 29, hour := 23, min := 59, sec := 59 }
    Spec.Valid (tm.year, tm.mon + 1, tm.mday) ∧ mktime tm 8 = 1709222399 := by decide

/-! ## C30: the packed DATETIME -/

/-- What fits the packed fields: 17, 5, 5, 6, 6 and 24 bits. -/
structure Fits (f : Fields) : Prop where
  month : f.month < 13
  year : f.year * 13 + f.month < 131072
  day : f.day < 32
  hour : f.hour < 32
  minute : f.minute < 64
  second : f.second < 64
  micro : f.micro < 16777216

theorem or_add (x c i : Nat) (hx : x % 2 ^ i = 0) (hc : c < 2 ^ i) : x ||| c = x + c := by
  have : x = (x / 2 ^ i) <<< i := by
    rw [Nat.shiftLeft_eq]; exact (Nat.div_mul_cancel (Nat.dvd_of_mod_eq_zero hx)).symm
  rw [this, Nat.shiftLeft_add_eq_or_of_lt hc]

theorem pack_eq (f : Fields) (h : Fits f) : pack f = (f.year * 13 + f.month) * 2 ^ 46 + f.day * 2 ^ 41 + f.hour * 2 ^ 36 +
    f.minute * 2 ^ 30 + f.second * 2 ^ 24 + f.micro := by
  obtain ⟨h1, h2, h3, h4, h5, h6, h7⟩ := h
  unfold pack
  simp only [Nat.shiftLeft_eq]
  rw [or_add _ (f.day * 2 ^ 41) 46 (by omega) (by omega)]
  rw [or_add _ (f.hour * 2 ^ 36) 41 (by omega) (by omega)]
  rw [or_add _ (f.minute * 2 ^ 30) 36 (by omega) (by omega)]
  rw [or_add _ (f.second * 2 ^ 24) 30 (by omega) (by omega)]
  rw [or_add _ f.micro 24 (by omega) (by omega)]
  omega

theorem unpack_eq (dt : Nat) : unpack dt =
    { year := dt / 2 ^ 46 % 131072 / 13, month := dt / 2 ^ 46 % 131072 % 13, day := dt / 2 ^ 41 % 32, hour := dt / 2 ^ 36 % 32,
      minute := dt / 2 ^ 30 % 64, second := dt / 2 ^ 24 % 64, micro := dt % 16777216 } := by
  have h17 : ∀ x : Nat, x &&& 0x1FFFF = x % 131072 := fun x => Nat.and_two_pow_sub_one_eq_mod x 17
  have h5 : ∀ x : Nat, x &&& 0x1F = x % 32 := fun x => Nat.and_two_pow_sub_one_eq_mod x 5
  have h6 : ∀ x : Nat, x &&& 0x3F = x % 64 := fun x => Nat.and_two_pow_sub_one_eq_mod x 6
  have h24 : ∀ x : Nat, x &&& 0xFFFFFF = x % 16777216 := fun x => Nat.and_two_pow_sub_one_eq_mod x 24
  unfold unpack
  simp only [h17, h5, h6, h24, Nat.shiftRight_eq_div_pow]

/-- C30.  A DATETIME gives back the fields it was made from. -/
theorem C30_fields (f : Fields) (h : Fits f) : unpack (pack f) = f := by
  rw [unpack_eq, pack_eq f h]
  obtain ⟨h1, h2, h3, h4, h5, h6, h7⟩ := h
  obtain ⟨y, mo, d, ho, mi, s, u⟩ := f
  simp only at *
  simp only [Fields.mk.injEq]
  refine ⟨?_, ?_, ?_, ?_, ?_, ?_, ?_⟩ <;> first | trivial | omega

/-- Fields in time order. -/
def Spec.FieldsLt (a b : Fields) : Prop :=
  a.year < b.year ∨ (a.year = b.year ∧ (a.month < b.month ∨ (a.month = b.month ∧ (a.day < b.day ∨ (a.day = b.day ∧
  (a.hour < b.hour ∨ (a.hour = b.hour ∧ (a.minute < b.minute ∨ (a.minute = b.minute ∧ (a.second < b.second ∨
  (a.second = b.second ∧ a.micro < b.micro)))))))))))

/-- C30.  Packed values compare as the points in time do, so comparisons and index order are chronological. -/
theorem C30_order (a b : Fields) (ha : Fits a) (hb : Fits b) : pack a < pack b ↔ Spec.FieldsLt a b := by
  rw [pack_eq a ha, pack_eq b hb]
  obtain ⟨h1, h2, h3, h4, h5, h6, h7⟩ := ha
  obtain ⟨g1, g2, g3, g4, g5, g6, g7⟩ := hb
  unfold Spec.FieldsLt
  have hy : a.year * 13 + a.month < b.year * 13 + b.month ↔ a.year < b.year ∨ (a.year = b.year ∧ a.month < b.month) := by omega
  have hy' : a.year * 13 + a.month = b.year * 13 + b.month ↔ a.year = b.year ∧ a.month = b.month := by omega
  generalize a.year * 13 + a.month = A at *
  generalize b.year * 13 + b.month = B at *
  constructor
  · intro h
    by_cases c1 : A < B
    · have := hy.1 c1; omega
    · have c2 : A = B := by omega
      obtain ⟨e1, e2⟩ := hy'.1 c2
      subst c2
      refine Or.inr ⟨e1, Or.inr ⟨e2, ?_⟩⟩
      by_cases d1 : a.day < b.day
      · exact Or.inl d1
      have d2 : a.day = b.day := by omega
      refine Or.inr ⟨d2, ?_⟩
      by_cases d1 : a.hour < b.hour
      · exact Or.inl d1
      have d3 : a.hour = b.hour := by omega
      refine Or.inr ⟨d3, ?_⟩
      by_cases d1 : a.minute < b.minute
      · exact Or.inl d1
      have d4 : a.minute = b.minute := by omega
      refine Or.inr ⟨d4, ?_⟩
      by_cases d1 : a.second < b.second
      · exact Or.inl d1
      have d5 : a.second = b.second := by omega
      exact Or.inr ⟨d5, by omega⟩
  · intro h
    rcases h with h | ⟨e1, h | ⟨e2, h⟩⟩
    · have := hy.2 (Or.inl h); omega
    · have := hy.2 (Or.inr ⟨e1, h⟩); omega
    · have := hy'.2 ⟨e1, e2⟩; omega

theorem toDate_eq (x : Nat) : toDate x = x / 2 ^ 41 % 4194304 := by
  have hm : ∀ x : Nat, x &&& 0x3FFFFF = x % 4194304 := fun x => Nat.and_two_pow_sub_one_eq_mod x 22
  simp only [toDate, hm, Nat.shiftRight_eq_div_pow]

theorem ofDate_eq (d : Nat) : ofDate d = d * 2 ^ 41 := by
  unfold ofDate; rw [Nat.shiftLeft_eq]

theorem toDate_pack (f : Fields) (h : Fits f) : toDate (pack f) = (f.year * 13 + f.month) * 32 + f.day := by
  obtain ⟨h1, h2, h3, h4, h5, h6, h7⟩ := id h
  have e : pack f = (f.hour * 2 ^ 36 + f.minute * 2 ^ 30 + f.second * 2 ^ 24 + f.micro) +
      2 ^ 41 * ((f.year * 13 + f.month) * 32 + f.day) := by
    rw [pack_eq f h]; omega
  rw [toDate_eq, e, Nat.add_mul_div_left _ _ (by decide), Nat.div_eq_of_lt (by omega), Nat.zero_add, Nat.mod_eq_of_lt (by omega)]

theorem midnight_eq (a b : Nat) : a * 2 ^ 46 + b * 2 ^ 41 + 0 * 2 ^ 36 + 0 * 2 ^ 30 + 0 * 2 ^ 24 + 0 = (a * 32 + b) * 2 ^ 41 := by
  omega

/-- C30.  DATE keeps the date of a DATETIME, and a DATE as a DATETIME is midnight of that date. -/
theorem C30_date (f : Fields) (h : Fits f) :
    ofDate (toDate (pack f)) = pack { f with hour := 0, minute := 0, second := 0, micro := 0 } ∧
    toDate (ofDate (toDate (pack f))) = toDate (pack f) := by
  have h' : Fits { f with hour := 0, minute := 0, second := 0, micro := 0 } :=
    ⟨h.month, h.year, h.day, Nat.zero_lt_of_lt h.hour, Nat.zero_lt_of_lt h.minute, Nat.zero_lt_of_lt h.second,
      Nat.zero_lt_of_lt h.micro⟩
  have e : ofDate (toDate (pack f)) = pack { f with hour := 0, minute := 0, second := 0, micro := 0 } := by
    rw [ofDate_eq, toDate_pack f h]
    exact ((pack_eq _ h').trans (midnight_eq _ _)).symm
  refine ⟨e, ?_⟩
  rw [e, toDate_pack _ h', toDate_pack f h]

/-- C30.  DATEs compare as dates do. -/
theorem C30_date_order (a b : Fields) (ha : Fits a) (hb : Fits b) :
    toDate (pack a) < toDate (pack b) ↔
      Spec.Before (a.year, a.month, a.day) (b.year, b.month, b.day) := by
  rw [toDate_pack a ha, toDate_pack b hb]
  obtain ⟨h1, h2, h3, h4, h5, h6, h7⟩ := ha
  obtain ⟨g1, g2, g3, g4, g5, g6, g7⟩ := hb
  unfold Spec.Before
  simp only
  omega

def exampleFields : Fields := { year := 9999, month := 12, day := 31, hour := 23, minute := 59, second := 59, micro := 999999 }
example : Fits exampleFields := by constructor <;> decide

/-- C30.  Year 10083 and later do not fit: the value of a date sent in the binary protocol, whose year is not checked, wraps
round. -/
theorem C30_binary_year_counterexample :
    ofBinary { year := 10084, month := 1, day := 1, hour := 0, minute := 0, second := 0, micro := 0 } ≥ 2 ^ 63 ∧
    unpack (ofBinary { year := 10084, month := 1, day := 1, hour := 0, minute := 0, second := 0, micro := 0 }) =
      { year := 1, month := 8, day := 1, hour := 0, minute := 0, second := 0, micro := 0 } := by
  decide

/-- The point in time a client sends: year of four digits, a month, a day up to 31, a time of day, microseconds. -/
structure Sent (f : Fields) : Prop where
  year : f.year ≤ 9999
  month : 1 ≤ f.month ∧ f.month ≤ 12
  day : f.day ≤ 31
  hour : f.hour ≤ 23
  minute : f.minute ≤ 59
  second : f.second ≤ 59
  micro : f.micro ≤ 999999

theorem Sent.fits {f : Fields} (h : Sent f) : Fits f := by
  obtain ⟨h1, h2, h3, h4, h5, h6, h7⟩ := h
  constructor <;> omega

/-- C30.  A parameter of a prepared statement is stored as sent when its year has more than two digits or is 70; years 71 to
99 get 1900 added and years below 70 get 2000. -/
theorem C30_binary (f : Fields) (h : Sent f) :
    unpack (ofBinary f) = { f with year :=
      if f.year < 70 then f.year + 2000 else if f.year = 70 ∨ 100 ≤ f.year then f.year else f.year + 1900 } := by
  obtain ⟨h1, h2, h3, h4, h5, h6, h7⟩ := h
  simp only [ofBinary]
  rw [if_neg (by omega), if_neg (by omega), if_neg (by omega), C30_fields]
  · congr 1
    split <;> split <;> (try split) <;> omega
  · constructor <;> simp only <;> first | omega | (split <;> (try split) <;> omega)

/-- C30.  Anything else is rejected as the zero date. -/
theorem C30_binary_invalid (f : Fields) (h : f.month = 0 ∨ 12 < f.month ∨ 31 < f.day ∨ 23 < f.hour ∨ 59 < f.minute ∨ 59 < f.second) :
    ofBinary f = 0 := by
  unfold ofBinary
  simp only
  split
  · rfl
  · split
    · rfl
    · split
      · rfl
      · omega

/-- C29, C30.  `TIMESTAMP` to `DATETIME`: the fields are the local date and time in the zone UTC+8. -/
theorem C29_timestamp_fields (ts : Int) (h0 : 0 < ts) (h1 : ts < 253402272000) :
    let f := unpack (ofTimestamp ts)
    let tm := localtime ts 8
    Fits f ∧ pack f = ofTimestamp ts ∧
    ((f.year : Int), (f.month : Int), (f.day : Int), (f.hour : Int), (f.minute : Int), (f.second : Int), f.micro) =
      (tm.year, tm.mon + 1, tm.mday, tm.hour, tm.min, tm.sec, 0) := by
  have hl := C29_localtime ts 8
  simp only at hl
  obtain ⟨l1, l2, l3, l4, l5, l6, l7, l8, -⟩ := hl
  have ye : (1970 : Int) ≤ (localtime ts 8).year ∧ (localtime ts 8).year ≤ 9999 := by
    generalize localtime ts 8 = tm at *
    have hml := monthLen_pos tm.year (tm.mon + 1)
    constructor
    · by_contra hc
      have := days_lt _ (1970, 1, 1) l1 (by decide) (Or.inl (by simp only; omega))
      have e : daysFromCivil 1970 1 1 = 0 := by decide
      simp only [e] at this
      omega
    · by_contra hc
      have := days_lt (9999, 12, 31) _ (by decide) l1 (Or.inl (by simp only; omega))
      have e : daysFromCivil 9999 12 31 = 2932896 := by decide
      simp only [e] at this
      omega
  have hml := monthLen_pos (localtime ts 8).year ((localtime ts 8).mon + 1)
  obtain ⟨m1, m2, m3, m4⟩ := l1
  simp only at m1 m2 m3 m4
  have hF : Fits (localtime ts 8).fields := by
    constructor <;> simp only [Tm.fields] <;> omega
  simp only [ofTimestamp, if_neg (show ¬ ts = 0 by omega)]
  rw [C30_fields _ hF]
  refine ⟨hF, rfl, ?_⟩
  simp only [Tm.fields, Prod.mk.injEq]
  refine ⟨?_, ?_, ?_, ?_, ?_, ?_, ?_⟩ <;> first | trivial | omega

/-- A DATETIME that is a real date with a time of day. -/
def RealTime (f : Fields) : Prop :=
  Spec.Valid (f.year, f.month, f.day) ∧ f.hour ≤ 23 ∧ f.minute ≤ 59 ∧ f.second ≤ 59
instance (f : Fields) : Decidable (RealTime f) := by unfold RealTime; infer_instance

/-- C29.  `TIMESTAMP` to `DATETIME` and back is the identity, for every time from 1970 to the end of 9999. -/
theorem C29_timestamp_roundtrip (ts : Int) (h0 : 0 ≤ ts) (h1 : ts < 253402272000) : toTimestamp (ofTimestamp ts) = ts := by
  by_cases hz : ts = 0
  · subst hz; decide
  have h0' : 0 < ts := by omega
  have h := C29_timestamp_fields ts h0' h1
  simp only at h
  obtain ⟨hF, hp, hf⟩ := h
  have hl := C29_localtime ts 8
  simp only at hl
  obtain ⟨⟨m1, m2, m3, m4⟩, l2, l3, l4, l5, l6, l7, l8, -⟩ := hl
  simp only [Prod.mk.injEq] at hf m1 m3
  obtain ⟨f1, f2, f3, f4, f5, f6, f7⟩ := hf
  have hmk := C29_mktime_localtime ts 8
  have hne : ofTimestamp ts ≠ 0 := by
    intro hc
    rw [hc] at f2
    simp [unpack] at f2
    omega
  unfold toTimestamp
  rw [if_neg hne, if_neg (by omega), if_neg (by omega)]
  have e : mktime (unpack (ofTimestamp ts)).tm 8 = ts := by
    simp only [Fields.tm]
    rw [f1, f2, f3, f4, f5, f6]
    have e2 : (localtime ts 8).mon + 1 - 1 = (localtime ts 8).mon := by omega
    rw [e2]
    exact hmk
  simp only [e]
  rw [if_neg (by omega)]

/-- C29.  `DATETIME` to `TIMESTAMP` and back keeps a real date and time after 1970-01-01 08:00:00, without its microseconds. -/
theorem C29_datetime_roundtrip (f : Fields) (hF : Fits f) (hv : RealTime f) (hy : f.year ≤ 9999)
    (h : 0 < mktime f.tm 8) :
    toTimestamp (pack f) = mktime f.tm 8 ∧ ofTimestamp (toTimestamp (pack f)) = pack { f with micro := 0 } := by
  obtain ⟨hv, v1, v2, v3⟩ := hv
  have hv' := hv
  obtain ⟨m1, m2, m3, m4⟩ := hv
  simp only at m1 m2 m3 m4
  have hne : pack f ≠ 0 := by
    rw [pack_eq f hF]; omega
  have e1 : toTimestamp (pack f) = mktime f.tm 8 := by
    unfold toTimestamp
    rw [if_neg hne, C30_fields f hF, if_neg (by omega), if_neg (by omega)]
    simp only
    rw [if_neg (by omega)]
  refine ⟨e1, ?_⟩
  rw [e1]
  generalize hts : mktime f.tm 8 = ts at *
  have hd : ts < 253402272000 := by
    rw [← hts]
    simp only [mktime, Fields.tm]
    have h31 := monthLen_pos f.year f.month
    rcases before_total (f.year, ((f.month : Int) - 1 + 1), (f.day : Int)) (9999, 12, 31) with hb | hb | hb
    · have := days_lt _ _ (by rw [show (f.month : Int) - 1 + 1 = f.month by omega]; exact hv') (by decide) hb
      have e : daysFromCivil 9999 12 31 = 2932896 := by decide
      simp only [e] at this
      omega
    · simp only [Prod.mk.injEq] at hb
      rw [hb.1, hb.2.1, hb.2.2]
      have e : daysFromCivil 9999 12 31 = 2932896 := by decide
      rw [e]; omega
    · simp only [Spec.Before] at hb
      omega
  have hr := C29_localtime_mktime f.tm 8 (by simp only [Fields.tm]; rw [show (f.month : Int) - 1 + 1 = f.month by omega]; exact hv')
    (by simp only [Fields.tm]; omega) (by simp only [Fields.tm]; omega) (by simp only [Fields.tm]; omega)
  rw [hts] at hr
  simp only [Prod.mk.injEq, Fields.tm] at hr
  obtain ⟨r1, r2, r3, r4, r5, r6⟩ := hr
  unfold ofTimestamp
  rw [if_neg (by omega)]
  simp only [Tm.fields, r1, r2, r3, r4, r5, r6]
  congr 1
  simp only [Fields.mk.injEq]
  refine ⟨?_, ?_, ?_, ?_, ?_, ?_, ?_⟩ <;> first | trivial | omega

example : let f : Fields := { year := 2024, month := 2, day := 29, hour := 12, minute := 30, second := 1, micro := 5 }
    Fits f ∧ RealTime f ∧ 0 < mktime f.tm 8 := by
  refine ⟨⟨by decide, by decide, by decide, by decide, by decide, by decide, by decide⟩, by decide, by decide⟩

/-- C29.  Zero dates, and dates with a zero month or day, have no time stamp: the result is 0. -/
theorem C29_zero_date (f : Fields) (hF : Fits f) (h : f.month = 0 ∨ f.day = 0) : toTimestamp (pack f) = 0 := by
  unfold toTimestamp
  rw [C30_fields f hF]
  split
  · rfl
  · split
    · rfl
    · split
      · rfl
      · omega

/-- C29.  A date before 1970-01-01 08:00:00 becomes the time stamp 0, which reads back as the zero date: the conversion loses
it. -/
theorem C29_before_epoch_counterexample :
    toTimestamp (pack { year := 1969, month := 12, day := 31, hour := 0, minute := 0, second := 0, micro := 0 }) = 0 ∧
    ofTimestamp 0 = 0 := by
  decide

/-- C29.  A day that does not exist becomes the day it would be if the month went on. -/
theorem C29_invalid_day_counterexample :
    unpack (ofTimestamp (toTimestamp (pack { year := 2023, month := 2, day := 31, hour := 0, minute := 0, second := 0, micro := 0 }))) =
      { year := 2023, month := 3, day := 3, hour := 0, minute := 0, second := 0, micro := 0 } := by
  decide

/-! ## C32: intervals -/

theorem localtime_valid (ts : Int) : Spec.Valid ((localtime ts 8).year, (localtime ts 8).mon + 1, (localtime ts 8).mday) :=
  (C29_localtime ts 8).1

/-- Date of a time stamp. -/
def dateOf (ts : Int) : Spec.Date := ((localtime ts 8).year, (localtime ts 8).mon + 1, (localtime ts 8).mday)
/-- Second of the day of a time stamp. -/
def clockOf (ts : Int) : Int := (localtime ts 8).hour * 3600 + (localtime ts 8).min * 60 + (localtime ts 8).sec

theorem clock_range (ts : Int) : 0 ≤ clockOf ts ∧ clockOf ts < 86400 := by
  have h := C29_localtime ts 8
  simp only at h
  unfold clockOf
  omega

/-- A time stamp is determined by its date and the second of the day. -/
theorem of_date_clock (tm : Tm) (hv : Spec.Valid (tm.year, tm.mon + 1, tm.mday))
    (h : 0 ≤ tm.hour ∧ tm.hour ≤ 23) (mi : 0 ≤ tm.min ∧ tm.min ≤ 59) (s : 0 ≤ tm.sec ∧ tm.sec ≤ 59) :
    dateOf (mktime tm 8) = (tm.year, tm.mon + 1, tm.mday) ∧ clockOf (mktime tm 8) = tm.hour * 3600 + tm.min * 60 + tm.sec := by
  have hr := C29_localtime_mktime tm 8 hv h mi s
  simp only [Prod.mk.injEq] at hr
  obtain ⟨r1, r2, r3, r4, r5, r6⟩ := hr
  unfold dateOf clockOf
  rw [r1, r2, r3, r4, r5, r6]
  exact ⟨rfl, rfl⟩

/-- C32.  A time stamp is the second of the day of a calendar day. -/
theorem C32_timestamp (ts : Int) :
    ts + 28800 = daysFromCivil (dateOf ts).1 (dateOf ts).2.1 (dateOf ts).2.2 * 86400 + clockOf ts := by
  have h := C29_localtime ts 8
  simp only at h
  unfold dateOf clockOf
  simp only
  omega

theorem daysInMonth_eq (y m : Int) (h0 : 0 ≤ m) (h1 : m ≤ 11) :
    (if m + 1 = 2 ∧ isLeap y then daysInMonth m + 1 else daysInMonth m) = Spec.monthLen y (m + 1) := by
  have hl : isLeap y = decide (Spec.Leap y) := by
    rw [Bool.eq_iff_iff, isLeap_iff]; simp
  rw [hl]
  have : m = 0 ∨ m = 1 ∨ m = 2 ∨ m = 3 ∨ m = 4 ∨ m = 5 ∨ m = 6 ∨ m = 7 ∨ m = 8 ∨ m = 9 ∨ m = 10 ∨ m = 11 := by omega
  by_cases hL : Spec.Leap y <;>
  rcases this with h | h | h | h | h | h | h | h | h | h | h | h <;> subst h <;>
    simp [daysInMonth, Spec.monthLen, hL]

theorem tmod12 (x : Int) : (x.tmod 12 + 12).tmod 12 = x % 12 := by
  by_cases h : 0 ≤ x
  · rw [Int.tmod_eq_emod_of_nonneg h, Int.tmod_eq_emod_of_nonneg (by omega)]; omega
  · obtain ⟨n, rfl⟩ : ∃ n : Nat, x = -(n : Int) := ⟨x.natAbs, by omega⟩
    rw [Int.neg_tmod, Int.tmod_eq_emod_of_nonneg (a := (n : Int)) (by omega), Int.tmod_eq_emod_of_nonneg (by omega)]; omega

theorem tdiv12 (x : Int) : x.tdiv 12 + (if x < 0 then -1 else 0) = if x < 0 ∧ x % 12 = 0 then x / 12 - 1 else x / 12 := by
  by_cases h : 0 ≤ x
  · rw [Int.tdiv_eq_ediv_of_nonneg h, if_neg (by omega), if_neg (by omega)]; omega
  · obtain ⟨n, rfl⟩ : ∃ n : Nat, x = -(n : Int) := ⟨x.natAbs, by omega⟩
    rw [Int.neg_tdiv, Int.tdiv_eq_ediv_of_nonneg (by omega), if_pos (by omega)]
    split <;> omega

/-- C32.  What adding months does, in every case: the date moves by that many calendar months with the day cut to the length
of the month reached — but when the count goes back across a year boundary to a January exactly, by twelve months more; the
time of day stays. -/
theorem C32_months_exact (ts n : Int) :
    let k := (localtime ts 8).mon + n
    dateOf (addInterval ts n .month) = Spec.addMonths (dateOf ts) (if k < 0 ∧ k % 12 = 0 then n - 12 else n) ∧
    clockOf (addInterval ts n .month) = clockOf ts := by
  intro k
  have hl := C29_localtime ts 8
  simp only at hl
  obtain ⟨hv, l2, l3, l4, l5, l6, l7, -⟩ := hl
  obtain ⟨Y, hY⟩ : ∃ Y, Y = (localtime ts 8).year + k.tdiv 12 + (if k < 0 then -1 else 0) := ⟨_, rfl⟩
  obtain ⟨M, hM⟩ : ∃ M, M = (k.tmod 12 + 12).tmod 12 := ⟨_, rfl⟩
  have hM2 : M = k % 12 := by rw [hM, tmod12]
  have hM0 : 0 ≤ M ∧ M ≤ 11 := by omega
  have hdm := daysInMonth_eq Y M hM0.1 hM0.2
  have hml := monthLen_pos Y (M + 1)
  obtain ⟨m1, m2, m3, m4⟩ := hv
  simp only at m1 m2 m3 m4
  have hd31 := monthLen_pos (localtime ts 8).year ((localtime ts 8).mon + 1)
  have hday : (if (localtime ts 8).mday > daysInMonth M then
        (if M + 1 = 2 ∧ isLeap Y then daysInMonth M + 1 else daysInMonth M) else (localtime ts 8).mday)
      = min (localtime ts 8).mday (Spec.monthLen Y (M + 1)) := by
    rw [hdm]
    split
    · next hgt =>
      by_cases c : M + 1 = 2 ∧ isLeap Y = true
      · rw [if_pos c] at hdm
        have : daysInMonth M = 28 := by
          have : M = 1 := by omega
          rw [this]; rfl
        omega
      · rw [if_neg c] at hdm; omega
    · next hgt =>
      have : daysInMonth M ≤ Spec.monthLen Y (M + 1) := by
        rw [← hdm]; split <;> omega
      omega
  have hY2 : Y = ((localtime ts 8).year * 12 + (localtime ts 8).mon + (if k < 0 ∧ k % 12 = 0 then n - 12 else n)) / 12 := by
    rw [hY, Int.add_assoc, tdiv12]
    split <;> omega
  have hM3 : M = ((localtime ts 8).year * 12 + (localtime ts 8).mon + (if k < 0 ∧ k % 12 = 0 then n - 12 else n)) % 12 := by
    rw [hM2]
    split <;> omega
  have hv' : Spec.Valid (Y, M + 1, min (localtime ts 8).mday (Spec.monthLen Y (M + 1))) := by
    refine ⟨?_, ?_, ?_, ?_⟩ <;> simp only <;> omega
  obtain ⟨X, hX⟩ : ∃ X, X = min (localtime ts 8).mday (Spec.monthLen Y (M + 1)) := ⟨_, rfl⟩
  rw [← hX] at hv'
  have hr : addInterval ts n .month = mktime { localtime ts 8 with year := Y, mon := M, mday := X } 8 := by
    rw [hX, ← hday, hY, hM]; rfl
  have hr2 := of_date_clock { localtime ts 8 with year := Y, mon := M, mday := X } hv' ⟨l2, l3⟩ ⟨l4, l5⟩ ⟨l6, l7⟩
  rw [hr, hr2.1, hr2.2, hX]
  refine ⟨?_, rfl⟩
  simp only [Spec.addMonths, dateOf]
  have e : (localtime ts 8).year * 12 + ((localtime ts 8).mon + 1 - 1) + (if k < 0 ∧ k % 12 = 0 then n - 12 else n) =
    (localtime ts 8).year * 12 + (localtime ts 8).mon + (if k < 0 ∧ k % 12 = 0 then n - 12 else n) := by omega
  rw [e, ← hY2, ← hM3]

/-- C32.  Adding months moves the date by that many calendar months, unless the months go back to a January of an earlier
year. -/
theorem C32_months (ts n : Int) (h : ¬ ((localtime ts 8).mon + n < 0 ∧ ((localtime ts 8).mon + n) % 12 = 0)) :
    dateOf (addInterval ts n .month) = Spec.addMonths (dateOf ts) n ∧ clockOf (addInterval ts n .month) = clockOf ts := by
  have := C32_months_exact ts n
  simp only [if_neg h] at this
  exact this

/-- C32.  `DATE_SUB('2024-03-15', INTERVAL 14 MONTH)` gives 2022-01-15 instead of 2023-01-15. -/
theorem C32_months_counterexample :
    let ts := mktime { year := 2024, mon := 2, mday := 15, hour := 0, min := 0, sec := 0 } 8
    dateOf (subInterval ts 14 .month) = (2022, 1, 15) ∧ Spec.addMonths (dateOf ts) (-14) = (2023, 1, 15) := by
  decide

example : let ts := mktime { year := 2024, mon := 2, mday := 31, hour := 10, min := 0, sec := 0 } 8
    ¬ ((localtime ts 8).mon + (-13) < 0 ∧ ((localtime ts 8).mon + (-13)) % 12 = 0) ∧
    dateOf (addInterval ts (-13) .month) = (2023, 2, 28) := by decide

/-- C32.  Adding years keeps month and day, except that February 29th becomes the 28th when the year reached is not a leap
year; the same as twelve times as many months. -/
theorem C32_years (ts n : Int) :
    dateOf (addInterval ts n .year) = Spec.addMonths (dateOf ts) (12 * n) ∧ clockOf (addInterval ts n .year) = clockOf ts := by
  have hl := C29_localtime ts 8
  simp only at hl
  obtain ⟨hv, l2, l3, l4, l5, l6, l7, -⟩ := hl
  obtain ⟨m1, m2, m3, m4⟩ := hv
  simp only at m1 m2 m3 m4
  obtain ⟨Y, hY⟩ : ∃ Y, Y = (localtime ts 8).year + n := ⟨_, rfl⟩
  have hday : (if (localtime ts 8).mon + 1 = 2 ∧ (localtime ts 8).mday = 29 ∧ !isLeap Y then 28 else (localtime ts 8).mday)
      = min (localtime ts 8).mday (Spec.monthLen Y ((localtime ts 8).mon + 1)) := by
    by_cases h2 : (localtime ts 8).mon + 1 = 2
    · have hl : isLeap Y = decide (Spec.Leap Y) := by
        rw [Bool.eq_iff_iff, isLeap_iff]; simp
      rw [h2] at m4 ⊢
      simp only [Spec.monthLen, if_pos] at m4 ⊢
      rw [hl]
      have h29 : (localtime ts 8).mday ≤ 29 := by split at m4 <;> omega
      by_cases hL : Spec.Leap Y
      · simp [hL]; omega
      · simp only [hL, decide_false, Bool.not_false, and_true, true_and, if_false]
        split <;> omega
    · have e : ∀ y, Spec.monthLen y ((localtime ts 8).mon + 1) = Spec.monthLen Y ((localtime ts 8).mon + 1) := by
        intro y; simp only [Spec.monthLen, if_neg h2]
      rw [if_neg (by tauto)]
      rw [e] at m4
      omega
  have hml := monthLen_pos Y ((localtime ts 8).mon + 1)
  have hv' : Spec.Valid (Y, (localtime ts 8).mon + 1, min (localtime ts 8).mday (Spec.monthLen Y ((localtime ts 8).mon + 1))) := by
    refine ⟨?_, ?_, ?_, ?_⟩ <;> simp only <;> omega
  obtain ⟨X, hX⟩ : ∃ X, X = min (localtime ts 8).mday (Spec.monthLen Y ((localtime ts 8).mon + 1)) := ⟨_, rfl⟩
  rw [← hX] at hv'
  have hr : addInterval ts n .year = mktime { localtime ts 8 with year := Y, mday := X } 8 := by
    rw [hX, ← hday, hY]; rfl
  have hr2 := of_date_clock { localtime ts 8 with year := Y, mday := X } hv' ⟨l2, l3⟩ ⟨l4, l5⟩ ⟨l6, l7⟩
  rw [hr, hr2.1, hr2.2, hX]
  refine ⟨?_, rfl⟩
  simp only [Spec.addMonths, dateOf]
  have e1 : ((localtime ts 8).year * 12 + ((localtime ts 8).mon + 1 - 1) + 12 * n) / 12 = Y := by omega
  have e2 : ((localtime ts 8).year * 12 + ((localtime ts 8).mon + 1 - 1) + 12 * n) % 12 = (localtime ts 8).mon := by omega
  rw [e1, e2]

/-- C32.  Adding days moves the date by that many days of the calendar and keeps the time of day. -/
theorem C32_days (ts n : Int) :
    daysFromCivil (dateOf (addInterval ts n .day)).1 (dateOf (addInterval ts n .day)).2.1 (dateOf (addInterval ts n .day)).2.2 =
      daysFromCivil (dateOf ts).1 (dateOf ts).2.1 (dateOf ts).2.2 + n ∧
    clockOf (addInterval ts n .day) = clockOf ts := by
  have h1 := C32_timestamp ts
  have h2 := C32_timestamp (addInterval ts n .day)
  have c1 := clock_range ts
  have c2 := clock_range (addInterval ts n .day)
  have e : addInterval ts n .day = ts + n * 86400 := rfl
  rw [e] at h2 c2 ⊢
  omega

/-- C32.  Adding days, day by day. -/
theorem C32_days_later (ts : Int) (n : Nat) : dateOf (addInterval ts n .day) = Spec.later n (dateOf ts) := by
  have hd : ∀ t, dateOf t = civil (daysFromCivil (dateOf t).1 (dateOf t).2.1 (dateOf t).2.2) :=
    fun t => (civil_days _ (localtime_valid t)).symm
  rw [hd, (C32_days ts n).1]
  induction n with
  | zero => rw [show ((0 : Nat) : Int) = 0 from rfl, Int.add_zero, ← hd]; rfl
  | succ n ih =>
    rw [show daysFromCivil (dateOf ts).1 (dateOf ts).2.1 (dateOf ts).2.2 + ((n + 1 : Nat) : Int) =
      daysFromCivil (dateOf ts).1 (dateOf ts).2.1 (dateOf ts).2.2 + n + 1 by omega, civil_succ, ih]; rfl

/-- C32.  Hours, minutes and seconds are exact lengths of time, and subtracting is the inverse for every unit of fixed
length. -/
theorem C32_fixed (ts n : Int) :
    addInterval ts n .hour = ts + 3600 * n ∧ addInterval ts n .minute = ts + 60 * n ∧ addInterval ts n .second = ts + n ∧
    ∀ u, u = TimeUnit.day ∨ u = .hour ∨ u = .minute ∨ u = .second → subInterval (addInterval ts n u) n u = ts := by
  refine ⟨by simp only [addInterval]; omega, by simp only [addInterval]; omega, rfl, ?_⟩
  rintro u (rfl | rfl | rfl | rfl) <;> simp only [subInterval, addInterval] <;> omega

/-- C32.  Subtracting an interval is adding its negative. -/
theorem C32_sub (ts n : Int) (u : TimeUnit) : subInterval ts n u = addInterval ts (-n) u := rfl

/-- C32.  The start of the day: same date, time of day 0. -/
theorem C32_day_start (ts : Int) : dateOf (dayStart ts) = dateOf ts ∧ clockOf (dayStart ts) = 0 := by
  have hr := of_date_clock { localtime ts 8 with hour := 0, min := 0, sec := 0 } (localtime_valid ts) (by simp) (by simp) (by simp)
  unfold dayStart
  rw [hr.1, hr.2]
  exact ⟨rfl, by simp⟩

end BaikalDB.Datetime
