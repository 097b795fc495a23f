import Verif.Datetime.Model

/-!
# Date and time functions of SQL

Model of src/expr/internal_functions.cpp L1370-2115.  An argument is taken after its conversion to DATETIME (a packed
value) or TIME, which are those of `Verif/Datetime`; a NULL argument gives NULL and is left out.  C++ `int` arithmetic is
on integers: nothing leaves its range for the values the theorems speak of.
-/
namespace BaikalDB.DateFn
open BaikalDB.Datetime

/-- Construction of a `boost::gregorian::date`: Boost accepts the years 1400 to 9999 and days that exist, and throws
otherwise.  The result is the day number; Boost's own calendar is taken to be right. -/
def boostDate (y m d : Int) : Option Int :=
  if 1400 ≤ y ∧ y ≤ 9999 ∧ 1 ≤ m ∧ m ≤ 12 ∧ 1 ≤ d ∧ d ≤ daysInMonth (m - 1) + (if m = 2 ∧ isLeap y then 1 else 0) then
    some (daysFromCivil y m d)
  else none

/-- `date::day_of_week()`: 0 is Sunday. -/
def dayOfWeek (n : Int) : Int := wdayOf n

/-- `date::day_of_year()` of a date of year `y`. -/
def dayOfYear (y n : Int) : Int := n - daysFromCivil y 1 1 + 1

/-- The date fields of a packed value (include/common/datetime.h L61-100). -/
def yearOf (dt : Nat) : Int := (unpack dt).year
def monthOf (dt : Nat) : Int := (unpack dt).month
def dayOf (dt : Nat) : Int := (unpack dt).day

/-- src/expr/internal_functions.cpp L1741-1768: `dayofweek`. -/
def dayofweek (dt : Nat) : Option Int :=
  if monthOf dt = 0 ∨ dayOf dt = 0 then none
  else (boostDate (yearOf dt) (monthOf dt) (dayOf dt)).map fun n => dayOfWeek n + 1

/-- src/expr/internal_functions.cpp L1870-1901: `weekday`. -/
def weekday (dt : Nat) : Option Int :=
  if monthOf dt = 0 ∨ dayOf dt = 0 then none
  else (boostDate (yearOf dt) (monthOf dt) (dayOf dt)).map fun n => if dayOfWeek n ≥ 1 then dayOfWeek n - 1 else 6

/-- src/expr/internal_functions.cpp L1845-1869: `dayofyear`. -/
def dayofyear (dt : Nat) : Option Int :=
  if monthOf dt = 0 ∨ dayOf dt = 0 then none
  else (boostDate (yearOf dt) (monthOf dt) (dayOf dt)).map fun n => dayOfYear (yearOf dt) n

/-! ## Weeks -/

structure Flags where
  monday : Bool
  zero : Bool
  four : Bool
  deriving DecidableEq, Repr

/-- src/expr/internal_functions.cpp L1902-1947: `calc_mode`. -/
def calcMode : Nat → Flags
  | 0 => ⟨false, true, false⟩
  | 1 => ⟨true, true, true⟩
  | 2 => ⟨false, false, false⟩
  | 3 => ⟨true, false, true⟩
  | 4 => ⟨false, true, true⟩
  | 5 => ⟨true, true, false⟩
  | 6 => ⟨false, false, true⟩
  | 7 => ⟨true, false, false⟩
  | _ => ⟨false, true, false⟩

/-- src/expr/internal_functions.cpp L1949-1954: `days_in_year`. -/
def daysInYear (y : Int) : Int := if isLeap y then 366 else 365

/-- Whether the week with January 1st is not week 1 (L1994, L2008); `fw` is the weekday of January 1st. -/
def notFirst (f : Flags) (fw contain : Int) : Bool := (f.four && decide (contain < 4)) || (!f.four && decide (fw ≠ 0))

/-- src/expr/internal_functions.cpp L2007-2026: the end of `calc_week`, from the year, the day of the year, the weekday of
January 1st and the days of the first week. -/
def weekEnd (f : Flags) (year doy fw contain : Int) : Int × Int :=
  let days := if notFirst f fw contain then doy - contain - 1 else doy - contain - 1 + 7
  if !f.zero && decide (days ≥ 52 * 7) &&
      ((f.four && decide (contain ≥ 4)) || (!f.four && decide ((fw + daysInYear year).tmod 7 = 0)))
  then (year + 1, 1)
  else (year, days.tdiv 7 + 1)

/-- src/expr/internal_functions.cpp L1981-2006: `calc_week` once the dates are made. -/
def weekOf (f : Flags) (year month day doy wd : Int) : Int × Int :=
  let fw := if f.monday then (if wd = 0 then 6 else wd - 1) else wd
  let contain := 7 - fw
  if month = 1 ∧ day ≤ contain ∧ notFirst f fw contain then
    if f.zero then (year, 0)
    else
      let fw' := (fw + 53 * 7 - daysInYear (year - 1)).tmod 7
      weekEnd f (year - 1) (doy + daysInYear (year - 1)) fw' (7 - fw')
  else weekEnd f year doy fw contain

/-- src/expr/internal_functions.cpp L1955-1980: `calc_week`. -/
def calcWeek (dt : Nat) (f : Flags) : Option (Int × Int) :=
  if monthOf dt = 0 ∨ dayOf dt = 0 then none
  else
    match boostDate (yearOf dt) 1 1, boostDate (yearOf dt) (monthOf dt) (dayOf dt) with
    | some first, some today =>
      some (weekOf f (yearOf dt) (monthOf dt) (dayOf dt) (dayOfYear (yearOf dt) today) (dayOfWeek first))
    | _, _ => none

/-- The mode argument (L2038-2041, L2060-2063): none is as 0. -/
def flagsOf (mode : Option Nat) : Flags := mode.elim (calcMode 0) fun m => calcMode (m % 8)

/-- src/expr/internal_functions.cpp L2050-2071: `week`. -/
def week (dt : Nat) (mode : Option Nat) : Option Int := (calcWeek dt (flagsOf mode)).map (·.2)

/-- src/expr/internal_functions.cpp L2028-2049: `yearweek`. -/
def yearweek (dt : Nat) (mode : Option Nat) : Option Int :=
  (calcWeek dt { flagsOf mode with zero := false }).map fun p => p.1 * 100 + p.2

/-! ## Days and seconds between times -/

/-- Conversion to TIMESTAMP, a uint32 (include/common/expr_value.h L549-555). -/
def stamp (dt : Nat) : Int := toTimestamp dt % 2 ^ 32

/-- Reading a uint32 as an int32. -/
def int32 (x : Int) : Int := x.bmod (2 ^ 32)

/-- src/expr/internal_functions.cpp L1572-1582: `to_days`. -/
def toDays (dt : Nat) : Int := (stamp dt + 62167248000) / 86400

/-- src/expr/internal_functions.cpp L1584-1593: `to_seconds`. -/
def toSecs (dt : Nat) : Int := stamp dt + 62167248000

/-- src/expr/internal_functions.cpp L2095-2114: `datediff`. -/
def datediff (a b : Nat) : Int := (stamp (ofDate (toDate a)) - stamp (ofDate (toDate b))).tdiv (3600 * 24)

inductive Unit | second | minute | hour | day
  deriving DecidableEq, Repr

/-- src/expr/internal_functions.cpp L1632-1657: `timestampdiff(unit, a, b)`; other units give NULL. -/
def timestampdiff (u : Unit) (a b : Nat) : Int :=
  let s := int32 (stamp b - stamp a)
  match u with
  | .second => s
  | .minute => s.tdiv 60
  | .hour => s.tdiv 3600
  | .day => s.tdiv (24 * 3600)

/-- src/expr/internal_functions.cpp L1493-1514: `timestampadd(unit, n, dt)`, a TIMESTAMP. -/
def timestampadd (u : Unit) (n : Int) (dt : Nat) : Int :=
  match u with
  | .second => (stamp dt + n) % 2 ^ 32
  | .minute => (stamp dt + n * 60) % 2 ^ 32
  | .hour => (stamp dt + n * 3600) % 2 ^ 32
  | .day => (stamp dt + n * 24 * 3600) % 2 ^ 32

/-- src/expr/internal_functions.cpp L1619-1630: `timediff`, a TIME. -/
def timediff (a b : Nat) : Int := ofSeconds (int32 (stamp a - stamp b))

/-! ## TIME -/

/-- src/expr/internal_functions.cpp L1678-1690: `hour`. -/
def hour (t : Int) : Nat := timeHour t

/-- src/expr/internal_functions.cpp L1410-1419: `minute`, on the bits of the int32. -/
def minute (t : Int) : Nat := (t % 2 ^ 32).toNat >>> 6 &&& 0x3F

/-- src/expr/internal_functions.cpp L1481-1491: `second`. -/
def second (t : Int) : Nat := (t % 2 ^ 32).toNat &&& 0x3F

/-- src/expr/internal_functions.cpp L1795-1818: `time_to_sec`. -/
def timeToSec (t : Int) : Int :=
  let s : Int := timeHour t * 3600 + timeMin t * 60 + timeSec t
  if t < 0 then -s else s

/-- src/expr/internal_functions.cpp L1819-1844: `sec_to_time`. -/
def secToTime (s : Int) : Int :=
  packTime (s < 0) (s.natAbs / 3600) ((s.natAbs - s.natAbs / 3600 * 3600) / 60) (s.natAbs % 60)

/-! ## Months -/

/-- src/expr/internal_functions.cpp L1431-1444: `quarter`, of a DATE. -/
def quarter (date : Nat) : Int :=
  let month : Int := ((date >>> 5 &&& 0x1FFFF) % 13 : Nat)
  (month - 1).tdiv 3 + 1

/-- src/expr/internal_functions.cpp L1370-1389: `period_add`; the result is the text of `year` and of `month` with two
digits. -/
def periodAdd (p n : Int) : Int × Int :=
  let k := p.tmod 100 + (n + p.tdiv 100 * 12 - 1)
  (k.tdiv 12, k.tmod 12 + 1)

/-- src/expr/internal_functions.cpp L1391-1408: `period_diff`; both periods are read from the first argument. -/
def periodDiff (p _q : Int) : Int :=
  let m1 := p.tdiv 100 * 12 + p.tmod 100
  let m2 := p.tdiv 100 * 12 + p.tmod 100
  m1 - m2

/-- src/expr/internal_functions.cpp L2243-2272: `extract(part, dt)` by way of TIMESTAMP. -/
inductive Part | year | month | day | hour | minute | second
  deriving DecidableEq, Repr

def extract (p : Part) (dt : Nat) : Int :=
  let tm := localtime (stamp dt) 8
  match p with
  | .year => tm.year
  | .month => tm.mon + 1
  | .day => tm.mday
  | .hour => tm.hour
  | .minute => tm.min
  | .second => tm.sec

end BaikalDB.DateFn
