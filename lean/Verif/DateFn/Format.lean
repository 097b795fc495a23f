import Verif.DateFn.Model

/-!
# `DATE_FORMAT`

Model of src/common/datetime.cpp L653-790 and internal_functions.cpp L1528-1543: the format is rewritten for the C library's
`strftime`, which is modelled here in the "C" locale for the conversions the rewriting can leave.  Text is a list of
characters; the rest of a format after a NUL is not seen by the code and formats are taken without one.
-/
namespace BaikalDB.DateFn
open BaikalDB.Datetime

/-- `std::to_string` of a number that is not negative. -/
def dec (n : Int) : List Char := Nat.toDigits 10 n.toNat

/-- `%02d`, `%03d`. -/
def pad2 (n : Int) : List Char := if n < 10 then '0' :: dec n else dec n
def pad3 (n : Int) : List Char := if n < 10 then '0' :: '0' :: dec n else if n < 100 then '0' :: dec n else dec n

def dayName : Int → List Char
  | 0 => "Sunday".toList
  | 1 => "Monday".toList
  | 2 => "Tuesday".toList
  | 3 => "Wednesday".toList
  | 4 => "Thursday".toList
  | 5 => "Friday".toList
  | 6 => "Saturday".toList
  | _ => []

def monthName : Int → List Char
  | 0 => "January".toList
  | 1 => "February".toList
  | 2 => "March".toList
  | 3 => "April".toList
  | 4 => "May".toList
  | 5 => "June".toList
  | 6 => "July".toList
  | 7 => "August".toList
  | 8 => "September".toList
  | 9 => "October".toList
  | 10 => "November".toList
  | 11 => "December".toList
  | _ => []

/-- glibc's `iso_week_days`: days since the Monday of ISO week 1. -/
def isoDays (yday wday : Int) : Int := yday - (yday - wday + 4 + 378) % 7 + 4 - 1

/-- ISO 8601 week number, glibc's way. -/
def isoWeek (tm : Tm) : Int :=
  let days := isoDays tm.yday tm.wday
  if days < 0 then isoDays (tm.yday + daysInYear (tm.year - 1)) tm.wday / 7 + 1
  else
    let d := isoDays (tm.yday - daysInYear tm.year) tm.wday
    if 0 ≤ d then d / 7 + 1 else days / 7 + 1

/-- One conversion of the C library's `strftime`; `none` for those not modelled. -/
def directive (tm : Tm) : Char → Option (List Char)
  | 'a' => some ((dayName tm.wday).take 3)
  | 'A' => some (dayName tm.wday)
  | 'b' => some ((monthName tm.mon).take 3)
  | 'B' => some (monthName tm.mon)
  | 'd' => some (pad2 tm.mday)
  | 'H' => some (pad2 tm.hour)
  | 'j' => some (pad3 (tm.yday + 1))
  | 'm' => some (pad2 (tm.mon + 1))
  | 'M' => some (pad2 tm.min)
  | 'S' => some (pad2 tm.sec)
  | 'T' => some (pad2 tm.hour ++ ':' :: pad2 tm.min ++ ':' :: pad2 tm.sec)
  | 'U' => some (pad2 ((tm.yday + 7 - tm.wday) / 7))
  | 'V' => some (pad2 (isoWeek tm))
  | 'W' => some (pad2 ((tm.yday + 7 - (tm.wday + 6) % 7) / 7))
  | 'w' => some (dec tm.wday)
  | 'y' => some (pad2 (tm.year % 100))
  | 'Y' => some (dec tm.year)
  | '%' => some ['%']
  | _ => none

/-- The C library's `strftime`. -/
def strftime (tm : Tm) : List Char → Option (List Char)
  | [] => some []
  | c :: r =>
    if c = '%' then
      match r with
      | [] => none
      | d :: r' => (directive tm d).bind fun s => (strftime tm r').map (s ++ ·)
    else (strftime tm r).map (c :: ·)

/-- src/common/datetime.cpp L662-697: whether the format has to be rewritten. -/
def special (c : Char) : Bool :=
  c = 'c' || c = 'D' || c = 'e' || c = 'f' || c = 'h' || c = 'I' || c = 'i' || c = 'l' || c = 'M' || c = 'p' || c = 'r' ||
  c = 'v' || c = 'W' || c = 'X' || c = 'x' || c = 's' || c = 'k' || c = 'u'

def needs : List Char → Bool
  | [] => false
  | c :: r =>
    if c = '%' then
      match r with
      | [] => false
      | d :: r' => special d || needs r'
    else needs r

/-- src/common/datetime.cpp L701-704. -/
def hour12 (tm : Tm) : Int := if tm.hour % 12 = 0 then 12 else tm.hour % 12

/-- src/common/datetime.cpp L737-743, L752-757. -/
def amPm (tm : Tm) : List Char := if tm.hour % 24 ≥ 12 then "PM".toList else "AM".toList

/-- src/common/datetime.cpp L718-729. -/
def suffix (d : Int) : List Char :=
  if d = 1 ∨ d = 21 ∨ d = 31 then "st".toList
  else if d = 2 ∨ d = 22 then "nd".toList
  else if d = 3 ∨ d = 23 then "rd".toList else "th".toList

/-- src/common/datetime.cpp L714-785: what a conversion becomes. -/
def conv (tm : Tm) (c : Char) : List Char :=
  match c with
  | 'c' => dec (tm.mon + 1)
  | 'D' => dec tm.mday ++ suffix tm.mday
  | 'e' => dec tm.mday
  | 'f' => "000000".toList
  | 'h' => (if hour12 tm < 10 then ['0'] else []) ++ dec (hour12 tm)
  | 'I' => (if hour12 tm < 10 then ['0'] else []) ++ dec (hour12 tm)
  | 'i' => ['%', 'M']
  | 'l' => dec (hour12 tm)
  | 'M' => ['%', 'B']
  | 'p' => amPm tm
  | 'r' => pad2 (hour12 tm) ++ ':' :: pad2 tm.min ++ ':' :: pad2 tm.sec ++ ' ' :: amPm tm
  | 'v' => ['%', 'V']
  | 'W' => ['%', 'A']
  | 'X' => ['%', 'Y']
  | 'x' => ['%', 'Y']
  | 's' => ['%', 'S']
  | 'k' => dec tm.hour
  | 'u' => ['%', 'W']
  | c => ['%', c]

/-- src/common/datetime.cpp L705-787: the rewriting. -/
def convert (tm : Tm) : List Char → List Char
  | [] => []
  | c :: r =>
    if c = '%' then
      match r with
      | [] => []
      | d :: r' => conv tm d ++ convert tm r'
    else c :: convert tm r

/-- src/common/datetime.cpp L653-790: `date_format_internal` into a buffer of 128 bytes (internal_functions.cpp L44, L1538);
`none`: `strftime` does not fill the buffer and what is read from it is undefined, or a conversion is not modelled. -/
def formatTm (tm : Tm) (fmt : List Char) : Option (List Char) :=
  (strftime tm (if needs fmt then convert tm fmt else fmt)).bind fun s => if s.length < 128 then some s else none

/-- src/expr/internal_functions.cpp L1528-1543: `date_format`. -/
def dateFormat (dt : Nat) (fmt : List Char) : Option (List Char) := formatTm (localtime (stamp dt) 8) fmt

end BaikalDB.DateFn
