import Verif.Expr.Value
/-!
# Dates and times

Model of src/common/datetime.cpp and include/common/datetime.h: the calendar, the packed DATETIME, DATE and TIME values,
their text forms, date intervals and week numbers.  C++ `int`, `int64_t` and `time_t` are integers here; no intermediate
value leaves their range for years within ±10^8, which includes every DATETIME, DATE and TIMESTAMP.
-/
namespace BaikalDB.Datetime
open BaikalDB.Expr (isDig isSpace natDec decVal)

/-! ## Calendar -/

/-- src/common/datetime.cpp L21-23: `is_leap`.  (`%` on a negative year only matters for being zero.) -/
def isLeap (y : Int) : Bool := y % 4 == 0 && (y % 100 != 0 || y % 400 == 0)

/-- src/common/datetime.cpp L25-27: `div_floor`. -/
def divFloor (a b : Int) : Int := (if a ≥ 0 then a else a + 1 - b).tdiv b

/-- src/common/datetime.cpp L31-38: `days_from_civil` (the unsigned additions `m - 3` and `m + 9` do not wrap for a month
of 1 to 12). -/
def daysFromCivil (y0 m d : Int) : Int :=
  let y := if m ≤ 2 then y0 - 1 else y0
  let era := divFloor y 400
  let yoe := y - era * 400
  let doy := (153 * (m + (if m > 2 then -3 else 9)) + 2) / 5 + d - 1
  let doe := yoe * 365 + yoe / 4 - yoe / 100 + doy
  era * 146097 + doe - 719468

/-- `struct tm` (year as written, month 0-11). -/
structure Tm where
  year : Int
  mon : Int
  mday : Int
  hour : Int
  min : Int
  sec : Int
  yday : Int := 0
  wday : Int := 0
deriving DecidableEq, Repr

/-- src/common/datetime.cpp L41-52: `mktime_fixed_r`. -/
def mktime (tm : Tm) (tz : Int) : Int :=
  daysFromCivil tm.year (tm.mon + 1) tm.mday * 86400 + tm.hour * 3600 + tm.min * 60 + tm.sec - tz * 3600

/-- src/common/datetime.cpp L82-85: days before each month. -/
def monthDays (leap : Bool) (mon : Int) : Int :=
  match mon with
  | 0 => 0
  | 1 => 31
  | 2 => if leap then 60 else 59
  | 3 => if leap then 91 else 90
  | 4 => if leap then 121 else 120
  | 5 => if leap then 152 else 151
  | 6 => if leap then 182 else 181
  | 7 => if leap then 213 else 212
  | 8 => if leap then 244 else 243
  | 9 => if leap then 274 else 273
  | 10 => if leap then 305 else 304
  | 11 => if leap then 335 else 334
  | _ => 0

/-- src/common/datetime.cpp L67-76: the date of a day number. -/
def yoeOf (doe : Int) : Int := (doe - doe / 1460 + doe / 36524 - doe / 146096) / 365
def civil (days : Int) : Int × Int × Int :=
  let z := days + 719468
  let era := divFloor z 146097
  let doe := z - era * 146097
  let yoe := yoeOf doe
  let doy := doe - (365 * yoe + yoe / 4 - yoe / 100)
  let mp := (5 * doy + 2) / 153
  let day := doy - (153 * mp + 2) / 5 + 1
  let month := mp + (if mp < 10 then 3 else -9)
  (yoe + era * 400 + (if month ≤ 2 then 1 else 0), month, day)

/-- src/common/datetime.cpp L90: `tm_wday`. -/
def wdayOf (days : Int) : Int := if days ≥ -4 then (days + 4).tmod 7 else (days + 5).tmod 7 + 6

/-- src/common/datetime.cpp L57-64: whole days and the seconds of the day. -/
def splitDay (t : Int) : Int × Int :=
  if t.tmod 86400 < 0 then (t.tdiv 86400 - 1, t.tmod 86400 + 86400) else (t.tdiv 86400, t.tmod 86400)

/-- src/common/datetime.cpp L54-99: `localtime_fixed_r`. -/
def localtime (ts tz : Int) : Tm :=
  let p := splitDay (ts + tz * 3600)
  let c := civil p.1
  { year := c.1, mon := c.2.1 - 1, mday := c.2.2, hour := p.2 / 3600, min := p.2 % 3600 / 60, sec := p.2 % 3600 % 60,
    yday := monthDays (isLeap c.1) (c.2.1 - 1) + c.2.2 - 1, wday := wdayOf p.1 }

/-! ## Packed values -/

/-- src/common/datetime.cpp L119-126, L200-206: the fields of a DATETIME. -/
structure Fields where
  year : Nat
  month : Nat
  day : Nat
  hour : Nat
  minute : Nat
  second : Nat
  micro : Nat
deriving DecidableEq, Repr

/-- src/common/datetime.cpp L257-264, L293-300, L362-371: packing into a uint64. -/
def pack (f : Fields) : Nat :=
  ((f.year * 13 + f.month) <<< 46 ||| f.day <<< 41 ||| f.hour <<< 36 ||| f.minute <<< 30 ||| f.second <<< 24 ||| f.micro)
    % 2 ^ 64

/-- src/common/datetime.cpp L119-126, L311-317: unpacking. -/
def unpack (dt : Nat) : Fields :=
  { year := (dt >>> 46 &&& 0x1FFFF) / 13, month := (dt >>> 46 &&& 0x1FFFF) % 13, day := dt >>> 41 &&& 0x1F,
    hour := dt >>> 36 &&& 0x1F, minute := dt >>> 30 &&& 0x3F, second := dt >>> 24 &&& 0x3F, micro := dt &&& 0xFFFFFF }

/-- include/common/datetime.h L61-66: `datetime_to_date`, `date_to_datetime`. -/
def toDate (dt : Nat) : Nat := dt >>> 41 &&& 0x3FFFFF
def ofDate (d : Nat) : Nat := d <<< 41

/-- src/common/datetime.cpp L311-317, L327-328: the fields as a `struct tm`. -/
def Fields.tm (f : Fields) : Tm :=
  { year := f.year, mon := (f.month : Int) - 1, mday := f.day, hour := f.hour, min := f.minute, sec := f.second }

/-- src/common/datetime.cpp L360-366: a `struct tm` as fields. -/
def Tm.fields (tm : Tm) : Fields :=
  { year := tm.year.toNat, month := (tm.mon + 1).toNat, day := tm.mday.toNat, hour := tm.hour.toNat,
    minute := tm.min.toNat, second := tm.sec.toNat, micro := 0 }

/-- src/common/datetime.cpp L304-331: `datetime_to_timestamp`. -/
def toTimestamp (dt : Nat) : Int :=
  if dt = 0 then 0
  else if (unpack dt).month = 0 then 0
  else if (unpack dt).day = 0 then 0
  else
    let t := mktime (unpack dt).tm 8
    if t ≤ 0 then 0 else t

/-- src/common/datetime.cpp L352-373: `timestamp_to_datetime` (for a time whose year is not negative). -/
def ofTimestamp (ts : Int) : Nat :=
  if ts = 0 then 0
  else
    pack (localtime ts 8).fields

/-- src/common/datetime.cpp L268-302: `bin_date_to_datetime`, the value a client sends in the binary protocol. -/
def ofBinary (f : Fields) : Nat :=
  let year := if f.year > 70 ∧ f.year < 100 then f.year + 1900 else if f.year < 70 then f.year + 2000 else f.year
  if f.month = 0 ∨ f.month > 12 then 0
  else if f.day > 31 then 0
  else if f.hour > 23 ∨ f.minute > 59 ∨ f.second > 59 then 0
  else pack { f with year := year }

/-! ## TIME -/

/-- src/common/datetime.cpp L551-557, L589-595: hours, minutes and seconds into an int32. -/
def packTime (minus : Bool) (hour min sec : Nat) : Int :=
  let t : Int := ((sec ||| min <<< 6 ||| hour <<< 12 : Nat) : Int).bmod (2 ^ 32)
  if minus then -t else t

/-- Hours, minutes and seconds of a TIME (src/common/datetime.cpp L443-450, L458-465). -/
def timeHour (t : Int) : Nat := t.natAbs >>> 12 &&& 0x3FF
def timeMin (t : Int) : Nat := t.natAbs >>> 6 &&& 0x3F
def timeSec (t : Int) : Nat := t.natAbs &&& 0x3F

/-- src/common/datetime.cpp L457-471: `time_to_seconds`. -/
def toSeconds (t : Int) : Int :=
  let s : Int := timeSec t + timeMin t * 60 + timeHour t * 3600
  if t < 0 then -s else s

/-- src/common/datetime.cpp L580-597: `seconds_to_time`. -/
def ofSeconds (s : Int) : Int :=
  packTime (s < 0) (s.natAbs / 3600) (s.natAbs / 60 % 60) (s.natAbs % 60)

/-- src/common/datetime.cpp L410-419: `datetime_to_time`. -/
def dateTimeToTime (dt : Nat) : Int :=
  packTime false (unpack dt).hour (unpack dt).minute (unpack dt).second

/-! ## Text -/

/-- `%0wd` of a number that is not negative. -/
def pad (w n : Nat) : Bytes := List.replicate (w - (natDec n).length) 0x30#8 ++ natDec n

/-- The text up to the seconds, as `"%04d-%02d-%02d %02d:%02d:%02d"`. -/
def secText (f : Fields) : Bytes :=
  pad 4 f.year ++ 0x2d#8 :: pad 2 f.month ++ 0x2d#8 :: pad 2 f.day ++ 0x20#8 :: pad 2 f.hour ++ 0x3a#8 :: pad 2 f.minute ++
    0x3a#8 :: pad 2 f.second

/-- src/common/datetime.cpp L118-139: `datetime_to_str`, text cut to the precision. -/
def toText (dt : Nat) (prec : Int) : Bytes :=
  let buf := secText (unpack dt) ++ 0x2e#8 :: pad 6 (unpack dt).micro
  if 0 < prec ∧ prec ≤ 6 then buf.take (20 + prec.toNat)
  else if prec = 0 ∨ (unpack dt).micro = 0 then buf.take 19
  else buf.take 26

/-- include/common/datetime.h L67-75: `date_to_str`. -/
def dateText (d : Nat) : Bytes :=
  let ym := d >>> 5 &&& 0x1FFFF
  pad 4 (ym / 13) ++ 0x2d#8 :: pad 2 (ym % 13) ++ 0x2d#8 :: pad 2 (d &&& 0x1F)

/-- src/common/datetime.cpp L442-455: `time_to_str`. -/
def timeText (t : Int) : Bytes :=
  (if t < 0 then [0x2d#8] else []) ++ pad 2 (timeHour t) ++ 0x3a#8 :: pad 2 (timeMin t) ++ 0x3a#8 :: pad 2 (timeSec t)

/-! ### `sscanf` -/

/-- The conversions used: a number (`%lu`, `%2u`, `%d`; with or without a width), `%*[^0-9a-z]`, an ordinary character, and
white space. -/
inductive Dir where
  | num (w : Option Nat)
  | skip
  | chr (c : Byte)
  | blank
deriving DecidableEq, Repr

/-- `[0-9a-z]`. -/
def isAlnum (c : Byte) : Bool := isDig c || (0x61 ≤ c.toNat && c.toNat ≤ 0x7a)

/-- The digits within the width. -/
def digits (w : Option Nat) (s : Bytes) : Bytes :=
  match w with
  | some w => (s.take w).takeWhile isDig
  | none => s.takeWhile isDig

/-- A number conversion before it is stored: blanks are skipped, then an optional sign, which counts for the width, and
digits. -/
def scanNum (w : Option Nat) (s : Bytes) : Option (Int × Bytes) :=
  match s.dropWhile isSpace with
  | [] => none
  | c :: r =>
    if c = 0x2d#8 ∨ c = 0x2b#8 then
      let ds := digits (w.map (· - 1)) r
      if ds.isEmpty then none else some (if c = 0x2d#8 then -(decVal ds : Int) else decVal ds, r.drop ds.length)
    else
      let ds := digits w (c :: r)
      if ds.isEmpty then none else some (decVal ds, (c :: r).drop ds.length)

/-- `sscanf`: conversions in order until one fails; the numbers read. -/
def scan : List Dir → Bytes → List Int
  | [], _ => []
  | .num w :: ds, s =>
    match scanNum w s with
    | some (v, r) => v :: scan ds r
    | none => []
  | .skip :: ds, s => if (s.takeWhile fun c => !isAlnum c).isEmpty then [] else scan ds (s.dropWhile fun c => !isAlnum c)
  | .chr c :: ds, s =>
    match s with
    | [] => []
    | b :: r => if b = c then scan ds r else []
  | .blank :: ds, s => scan ds (s.dropWhile isSpace)

/-- What `%4lu` and the like store: a minus sign negates modulo 2^64 (no overflow at these widths). -/
def ulong (v : Int) : Nat := (v % 2 ^ 64).toNat

/-- The fields from the numbers read; what was not read stays 0. -/
def fieldsOf (l : List Int) : Fields :=
  { year := ulong (l.getD 0 0), month := ulong (l.getD 1 0), day := ulong (l.getD 2 0), hour := ulong (l.getD 3 0),
    minute := ulong (l.getD 4 0), second := ulong (l.getD 5 0), micro := ulong (l.getD 6 0) }

/-- src/common/datetime.cpp L172-190: the loop over the text: where it stops, and the index of the first non-digit (the
length of the year), which the version without delimiters does not compute. -/
def scanLoop (delim : Bool) : Bytes → Nat → Nat → Option Nat → Nat × Option Nat
  | [], i, _, y => (i, y)
  | c :: r, i, cnt, y =>
    if delim then
      let cnt' := if isDig c then cnt else cnt + 1
      let y' := if isDig c then y else y <|> some i
      if cnt' > 5 ∧ c = 0x2e#8 then (i, y') else scanLoop delim r (i + 1) cnt' y'
    else if c = 0x2e#8 then (i, y) else scanLoop delim r (i + 1) cnt y

/-- src/common/datetime.cpp L192-198: the six characters after the point become digits. -/
def fillFrac (buf : Bytes) (idx : Nat) : Bytes :=
  buf.mapIdx fun i c => if idx + 1 ≤ i ∧ i ≤ idx + 6 ∧ i < 26 ∧ !isDig c then 0x30#8 else c

/-- The C string in a buffer. -/
def cstr (b : Bytes) : Bytes := b.takeWhile (· != 0)

/-- src/common/datetime.cpp L208-229: the formats. -/
def fmtDelim : List Dir :=
  [.num (some 4), .skip, .num (some 2), .skip, .num (some 2), .skip, .num (some 2), .skip, .num (some 2), .skip, .num (some 2), .chr 0x2e#8, .num (some 6)]
def fmt6 : List Dir := [.num (some 2), .num (some 2), .num (some 2)]
def fmt8 : List Dir := [.num (some 4), .num (some 2), .num (some 2)]
def fmt12 : List Dir := [.num (some 2), .num (some 2), .num (some 2), .num (some 2), .num (some 2), .num (some 2), .chr 0x2e#8, .num (some 6)]
def fmt13 : List Dir := [.num (some 2), .num (some 2), .num (some 2), .num (some 2), .num (some 2), .num (some 2)]
def fmt14 : List Dir := [.num (some 4), .num (some 2), .num (some 2), .num (some 2), .num (some 2), .num (some 2), .chr 0x2e#8, .num (some 6)]

/-- src/common/datetime.cpp L235-241: years of two digits. -/
def fullYear (two : Bool) (y : Nat) : Nat :=
  if two then (if 70 ≤ y ∧ y < 100 then y + 1900 else if y < 70 ∧ y > 0 then y + 2000 else y) else y

/-- src/common/datetime.cpp L235-266: two-digit years, range checks and packing. -/
def finish (l : List Int) (full two : Bool) : Nat × Bool :=
  let f := fieldsOf l
  if f.month > 12 then (0, false)
  else if f.day > 31 then (0, false)
  else if f.hour > 23 ∨ f.minute > 59 ∨ f.second > 59 then (0, false)
  else (pack { f with year := fullYear two f.year }, full)

/-- src/common/datetime.cpp L163-171: whether the text has delimiters. -/
def hasDelim (buf : Bytes) : Bool :=
  !(isDig (buf.getD 2 0) && isDig (buf.getD 4 0)) || buf.getD 3 0 == 0x2d#8

/-- src/common/datetime.cpp L149-266: `str_to_datetime` on a text without leading blanks (with them the code reads past the
end of the text): the value and whether the text was a full date and time. -/
def ofText (s : Bytes) : Nat × Bool :=
  let len := min s.length 26
  let buf := s.take 26 ++ List.replicate (27 - len) 0#8
  let p := scanLoop (hasDelim buf) (buf.take len) 0 0 none
  let txt := cstr (if p.1 < len then fillFrac buf p.1 else buf)
  if hasDelim buf then finish (scan fmtDelim txt) true (p.2 == some 2)
  else if p.1 ≤ 6 then finish (scan fmt6 txt) false true
  else if p.1 = 8 then finish (scan fmt8 txt) false false
  else if p.1 = 12 then finish (scan fmt12 txt) true true
  else if p.1 ≤ 13 then finish (scan fmt13 txt) true true
  else finish (scan fmt14 txt) true false

/-- What `%d` stores: `strtol`, then the low 32 bits. -/
def intOf (v : Int) : Int := (max (-2 ^ 63) (min v (2 ^ 63 - 1))).bmod (2 ^ 32)
/-- What `%u` stores in an `int`: `strtoul`, then the low 32 bits. -/
def uintOf (v : Int) : Int := (if v.natAbs < 2 ^ 64 then v else 2 ^ 64 - 1).bmod (2 ^ 32)

/-- `strtoll` stored in an `int`. -/
def strInt (s : Bytes) : Int :=
  match scanNum none s with
  | some (v, _) => intOf v
  | none => 0

/-- src/common/datetime.cpp L548-558: the range check and the packing. -/
def checkTime (minus : Bool) (day hour min sec : Int) : Int :=
  if day < 0 ∨ hour < 0 ∨ min < 0 ∨ min > 59 ∨ sec < 0 ∨ sec > 59 then 0
  else packTime minus (hour + day * 24).toNat min.toNat sec.toNat

def fmtDay : List Dir := [.num none, .blank, .num none, .chr 0x3a#8, .num (some 2), .chr 0x3a#8, .num (some 2)]
def fmtHour : List Dir := [.num none, .chr 0x3a#8, .num (some 2), .chr 0x3a#8, .num (some 2)]

/-- src/common/datetime.cpp L521-558: the text after the sign, when it is not a full date and time. -/
def ofTimeBody (minus : Bool) (s : Bytes) : Int :=
  let head := (s.take 20).takeWhile (· != 0x2e#8)
  let idx := head.length
  if head.any (· == 0x20#8) then
    let l := scan fmtDay (cstr s)
    checkTime minus (intOf (l.getD 0 0)) (uintOf (l.getD 1 0)) (uintOf (l.getD 2 0)) (uintOf (l.getD 3 0))
  else if head.any (· == 0x3a#8) then
    let l := scan fmtHour (cstr s)
    checkTime minus 0 (intOf (l.getD 0 0)) (uintOf (l.getD 1 0)) (uintOf (l.getD 2 0))
  else if idx ≥ 4 then
    checkTime minus 0 (strInt (s.take (idx - 4))) (strInt ((s.drop (idx - 4)).take 2)) (strInt ((s.drop (idx - 2)).take 2))
  else if idx ≥ 2 then checkTime minus 0 0 (strInt (s.take (idx - 2))) (strInt ((s.drop (idx - 2)).take 2))
  else checkTime minus 0 0 0 (strInt (s.take idx))

/-- src/common/datetime.cpp L477-559: `str_to_time` on a text without NUL.  A text of 12 characters or more that is a full
date and time gives its time of day (L513-519). -/
def ofTimeText (s0 : Bytes) : Int :=
  let s := s0.dropWhile (· == 0x20#8)
  let minus := s.head? == some 0x2d#8
  let b := if minus then s.drop 1 else s
  if ((b.take 20).takeWhile (· != 0x2e#8)).length ≥ 12 ∧ (ofText b).2 then dateTimeToTime (ofText b).1 else ofTimeBody minus b

/-! ## Intervals -/

/-- src/common/datetime.cpp L849: days in month, February as in a common year. -/
def daysInMonth : Int → Int
  | 0 => 31 | 1 => 28 | 2 => 31 | 3 => 30 | 4 => 31 | 5 => 30 | 6 => 31 | 7 => 31 | 8 => 30 | 9 => 31 | 10 => 30 | 11 => 31
  | _ => 0

/-- include/common/datetime.h L90-97: `TimeUnit`. -/
inductive TimeUnit where
  | year | month | day | hour | minute | second
deriving DecidableEq, Repr

/-- src/common/datetime.cpp L848-906: `date_add_interval`. -/
def addInterval (ts n : Int) : TimeUnit → Int
  | .year =>
    let tm := localtime ts 8
    let year := tm.year + n
    let day := if tm.mon + 1 = 2 ∧ tm.mday = 29 ∧ !isLeap year then 28 else tm.mday
    mktime { tm with year := year, mday := day } 8
  | .month =>
    let tm := localtime ts 8
    let mon := tm.mon + n
    let year := tm.year + mon.tdiv 12 + (if mon < 0 then -1 else 0)
    let mon' := (mon.tmod 12 + 12).tmod 12
    let day := if tm.mday > daysInMonth mon' then
        (if mon' + 1 = 2 ∧ isLeap year then daysInMonth mon' + 1 else daysInMonth mon')
      else tm.mday
    mktime { tm with year := year, mon := mon', mday := day } 8
  | .day => ts + n * 86400
  | .hour => ts + n * 3600
  | .minute => ts + n * 60
  | .second => ts + n

/-- src/common/datetime.cpp L908-910: `date_sub_interval`. -/
def subInterval (ts n : Int) (u : TimeUnit) : Int := addInterval ts (-n) u

/-- src/common/datetime.cpp L912-925: `get_current_day_timestamp`. -/
def dayStart (ts : Int) : Int := mktime { localtime ts 8 with hour := 0, min := 0, sec := 0 } 8

end BaikalDB.Datetime
