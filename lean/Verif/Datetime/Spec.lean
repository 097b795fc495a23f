/-!
# The Gregorian calendar

Leap years, lengths of months and the day after a day; nothing is taken from the model.
-/
namespace BaikalDB.Datetime.Spec

/-- A year has 29 days in February if it is a multiple of 4, except the multiples of 100 that are not multiples of 400. -/
def Leap (y : Int) : Prop := (4 ∣ y ∧ ¬ 100 ∣ y) ∨ 400 ∣ y
instance (y : Int) : Decidable (Leap y) := by unfold Leap; infer_instance

/-- Thirty days have September, April, June and November. -/
def monthLen (y m : Int) : Int :=
  if m = 2 then (if Leap y then 29 else 28)
  else if m = 9 ∨ m = 4 ∨ m = 6 ∨ m = 11 then 30 else 31

/-- A date: year, month from 1, day from 1. -/
abbrev Date := Int × Int × Int

def Valid (d : Date) : Prop := 1 ≤ d.2.1 ∧ d.2.1 ≤ 12 ∧ 1 ≤ d.2.2 ∧ d.2.2 ≤ monthLen d.1 d.2.1
instance (d : Date) : Decidable (Valid d) := by unfold Valid; infer_instance

/-- The day after. -/
def next (d : Date) : Date :=
  if d.2.2 < monthLen d.1 d.2.1 then (d.1, d.2.1, d.2.2 + 1)
  else if d.2.1 < 12 then (d.1, d.2.1 + 1, 1)
  else (d.1 + 1, 1, 1)

/-- Dates in time order. -/
def Before (a b : Date) : Prop := a.1 < b.1 ∨ (a.1 = b.1 ∧ (a.2.1 < b.2.1 ∨ (a.2.1 = b.2.1 ∧ a.2.2 < b.2.2)))

/-- The day from which time stamps count. -/
def epoch : Date := (1970, 1, 1)

/-- `n` days later. -/
def later : Nat → Date → Date
  | 0, d => d
  | n + 1, d => next (later n d)

/-- Days of the year. -/
def yearLen (y : Int) : Int := if Leap y then 366 else 365

/-- `n` months after a date, `n` of either sign: the year and month move, and the day is cut to the length of the month. -/
def addMonths (d : Date) (n : Int) : Date :=
  let k := d.1 * 12 + (d.2.1 - 1) + n
  (k / 12, k % 12 + 1, min d.2.2 (monthLen (k / 12) (k % 12 + 1)))

end BaikalDB.Datetime.Spec
