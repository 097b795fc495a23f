import Verif.Datetime.Spec

/-!
# What date functions are to give

The calendar is that of `Verif/Datetime/Spec.lean`; the rest is as the MySQL manual describes the functions.
-/
namespace BaikalDB.DateFn.Spec
open BaikalDB.Datetime.Spec

/-- `n` is the number of days from 1970-01-01 to `d`, counted day by day, forward or backward. -/
def DayNo (d : Date) (n : Int) : Prop := later n.toNat epoch = later (-n).toNat d

/-- Day `n` is day `k` of a week that starts on Sunday (0), as 1970-01-01 was a Thursday. -/
def OnDay (n k : Int) : Prop := 0 ≤ k ∧ k < 7 ∧ ∃ w : Int, n + 4 = 7 * w + k

/-- A week starts on day `n`: on Monday or on Sunday. -/
def Starts (monday : Bool) (n : Int) : Prop := OnDay n (if monday then 1 else 0)

/-- Week 1 of a year starts on day `w`: it is the first week with four days or more in the year, or the first that starts
in the year. -/
def WeekOne (monday four : Bool) (y w : Int) : Prop :=
  Starts monday w ∧ ∃ j, DayNo (y, 1, 1) j ∧
    (if four then (4 ≤ w + 7 - j ∧ ¬ 4 ≤ w - j) else (j ≤ w ∧ ¬ j ≤ w - 7))

/-- Day `n` is in week `k` of year `y`, weeks counted from 1. -/
def InWeek (monday four : Bool) (n y k : Int) : Prop :=
  1 ≤ k ∧ ∃ w w', WeekOne monday four y w ∧ WeekOne monday four (y + 1) w' ∧ w ≤ n ∧ n < w' ∧
    w + 7 * (k - 1) ≤ n ∧ n < w + 7 * k

/-- Day `n` of year `y` is in week `k` of the same year: 0 before the first week, else counted from 1. -/
def InOwnYear (monday four : Bool) (n y k : Int) : Prop :=
  ∃ w, WeekOne monday four y w ∧ ((k = 0 ∧ n < w) ∨ (1 ≤ k ∧ w + 7 * (k - 1) ≤ n ∧ n < w + 7 * k))

/-- The modes of `WEEK`: first day of the week, whether weeks count from 0, and whether four days make a first week. -/
def modes : Nat → Option (Bool × Bool × Bool)
  | 0 => some (false, true, false)
  | 1 => some (true, true, true)
  | 2 => some (false, false, false)
  | 3 => some (true, false, true)
  | 4 => some (false, true, true)
  | 5 => some (true, true, false)
  | 6 => some (false, false, true)
  | 7 => some (true, false, false)
  | _ => none

/-- `q` is `a` divided by `b > 0`, what is after the point cut off. -/
def Quot (a b q : Int) : Prop :=
  (0 ≤ a → b * q ≤ a ∧ a < b * q + b) ∧ (a < 0 → a ≤ b * q ∧ b * q - b < a)

end BaikalDB.DateFn.Spec
