import Verif.Model.Basic

/-!
Model of the parts of the `date` library (Howard Hinnant's date.h; not in /repo) that
PlanPrinterVisitor.cpp:601-606 and SubstraitPlanRelationVisitor.cpp:1895-1914 call.

`year_month_day{sys_days}` and `sys_days{year_month_day}` are the algorithms of date.h on
unbounded integers.  Simplification: the library adds 719468 to the day number as an `int`,
which overflows for the last 719468 values; the model adds exactly.
-/

namespace Verif.Date

open Verif

/-- A date of the proleptic Gregorian calendar. -/
structure Ymd where
  year : Int
  month : Int
  day : Int
  deriving DecidableEq, Repr

/-- `date::year_month_day::from_days`: day 0 is 1970-01-01. -/
def civil (z : Int) : Ymd :=
  let era := (z + 719468) / 146097
  let doe := z + 719468 - era * 146097
  let yoe := (doe - doe / 1460 + doe / 36524 - doe / 146096) / 365
  let doy := doe - (365 * yoe + yoe / 4 - yoe / 100)
  let mp := (5 * doy + 2) / 153
  let m := if mp < 10 then mp + 3 else mp - 9
  ⟨if m ≤ 2 then yoe + era * 400 + 1 else yoe + era * 400, m, doy - (153 * mp + 2) / 5 + 1⟩

/-- `date::year_month_day::to_days`. -/
def daysOf (t : Ymd) : Int :=
  let y := if t.month ≤ 2 then t.year - 1 else t.year
  let era := y / 400
  let yoe := y - era * 400
  let doy := (153 * (if 2 < t.month then t.month - 3 else t.month + 9) + 2) / 5 + t.day - 1
  era * 146097 + (yoe * 365 + yoe / 4 - yoe / 100 + doy) - 719468

/-- `date::year::is_leap`. -/
def isLeap (y : Int) : Bool := y % 4 == 0 && (y % 100 != 0 || y % 400 == 0)

/-- The last day of a month, `date::year_month_day_last::day`. -/
def lastDay (y m : Int) : Int :=
  if m = 2 then if isLeap y then 29 else 28
  else if m = 4 ∨ m = 6 ∨ m = 9 ∨ m = 11 then 30
  else 31

/-- `date::year_month_day::ok` on a year in the range of `date::year`. -/
def Ymd.ok (t : Ymd) : Bool :=
  decide (-32767 ≤ t.year) && decide (1 ≤ t.month) && decide (t.month ≤ 12) &&
    decide (1 ≤ t.day) && decide (t.day ≤ lastDay t.year t.month)

/-- A `date::year` holds its number in a `short`. -/
def wrapYear (y : Int) : Int := (y + 32768) % 65536 - 32768

/-- A numeral with leading zeros up to a width. -/
def padded (width n : Nat) : Str := List.replicate (width - (natText n).length) '0' ++ natText n

/-- `os << date::year`: at least four digits, the sign in front. -/
def yearText (y : Int) : Str := if y < 0 then '-' :: padded 4 y.natAbs else padded 4 y.natAbs

/-- `os << date::year_month_day`. -/
def ymdText (t : Ymd) : Str :=
  yearText t.year ++ '-' :: padded 2 t.month.toNat ++ '-' :: padded 2 t.day.toNat ++
    (if t.ok then [] else " is not a valid date".toList)

/-- PlanPrinterVisitor.cpp:602-604: text of a day number. -/
def dateText (z : Int) : Str :=
  let t := civil z
  ymdText { t with year := wrapYear t.year }

/-- date.h `read_unsigned`: up to `max` digits, at least one. -/
def readUnsigned (max : Nat) (s : Str) : Option (Nat × Str) :=
  let d := (s.take max).takeWhile isDigit
  if d.isEmpty then none else some (digitsVal d, s.drop d.length)

/-- date.h `read_signed`: an optional sign and up to `max` digits. -/
def readSigned (max : Nat) (s : Str) : Option (Int × Str) :=
  match s with
  | '-' :: r => (readUnsigned max r).map fun x => (-(x.1 : Int), x.2)
  | '+' :: r => (readUnsigned max r).map fun x => ((x.1 : Int), x.2)
  | _ => (readUnsigned max s).map fun x => ((x.1 : Int), x.2)

/-- A minus sign in the format. -/
def readDash (s : Str) : Option Str :=
  match s with
  | '-' :: r => some r
  | _ => none

/-- `date::parse("%Y-%m-%d", sys_days&)`: what follows the date is not read.  `none` is a
failed stream. -/
def parseDate (s : Str) : Option Int :=
  (readSigned 4 s).bind fun y => (readDash y.2).bind fun s1 =>
    (readSigned 2 s1).bind fun m => (readDash m.2).bind fun s2 =>
      (readSigned 2 s2).bind fun d =>
        let t : Ymd := ⟨y.1, m.1, d.1⟩
        if t.ok then some (daysOf t) else none

end Verif.Date
