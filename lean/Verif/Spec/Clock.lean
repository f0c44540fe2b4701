import Verif.Model.Clock
/-!
# Specification: dates and instants

Only the data types of the model (`Date`, `Answer`, `Event`, `Stamp`) are used.
-/
namespace Tinymist.Clock.Spec

/-- Leap years of the Gregorian calendar. -/
def Leap (y : Int) : Prop := (y % 4 = 0 ∧ y % 100 ≠ 0) ∨ y % 400 = 0

instance (y : Int) : Decidable (Leap y) := by unfold Leap; infer_instance

/-- The number of days of a month. -/
def days (y m : Int) : Int :=
  if m = 2 then (if Leap y then 29 else 28)
  else if m = 4 ∨ m = 6 ∨ m = 9 ∨ m = 11 then 30
  else 31

/-- A date that exists. -/
def Valid (d : Date) : Prop := 1 ≤ d.month ∧ d.month ≤ 12 ∧ 1 ≤ d.day ∧ d.day ≤ days d.year d.month

/-- The day after. -/
def next (d : Date) : Date :=
  if d.day < days d.year d.month then ⟨d.year, d.month, d.day + 1⟩
  else if d.month < 12 then ⟨d.year, d.month + 1, 1⟩
  else ⟨d.year + 1, 1, 1⟩

/-- `f` is the calendar: day 0 is 1970-01-01 and each day is followed by the next one. -/
def Calendar (f : Int → Date) : Prop :=
  f 0 = ⟨1970, 1, 1⟩ ∧ ∀ n, Valid (f n) ∧ f (n + 1) = next (f n)

/-- The day in which a number of seconds lies. -/
def dayOf (t n : Int) : Prop := n * 86400 ≤ t ∧ t < (n + 1) * 86400

/-- The moment meant by a question for the date, in seconds on the calendar: local time without an
offset, UTC moved by so many hours with one. -/
def meant (zone : Int → Int) (T : Int) : Option Int → Int
  | none => T + zone T
  | some o => T + o * 3600

/-- `a` is the right answer to the question for the date at the instant `T`: the date of the moment
that is meant, or none if its year does not have at most four digits. -/
def Right (zone : Int → Int) (T : Int) (o : Option Int) (a : Answer) : Prop :=
  ∀ f n, Calendar f → dayOf (meant zone T o) n →
    (-9999 ≤ (f n).year ∧ (f n).year ≤ 9999 → a = .date (f n)) ∧
    (¬ (-9999 ≤ (f n).year ∧ (f n).year ≤ 9999) → a = .none)

/-- The year meant is beyond -262143 or 262142. -/
def FarAway (zone : Int → Int) (T : Int) (o : Option Int) : Prop :=
  ∀ f n, Calendar f → dayOf (meant zone T o) n → (f n).year < -262143 ∨ 262142 < (f n).year

/-- The clock is in the years 1970 to 9999. -/
def Sane (t : Int) : Prop := 0 ≤ t ∧ t ≤ 253402300799

/-- The reading of the clock at an event. -/
def reading : Event → Option Int
  | .snapshot => none
  | .task _ t => some t
  | .ask _ _ t => some t

/-- For each world that exists after a history, the world made by a snapshot that it comes from. -/
def origins : List Event → List Nat → List Nat
  | [], os => os
  | .snapshot :: es, os => origins es (os ++ [os.length])
  | .task i _ :: es, os =>
    match os[i]? with
    | some o => origins es (os ++ [o])
    | none => origins es os
  | .ask .. :: es, os => origins es os

/-- What the clock said when, for the first time, a world with origin `f` was asked for the date or
was the source of another world. -/
def moment (f : Nat) : List Event → List Nat → Option Int
  | [], _ => none
  | .snapshot :: es, os => moment f es (os ++ [os.length])
  | .task i t :: es, os =>
    match os[i]? with
    | some o => if o = f then some t else moment f es (os ++ [o])
    | none => moment f es os
  | .ask i _ t :: es, os => if os[i]? = some f then some t else moment f es os

/-- The seconds since 1970 that a stamp names, by a calendar. -/
def Names (s : Stamp) (t : Int) : Prop :=
  0 ≤ s.hour ∧ s.hour < 24 ∧ 0 ≤ s.minute ∧ s.minute < 60 ∧ 0 ≤ s.second ∧ s.second < 60 ∧
  ∃ n, (∀ f, Calendar f → f n = s.date) ∧
    n * 86400 + s.hour * 3600 + s.minute * 60 + s.second = t

end Tinymist.Clock.Spec
