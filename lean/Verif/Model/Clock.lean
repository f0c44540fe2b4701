import Verif.Model.RustNum
/-!
# The date a document sees and the date written into a PDF

Models the clock of a world (`CompilerWorld::now`, `today`), how it is handed on to derived worlds
(`task`, `snapshot_with`), and the creation date of an exported PDF.

Instants are whole seconds since 1970-01-01 00:00 UTC (`Int`).  The local time zone is a parameter
that gives the seconds to add to UTC at an instant (`chrono::Local`).
-/
namespace Tinymist.Clock

/-- A date of the calendar (`typst::foundations::Datetime::Date`). -/
structure Date where
  year : Int
  month : Int
  day : Int
deriving DecidableEq, Repr

/-- Dates are equal if their parts are. -/
theorem Date.ext {a b : Date} (h1 : a.year = b.year) (h2 : a.month = b.month) (h3 : a.day = b.day) : a = b := by
  cases a; cases b; simp_all

/-- The date of a day, counted from 1970-01-01: what `NaiveDateTime::{year,month,day}` of chrono and
`UtcDateTime::date` of time compute (external; proleptic Gregorian calendar).  Years are counted
from March, in cycles of 400, 100, 4 and 1 years. -/
def civil (n : Int) : Date :=
  let z := n + 719468
  let era := z / 146097
  let doe := z % 146097
  let c := min (doe / 36524) 3
  let doc := doe - 36524 * c
  let q := doc / 1461
  let doq := doc - 1461 * q
  let r := min (doq / 365) 3
  let doy := doq - 365 * r
  let mp := (5 * doy + 2) / 153
  let day := doy - (153 * mp + 2) / 5 + 1
  let y := 400 * era + 100 * c + 4 * q + r
  if mp < 10 then ⟨y, mp + 3, day⟩ else ⟨y + 1, mp - 9, day⟩

/-- What a call of `datetime.today` in a document gets. -/
inductive Answer where
  /-- A date. -/
  | date (d : Date)
  /-- `None`: typst reports an error. -/
  | none
  /-- The compiling thread panics. -/
  | panic
deriving DecidableEq, Repr

/-- `i64::MAX / 1000`: chrono's durations are limited to `i64::MAX` milliseconds. -/
def maxSeconds : Int := 9223372036854775

/-- `Duration::try_hours` (chrono 0.4.40, external): in seconds. -/
def tryHours (o : Int) : Option Int :=
  if -maxSeconds ≤ o * 3600 ∧ o * 3600 ≤ maxSeconds then some (o * 3600) else none

/-- `NaiveDateTime + TimeDelta` (chrono 0.4.40, external): panics if the date is not between
`NaiveDate::MIN` and `NaiveDate::MAX`, which are in the years -262143 and 262142. -/
def addSeconds (t d : Int) : Option Int :=
  let y := (civil ((t + d) / 86400)).year
  if -262143 ≤ y ∧ y ≤ 262142 then some (t + d) else none

/-- `Datetime::from_ymd` (typst, external): the crate `time` has the years -9999 to 9999. -/
def fromYmd (d : Date) : Answer :=
  if -9999 ≤ d.year ∧ d.year ≤ 9999 then .date d else .none

/-- What is answered by `today` for the stored instant `now`
(crates/tinymist-world/src/world.rs:715-731, `CompilerWorld::today` with the feature `system` or
`web`). -/
def dateOf (zone : Int → Int) (now : Int) (offset : Option Int) : Answer :=
  match offset with
  | Option.none => fromYmd (civil ((now + zone now) / 86400))
  | some o =>
    match tryHours o with
    | Option.none => .none
    | some d =>
      match addSeconds now d with
      | Option.none => .panic
      | some t => fromYmd (civil (t / 86400))

/-- The cell `now: OnceLock<NowStorage>` of a world (world.rs:460-462) after `get_or_init` with the
reading `t` of the clock: the first reading stays (world.rs:718). -/
def force (cell : Option Int) (t : Int) : Int := cell.getD t

/-- What happens to the worlds of a project.  Worlds are numbered in the order of their creation.
`t` is what the system clock says at that moment; it need not be monotone. -/
inductive Event where
  /-- `CompilerUniverse::snapshot_with` without task inputs: a new world for a compilation
  (world.rs:154-173). -/
  | snapshot
  /-- `CompilerWorld::task`, `clone`: a world derived from world `i` (world.rs:477-512). -/
  | task (i : Nat) (t : Int)
  /-- The document compiled in world `i` asks for the date (world.rs:715). -/
  | ask (i : Nat) (offset : Option Int) (t : Int)
deriving Repr

/-- The cells of all worlds. -/
abbrev Cells := List (Option Int)

/-- One event: the cells afterwards and the answer, if the event is a question to a world that
exists. -/
def step (zone : Int → Int) (ws : Cells) : Event → Cells × Option Answer
  -- world.rs:169: `now: OnceLock::new()`
  | .snapshot => (ws ++ [none], none)
  | .task i t =>
    match ws[i]? with
    | some cell =>
      -- world.rs:479-480: `let _ = self.today(None)`
      let now := force cell t
      -- world.rs:503: `now: self.now.clone()`
      (ws.set i (some now) ++ [some now], none)
    | none => (ws, none)
  | .ask i o t =>
    match ws[i]? with
    | some cell =>
      let now := force cell t
      (ws.set i (some now), some (dateOf zone now o))
    | none => (ws, none)

/-- A history of events, from no worlds. -/
def run (zone : Int → Int) : List Event → Cells × List (Option Answer) :=
  List.foldl (fun st e => let r := step zone st.1 e; (r.1, st.2 ++ [r.2])) ([], [])

/-! ## Without a system clock -/

/-- The seconds of a `UtcDateTime` of the crate time: the years -9999 to 9999. -/
def utcMin : Int := -377705116800
/-- See `utcMin`. -/
def utcMax : Int := 253402300799

/-- `as u64` of an `i64`. -/
def asU64 (s : Int) : Int := if s < 0 then s + 18446744073709551616 else s

/-- `today` without the features `system` and `web` (world.rs:740-755): the stored instant moved by
the offset, as an instant.  `checked_mul` on `i64`, `as u64`, `Duration::from_secs`, conversion into
a `time::Duration` of `i64` seconds and `checked_add`. -/
def todayPlain (now : Int) (offset : Option Int) : Int :=
  let moved := offset.bind fun o =>
    let s := o * 3600
    if -9223372036854775808 ≤ s ∧ s ≤ 9223372036854775807 then
      -- `try_into`, `checked_add`
      if asU64 s ≤ 9223372036854775807 then
        if utcMin ≤ now + asU64 s ∧ now + asU64 s ≤ utcMax then some (now + asU64 s) else none
      else none
    else none
  moved.getD now

/-! ## The creation date of a PDF -/

/-- A date and a time of the day (`typst::foundations::Datetime::Datetime`). -/
structure Stamp where
  date : Date
  hour : Int
  minute : Int
  second : Int
deriving DecidableEq, Repr

/-- `to_typst_time` (crates/tinymist-std/src/time.rs:57-61). -/
def toTypstTime (t : Int) : Stamp :=
  let s := t % 86400
  { date := civil (t / 86400), hour := s / 3600, minute := s % 3600 / 60, second := s % 60 }

/-- `ToUtcDateTime for i64` (crates/tinymist-std/src/time.rs:42-47). -/
def toUtcDateTime (ts : Int) : Option Int :=
  if utcMin ≤ ts ∧ ts ≤ utcMax then some ts else none

/-- `<i64 as FromStr>::from_str` (external), behind `parse_source_date_epoch`
(crates/tinymist-world/src/args.rs:208-211). -/
def parseEpoch (s : List Char) : Option Int :=
  match s with
  | [] => none
  | ['-'] => none
  | '-' :: cs => (RustNum.parseDigits 10 9223372036854775808 0 cs).map fun n => -(n : Int)
  | cs => (RustNum.parse 10 9223372036854775807 cs).map fun n => (n : Int)

/-- What an export as PDF does with its date. -/
inductive Export where
  /-- The PDF has this creation date. -/
  | stamped (s : Stamp)
  /-- The command is refused (`invalid_params`). -/
  | refused
  /-- The export fails with "timestamp is out of range". -/
  | failed
deriving DecidableEq, Repr

/-- `ServerState::export_pdf` (crates/tinymist/src/cmd.rs:68-92) and `PdfExport::run`
(crates/tinymist-task/src/compute/pdf.rs:16-28): `opt` is the option `creationTimestamp` of the
command, `config` the setting, `t` the clock at the time of the export. -/
def exportPdf (opt : Option (List Char)) (config : Option Int) (t : Int) : Export :=
  let write (ts : Option Int) : Export :=
    match ts with
    | none => .stamped (toTypstTime t)
    | some ts =>
      match toUtcDateTime ts with
      | none => .failed
      | some u => .stamped (toTypstTime u)
  match opt with
  | some value =>
    match parseEpoch value with
    | none => .refused
    | some ts => write (some ts)
  | none => write config

end Tinymist.Clock
