/-!
# Statistics of a server

What is modelled: the counts and times of requests and analyses that the server shows with `tinymist.getServerInfo`, and the counts of
interned values. Requests and analyses run in any order on any threads; each access to a row is under its lock, so a history is a list of
events. Times are in nanoseconds.

Left out: the styles of the page, how durations are printed, and numbers that do not fit in 64 bits. The order in which a `DashMap` gives
its rows is a parameter.
-/

namespace Tinymist.Stats

/-! ## Queries -/

/-- A file and the name of a query: the keys of `query_stats` (tinymist/src/stats.rs 64-66, tinymist-query/src/analysis/stats.rs 60-62). A
request without a file has the file `""` (stats.rs 73-74). -/
structure Key where
  file : String
  query : String
  deriving DecidableEq, Repr

/-- `QueryStatBucketData` (tinymist/src/stats.rs 11-17, tinymist-query/src/analysis/stats.rs 9-16): the first has no `missing`, the second no `snap`. -/
structure Bucket where
  query : Nat
  missing : Nat
  total : Nat
  snap : Nat
  min : Nat
  max : Nat
  deriving DecidableEq, Repr

/-- `Duration::from_secs(u64::MAX)` -/
def never : Nat := 18446744073709551615 * 1000000000

/-- `Default` of a bucket (tinymist/src/stats.rs 19-29, tinymist-query/src/analysis/stats.rs 18-28). -/
def Bucket.new : Bucket := ⟨0, 0, 0, 0, never, 0⟩

/-- `QueryStatGuard` (tinymist/src/stats.rs 37-41, tinymist-query/src/analysis/stats.rs 36-39). -/
structure Guard where
  key : Key
  since : Nat
  snapSince : Option Nat

/-- What happens to guards, at a time of the system's clock, which may be set back. -/
inductive Event where
  /-- `query_stat` (tinymist/src/stats.rs 70-85, tinymist-query/src/analysis/global.rs 977-985) -/
  | start (g : Nat) (key : Key) (now : Nat)
  /-- `miss` (tinymist-query/src/analysis/stats.rs 53-56) -/
  | miss (g : Nat)
  /-- `snap` (tinymist/src/stats.rs 56-59) -/
  | snap (g : Nat) (now : Nat)
  /-- `drop` of the guard (tinymist/src/stats.rs 43-53, tinymist-query/src/analysis/stats.rs 41-50) -/
  | finish (g : Nat) (now : Nat)
  deriving DecidableEq

/-- The rows, and the guards that are alive. -/
structure State where
  table : List (Key × Bucket)
  guards : List (Nat × Guard)

/-- `since.elapsed().unwrap_or_default()` -/
def elapsed (since now : Nat) : Nat := now - since

/-- `entry(key).or_default()` -/
def ensure (key : Key) (table : List (Key × Bucket)) : List (Key × Bucket) :=
  if table.any (fun r => r.1 == key) then table else table ++ [(key, Bucket.new)]

/-- The bucket of a guard is changed under its lock. -/
def update (key : Key) (f : Bucket → Bucket) (table : List (Key × Bucket)) : List (Key × Bucket) :=
  table.map fun r => if r.1 = key then (r.1, f r.2) else r

/-- `drop` of a guard (tinymist/src/stats.rs 43-53, tinymist-query/src/analysis/stats.rs 41-50). -/
def Bucket.record (b : Bucket) (took snapped : Nat) : Bucket :=
  { b with
    query := b.query + 1
    total := b.total + took
    snap := b.snap + snapped
    min := Nat.min b.min took
    max := Nat.max b.max took }

def State.step (s : State) : Event → State
  | .start g key now => ⟨ensure key s.table, s.guards ++ [(g, ⟨key, now, none⟩)]⟩
  | .miss g =>
    match s.guards.lookup g with
    | none => s
    | some d => { s with table := update d.key (fun b => { b with missing := b.missing + 1 }) s.table }
  | .snap g now =>
    { s with guards := s.guards.map fun p =>
        if p.1 = g then (p.1, { p.2 with snapSince := some (p.2.snapSince.getD (elapsed p.2.since now)) }) else p }
  | .finish g now =>
    match s.guards.lookup g with
    | none => s
    | some d =>
      ⟨update d.key (fun b => b.record (elapsed d.since now) (d.snapSince.getD 0)) s.table, s.guards.filter fun p => p.1 ≠ g⟩

/-- The server after a history. -/
def run (h : List Event) : State := h.foldl State.step ⟨[], []⟩

/-- `Debug` of a string, of the characters that have a short escape. -/
def debug (text : List Char) : List Char :=
  '"' :: text.flatMap (fun c =>
    if c = '"' then ['\\', '"'] else if c = '\\' then ['\\', '\\'] else if c = '\n' then ['\\', 'n']
    else if c = '\t' then ['\\', 't'] else if c = '\r' then ['\\', 'r'] else [c]) ++ ['"']

/-- The name of a row (tinymist/src/stats.rs 97, tinymist-query/src/analysis/stats.rs 74). -/
def rowName (key : Key) : List Char :=
  (debug key.file.toList ++ ':' :: key.query.toList).map fun c => if c = '\\' then '/' else c

/-- The cell of the name (tinymist/src/stats.rs 123, tinymist-query/src/analysis/stats.rs 100). -/
def nameCell (key : Key) : List Char :=
  "<td class=\"query-column\">".toList ++ rowName key ++ "</td>".toList

/-- `report` (tinymist/src/stats.rs 88-137, tinymist-query/src/analysis/stats.rs 66-113): the rows, which `table` has in any order. -/
def report (table : List (Key × Bucket)) : List (Key × Bucket) :=
  table.mergeSort fun x y => decide (y.2.max ≤ x.2.max)

/-! ## Allocations -/

/-- `AllocStats` (tinymist-analysis/src/stats.rs 8-13). -/
structure Alloc where
  allocated : Nat
  dropped : Nat

/-- `increment` and `decrement` (tinymist-analysis/src/stats.rs 17-24). -/
inductive AllocEvent where
  | increment
  | decrement
  deriving DecidableEq

def Alloc.step (a : Alloc) : AllocEvent → Alloc
  | .increment => { a with allocated := a.allocated + 1 }
  | .decrement => { a with dropped := a.dropped + 1 }

def allocRun (h : List AllocEvent) : Alloc := h.foldl Alloc.step ⟨0, 0⟩

/-- A row of the report: name, size, allocated, dropped and alive. -/
structure AllocRow where
  name : String
  size : Nat
  allocated : Nat
  dropped : Nat
  alive : Nat
  deriving DecidableEq, Repr

/-- A row (tinymist-analysis/src/stats.rs 31-35): other threads do `between` between the two loads. -/
def allocRow (name : String) (size : Nat) (before between : List AllocEvent) : AllocRow :=
  let allocated := (allocRun before).allocated
  let dropped := (allocRun (before ++ between)).dropped
  let alive := allocated - dropped
  ⟨name, size * alive, allocated, dropped, alive⟩

/-- The rows in the order of the page (tinymist-analysis/src/stats.rs 38-39). -/
def allocReport (rows : List AllocRow) : List AllocRow := rows.mergeSort fun x y => decide (y.alive ≤ x.alive)

/-- The loop of `human_size` (tinymist-analysis/src/stats.rs 76-79) from a unit on: halvings are exact in a `f64`, and so is the
comparison. -/
def unitFrom (size : Nat) : (left unit : Nat) → Nat
  | 0, unit => unit
  | left + 1, unit => if size ≥ 768 * 1024 ^ unit then unitFrom size left (unit + 1) else unit

/-- `human_size` (tinymist-analysis/src/stats.rs 72-81): the size is shown as a part of 1024 to this power; `none`: it panics. -/
def humanUnit (size : Nat) : Option Nat :=
  let unit := unitFrom size 5 0
  if unit < 5 then some unit else none

end Tinymist.Stats
