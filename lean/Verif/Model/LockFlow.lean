/-!
# Several processes at one lock file

Models the steps in which `LockFile::update` and `LockFile::read` (`crates/tinymist-project/src/lock.rs:134-216`) use the
file, with the file locks of `crates/tinymist-std/src/fs/flock.rs:189-355`, for any number of processes (or threads)
at the same file.

Simplified: what an update makes of the contents is a function (`Model/Lock.lean` has it; `none` is an error); directories
and permissions are left out. What `flock` does is a contract of the operating system: an exclusive lock is held alone, and
the lock of a process that is killed is released.
-/
namespace Tinymist.LockFlow

abbrev Bytes := List Nat

/-- What a process does with the file. -/
inductive Kind where
  /-- `LockFile::read` -/
  | reader
  /-- `LockFile::update` with what it makes of the contents -/
  | writer (upd : Bytes → Option Bytes)

/-- How far a process is. -/
inductive Phase where
  | fresh
  /-- the file is opened (flock.rs:262-281), its lock is not taken yet -/
  | opened
  /-- the lock is held, a part of the file is read (lock.rs:141-142, 206-207) -/
  | reading (acc : Bytes)
  /-- the file is read to its end -/
  | holding (data : Bytes)
  /-- the file is truncated and the new contents are written up to a place (lock.rs:188-192) -/
  | writing (new : Bytes) (pos : Nat)
  /-- the lock is released (flock.rs:101-109); this was read -/
  | over (data : Bytes)
  /-- the file could not be opened -/
  | failed
  /-- killed before it changed the file -/
  | killed
  /-- killed while it wrote the file -/
  | torn
  deriving DecidableEq, Repr

/-- Whether a process holds its lock. -/
def Phase.holds : Phase → Bool
  | .reading _ | .holding _ | .writing _ _ => true
  | _ => false

/-- The file, if it is there, and the processes. -/
structure State where
  file : Option Bytes
  phase : Nat → Phase

/-- A step of a process. -/
inductive Event where
  | openFile (i : Nat)
  | lock (i : Nat)
  | read (i n : Nat)
  | truncate (i : Nat)
  | write (i n : Nat)
  | unlock (i : Nat)
  | kill (i : Nat)
  deriving DecidableEq, Repr

def setPhase (s : State) (i : Nat) (p : Phase) : State := { s with phase := fun j => if j = i then p else s.phase j }

/-- Bytes written at a place of a file; a gap is filled with zeros (`write` of the operating system). -/
def writeAt (file : Bytes) (pos : Nat) (bs : Bytes) : Bytes :=
  file.take pos ++ List.replicate (pos - file.length) 0 ++ bs ++ file.drop (pos + bs.length)

/-- Whether the lock can be had: `flock` with `LOCK_EX` or `LOCK_SH`, where locks work. Where they do not, the lock is
taken for granted (flock.rs:309-324). -/
def Free (kind : Nat → Kind) (works : Bool) (s : State) (i : Nat) : Prop :=
  works = true → ∀ j, (s.phase j).holds = true →
    (match kind i with | .reader => True | .writer _ => False) ∧ (match kind j with | .reader => True | .writer _ => False)

/-- One step. What is asked of the other processes is `Free` at `lock`. -/
inductive Step (kind : Nat → Kind) (works : Bool) : State → Event → State → Prop where
  /-- `open_rw_exclusive_create` makes the file if it is not there (flock.rs:189-200). -/
  | openWriter {s : State} {i : Nat} {u : Bytes → Option Bytes} : s.phase i = .fresh → kind i = .writer u →
      Step kind works s (.openFile i) { setPhase s i .opened with file := some (s.file.getD []) }
  /-- `open_ro_shared` fails if it is not there (flock.rs:231-238). -/
  | openReader {s : State} {i : Nat} {b : Bytes} : s.phase i = .fresh → kind i = .reader → s.file = some b →
      Step kind works s (.openFile i) (setPhase s i .opened)
  | openFails {s : State} {i : Nat} : s.phase i = .fresh → kind i = .reader → s.file = none →
      Step kind works s (.openFile i) (setPhase s i .failed)
  /-- `acquire` (flock.rs:340-355). -/
  | lock {s : State} {i : Nat} : s.phase i = .opened → Free kind works s i →
      Step kind works s (.lock i) (setPhase s i (.reading []))
  /-- Some bytes of `read_to_end`. -/
  | readMore {s : State} {i n : Nat} {acc b : Bytes} : s.phase i = .reading acc → s.file = some b → 0 < n →
      acc.length + n ≤ b.length →
      Step kind works s (.read i n) (setPhase s i (.reading (acc ++ (b.drop acc.length).take n)))
  /-- No more bytes. -/
  | readEnd {s : State} {i : Nat} {acc b : Bytes} : s.phase i = .reading acc → s.file = some b →
      b.length ≤ acc.length → Step kind works s (.read i 0) (setPhase s i (.holding acc))
  /-- `set_len(0)` if the contents change (lock.rs:179-188). -/
  | truncate {s : State} {i : Nat} {u : Bytes → Option Bytes} {data new : Bytes} : s.phase i = .holding data →
      kind i = .writer u → u data = some new → new ≠ data →
      Step kind works s (.truncate i) { setPhase s i (.writing new 0) with file := some [] }
  /-- Some bytes of `write_all` (lock.rs:190-192). -/
  | write {s : State} {i n : Nat} {b new : Bytes} {pos : Nat} : s.phase i = .writing new pos → s.file = some b → 0 < n →
      pos + n ≤ new.length →
      Step kind works s (.write i n)
        { setPhase s i (.writing new (pos + n)) with file := some (writeAt b pos ((new.drop pos).take n)) }
  /-- The lock is dropped: by a reader, by an update that fails or changes nothing, and by one that wrote everything. -/
  | unlockReader {s : State} {i : Nat} {data : Bytes} : s.phase i = .holding data → kind i = .reader →
      Step kind works s (.unlock i) (setPhase s i (.over data))
  | unlockSame {s : State} {i : Nat} {u : Bytes → Option Bytes} {data : Bytes} : s.phase i = .holding data →
      kind i = .writer u → (u data = none ∨ u data = some data) →
      Step kind works s (.unlock i) (setPhase s i (.over data))
  | unlockWritten {s : State} {i : Nat} {new : Bytes} : s.phase i = .writing new new.length →
      Step kind works s (.unlock i) (setPhase s i (.over new))
  | killEarly {s : State} {i : Nat} : (s.phase i = .opened ∨ (∃ acc, s.phase i = .reading acc) ∨ ∃ d, s.phase i = .holding d) →
      Step kind works s (.kill i) (setPhase s i .killed)
  | killLate {s : State} {i : Nat} {new : Bytes} {pos : Nat} : s.phase i = .writing new pos →
      Step kind works s (.kill i) (setPhase s i .torn)

/-- What happens to a file that processes find, one step after the other. -/
inductive Run (kind : Nat → Kind) (works : Bool) (file : Option Bytes) : List Event → State → Prop where
  | start : Run kind works file [] ⟨file, fun _ => .fresh⟩
  | step {es : List Event} {s t : State} {e : Event} : Run kind works file es s → Step kind works s e t →
      Run kind works file (es ++ [e]) t

end Tinymist.LockFlow
