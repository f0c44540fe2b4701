/-!
# The snapshot map

Models `crates/tinymist-analysis/src/adt/snapshot_map.rs` with its default undo log, `VecLog` of the crate `ena`, which
is modelled from its source's documentation: entries are only logged while a snapshot is open.
-/
namespace Tinymist.SnapshotMap

/-- An `FxHashMap`, as a function; iteration order is not modelled. -/
abbrev Map (K V : Type) := K → Option V

variable {K V : Type} [DecidableEq K]

def Map.set (m : Map K V) (k : K) (v : Option V) : Map K V := fun x => if x = k then v else m x

/-- `UndoLog`, snapshot_map.rs:46-51. `Purged` is never logged. -/
inductive Undo (K V : Type) where
  | inserted (k : K)
  | overwrite (k : K) (v : V)

/-- `SnapshotMap`, snapshot_map.rs:24-28, with the fields of `VecLog` (the newest entry is in front). -/
structure State (K V : Type) where
  map : Map K V
  log : List (Undo K V)
  /-- `num_open_snapshots`. -/
  opened : Nat

def State.init : State K V := ⟨fun _ => none, [], 0⟩

/-- `VecLog::push` (ena). -/
def State.push (s : State K V) (u : Undo K V) : State K V := if s.opened > 0 then { s with log := u :: s.log } else s

/-- `insert`, snapshot_map.rs:83-94. -/
def State.insert (s : State K V) (k : K) (v : V) : State K V × Bool :=
  let s' : State K V := { s with map := s.map.set k (some v) }
  match s.map k with
  | none => (s'.push (.inserted k), true)
  | some old => (s'.push (.overwrite k old), false)

/-- `remove`, snapshot_map.rs:96-104. -/
def State.remove (s : State K V) (k : K) : State K V × Bool :=
  match s.map k with
  | some old => (({ s with map := s.map.set k none } : State K V).push (.overwrite k old), true)
  | none => (s, false)

/-- `clear`, snapshot_map.rs:70-73, and `VecLog::clear` (ena). -/
def State.clear (_ : State K V) : State K V := ⟨fun _ => none, [], 0⟩

/-- `reverse`, snapshot_map.rs:157-170. -/
def reverse (m : Map K V) : Undo K V → Map K V
  | .inserted k => m.set k none
  | .overwrite k v => m.set k (some v)

/-- `snapshot`, snapshot_map.rs:118-120: a snapshot is the length of the log. -/
def State.snapshot (s : State K V) : State K V × Nat := ({ s with opened := s.opened + 1 }, s.log.length)

/-- `commit`, snapshot_map.rs:122-124, and `VecLog::commit` (ena); `none` when an assertion fails. -/
def State.commit (s : State K V) (undoLen : Nat) : Option (State K V) :=
  if undoLen ≤ s.log.length ∧ s.opened > 0 then
    if s.opened = 1 then (if undoLen = 0 then some { s with log := [], opened := 0 } else none)
    else some { s with opened := s.opened - 1 }
  else none

/-- The loop of `VecLog::rollback_to` (ena). -/
def rollbackLoop (undoLen : Nat) : List (Undo K V) → Map K V → List (Undo K V) × Map K V
  | [], m => ([], m)
  | u :: log, m => if (u :: log).length > undoLen then rollbackLoop undoLen log (reverse m u) else (u :: log, m)

/-- `rollback_to`, snapshot_map.rs:126-129, and `VecLog::rollback_to` (ena); `none` when an assertion fails. -/
def State.rollbackTo (s : State K V) (undoLen : Nat) : Option (State K V) :=
  if undoLen ≤ s.log.length ∧ s.opened > 0 then
    some ⟨(rollbackLoop undoLen s.log s.map).2, (rollbackLoop undoLen s.log s.map).1, s.opened - 1⟩
  else none

/-- A use of the map. Snapshots are numbered from the newest one that is still of use; `rollback n` and `commit n` give
up the newer ones (Rust drops them). -/
inductive Op (K V : Type) where
  | insert (k : K) (v : V)
  | remove (k : K)
  | clear
  | snapshot
  | rollback (n : Nat)
  | commit (n : Nat)

/-- The map with the snapshots its user holds, the newest in front. -/
structure Sys (K V : Type) where
  state : State K V
  held : List Nat

/-- One use, with the returned boolean; `none` for a failed assertion or when there is no such snapshot. -/
def Sys.step (s : Sys K V) : Op K V → Option (Sys K V × Bool)
  | .insert k v => some (⟨(s.state.insert k v).1, s.held⟩, (s.state.insert k v).2)
  | .remove k => some (⟨(s.state.remove k).1, s.held⟩, (s.state.remove k).2)
  | .clear => some (⟨s.state.clear, []⟩, false)
  | .snapshot => some (⟨s.state.snapshot.1, s.state.snapshot.2 :: s.held⟩, false)
  | .rollback n => (s.held[n]?.bind s.state.rollbackTo).map fun t => (⟨t, s.held.drop (n + 1)⟩, false)
  | .commit n => (s.held[n]?.bind s.state.commit).map fun t => (⟨t, s.held.drop (n + 1)⟩, false)

def Sys.run : Sys K V → List (Op K V) → Option (Sys K V × List Bool)
  | s, [] => some (s, [])
  | s, op :: ops => (s.step op).bind fun (s', b) => (s'.run ops).map fun (s'', bs) => (s'', b :: bs)

end Tinymist.SnapshotMap
