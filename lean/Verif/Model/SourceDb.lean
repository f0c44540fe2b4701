/-!
# The files of one compilation

Models `SourceDb`, `crates/tinymist-world/src/source.rs:14-127`, with `QueryRef::compute`
(`crates/tinymist-std/src/concepts/query.rs:38-50`).  The slot table is shared by all clones of the
database; whether a read is made by the compilation is the `is_compiling` flag of the clone it is made on.
Each read holds the lock of the table, so reads are atomic steps.  `now` is what the storage would answer
to the read if it were asked.
-/
namespace Tinymist.SourceDb

/-- The two cached contents of a file, source.rs:17-18. -/
inductive Kind where
  | source | buffer
  deriving DecidableEq

/-- `SourceCache`, source.rs:14-19; `none` is a query not yet computed. -/
structure Slot (Fid V : Type) where
  touched : Bool
  fid : Fid
  source : Option V
  buffer : Option V

def Slot.cell {Fid V : Type} (s : Slot Fid V) : Kind → Option V
  | .source => s.source
  | .buffer => s.buffer

def Slot.setCell {Fid V : Type} (s : Slot Fid V) (k : Kind) (v : V) : Slot Fid V :=
  match k with
  | .source => { s with source := some v }
  | .buffer => { s with buffer := some v }

section
variable {Fid V : Type} [DecidableEq Fid]

/-- The slot table; hash map as a list of slots with distinct ids. -/
abbrev Slots (Fid V : Type) := List (Slot Fid V)

def lookup : Slots Fid V → Fid → Option (Slot Fid V)
  | [], _ => none
  | s :: l, f => if s.fid = f then some s else lookup l f

def update : Slots Fid V → Slot Fid V → Slots Fid V
  | [], s => [s]
  | x :: l, s => if x.fid = s.fid then s :: l else x :: update l s

/-- `slot`, source.rs:100-116: the entry, created or marked if needed. -/
def slot (db : Slots Fid V) (compiling : Bool) (f : Fid) : Slot Fid V :=
  let entry := (lookup db f).getD ⟨compiling, f, none, none⟩
  if compiling && !entry.touched then { entry with touched := true } else entry

/-- `file` and `source`, source.rs:85-97: the stored answer, or the storage's, which is then stored. -/
def read (db : Slots Fid V) (compiling : Bool) (k : Kind) (f : Fid) (now : V) : Slots Fid V × V :=
  let entry := slot db compiling f
  match entry.cell k with
  | some v => (update db entry, v)
  | none => (update db (entry.setCell k now), now)

/-- `iter_dependencies_dyn`, source.rs:75-82. -/
def dependencies (db : Slots Fid V) : List Fid :=
  (db.filter (·.touched)).map (·.fid)

structure Read (Fid V : Type) where
  compiling : Bool
  kind : Kind
  fid : Fid
  now : V

/-- A sequence of reads on the clones of a database, with their answers. -/
def run (db : Slots Fid V) : List (Read Fid V) → Slots Fid V × List V
  | [] => (db, [])
  | r :: rs =>
    let x := read db r.compiling r.kind r.fid r.now
    let y := run x.1 rs
    (y.1, x.2 :: y.2)

end
end Tinymist.SourceDb
