import Verif.Model.ResourcePath
/-!
# The project lock file

Models `crates/tinymist-project/src/lock.rs` and the serialised shapes of
`crates/tinymist-project/src/model.rs`, `crates/tinymist-task/src/model.rs`.

Not modelled: the TOML grammar (a pair of functions with the contract that printing a table and parsing
it gives the table back) and `semver` (an arbitrary comparison function).  Fields of documents and
tasks without a role here are one opaque value each (`D`, `B`); transforms are opaque (`T`).
Materials (lock.rs:316-341) go to the cache directory, not to the lock file.
-/
namespace Tinymist.Lock
open ResourcePath

/-- `ProjectInput`, model.rs:67-95.  `paths` are `root`, `main`, `font_paths`, `package_path` and
`package_cache_path`, everything serialised as a resource path. -/
structure Doc (D : Type) where
  id : String
  paths : List ResPath
  rest : D
  deriving DecidableEq

/-- `ApplyProjectTask`, tinymist-task/src/model.rs:33-43.  `body` is the flattened task without its
`transform` list. -/
structure Task (B T : Type) where
  id : String
  document : String
  body : B
  transform : List T
  deriving DecidableEq

/-- `ProjectRoute`, model.rs:135-143. -/
structure Route where
  id : String
  priority : Nat
  deriving DecidableEq

/-- `LockFile`, model.rs:51-65. -/
structure LockFile (D B T : Type) where
  document : List (Doc D)
  task : List (Task B T)
  route : List Route
  deriving DecidableEq

variable {D B T : Type}

def LockFile.empty : LockFile D B T := ⟨[], [], []⟩

/-- Replaces the first element with the same key, or appends: the `position`/index/`push` pattern of
lock.rs:28-46. -/
def upsert {α : Type} (key : α → String) (x : α) : List α → List α
  | [] => [x]
  | y :: ys => if key y = key x then x :: ys else y :: upsert key x ys

/-- `replace_document`, lock.rs:28-36. -/
def replaceDocument (l : LockFile D B T) (d : Doc D) : LockFile D B T :=
  { l with document := upsert Doc.id d l.document }

/-- `replace_task`, lock.rs:38-46. -/
def replaceTask (l : LockFile D B T) (t : Task B T) : LockFile D B T :=
  { l with task := upsert Task.id t l.task }

/-- `replace_route`, lock.rs:48-53. -/
def replaceRoute (l : LockFile D B T) (r : Route) : LockFile D B T :=
  { l with route := l.route.filter (fun i => i.id ≠ r.id) ++ [r] }

/-- `get_document`, lock.rs:20-22. -/
def getDocument (l : LockFile D B T) (id : String) : Option (Doc D) :=
  l.document.find? (fun d => d.id = id)

/-- `get_task`, lock.rs:24-26. -/
def getTask (l : LockFile D B T) (id : String) : Option (Task B T) :=
  l.task.find? (fun d => d.id = id)

/-- The comparison of documents, lock.rs:56. -/
def docLe (a b : Doc D) : Bool := decide (a.id ≤ b.id)

/-- The comparison of tasks: by document, then by id, lock.rs:57-58. -/
def taskLe (a b : Task B T) : Bool :=
  if a.document = b.document then decide (a.id ≤ b.id) else decide (a.document ≤ b.document)

/-- `sort`, lock.rs:55-60 (`sort_by` is a stable sort). -/
def sort (l : LockFile D B T) : LockFile D B T :=
  { l with document := l.document.mergeSort docLe, task := l.task.mergeSort taskLe }

/-- `LockUpdate`, lock.rs:228-233, without materials. -/
inductive Update (D B T : Type) where
  | document (d : Doc D)
  | task (t : Task B T)
  | route (r : Route)

/-- One iteration of the loop in `commit`, lock.rs:308-346. -/
def applyUpdate (l : LockFile D B T) : Update D B T → LockFile D B T
  | .document d => replaceDocument l d
  | .task t => replaceTask l t
  | .route r => replaceRoute l r

/-- The closure `commit` passes to `update`, lock.rs:305-349. -/
def applyUpdates (l : LockFile D B T) (us : List (Update D B T)) : LockFile D B T :=
  us.foldl applyUpdate l

/-! ## Serialised form -/

/-- A `[[document]]` table. -/
structure DocTable (D : Type) where
  id : String
  paths : List (List Char)
  rest : D

/-- A `[[task]]` table: `transform` is the key of that name, `nested` the key `task.transform`. -/
structure TaskTable (B T : Type) where
  id : String
  document : String
  body : B
  transform : Option (List T)
  nested : Option (List T)

structure Table (D B T : Type) where
  document : List (DocTable D)
  task : List (TaskTable B T)
  route : List Route

/-- `Serialize` for `ProjectInput`; resource paths are written with `Display`. -/
def docTable (d : Doc D) : DocTable D := ⟨d.id, d.paths.map display, d.rest⟩

/-- `Serialize` for `ApplyProjectTask` (`transform` is skipped when empty,
tinymist-task/src/model.rs:148-150). -/
def taskTable (t : Task B T) : TaskTable B T :=
  ⟨t.id, t.document, t.body, if t.transform.isEmpty then none else some t.transform, none⟩

/-- `emit_output`, lock.rs:114-126: moves `transform` into a sub-table `task`. -/
def emitOutput (t : TaskTable B T) : TaskTable B T :=
  match t.transform with
  | some x => { t with transform := none, nested := some x }
  | none => t

/-- `serialize_resolve`, lock.rs:62-132, up to printing. -/
def toTable (l : LockFile D B T) : Table D B T :=
  ⟨l.document.map docTable, l.task.map fun t => emitOutput (taskTable t), l.route⟩

/-- `Deserialize` for `ProjectInput`: every resource path must parse. -/
def readDoc (t : DocTable D) : Option (Doc D) :=
  (t.paths.mapM parse).map fun ps => ⟨t.id, ps, t.rest⟩

/-- `Deserialize` for `ApplyProjectTask`: only the key `transform` is known (default empty); unknown
keys such as `task` are ignored. -/
def readTask (t : TaskTable B T) : Task B T :=
  ⟨t.id, t.document, t.body, t.transform.getD []⟩

def fromTable (t : Table D B T) : Option (LockFile D B T) :=
  (t.document.mapM readDoc).map fun ds => ⟨ds, t.task.map readTask, t.route⟩

abbrev Bytes := List Nat

/-- A parsed TOML document: its `version` string and its tables, if they have the expected shape. -/
structure Raw (D B T : Type) where
  version : Option String
  body : Option (Table D B T)

/-- The text layer: UTF-8 validity, `trim().is_empty()`, `toml::from_str`, and printing with the current
version (lock.rs:62-107). -/
structure Codec (D B T : Type) where
  utf8 : Bytes → Bool
  blank : Bytes → Bool
  parse : Bytes → Option (Raw D B T)
  print : Table D B T → Bytes

/-- `LOCK_VERSION`, model.rs:13. -/
def lockVersion : String := "0.1.0-beta0"

/-- What we assume of the text layer. -/
structure Codec.Lawful (c : Codec D B T) : Prop where
  utf8 : ∀ t, c.utf8 (c.print t) = true
  notBlank : ∀ t, c.blank (c.print t) = false
  parse : ∀ t, c.parse (c.print t) = some ⟨some lockVersion, some t⟩

/-- `LockFileCompat`, model.rs:15-25: the tagged variant if the version is ours and the body
deserialises, else the untagged one. -/
inductive Compat (D B T : Type) where
  | current (l : LockFile D B T)
  | other (version : Option String)

def compat (r : Raw D B T) : Compat D B T :=
  if r.version = some lockVersion then
    match r.body.bind fromTable with
    | some l => .current l
    | none => .other r.version
  else .other r.version

/-- `LockFileCompat::version`, model.rs:28-37. -/
def Compat.version : Compat D B T → Option String
  | .current _ => some lockVersion
  | .other v => v

/-- `LockFileCompat::migrate`, model.rs:40-50. -/
def Compat.migrate : Compat D B T → Option (LockFile D B T)
  | .current l => some l
  | .other _ => none

/-- The state `update` starts from, lock.rs:144-173; `cmp` is the semver comparison with the supported
version (lock.rs:354-371), `none` an error. -/
def loadState (c : Codec D B T) (cmp : String → Option Ordering) (old : Bytes) : Option (LockFile D B T) :=
  if ¬ c.utf8 old then none
  else if c.blank old then some .empty
  else do
    let raw ← c.parse old
    let k := compat raw
    let v ← k.version
    match cmp v with
    | some .eq | some .lt => k.migrate
    | some .gt => none
    | none => none

/-- `LockFile::update`, lock.rs:134-199: `none` an error, `some none` success without writing,
`some (some new)` the text that is written over the file. -/
def update (c : Codec D B T) (cmp : String → Option Ordering) (old : Bytes)
    (f : LockFile D B T → Option (LockFile D B T)) : Option (Option Bytes) := do
  let state ← loadState c cmp old
  let state ← f state
  let new := c.print (toTable (sort state))
  if old = new then some none else some (some new)

/-- The file's content after `update`. -/
def fileAfter (c : Codec D B T) (cmp : String → Option Ordering) (old : Bytes)
    (f : LockFile D B T → Option (LockFile D B T)) : Bytes :=
  match update c cmp old f with
  | some (some new) => new
  | _ => old

/-- `LockFileUpdate::commit`, lock.rs:304-351 (errors are only logged). -/
def commit (c : Codec D B T) (cmp : String → Option Ordering) (old : Bytes) (us : List (Update D B T)) : Bytes :=
  fileAfter c cmp old fun l => some (applyUpdates l us)

/-- `LockFile::read`, lock.rs:201-217. -/
def read (c : Codec D B T) (old : Bytes) : Option (LockFile D B T) :=
  if ¬ c.utf8 old then none else (c.parse old).bind fun r => (compat r).migrate

/-! ## Writing the file -/

/-- The system calls of lock.rs:192-196, on the content of the open file. -/
inductive Io where
  | truncate
  | write (chunk : Bytes)

def Io.apply : Io → Bytes → Bytes
  | .truncate, _ => []
  | .write b, old => old ++ b

/-- `set_len(0)`, `seek`, `write_all` in however many `write` calls the data is split into. -/
def overwrite (chunks : List Bytes) : List Io := .truncate :: chunks.map .write

/-- The contents a crash can leave: between two calls, or in the middle of a `write`. -/
inductive CrashState : List Io → Bytes → Bytes → Prop where
  | stop (ops old) : CrashState ops old old
  | torn (b ops old p) (h : p <+: b) : CrashState (.write b :: ops) old (old ++ p)
  | step (op ops old c) (h : CrashState ops (op.apply old) c) : CrashState (op :: ops) old c

end Tinymist.Lock
