/-!
# Finding the project of a file through lock files

Paths are lists of names below the root, so `Path::parent` drops the last name
and is `None` at the root. Reading a directory (its lock file and the materials cached for it) is
a function `disk` of the directory: `LockFile::read`, `dirs::cache_dir`,
`WalkDir` and `read_material` (`crates/tinymist/src/route.rs` 117-165) are
not modelled further. The materials come in the order the walk meets them.
-/

namespace Tinymist.Routes

abbrev Path := List String
abbrev Id := String

/-- `ProjectRoute` (`crates/tinymist-project/src/model.rs` 138-143). -/
structure Route where
  id : Id
  priority : Nat
deriving DecidableEq, Repr

/-- `ProjectPathMaterial` (`model.rs` 111-118); `root` is not used. -/
structure Material where
  id : Id
  files : List Path
deriving DecidableEq, Repr

/-- What a directory holds: the routes of a readable lock file, and the materials in the cache directory
of the lock file. -/
structure OnDisk where
  lock : Option (List Route)
  materials : List Material
deriving DecidableEq, Repr

/-- `RoutePathState` (`route.rs` 190-196); a map is the list of its insertions,
newest first. -/
structure PathState where
  lock : List Route
  materials : List (Id × Material)
  routes : List (Path × Id)
deriving DecidableEq, Repr

/-- One turn of the loop of `calculate_routes` (`route.rs` 177-185): the files
of the material are entered one after another, replacing earlier entries.
`priorities` is filled and never read. -/
def addRoute (materials : List (Id × Material)) (routes : List (Path × Id)) (r : Route) :
    List (Path × Id) :=
  match materials.lookup r.id with
  | some m => m.files.foldl (fun routes f => (f, r.id) :: routes) routes
  | none => routes

/-- `calculate_routes` (`route.rs` 169-188). -/
def calculateRoutes (raw : List Route) (materials : List (Id × Material)) : List (Path × Id) :=
  raw.foldl (addRoute materials) []

/-- The state built from disk (`route.rs` 43-63): an unreadable lock file gives
an empty state without a cache directory. -/
def load (d : OnDisk) : PathState :=
  match d.lock with
  | none => ⟨[], [], calculateRoutes [] []⟩
  | some lock =>
    let materials := d.materials.foldl (fun ms m => (m.id, m) :: ms) []
    ⟨lock, materials, calculateRoutes lock materials⟩

/-- `ProjectRouteState` (`route.rs` 12-14). -/
abbrev State := List (Path × PathState)

/-- `resolve_at` (`route.rs` 37-77): a freshly loaded state is kept only if it
routes the file. -/
def resolveAt (disk : Path → OnDisk) (s : State) (dir leaf : Path) : State × Option (Path × Id) :=
  match s.lookup dir with
  | some ps => (s, (ps.routes.lookup leaf).map (dir, ·))
  | none =>
    let ps := load (disk dir)
    match ps.routes.lookup leaf with
    | some id => ((dir, ps) :: s, some (dir, id))
    | none => (s, none)

/-- `std::iter::successors(Some(leaf), |p| p.parent())` (`route.rs` 28): the
file, its directory, and so on up to the root. -/
def upward (leaf : Path) : List Path :=
  (List.range (leaf.length + 1)).map fun n => leaf.take (leaf.length - n)

/-- The loop of `resolve` (`route.rs` 28-34). -/
def resolveIn (disk : Path → OnDisk) (s : State) (leaf : Path) : List Path → State × Option (Path × Id)
  | [] => (s, none)
  | dir :: dirs =>
    match resolveAt disk s dir leaf with
    | (s', some r) => (s', some r)
    | (s', none) => resolveIn disk s' leaf dirs

/-- `resolve` (`route.rs` 27-35). -/
def resolve (disk : Path → OnDisk) (s : State) (leaf : Path) : State × Option (Path × Id) :=
  resolveIn disk s leaf (upward leaf)

/-- `update_lock` (`route.rs` 79-91). -/
def updateLock (s : State) (dir : Path) (lock : List Route) : State :=
  match s.lookup dir with
  | none => s
  | some ps =>
    if ps.lock = lock then s
    else (dir, { ps with lock := lock, routes := calculateRoutes lock ps.materials }) :: s

/-- `update_existing_material` (`route.rs` 93-115). -/
def updateMaterial (s : State) (dir : Path) (m : Material) : State :=
  match s.lookup dir with
  | none => s
  | some ps =>
    match ps.materials.lookup m.id with
    | none => s
    | some old =>
      if old = m then s
      else
        let materials := (m.id, m) :: ps.materials
        (dir, ⟨ps.lock, materials, calculateRoutes ps.lock materials⟩) :: s

inductive Op where
  | resolve (leaf : Path)
  | updateLock (dir : Path) (lock : List Route)
  | updateMaterial (dir : Path) (m : Material)

/-- A history of calls, each with the disk as it is then. -/
def step (s : State) : (Path → OnDisk) × Op → State
  | (disk, .resolve leaf) => (resolve disk s leaf).1
  | (_, .updateLock dir lock) => updateLock s dir lock
  | (_, .updateMaterial dir m) => updateMaterial s dir m

def run (ops : List ((Path → OnDisk) × Op)) : State := ops.foldl step []

end Tinymist.Routes
