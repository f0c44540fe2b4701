/-!
# The file watcher

Models `NotifyActor`, `crates/tinymist-project/src/watch.rs`.  What the actor finds when it looks at a file
(`SystemAccessModel::content`, metadata, whether a call to the OS watcher succeeds) is an input of each step.
Channels: the recheck channel is `queue`; what is handed to the consumer is the list of changes a step
returns.  The hash map of entries is a function with the list of its keys.
-/
namespace Tinymist.Watch

/-- `FileError` as far as the watcher distinguishes errors (watch.rs:377). -/
inductive FileError where
  | notFound
  | other (msg : String)
  /-- access denied, is a directory, ... -/
  | hard (n : Nat)
  deriving DecidableEq

def FileError.transient : FileError → Bool
  | .notFound | .other _ => true
  | .hard _ => false

/-- `FileSnapshot`, crates/tinymist-vfs/src/snapshot.rs:11: the content of a file or why it has none. -/
inductive Snap where
  | ok (content : List UInt8)
  | err (e : FileError)
  deriving DecidableEq

/-- `WatchState`, watch.rs:34-44. -/
inductive State where
  | stable
  | emptyOrRemoval (recheckAt : Nat) (payload : Snap)
  deriving DecidableEq

/-- `WatchedEntry`, watch.rs:55-69. -/
structure Entry where
  lifetime : Nat
  watching : Bool
  seen : Bool
  state : State
  prev : Option Snap

/-- What comes out of looking at a file. -/
inductive Outcome where
  | silent | recheck | report
  deriving DecidableEq

/-- `notify_entry_update` for an existing entry, watch.rs:366-453. -/
def observe (tick : Nat) (e : Entry) (file : Snap) : Entry × Outcome :=
  let report := ({ e with state := .stable, prev := some file }, Outcome.report)
  let recheck := ({ e with state := .emptyOrRemoval tick file, prev := some file }, Outcome.recheck)
  match e.prev, file with
  | none, _ => report
  | some (.err _), .ok _ => report
  | some it, .err x =>
    match e.state with
    | .stable => if x.transient then recheck else if it = .err x then (e, .silent) else report
    | .emptyOrRemoval at_ _ => ({ e with state := .emptyOrRemoval at_ file }, .silent)
  | some (.ok a), .ok b =>
    if a = b then (e, .silent)
    else
      match e.state with
      | .stable => if b = [] then recheck else report
      | .emptyOrRemoval _ _ => if b = [] then (e, .silent) else report

/-- `FileChangeSet`. -/
structure Change (Path : Type) where
  removes : List Path
  inserts : List (Path × Snap)

/-- `NotifyActor`, watch.rs:82-103. `osWatched` is not a field of the actor: it records which paths the
operating system was asked to watch. -/
structure Actor (Path : Type) where
  hasWatcher : Bool
  lifetime : Nat
  tick : Nat
  entries : Path → Option Entry
  keys : List Path
  queue : List (Nat × Path)
  osWatched : Path → Bool

/-- A dependency with what is found when looking at it: whether its metadata says it is not a directory,
whether the OS accepts to watch it, its content. -/
structure Dep (Path : Type) where
  path : Path
  regular : Bool
  watchOk : Bool
  file : Snap

section
variable {Path : Type} [DecidableEq Path]

def set {A : Type} (f : Path → A) (p : Path) (a : A) : Path → A := fun x => if x = p then a else f x

/-- `notify_entry_update`, watch.rs:351-454, appending to the inserts of the change being built. -/
def look (s : Actor Path) (inserts : List (Path × Snap)) (p : Path) (file : Snap) :
    Actor Path × List (Path × Snap) :=
  match s.entries p with
  | none => (s, inserts)
  | some e =>
    let r := observe s.tick e file
    let s := { s with
      entries := set s.entries p (some r.1)
      queue := if r.2 = .recheck then s.queue ++ [(s.tick, p)] else s.queue }
    (s, if r.2 = .report then inserts ++ [(p, file)] else inserts)

/-- The entry for a dependency, watch.rs:238-251. -/
def depEntry (s : Actor Path) (p : Path) : Entry :=
  match s.entries p with
  | some e => { e with lifetime := s.lifetime }
  | none => ⟨s.lifetime, false, false, .stable, none⟩

/-- watch.rs:266-270: whether the OS is asked to watch the path. -/
def asks (e : Entry) (contained : Bool) (d : Dep Path) : Bool := d.regular && (!contained || !e.watching)

/-- The body of the loop over dependencies, watch.rs:235-284. -/
def syncOne (s : Actor Path) (inserts : List (Path × Snap)) (d : Dep Path) : Actor Path × List (Path × Snap) :=
  let contained := (s.entries d.path).isSome
  let e := depEntry s d.path
  let s := { s with
    entries := set s.entries d.path (some e)
    keys := if contained then s.keys else s.keys ++ [d.path] }
  if e.seen then (s, inserts)
  else
    let e := { e with seen := true }
    if s.hasWatcher then
      let ask := asks e contained d
      let s := { s with
        entries := set s.entries d.path (some { e with watching := if ask then d.watchOk else e.watching })
        osWatched := set s.osWatched d.path (if ask then d.watchOk else s.osWatched d.path) }
      look s inserts d.path d.file
    else ({ s with entries := set s.entries d.path (some e) }, inserts ++ [(d.path, d.file)])

def syncAll (s : Actor Path) (inserts : List (Path × Snap)) (ds : List (Dep Path)) :
    Actor Path × List (Path × Snap) :=
  ds.foldl (fun x d => syncOne x.1 x.2 d) (s, inserts)

/-- watch.rs:291-297: stop watching an entry that is no longer a dependency. -/
def unwatch (hasWatcher : Bool) (e : Entry) : Entry :=
  if !e.seen && e.watching && hasWatcher then { e with watching := false } else e

/-- watch.rs:299: entries that were not a dependency for 30 updates are dropped. -/
def fresh (lifetime : Nat) (e : Entry) : Bool := decide (lifetime - e.lifetime < 30)

/-- `update_watches`, watch.rs:220-305. -/
def updateWatches (s : Actor Path) (ds : List (Dep Path)) : Actor Path × Change Path :=
  let s := { s with
    lifetime := s.lifetime + 1
    entries := fun p => (s.entries p).map fun e => { e with seen := false } }
  let r := syncAll s [] ds
  let s := r.1
  let isFresh := fun p => match s.entries p with | some e => fresh s.lifetime e | none => true
  let s' := { s with
    entries := fun p => ((s.entries p).map (unwatch s.hasWatcher)).filter (fresh s.lifetime)
    keys := s.keys.filter isFresh
    osWatched := fun p =>
      match s.entries p with
      | some e => if !e.seen && e.watching && s.hasWatcher then false else s.osWatched p
      | none => s.osWatched p }
  (s', ⟨s.keys.filter (fun p => !isFresh p), r.2⟩)

def lookAll (s : Actor Path) (inserts : List (Path × Snap)) (ps : List (Path × Snap)) :
    Actor Path × List (Path × Snap) :=
  ps.foldl (fun x y => look x.1 x.2 y.1 y.2) (s, inserts)

/-- watch.rs:328-341: a path that was removed or renamed away is unwatched to be watched again later. -/
def dropWatch (s : Actor Path) (p : Path) : Actor Path :=
  match s.entries p with
  | none => s
  | some e =>
    if e.watching then
      { s with entries := set s.entries p (some { e with watching := false }), osWatched := set s.osWatched p false }
    else s

/-- `notify_event`, watch.rs:308-348: paths with their contents, and whether it is a removal. -/
def notifyEvent (s : Actor Path) (ps : List (Path × Snap)) (removal : Bool) : Actor Path × Change Path :=
  let r := lookAll s [] ps
  let s := if removal then (ps.map (·.1)).foldl dropWatch r.1 else r.1
  (s, ⟨[], r.2⟩)

/-- `recheck_notify_event`, watch.rs:457-503, of the `i`-th queued event; `early` if 50ms have not passed,
when the event is queued again. -/
def recheck (s : Actor Path) (i : Nat) (early : Bool) : Actor Path × Change Path :=
  if early then (s, ⟨[], []⟩)
  else
    match s.queue[i]? with
    | none => (s, ⟨[], []⟩)
    | some (tick, p) =>
      let s := { s with queue := s.queue.eraseIdx i }
      match s.entries p with
      | none => (s, ⟨[], []⟩)
      | some e =>
        let s := { s with entries := set s.entries p (some { e with state := .stable }) }
        match e.state with
        | .stable => (s, ⟨[], []⟩)
        | .emptyOrRemoval at_ payload =>
          if at_ = tick then
            if some payload = e.prev then (s, ⟨[], []⟩) else (s, ⟨[], [(p, payload)]⟩)
          else (s, ⟨[], []⟩)

inductive Op (Path : Type) where
  /-- `SyncDependency`, or the update that comes with an editor change (`UpstreamUpdate`). -/
  | sync (deps : List (Dep Path))
  | event (ps : List (Path × Snap)) (removal : Bool)
  | recheck (i : Nat) (early : Bool)

/-- One round of the loop, watch.rs:162-201. Without OS watcher there are no file system events
(watch.rs:141-146). The returned change is sent to the consumer if it is not empty. -/
def step (s : Actor Path) (op : Op Path) : Actor Path × Change Path :=
  let s := { s with tick := s.tick + 1 }
  match op with
  | .sync ds => updateWatches s ds
  | .event ps removal => if s.hasWatcher then notifyEvent s ps removal else (s, ⟨[], []⟩)
  | .recheck i early => recheck s i early

def run (s : Actor Path) : List (Op Path) → Actor Path × List (Change Path)
  | [] => (s, [])
  | op :: ops =>
    let r := step s op
    let r' := run r.1 ops
    (r'.1, r.2 :: r'.2)

/-- `NotifyActor::new`, watch.rs:108-138. -/
def init (hasWatcher : Bool) : Actor Path := ⟨hasWatcher, 1, 1, fun _ => none, [], [], fun _ => false⟩

end
end Tinymist.Watch
