/-!
# The virtual file system

Models `crates/tinymist-vfs/src/lib.rs` with its access-model layers (`overlay.rs`, `notify.rs`,
`resolve.rs`) and the sharing between a live file system and its snapshots.

`Arc`s are indices into heaps held by `World`: `bytes` is the heap of once-cells (`Arc<OnceLock<..>>`),
`stores` the heap of `Arc<Mutex<EntryMap>>` together with `Arc<Mutex<PathMap>>` (the two are always
replaced, cloned and shared together), `handles` the `Vfs` values (a live one and its snapshots).
Persistent maps are association lists.  Contents (`FileResult<Bytes>`) are values of an arbitrary type `V`.

Simplified: the parsed `Source` next to the bytes is a function of the bytes (see `Model/SourceCache`),
so an entry has one cell; `resolve` (the root resolver) is a fixed function; the disk is a function from
paths to contents, changed at will by the environment.
-/
namespace Tinymist.Vfs

/-! Association lists standing for `RedBlackTreeMapSync`. -/

def get {K V : Type} [DecidableEq K] : List (K × V) → K → Option V
  | [], _ => none
  | (k', v) :: l, k => if k' = k then some v else get l k

def erase {K V : Type} [DecidableEq K] (l : List (K × V)) (k : K) : List (K × V) :=
  l.filter fun x => x.1 ≠ k

def put {K V : Type} [DecidableEq K] (l : List (K × V)) (k : K) (v : V) : List (K × V) :=
  (k, v) :: erase l k

/-- The layers, lib.rs:128-131: shadow files by id over (resolved) shadow files by path over notified
files.  The disk below them is shared by everybody and kept in `World`. -/
structure Am (Path Fid V : Type) where
  byId : List (Fid × V)
  byPath : List (Path × V)
  notified : List (Path × V)

/-- A filled `BytesQuery`, lib.rs:580: the path read, the revision it was read at, the content. -/
structure Cell (Path V : Type) where
  path : Option Path
  rev : Nat
  val : V

/-- `VfsEntry`, lib.rs:583-587; `cell` is the index of its once-cell. -/
structure Entry where
  changedAt : Nat
  cell : Nat

/-- `PathMap`, lib.rs:624-627. -/
structure PathMap (Path Fid : Type) where
  paths : Path → List Fid
  fileIds : Fid → Option (Path × Nat)

/-- `EntryMap` (lib.rs:590-592) and `PathMap`. -/
structure Store (Path Fid : Type) where
  managed : Fid → Option Entry
  paths : PathMap Path Fid

/-- A `Vfs`, lib.rs:180-190. -/
structure Handle (Path Fid V : Type) where
  store : Nat
  revision : Nat
  am : Am Path Fid V

/-- Everything: the disk, the heaps, the `Vfs` values, and the reads that have looked up their cell but
not yet filled it (lib.rs:361-365 is two steps). -/
structure World (Path Fid V : Type) where
  disk : Path → V
  bytes : Nat → Option (Cell Path V)
  nextCell : Nat
  stores : Nat → Store Path Fid
  nextStore : Nat
  handles : Nat → Option (Handle Path Fid V)
  nextHandle : Nat
  pending : List (Nat × Fid × Nat)

section
variable {Path Fid V : Type} [DecidableEq Path] [DecidableEq Fid]

def set {K A : Type} [DecidableEq K] (f : K → A) (k : K) (a : A) : K → A := fun x => if x = k then a else f x

def PathMap.empty : PathMap Path Fid := ⟨fun _ => [], fun _ => none⟩

def Store.empty : Store Path Fid := ⟨fun _ => none, .empty⟩

/-- `PathMap::insert`, lib.rs:630-657. -/
def PathMap.insert (m : PathMap Path Fid) (next : Path) (fid : Fid) (rev : Nat) : PathMap Path Fid :=
  match m.fileIds fid with
  | some (prev, _) =>
    if prev ≠ next then
      let paths := set m.paths prev ((m.paths prev).filter fun f => f ≠ fid)
      ⟨set paths next (paths next ++ [fid]), set m.fileIds fid (some (next, rev))⟩
    else m
  | none => ⟨set m.paths next (m.paths next ++ [fid]), set m.fileIds fid (some (next, rev))⟩

/-- `content` of the path layers, overlay.rs:74-81 and notify.rs:150-156, down to the disk. -/
def Am.pathContent (am : Am Path Fid V) (disk : Path → V) (p : Path) : V :=
  match get am.byPath p with
  | some v => v
  | none =>
    match get am.notified p with
    | some v => v
    | none => disk p

/-- `content` of the whole stack, overlay.rs:88-95 and resolve.rs:27-34. -/
def Am.content (resolve : Fid → Except V Path) (am : Am Path Fid V) (disk : Path → V) (f : Fid) :
    Option Path × V :=
  match get am.byId f with
  | some v => (none, v)
  | none =>
    match resolve f with
    | .ok p => (some p, am.pathContent disk p)
    | .error e => (none, e)

/-- `RevisingVfs`, lib.rs:453-459, with the cells allocated so far. -/
structure Revising (Path Fid V : Type) where
  managed : Fid → Option Entry
  paths : PathMap Path Fid
  am : Am Path Fid V
  goal : Nat
  changed : Bool
  nextCell : Nat

/-- `invalidate_file_id`, lib.rs:494-501. -/
def Revising.invalidateId (r : Revising Path Fid V) (f : Fid) : Revising Path Fid V :=
  { r with
    changed := true
    managed := set r.managed f (some ⟨r.goal, r.nextCell⟩)
    nextCell := r.nextCell + 1 }

/-- `invalidate_path`, lib.rs:481-492. -/
def Revising.invalidatePath (r : Revising Path Fid V) (p : Path) : Revising Path Fid V :=
  (r.paths.paths p).foldl Revising.invalidateId r

inductive Edit (Path Fid V : Type) where
  | mapShadow (p : Path) (v : V)
  | unmapShadow (p : Path)
  | mapShadowById (f : Fid) (v : V)
  | removeShadowById (f : Fid)
  | notify (removes : List Path) (inserts : List (Path × V))
  | resetShadow
  | resetCache

/-- `NotifyAccessModel::notify`, notify.rs:131-139. -/
def notifyFiles (files : List (Path × V)) (removes : List Path) (inserts : List (Path × V)) :
    List (Path × V) :=
  inserts.foldl (fun l x => put l x.1 x.2) (removes.foldl erase files)

/-- The editing methods of `RevisingVfs`, lib.rs:504-577. -/
def Edit.apply (r : Revising Path Fid V) : Edit Path Fid V → Revising Path Fid V
  | .mapShadow p v =>
    let r := { r with changed := true }.invalidatePath p
    { r with am := { r.am with byPath := put r.am.byPath p v } }
  | .unmapShadow p =>
    let r := { r with changed := true }.invalidatePath p
    { r with am := { r.am with byPath := erase r.am.byPath p } }
  | .mapShadowById f v =>
    let r := r.invalidateId f
    { r with am := { r.am with byId := put r.am.byId f v } }
  | .removeShadowById f =>
    let r := r.invalidateId f
    { r with am := { r.am with byId := erase r.am.byId f } }
  | .notify removes inserts =>
    let r := (removes ++ inserts.map (·.1)).foldl Revising.invalidatePath r
    { r with am := { r.am with notified := notifyFiles r.am.notified removes inserts } }
  | .resetShadow =>
    let r := (r.am.byPath.map (·.1)).foldl Revising.invalidatePath r
    let r := (r.am.byId.map (·.1)).foldl Revising.invalidateId r
    { r with am := { r.am with byId := [], byPath := [] } }
  | .resetCache => { r with changed := true, managed := fun _ => none, paths := .empty }

/-- `Vfs::revise`, lib.rs:342-354. -/
def reviseStart (w : World Path Fid V) (H : Handle Path Fid V) : Revising Path Fid V :=
  let s := w.stores H.store
  ⟨s.managed, s.paths, H.am, H.revision + 1, false, w.nextCell⟩

/-- The revision after the edits and before it is dropped. -/
def revising (w : World Path Fid V) (H : Handle Path Fid V) (es : List (Edit Path Fid V)) :
    Revising Path Fid V := es.foldl Edit.apply (reviseStart w H)

/-- `revise()`, edits, and the `Drop` at the end, lib.rs:461-470. The edits borrow the handle
exclusively, so nothing else happens to it in between. -/
def revise (w : World Path Fid V) (h : Nat) (es : List (Edit Path Fid V)) : World Path Fid V :=
  match w.handles h with
  | none => w
  | some H =>
    let r := revising w H es
    if r.changed then
      { w with
        stores := set w.stores w.nextStore ⟨r.managed, r.paths⟩
        nextStore := w.nextStore + 1
        nextCell := r.nextCell
        handles := set w.handles h (some ⟨w.nextStore, r.goal, r.am⟩) }
    else { w with handles := set w.handles h (some { H with am := r.am }) }

/-- `Vfs::snapshot`, lib.rs:207-215. -/
def snapshot (w : World Path Fid V) (h : Nat) : World Path Fid V :=
  match w.handles h with
  | none => w
  | some H => { w with handles := set w.handles w.nextHandle (some H), nextHandle := w.nextHandle + 1 }

/-- `Vfs::fork`, lib.rs:217-225. -/
def fork (w : World Path Fid V) (h : Nat) : World Path Fid V :=
  match w.handles h with
  | none => w
  | some H =>
    { w with
      stores := set w.stores w.nextStore .empty
      nextStore := w.nextStore + 1
      handles := set w.handles w.nextHandle (some ⟨w.nextStore, 2, H.am⟩)
      nextHandle := w.nextHandle + 1 }

/-- `EntryMap::slot`, lib.rs:597-606: the entry of `f` in store `s`, created if missing. -/
def slot (w : World Path Fid V) (s : Nat) (f : Fid) : World Path Fid V :=
  match (w.stores s).managed f with
  | some _ => w
  | none =>
    { w with
      stores := set w.stores s { w.stores s with managed := set (w.stores s).managed f (some ⟨0, w.nextCell⟩) }
      nextCell := w.nextCell + 1 }

/-- lib.rs:429-431: file `f` under the path it was read from. -/
def filed (stores : Nat → Store Path Fid) (s : Nat) (path : Option Path) (f : Fid) (rev : Nat) :
    Nat → Store Path Fid :=
  match path with
  | some p => set stores s { stores s with paths := (stores s).paths.insert p f rev }
  | none => stores

/-- `read_content`, lib.rs:425-436: fill cell `c` unless it is filled. -/
def fill (resolve : Fid → Except V Path) (w : World Path Fid V) (H : Handle Path Fid V) (f : Fid) (c : Nat) :
    World Path Fid V :=
  match w.bytes c with
  | some _ => w
  | none =>
    let r := H.am.content resolve w.disk f
    { w with
      bytes := set w.bytes c (some ⟨r.1, H.revision, r.2⟩)
      stores := filed w.stores H.store r.1 f H.revision }

/-- First step of `Vfs::read`, lib.rs:362. -/
def beginRead (w : World Path Fid V) (h : Nat) (f : Fid) : World Path Fid V :=
  match w.handles h with
  | none => w
  | some H =>
    let w := slot w H.store f
    match (w.stores H.store).managed f with
    | some e => { w with pending := w.pending ++ [(h, f, e.cell)] }
    | none => w

/-- Second step of `Vfs::read`, lib.rs:364, of the `i`-th read under way. -/
def finishRead (resolve : Fid → Except V Path) (w : World Path Fid V) (i : Nat) : World Path Fid V :=
  match w.pending[i]? with
  | none => w
  | some (h, f, c) =>
    match w.handles h with
    | none => w
    | some H => { fill resolve w H f c with pending := w.pending.eraseIdx i }

/-- `Vfs::read`, lib.rs:361-365, when nothing happens between its two steps. -/
def read (resolve : Fid → Except V Path) (w : World Path Fid V) (h : Nat) (f : Fid) : World Path Fid V :=
  match w.handles h with
  | none => w
  | some H =>
    let w := slot w H.store f
    match (w.stores H.store).managed f with
    | some e => fill resolve w H f e.cell
    | none => w

/-- The content in the cell of `f` as seen from handle `h`. -/
def cached (w : World Path Fid V) (h : Nat) (f : Fid) : Option V := do
  let H ← w.handles h
  let e ← (w.stores H.store).managed f
  let c ← w.bytes e.cell
  pure c.val

/-- What `Vfs::read` returns. -/
def readResult (resolve : Fid → Except V Path) (w : World Path Fid V) (h : Nat) (f : Fid) : Option V :=
  cached (read resolve w h f) h f

/-- `Vfs::evict`, lib.rs:300-309; an unfilled cell counts as revision 0. -/
def evict (w : World Path Fid V) (h threshold : Nat) : World Path Fid V :=
  match w.handles h with
  | none => w
  | some H =>
    let s := w.stores H.store
    let keep := fun e : Entry => ¬ (((w.bytes e.cell).map (·.rev)).getD 0 + threshold < H.revision)
    let s' := { s with managed := fun f => (s.managed f).filter fun e => keep e }
    { w with stores := set w.stores H.store s' }

/-- `Vfs::is_clean_compile`, lib.rs:227-245. -/
def isCleanCompile (w : World Path Fid V) (h : Nat) (rev : Nat) (ids : List Fid) : Bool :=
  match w.handles h with
  | none => false
  | some H => ids.all fun f =>
    match (w.stores H.store).managed f with
    | some e => decide (e.changedAt ≤ rev)
    | none => false

/-- What can happen. -/
inductive Op (Path Fid V : Type) where
  | snapshot (h : Nat)
  | fork (h : Nat)
  | revise (h : Nat) (es : List (Edit Path Fid V))
  | beginRead (h : Nat) (f : Fid)
  | finishRead (i : Nat)
  | read (h : Nat) (f : Fid)
  | evict (h threshold : Nat)
  | disk (p : Path) (v : V)

def step (resolve : Fid → Except V Path) (w : World Path Fid V) : Op Path Fid V → World Path Fid V
  | .snapshot h => snapshot w h
  | .fork h => fork w h
  | .revise h es => revise w h es
  | .beginRead h f => beginRead w h f
  | .finishRead i => finishRead resolve w i
  | .read h f => read resolve w h f
  | .evict h t => evict w h t
  | .disk p v => { w with disk := set w.disk p v }

def run (resolve : Fid → Except V Path) (w : World Path Fid V) (ops : List (Op Path Fid V)) :
    World Path Fid V := ops.foldl (step resolve) w

/-- `with_shadow_file`, crates/tinymist-world/src/lib.rs:102-112, on handle `h`: map the shadow file, run the
query, unmap it. Mapping and unmapping always succeed on a `Vfs`; the query's outcome does not matter. -/
def withShadowFile (resolve : Fid → Except V Path) (w : World Path Fid V) (h : Nat) (p : Path) (v : V)
    (query : List (Op Path Fid V)) : World Path Fid V :=
  run resolve (revise w h [.mapShadow p v]) query |> fun w => revise w h [.unmapShadow p]

/-- `with_shadow_file_by_id`, crates/tinymist-world/src/lib.rs:118-129. -/
def withShadowFileById (resolve : Fid → Except V Path) (w : World Path Fid V) (h : Nat) (f : Fid) (v : V)
    (query : List (Op Path Fid V)) : World Path Fid V :=
  run resolve (revise w h [.mapShadowById f v]) query |> fun w => revise w h [.removeShadowById f]

/-- A fresh `Vfs` (lib.rs:260-280) over a disk: handle 0, revision 2. -/
def init (disk : Path → V) : World Path Fid V :=
  ⟨disk, fun _ => none, 0, fun _ => .empty, 1, set (fun _ => none) 0 (some ⟨0, 2, ⟨[], [], []⟩⟩), 1, []⟩

end
end Tinymist.Vfs
