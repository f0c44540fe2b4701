import Verif.Model.Vfs
/-!
# What reading a file should give
-/
namespace Tinymist.Vfs
variable {Path Fid V : Type} [DecidableEq Path] [DecidableEq Fid]

/-- Where the content of a file comes from: a layer in memory, or the disk. -/
inductive Origin (Path V : Type) where
  | memory (v : V)
  | disk (p : Path)

/-- The newest layer that knows file `f`: an editor buffer registered by id, an editor buffer for its
path, content delivered by the watcher, the disk.  A file that has no path is an error. -/
def origin (resolve : Fid → Except V Path) (am : Am Path Fid V) (f : Fid) : Origin Path V :=
  match get am.byId f with
  | some v => .memory v
  | none =>
    match resolve f with
    | .error e => .memory e
    | .ok p =>
      match get am.byPath p with
      | some v => .memory v
      | none =>
        match get am.notified p with
        | some v => .memory v
        | none => .disk p

/-- `v` is what reading from there may give, when `P p x` says that path `p` has held `x` on disk. -/
def Origin.Gives (P : Path → V → Prop) : Origin Path V → V → Prop
  | .memory x, v => v = x
  | .disk p, v => P p v

/-! The same layers straight from the history of edits, last one wins. -/

/-- The editor buffer for a path after a history of edits. -/
def bufferAfter (es : List (Edit Path Fid V)) : Path → Option V :=
  es.foldl (fun b e =>
    match e with
    | .mapShadow p v => set b p (some v)
    | .unmapShadow p => set b p none
    | .resetShadow => fun _ => none
    | _ => b) fun _ => none

/-- The editor buffer registered by id after a history of edits. -/
def idBufferAfter (es : List (Edit Path Fid V)) : Fid → Option V :=
  es.foldl (fun b e =>
    match e with
    | .mapShadowById f v => set b f (some v)
    | .removeShadowById f => set b f none
    | .resetShadow => fun _ => none
    | _ => b) fun _ => none

/-- What one watcher report says about `p`, given what was known: inserts win over removes, and among
inserts the last one. -/
def reported (old : Option V) (removes : List Path) (inserts : List (Path × V)) (p : Path) : Option V :=
  match inserts.reverse.find? (fun x => x.1 = p) with
  | some x => some x.2
  | none => if p ∈ removes then none else old

/-- The content last delivered by the watcher after a history of edits. -/
def notifiedAfter (es : List (Edit Path Fid V)) : Path → Option V :=
  es.foldl (fun b e =>
    match e with
    | .notify removes inserts => fun p => reported (b p) removes inserts p
    | _ => b) fun _ => none

/-- The newest layer that knows file `f` after a history of edits. -/
def originAfter (resolve : Fid → Except V Path) (es : List (Edit Path Fid V)) (f : Fid) : Origin Path V :=
  match idBufferAfter es f with
  | some v => .memory v
  | none =>
    match resolve f with
    | .error e => .memory e
    | .ok p =>
      match bufferAfter es p with
      | some v => .memory v
      | none =>
        match notifiedAfter es p with
        | some v => .memory v
        | none => .disk p

/-- The edit is about path `p`: a buffer opened, changed or closed there, a watcher report naming it, or
the cache being dropped. -/
def Edit.Mentions (p : Path) : Edit Path Fid V → Prop
  | .mapShadow q _ | .unmapShadow q => q = p
  | .notify removes inserts => p ∈ removes ∨ p ∈ inserts.map (·.1)
  | .resetCache => True
  | _ => False

/-- Operations on a file system that has no snapshots. -/
inductive LiveOp (Path Fid V : Type) where
  | edit (es : List (Edit Path Fid V))
  | read (f : Fid)
  | evict (threshold : Nat)
  | disk (p : Path) (v : V)

def LiveOp.toOp : LiveOp Path Fid V → Op Path Fid V
  | .edit es => .revise 0 es
  | .read f => .read 0 f
  | .evict t => .evict 0 t
  | .disk p v => .disk p v

/-- The edits of a history. -/
def editsOf : List (LiveOp Path Fid V) → List (Edit Path Fid V)
  | [] => []
  | .edit es :: ops => es ++ editsOf ops
  | _ :: ops => editsOf ops

/-- If the operation writes to the disk, what it writes satisfies `P`. -/
def Op.Writes (P : Path → V → Prop) : Op Path Fid V → Prop
  | .disk p v => P p v
  | _ => True

/-- Every content the disk is given during the history satisfies `P`. -/
def DiskIn (P : Path → V → Prop) (disk : Path → V) (ops : List (Op Path Fid V)) : Prop :=
  (∀ p, P p (disk p)) ∧ ∀ op ∈ ops, op.Writes P

/-- The edits made on each handle: a snapshot or fork starts with those of its parent.  The first component
is the number of handles so far. -/
def histStep (s : Nat × (Nat → Option (List (Edit Path Fid V)))) :
    Op Path Fid V → Nat × (Nat → Option (List (Edit Path Fid V)))
  | .snapshot h | .fork h =>
    match s.2 h with
    | some es => (s.1 + 1, set s.2 s.1 (some es))
    | none => s
  | .revise h es =>
    match s.2 h with
    | some es0 => (s.1, set s.2 h (some (es0 ++ es)))
    | none => s
  | _ => s

def histories (ops : List (Op Path Fid V)) : Nat × (Nat → Option (List (Edit Path Fid V))) :=
  ops.foldl histStep (1, set (fun _ => none) 0 (some []))

/-- The operation edits handle `h`. -/
def Op.Edits (h : Nat) : Op Path Fid V → Prop
  | .revise h' _ => h' = h
  | _ => False

/-- The operation drops cache entries. -/
def Op.Evicts : Op Path Fid V → Prop
  | .evict _ _ => True
  | _ => False

/-- The operation drops the whole cache of handle `h`. -/
def Op.Resets (h : Nat) : Op Path Fid V → Prop
  | .revise h' es => h' = h ∧ Edit.resetCache ∈ es
  | _ => False

/-- An edit that shadows by id does so only for a file that has no path (untitled buffers). -/
def Edit.ByIdOnlyPathless (resolve : Fid → Except V Path) : Edit Path Fid V → Prop
  | .mapShadowById f _ | .removeShadowById f => ∀ p, resolve f ≠ .ok p
  | _ => True

/-- The schedules for which snapshots are proved isolated.  When a handle is edited: no read is under way
on a handle sharing its cache; buffers by id are for files without path; and if the edit touched nothing
read so far, no other handle shares its cache. -/
def CalmStep (resolve : Fid → Except V Path) (w : World Path Fid V) : Op Path Fid V → Prop
  | .revise h es => ∀ H, w.handles h = some H →
    (∀ r ∈ w.pending, ∀ H', w.handles r.1 = some H' → H'.store ≠ H.store) ∧
    (∀ e ∈ es, e.ByIdOnlyPathless resolve) ∧
    ((revising w H es).changed = true ∨
      ∀ h' H', h' ≠ h → w.handles h' = some H' → H'.store ≠ H.store)
  | _ => True

def Calm (resolve : Fid → Except V Path) : World Path Fid V → List (Op Path Fid V) → Prop
  | _, [] => True
  | w, op :: ops => CalmStep resolve w op ∧ Calm resolve (step resolve w op) ops

end Tinymist.Vfs
