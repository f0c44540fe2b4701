/-!
# Atomic file replacement

Models `write_atomic`, `crates/tinymist-std/src/fs/paths.rs:187-221`, on a file system of regular files.
The contract of the operating system is: a rename replaces the target in one step; other operations
touch only the file they name.  The temporary name is one that did not exist (`tempfile_in`).
-/
namespace Tinymist.AtomicWrite

abbrev Bytes := List Nat
abbrev Path := String

/-- A regular file: content and permission bits. -/
structure File where
  data : Bytes
  mode : Nat
  deriving DecidableEq

abbrev Fs := Path → Option File

def Fs.set (fs : Fs) (p : Path) (f : Option File) : Fs := fun q => if q = p then f else fs q

inductive Op where
  | create (p : Path)
  | write (p : Path) (chunk : Bytes)
  | chmod (p : Path) (mode : Nat)
  | rename (src dst : Path)

/-- `0o600`, the mode `tempfile` creates files with (paths.rs:190-193). -/
def tmpMode : Nat := 0o600

def Op.apply : Op → Fs → Fs
  | .create p, fs => fs.set p (some ⟨[], tmpMode⟩)
  | .write p b, fs => fs.set p ((fs p).map fun f => { f with data := f.data ++ b })
  | .chmod p m, fs => fs.set p ((fs p).map fun f => { f with mode := m })
  | .rename s d, fs => (fs.set d (fs s)).set s none

/-- The permission bits kept, paths.rs:195-205: `S_IRWXU | S_IRWXG | S_IRWXO`. -/
def permMask : Nat := 0o777

/-- `write_atomic`, paths.rs:187-221, as system calls; `chunks` is how `write_all` splits the data. -/
def writeAtomic (fs : Fs) (path tmp : Path) (chunks : List Bytes) : List Op :=
  let perms := (fs path).map fun f => f.mode &&& permMask
  [.create tmp] ++ chunks.map (.write tmp) ++
    (match perms with | some m => [.chmod tmp m] | none => []) ++ [.rename tmp path]

def runOps (ops : List Op) (fs : Fs) : Fs := ops.foldl (fun fs op => op.apply fs) fs

/-- The file systems a crash (or a failing call, or a concurrent reader) can see. -/
inductive Visible : List Op → Fs → Fs → Prop where
  | stop (ops fs) : Visible ops fs fs
  | torn (p b ops fs c) (h : c <+: b) : Visible (.write p b :: ops) fs (Op.apply (.write p c) fs)
  | step (op ops fs fs') (h : Visible ops (op.apply fs) fs') : Visible (op :: ops) fs fs'

end Tinymist.AtomicWrite
