import Verif.Model.SourceDb
/-!
# The universe of a project, its revisions and its worlds

Models `CompilerUniverse`, `RevisingUniverse` and `CompilerWorld`, `crates/tinymist-world/src/world.rs`.

Simplified: an edit of the files is given by whether it changed the file system's revision (what edits do is
`Model/Vfs`); what a world finds in a file is a function, as a world's file system is a snapshot (C04);
choosing an entry by a path is a function `select` (it is modelled in `Model/Workspace`).
-/
namespace Tinymist.Universe

/-- `EntryState`, entry.rs:19-25: the root and the main file. -/
structure Entry where
  root : Option Nat
  main : Option Nat
  deriving DecidableEq

/-- A `FontResolver` or `PackageRegistry`: which one it is, and its `revision()`, font/resolver.rs:24. -/
structure Provider where
  content : Nat
  rev : Option Nat
  deriving DecidableEq

/-- `CompilerUniverse`, world.rs:47-65. `filesRev` is the revision of `vfs`; features are `html` or not. -/
structure Universe where
  entry : Entry
  inputs : Nat
  html : Bool
  fonts : Provider
  packages : Provider
  filesRev : Nat
  revision : Nat
  deriving DecidableEq

/-- `RevisingUniverse`, world.rs:322-330. -/
structure Revising where
  viewChanged : Bool
  filesRev : Nat
  fontChanged : Bool
  fontRev : Option Nat
  packagesChanged : Bool
  packagesRev : Option Nat
  inner : Universe

/-- `is_revision_changed`, world.rs:430-432. -/
def isRevisionChanged (a b : Option Nat) : Bool := a.isNone || b.isNone || a != b

/-- `reset_cache` or another edit of the files that is seen, tinymist-vfs/src/lib.rs:461-470. -/
def Universe.editFiles (u : Universe) : Universe := { u with filesRev := u.filesRev + 1 }

/-- `set_entry_file_`, world.rs:190-203: the new entry, or an error. -/
def Universe.setEntryFile (select : Entry → Nat → Option Entry) (u : Universe) (path : Nat) : Universe :=
  match select u.entry path with
  | some e => { u with entry := e }
  | none => u

/-- What can be done in a revision. -/
inductive Change where
  | fonts (p : Provider)
  | packages (p : Provider)
  | inputs (i : Nat)
  | entryFile (path : Nat)
  | entry (e : Entry)
  | flush
  | files (changed : Bool)

/-- The methods of `RevisingUniverse`, world.rs:373-416. -/
def Change.apply (select : Entry → Nat → Option Entry) (r : Revising) : Change → Revising
  | .fonts p => { r with fontChanged := true, inner := { r.inner with fonts := p } }
  | .packages p => { r with packagesChanged := true, inner := { r.inner with packages := p } }
  | .inputs i => { r with viewChanged := true, inner := { r.inner with inputs := i } }
  | .entryFile p => { r with viewChanged := true, inner := r.inner.setEntryFile select p }
  | .entry e =>
    let u := if r.inner.entry.root ≠ e.root then r.inner.editFiles else r.inner
    { r with viewChanged := true, inner := { u with entry := e } }
  | .flush => { r with viewChanged := true }
  | .files changed => { r with inner := if changed then r.inner.editFiles else r.inner }

/-- `increment_revision`, world.rs:176-186, before the changes. -/
def Universe.revise (u : Universe) : Revising :=
  ⟨false, u.filesRev, false, u.fonts.rev, false, u.packages.rev, u⟩

/-- The end of a revision, `drop`, world.rs:346-371. -/
def Revising.drop (r : Revising) : Universe :=
  let fontChanged := r.fontChanged && isRevisionChanged r.fontRev r.inner.fonts.rev
  let packagesChanged := r.packagesChanged && isRevisionChanged r.packagesRev r.inner.packages.rev
  let u := if packagesChanged then r.inner.editFiles else r.inner
  let changed := r.viewChanged || fontChanged || packagesChanged
  if changed || (r.filesRev != u.filesRev) then { u with revision := u.revision + 1 } else u

/-- What happens to a universe. -/
inductive Step where
  /-- `increment_revision`, world.rs:176, with changes in it. -/
  | revise (changes : List Change)
  /-- `mutate_entry` of `EntryManager`, world.rs:316-320. -/
  | mutateEntry (e : Entry)
  /-- `with_entry_file`, world.rs:98-101. -/
  | withEntryFile (path : Nat)

def Universe.step (select : Entry → Nat → Option Entry) (u : Universe) : Step → Universe
  | .revise cs => (cs.foldl (Change.apply select) u.revise).drop
  | .mutateEntry e => { u.revise with inner := { u with entry := e } }.drop
  | .withEntryFile p => { u.revise with inner := u.setEntryFile select p }.drop

/-- The universe after each step, the first one in front. -/
def history (select : Entry → Nat → Option Entry) (u : Universe) : List Step → List Universe
  | [] => [u]
  | s :: rest => u :: history select (u.step select s) rest

/-! ## Worlds -/

section
variable {V : Type}

/-- `CompilerWorld`, world.rs:439-462. `library` is what `create_library` was last called with; `files` is
what the world's file system holds; `db` says which of the shared tables of contents the world uses. -/
structure World (V : Type) where
  entry : Entry
  inputs : Nat
  html : Bool
  library : Nat × Bool
  fonts : Provider
  packages : Provider
  files : Nat → V
  revision : Nat
  db : Nat
  compiling : Bool
  now : Option Nat

/-- All worlds, the tables of contents they share, and the clock. -/
structure State (V : Type) where
  dbs : List (SourceDb.Slots Nat V)
  worlds : List (World V)
  clock : Nat

/-- `snapshot_with(None)`, world.rs:155-172. -/
def State.snapshot (s : State V) (u : Universe) (files : Nat → V) : State V :=
  { s with
    dbs := s.dbs ++ [[]]
    worlds := s.worlds ++
      [⟨u.entry, u.inputs, u.html, (u.inputs, u.html), u.fonts, u.packages, files, u.revision,
        s.dbs.length, true, none⟩] }

def State.setWorld (s : State V) (w : Nat) (x : World V) : State V :=
  { s with worlds := s.worlds.set w x }

/-- `today`, world.rs:717-733: the time is taken when it is first asked for. -/
def State.today (s : State V) (w : Nat) : State V × Option Nat :=
  match s.worlds[w]? with
  | none => (s, none)
  | some x =>
    match x.now with
    | some t => (s, some t)
    | none => (s.setWorld w { x with now := some s.clock }, some s.clock)

/-- The world made by `task`, world.rs:478-512, from a world whose time is known. -/
def World.forked (x : World V) (entry : Option Entry) (inputs : Option Nat) : World V :=
  { x with
    inputs := inputs.getD x.inputs
    library := match inputs with
      | some i => (i, x.html)
      | none => x.library
    entry := entry.getD x.entry }

/-- `task`, world.rs:478-512, and `clone`, world.rs:464-468. The new world is the last one. -/
def State.task (s : State V) (w : Nat) (entry : Option Entry) (inputs : Option Nat) : State V :=
  let s := (s.today w).1
  match s.worlds[w]? with
  | none => s
  | some x => { s with worlds := s.worlds ++ [x.forked entry inputs] }

/-- `take_db`, world.rs:522-524 and source.rs:118-126. -/
def State.takeDb (s : State V) (w : Nat) : State V :=
  match s.worlds[w]? with
  | none => s
  | some x => { s.setWorld w { x with db := s.dbs.length } with dbs := s.dbs ++ [[]] }

/-- `map_shadow_by_id`, world.rs:636-641. -/
def State.shadow (s : State V) (w f : Nat) (v : V) : State V :=
  match s.worlds[w]? with
  | none => s
  | some x => s.setWorld w { x with files := fun g => if g = f then v else x.files g }

/-- `source` and `file`, world.rs:689-706. -/
def State.read (s : State V) (w : Nat) (k : SourceDb.Kind) (f : Nat) : State V × Option V :=
  match s.worlds[w]? with
  | none => (s, none)
  | some x =>
    match s.dbs[x.db]? with
    | none => (s, none)
    | some db =>
      let r := SourceDb.read db x.compiling k f (x.files f)
      ({ s with dbs := s.dbs.set x.db r.1 }, some r.2)

/-- `iter_dependencies`, world.rs:766-771. -/
def State.dependencies (s : State V) (w : Nat) : List Nat :=
  match s.worlds[w]? with
  | none => []
  | some x => match s.dbs[x.db]? with
    | none => []
    | some db => SourceDb.dependencies db

/-- `html_task`, world.rs:589-605: a clone with another library, if needed. -/
def State.htmlTask (s : State V) (w : Nat) : State V × Nat :=
  match s.worlds[w]? with
  | none => (s, w)
  | some x =>
    if x.library.2 then (s, w) else
      let t := s.task w none none
      let n := s.worlds.length
      match t.worlds[n]? with
      | none => (t, n)
      | some y => (t.setWorld n { y with library := (y.inputs, true) }, n)

/-- `paged_task`, world.rs:574-587. -/
def State.pagedTask (s : State V) (w : Nat) : State V × Nat :=
  match s.worlds[w]? with
  | none => (s, w)
  | some x =>
    if !x.library.2 || x.html then (s, w) else
      let t := s.task w none none
      let n := s.worlds.length
      match t.worlds[n]? with
      | none => (t, n)
      | some y => (t.setWorld n { y with library := (y.inputs, y.html) }, n)

/-- What happens to worlds. -/
inductive Op (V : Type) where
  | snapshot (u : Universe) (files : Nat → V)
  | task (w : Nat) (entry : Option Entry) (inputs : Option Nat)
  | takeDb (w : Nat)
  | shadow (w f : Nat) (v : V)
  | read (w : Nat) (k : SourceDb.Kind) (f : Nat)
  | today (w : Nat)
  | html (w : Nat)
  | paged (w : Nat)
  | compiling (w : Nat) (b : Bool)
  | tick (n : Nat)

def State.step (s : State V) : Op V → State V
  | .snapshot u files => s.snapshot u files
  | .task w e i => s.task w e i
  | .takeDb w => s.takeDb w
  | .shadow w f v => s.shadow w f v
  | .read w k f => (s.read w k f).1
  | .today w => (s.today w).1
  | .html w => (s.htmlTask w).1
  | .paged w => (s.pagedTask w).1
  | .compiling w b => match s.worlds[w]? with
    | none => s
    | some x => s.setWorld w { x with compiling := b }
  | .tick n => { s with clock := s.clock + n }

def State.empty : State V := ⟨[], [], 0⟩

def State.run (s : State V) (ops : List (Op V)) : State V := ops.foldl State.step s

/-- The world of `convert_docs`, crates/tinymist-query/src/docs/convert.rs:22-28: a task whose main file is
given, with its own table. The new world is the last one. -/
def State.convertDocs (s : State V) (w : Nat) (e : Entry) (main : Nat) (text : V) : State V :=
  let n := s.worlds.length
  ((s.task w (some e) none).shadow n main text).takeDb n

/-- The world of a rendering, crates/typlite/src/lib.rs:600-605. -/
def State.render (s : State V) (w : Nat) (e : Entry) (inputs : Option Nat) (main : Nat) (text : V) : State V :=
  let n := s.worlds.length
  ((s.task w (some e) inputs).takeDb n).shadow n main text

/-- The world of the `StyleAt` query, crates/tinymist-query/src/code_context.rs:73-109: a clone in which an
opened file has another text. -/
def State.styleAt (s : State V) (w file : Nat) (text : V) : State V :=
  let n := s.worlds.length
  ((s.task w none none).shadow n file text).takeDb n

/-- The world of the symbol view, crates/tinymist/src/resource/symbols.rs:996-1003. -/
def State.symbols (s : State V) (w : Nat) (e : Entry) (main : Nat) (text : V) : State V :=
  let n := s.worlds.length
  (s.task w (some e) none).shadow n main text

end
end Tinymist.Universe
