/-!
# The documentation of a package

Models the collection of the definitions of a package (crates/tinymist-query/src/docs/module.rs) and the sections that are
written for them (crates/tinymist-query/src/docs/package.rs).

Files are numbers. What is left out: the texts of the documentation, locations, signatures and the metadata in comments;
`expr_stage_by_id` is a function of the file, which has no result for a file that cannot be read. The recursion of the
collection is bounded by `fuel`, and so are the rounds of the generation: `none` if it does not suffice, or if the program
panics.
-/

namespace Tinymist.PkgDocs

abbrev Text := List Char
abbrev Path := List Text

/-- `DefKind` (crates/tinymist-analysis/src/syntax/def.rs:546-559). -/
inductive Kind where
  | module | function | variable | constant | reference
  deriving DecidableEq, Repr

/-- `Decl`: its kind, whether it is `Decl::Module`, and `Decl::file_id` (def.rs:562-568). -/
structure Decl where
  kind : Kind
  isModule : Bool
  file : Option Nat
  deriving DecidableEq, Repr

/-- `Decl::module`. -/
def Decl.mod (g : Nat) : Decl := ⟨.module, true, some g⟩

/-- `Expr`, as far as exports are told apart (module.rs:127-155): a declaration, a reference with a root, a selection, or
something else. -/
inductive Exp where
  | decl (d : Decl)
  | ref (root : Exp)
  | select
  | other
  deriving DecidableEq, Repr

/-- What a chain of references ends in (module.rs:129-131). -/
def target : Exp → Exp
  | .ref r => target r
  | e => e

/-- The files of a package and of others: which are in the package (`fid.package() == for_spec`), what they export, in the
order of names, if they can be analysed, their stems, and the entry point. -/
structure World where
  same : Nat → Bool
  exports : Nat → Option (List (Text × Exp))
  stem : Nat → Text
  root : Nat

/-- `DefInfo` (module.rs:67-94). -/
inductive Def where
  | mk (name : Text) (kind : Kind) (decl : Option Decl) (isExternal : Bool) (children : List Def)

def Def.name : Def → Text | .mk n _ _ _ _ => n
def Def.kind : Def → Kind | .mk _ k _ _ _ => k
def Def.decl : Def → Option Decl | .mk _ _ d _ _ => d
def Def.isExternal : Def → Bool | .mk _ _ _ e _ => e
def Def.children : Def → List Def | .mk _ _ _ _ cs => cs

/-- The paths under which a file is found (module.rs:108), for the files that have an entry. -/
abbrev Aliases := Nat → Option (List Path)

/-- What a scan changes (module.rs:106-112). -/
structure St where
  aliases : Aliases
  extras : List Def

/-- The paths of a file, none if it has no entry. -/
def Aliases.of (al : Aliases) (g : Nat) : List Path := (al g).getD []

/-- `entry(fid).or_default()` (module.rs:230). -/
def Aliases.touch (al : Aliases) (g : Nat) : Aliases := fun x => if x = g then some (al.of g) else al x

/-- `entry(fid).or_default().push(path)` (module.rs:178-180). -/
def Aliases.push (al : Aliases) (g : Nat) (p : Path) : Aliases := fun x => if x = g then some (al.of g ++ [p]) else al x

/-- The exports of a module (module.rs:190-199) with `expr` (module.rs:120-157); `scan` is `def`. -/
def scanAll (scan : Text → Path → Nat → Decl → St → Option (Def × St)) (path : Path) (fid : Nat) :
    List (Text × Exp) → St → Option (List Def × St)
  | [], st => some ([], st)
  | (n, e) :: rest, st =>
    match (match target e with
      | .decl d => scan n (path ++ [n]) fid d st
      | .select => some (.mk n .module none false [], st)
      | _ => some (.mk n .constant none false [], st)) with
    | none => none
    | some (c, st) =>
      match scanAll scan path fid rest st with
      | none => none
      | some (cs, st) => some (c :: cs, st)

/-- The file of a module of the package (module.rs:171-175). -/
def World.moduleOf (w : World) (d : Decl) : Option Nat :=
  if d.isModule then d.file.filter w.same else none

/-- `is_external` (module.rs:216-223): the file of the declaration is not the one it is exported from. -/
def Decl.outside (d : Decl) (site : Nat) : Bool :=
  match d.file with
  | some f => f ≠ site
  | none => false

/-- `def` (module.rs:159-250), and `defs` (module.rs:115-125) for files that are not exported. -/
def scanDef (w : World) : Nat → Text → Path → Nat → Decl → St → Option (Def × St)
  | 0, _, _, _, _, _ => none
  | fuel + 1, key, path, site, d, st =>
    match (match w.moduleOf d with
      | none => some ([], st)
      | some g =>
        if st.aliases.of g = [] then
          match w.exports g with
          | none => some ([], ⟨st.aliases.push g path, st.extras⟩)
          | some es => scanAll (scanDef w fuel) path g es ⟨st.aliases.push g path, st.extras⟩
        else some ([], ⟨st.aliases.push g path, st.extras⟩)) with
    | none => none
    | some (cs, st) =>
      let head := Def.mk key d.kind (some d) (d.outside site) cs
      match d.file with
      | none => some (head, st)
      | some g =>
        if w.same g = true ∧ st.aliases.of g = [] then
          match w.exports g with
          | none => some (head, ⟨st.aliases.touch g, st.extras⟩)
          | some _ =>
            match scanDef w fuel (w.stem g) (path ++ [['-'], key]) w.root (.mod g) ⟨st.aliases.touch g, st.extras⟩ with
            | none => none
            | some (m, st) => some (head, ⟨st.aliases, st.extras ++ [m]⟩)
        else some (head, st)

/-- `module_docs` (module.rs:29-65) of an entry point that can be read: the tree and the paths of files. -/
def moduleDocs (w : World) (fuel : Nat) : Option (Def × Aliases) :=
  match scanDef w fuel (w.stem w.root) [] w.root (.mod w.root) ⟨fun _ => none, []⟩ with
  | none => none
  | some (.mk n k d e cs, st) => some (.mk n k d e (cs ++ st.extras), st.aliases)

/-! ## The sections -/

/-- `str::len`. -/
def byteLen (t : Text) : Nat := (t.map Char.utf8Size).sum

/-- `path.iter().join(".")` (module.rs:180). -/
def joined : Path → Text
  | [] => []
  | [n] => n
  | n :: m :: rest => n ++ '.' :: joined (m :: rest)

/-- The order of paths (module.rs:51): shorter ones first. -/
def pathLe (a b : Text) : Bool := byteLen a < byteLen b || (byteLen a == byteLen b && decide (a ≤ b))

/-- `akas` (package.rs:58-68); `none`: it panics. -/
def akas (al : Aliases) (g : Nat) : Option (List Text) := (al g).map fun ps => (ps.map joined).mergeSort pathLe

/-- What a heading or a link to one says: a definition of a kind, by its name, in a module (package.rs:136, 147-148). -/
structure Anchor where
  kind : Kind
  name : Text
  module : Text
  deriving DecidableEq, Repr

/-- What is written for a definition (package.rs:105-243): its heading, and a link to where it is defined, if that is in the
package. -/
structure Entry where
  heading : Anchor
  link : Option Anchor
  deriving DecidableEq, Repr

/-- A section (package.rs:71-247). -/
structure Section where
  file : Option Nat
  primary : Text
  entries : List Entry
  deriving DecidableEq, Repr

/-- The file of a child (package.rs:115-116); the span of a declaration is in its file. -/
def fileOf (fid : Option Nat) (c : Def) : Option Nat := (c.decl.bind (·.file)).or fid

/-- The first of the names of a file (package.rs:77-81). -/
def primaryOf (al : Aliases) (fid : Option Nat) : Option Text :=
  match fid with
  | none => some []
  | some g => (akas al g).map fun l => l.head?.getD []

/-- What is written for a child (package.rs:105-164, 222-238); `none`: it panics. -/
def entryOf (w : World) (al : Aliases) (fid : Option Nat) (primary : Text) (c : Def) : Option Entry :=
  let heading : Anchor := ⟨c.kind, c.name, primary⟩
  match (match fileOf fid c with
    | none => some none
    | some g =>
      if c.isExternal = true ∧ w.same g = true then (primaryOf al (some g)).map fun p => some (Anchor.mk c.kind c.name p)
      else some none) with
  | none => none
  | some link =>
    if c.children = [] then some ⟨heading, link⟩
    else
      match fileOf fid c with
      | none => some ⟨heading, link⟩
      | some g => (primaryOf al (some g)).map fun _ => ⟨heading, link⟩

/-- The entries of children. -/
def entriesOf (w : World) (al : Aliases) (fid : Option Nat) (primary : Text) : List Def → Option (List Entry)
  | [] => some []
  | c :: cs =>
    match entryOf w al fid primary c, entriesOf w al fid primary cs with
    | some e, some es => some (e :: es)
    | _, _ => none

/-- The section of a definition (package.rs:72-104); `none`: it panics. -/
def sectionOf (w : World) (al : Aliases) (d : Def) : Option Section :=
  match d.decl with
  | none => none
  | some decl =>
    match primaryOf al decl.file with
    | none => none
    | some primary => (entriesOf w al decl.file primary d.children).map (Section.mk decl.file primary)

/-- The children for which there will be sections (package.rs:222-238): those with children, of files that are not yet in
`generated_modules`. -/
def queueOf (fid : Option Nat) : List Def → List Nat → List Def × List Nat
  | [], gen => ([], gen)
  | c :: cs, gen =>
    if c.children = [] then queueOf fid cs gen
    else
      match fileOf fid c with
      | none => queueOf fid cs gen
      | some g =>
        if g ∈ gen then queueOf fid cs gen
        else
          let r := queueOf fid cs (g :: gen)
          (c :: r.1, r.2)

/-- A round over the modules to generate (package.rs:71-248). -/
def genRound (w : World) (al : Aliases) : List Def → List Nat → Option (List Section × List Def × List Nat)
  | [], gen => some ([], [], gen)
  | d :: ds, gen =>
    match sectionOf w al d with
    | none => none
    | some s =>
      let q := queueOf (d.decl.bind (·.file)) d.children gen
      match genRound w al ds q.2 with
      | none => none
      | some (ss, q', gen) => some (s :: ss, q.1 ++ q', gen)

/-- The loop (package.rs:70-249). -/
def genLoop (w : World) (al : Aliases) : Nat → List Def → List Nat → Option (List Section)
  | _, [], _ => some []
  | 0, _ :: _, _ => none
  | fuel + 1, d :: ds, gen =>
    match genRound w al (d :: ds) gen with
    | none => none
    | some (ss, q, gen) => (genLoop w al fuel q gen).map (ss ++ ·)

/-- `package_docs` (package.rs:15-253). -/
def packageDocs (w : World) (fuel : Nat) : Option (List Section) :=
  match moduleDocs w fuel with
  | none => none
  | some (d, al) => genLoop w al fuel [d] []

end Tinymist.PkgDocs
