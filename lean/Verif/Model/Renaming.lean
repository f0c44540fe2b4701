import Verif.Model.Paths

/-!
# What is at a place: going to its definition and renaming it

Models `definition`, `find_ident_definition` and `Definition::name_range` of
`crates/tinymist-query/src/analysis/definition.rs` (55-139), `GotoDefinitionRequest` (`goto_definition.rs` 25-51),
`PrepareRenameRequest` with `prepare_renaming` and `validate_fn_renaming` (`prepare_rename.rs` 34-127), the decisions of
`RenameRequest` (`rename.rs` 36-111) and `find_references` (`references.rs` 44-71).

What the tables of names, the types and the document say about the place are inputs (`Finds`); how they are built is
modelled in `Verif.Model.Scoping` and `Verif.Model.Bib`. Positions are byte offsets; their conversion is modelled in
`Verif.Model.Position`.
-/

namespace Tinymist.Renaming

open Paths

abbrev Range := Nat × Nat

/-- The kinds of `Decl` (`crates/tinymist-analysis/src/syntax/def.rs` 345-369). -/
inductive Kind where
  | func | importAlias | var | identRef | module | moduleAlias | pathStem | importPath | includePath | importItem
  | contentRef | label | strName | moduleImport | closure | pattern | spread | content | constant | bibEntry | docs
  | generated
  deriving DecidableEq, Repr

/-- `typst::foundations::func::Repr`. -/
inductive Fn where
  | withArgs (f : Fn)
  | closure | plugin | native | element
  deriving DecidableEq, Repr

/-- A value, as far as it matters. -/
inductive Val where
  | func (f : Fn)
  | other
  deriving DecidableEq, Repr

/-- A file: its number, whether it belongs to a package, where it is on the disk (`none` for untitled files), and whether
it can be read. -/
structure Place where
  id : Nat
  package : Bool
  path : Option Text
  readable : Bool
  deriving DecidableEq, Repr

/-- `Definition` with its declaration: the kind, the name, the file (`Decl::file_id`, def.rs 562-568), where the span of
the declaration is in its file, the range of the whole entry (`Decl::full_range`, def.rs 571-577; only entries of
bibliographies have it), and the value (`Definition::value`). -/
structure Def where
  kind : Kind
  name : Text
  file : Option Place
  span : Option Range
  full : Option Range
  value : Option Val
  deriving DecidableEq, Repr

/-- The node found at the position. -/
inductive Node where
  | ident | mathIdent | fieldAccess
  | str (text : Text)
  | other
  deriving DecidableEq, Repr

/-- `SyntaxClass`. -/
inductive Class where
  | varAccess | callee | importPath | includePath
  | label (isError : Bool)
  | ref | normal
  deriving DecidableEq, Repr

/-- What `classify_for_decl` finds at the position: the class, the node and its range and text. -/
structure Spot where
  cls : Class
  node : Node
  range : Range
  text : Text
  deriving DecidableEq, Repr

/-- An entry of a bibliography. -/
structure Entry where
  key : Text
  file : Place
  nameRange : Range
  range : Range
  deriving DecidableEq, Repr

/-- An element with the label: the file and range of the label, or of the element if the label is not known
(`ref_definition`, definition.rs 182-211). -/
structure Labelled where
  known : Bool
  name : Text
  file : Option Place
  span : Option Range
  deriving DecidableEq, Repr

/-- What is known about the place: the table of names at its span (`DefResolver::of_span`), the type of a field access
(`field_definition`), whether there is a compiled document, and what it says about the label. -/
structure Finds where
  lexical : Option Def
  field : Option Def
  document : Bool
  bib : Option Entry
  labelled : Option Labelled
  deriving DecidableEq, Repr

/-- `bib_definition` (definition.rs 160-180). -/
def bibDef (e : Entry) : Def := ⟨.bibEntry, e.key, some e.file, some e.nameRange, some e.range, none⟩

/-- `ref_definition` (definition.rs 182-211). -/
def labelDef (l : Labelled) : Def :=
  ⟨if l.known then .label else .content, l.name, l.file, l.span, none, some .other⟩

/-- `find_ident_definition` (definition.rs 119-139). -/
def identDef (n : Node) (k : Finds) : Option Def :=
  match n with
  | .ident => k.lexical
  | .mathIdent => k.lexical
  | .fieldAccess => k.field
  | _ => none

/-- The definition of a label or a reference (definition.rs 97-111). -/
def labelOf (k : Finds) : Option Def :=
  if k.document then (k.bib.map bibDef).or (k.labelled.map labelDef) else none

/-- `definition` (definition.rs 82-117). -/
def definition (s : Spot) (k : Finds) : Option Def :=
  match s.cls with
  | .varAccess => identDef s.node k
  | .callee => identDef s.node k
  | .importPath => k.lexical
  | .includePath => k.lexical
  | .label false => labelOf k
  | .ref => labelOf k
  | .label true => none
  | .normal => none

/-- `Decl::is_def` (def.rs 527-544). -/
def isDef : Kind → Bool
  | .func | .bibEntry | .closure | .var | .label | .strName | .module | .moduleImport | .pathStem | .importPath
  | .includePath | .spread | .generated => true
  | _ => false

/-- `Definition::name_range` (definition.rs 62-80). -/
def nameRange (d : Def) : Option Range := if isDef d.kind then d.span else none

/-- A link to a definition: the place asked about, the file, the range of the definition and that of its name. -/
structure Link where
  origin : Range
  file : Nat
  target : Range
  selection : Range
  deriving DecidableEq, Repr

/-- The link to a definition in a file (goto_definition.rs 38-47). -/
def linkTo (s : Spot) (d : Def) (p : Place) : Option Link :=
  let name := (nameRange d).getD (0, 0)
  if p.readable then some ⟨s.range, p.id, d.full.getD name, name⟩ else none

/-- `GotoDefinitionRequest::request` (goto_definition.rs 28-50). -/
def goto (s : Spot) (k : Finds) : Option Link :=
  match definition s k with
  | none => none
  | some d =>
    match d.file with
    | none => none
    | some p => linkTo s d p

/-- The loop of `validate_fn_renaming` (prepare_rename.rs 115-126). -/
def renamableFn : Fn → Bool
  | .withArgs f => renamableFn f
  | .closure => true
  | .plugin => true
  | .native => false
  | .element => false

/-- `validate_fn_renaming` (prepare_rename.rs 103-127). -/
def validFn : Option Val → Bool
  | none => true
  | some (.func f) => renamableFn f
  | some .other => false

/-- The text of the string literal (prepare_rename.rs 86-91). -/
def pathText : Node → Option Text
  | .str t => some t
  | _ => none

/-- The part of `prepare_renaming` that looks at the kind (prepare_rename.rs 72-100). -/
def renamedText (n : Node) (d : Def) : Option Text :=
  match d.kind with
  | .var => some d.name
  | .func => if validFn d.value then some d.name else none
  | .closure => if validFn d.value then some d.name else none
  | .module | .moduleAlias | .pathStem | .importPath | .includePath | .moduleImport => pathText n
  | _ => none

/-- `prepare_renaming` (prepare_rename.rs 58-101); the range it returns is always `None`. -/
def prepareRenaming (n : Node) (d : Def) : Option Text :=
  match d.file with
  | none => none
  | some p => if p.package then none else renamedText n d

/-- `PrepareRenameRequest::request` (prepare_rename.rs 37-55): the range and the text shown in it. -/
def prepare (s : Spot) (k : Finds) : Option (Range × Text) :=
  if s.node = .fieldAccess then none
  else match definition s k with
    | none => none
    | some d => (prepareRenaming s.node d).map fun t => (s.range, t)

/-- The outcome of a search over the project (references.rs 81-96): for a label, all the files have to be readable. -/
structure Search where
  idents : Def → List (Nat × Range)
  labels : Def → Option (List (Nat × Range))

/-- `ident_root` needs the file of the definition (references.rs 89-96). -/
def identRoot (r : Search) (d : Def) : Option (List (Nat × Range)) :=
  if d.file.isSome then some (r.idents d) else none

/-- `find_references` (references.rs 44-71). -/
def findReferences (s : Spot) (k : Finds) (r : Search) : Option (List (Nat × Range)) :=
  match s.cls with
  | .varAccess => (definition s k).bind (identRoot r)
  | .callee => (definition s k).bind (identRoot r)
  | .label _ => (definition s k).bind r.labels
  | .ref => (definition s k).bind r.labels
  | .importPath => none
  | .includePath => none
  | .normal => none

/-- A replacement of a range. -/
structure TextEdit where
  range : Range
  text : Text
  deriving DecidableEq, Repr

/-- One turn of the loop over the references (rename.rs 92-101). -/
def addEdit (new : Text) : List (Nat × List TextEdit) → Nat × Range → List (Nat × List TextEdit)
  | [], (f, r) => [(f, [⟨r, new⟩])]
  | (g, es) :: rest, (f, r) => if g = f then (g, es ++ [⟨r, new⟩]) :: rest else (g, es) :: addEdit new rest (f, r)

/-- The loop over the references (rename.rs 89-101). -/
def editsOf (new : Text) (refs : List (Nat × Range)) : List (Nat × List TextEdit) := refs.foldl (addEdit new) []

/-- What a rename does: edits by file, or a file moved by a relative path; the edits of the paths to it are modelled in
`Verif.Model.Rename`. -/
inductive Change where
  | edits (e : List (Nat × List TextEdit))
  | moved (file : Text) (by_ : Text)
  deriving DecidableEq, Repr

/-- The new path (rename.rs 53-57). -/
def withEnding (new : Text) : Text :=
  if ['.', 't', 'y', 'p'].isSuffixOf new then new else new ++ ['.', 't', 'y', 'p']

/-- The way from the old path to the new one (rename.rs 63-69). -/
def way (old new : Text) : Option Text :=
  match diff (withEnding new) old with
  | none => none
  | some d => if isAbsolute d then none else some d

/-- The branch of paths (rename.rs 51-87). -/
def renameFile (n : Node) (d : Def) (new : Text) : Option Change :=
  match pathText n with
  | none => none
  | some old =>
    match d.file.bind (·.path) with
    | none => none
    | some p => (way old new).map (.moved p)

/-- The branches of `RenameRequest::request` (rename.rs 49-110). -/
def renameAs (s : Spot) (k : Finds) (r : Search) (d : Def) (new : Text) : Option Change :=
  match s.cls with
  | .importPath => renameFile s.node d new
  | .includePath => renameFile s.node d new
  | _ => (findReferences s k r).map fun refs => .edits (editsOf new refs)

/-- `RenameRequest::request` (rename.rs 39-111). -/
def rename (s : Spot) (k : Finds) (r : Search) (new : Text) : Option Change :=
  match definition s k with
  | none => none
  | some d =>
    match prepareRenaming s.node d with
    | none => none
    | some _ => renameAs s k r d new

end Tinymist.Renaming
