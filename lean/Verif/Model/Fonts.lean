/-!
# Fonts

Models the search for fonts, `crates/tinymist-world/src/font/{system,memory,slot,resolver,loader}.rs`, and the
list of fonts shown by the editor, `crates/tinymist/src/resource/fonts.rs`.

The contents of font files, what is read of them and fonts are values of arbitrary types; `Reader` is what
`typst` and `ttf_parser` make of them. `fontdb` is a list of faces, a face being a file and an index.
Simplified: a file is read whole at a moment; the parallel iterators keep the order, as those of rayon do;
panics are `none`.
-/
namespace Tinymist.Fonts

/-- `DataSource`, debug_loc.rs. -/
inductive Source where
  | file (path : Nat)
  | memory
  deriving DecidableEq

/-- `FontInfo` (its family), `Font` and how they are read: `fonts_in_collection`, `FontInfo::new`,
`Font::new`. `lower` is `to_lowercase`. -/
structure Reader (Data Info Font Name : Type) where
  count : Data → Option Nat
  info : Data → Nat → Option Info
  font : Data → Nat → Option Font
  family : Info → Name
  lower : Name → Name

/-- `BufferFontLoader` and `LazyBufferFontLoader`, loader.rs:11-44. `used` after `take()`. -/
inductive Loader (Data : Type) where
  | buffer (data : Data) (index : Nat)
  | file (path : Nat) (index : Nat)
  | used

/-- `FontSlot`, slot.rs:17-20: the context and the cell of its `QueryRef`. -/
structure Slot (Data Font : Type) where
  loader : Loader Data
  cell : Option (Option Font)
  source : Option Source

section
variable {Data Info Font Name : Type}

/-- `load`, loader.rs:17-21 and 38-44; the outer `none` is the panic of `unwrap` on a used loader. -/
def Loader.load (R : Reader Data Info Font Name) (disk : Nat → Option Data) :
    Loader Data → Option (Option Font)
  | .buffer d i => some (R.font d i)
  | .file p i => match disk p with
    | some d => some (R.font d i)
    | none => some none
  | .used => none

/-- `get_or_init`, slot.rs:59-63 with `compute_with_context`, tinymist-std/src/concepts/query.rs:47-50. -/
def Slot.getOrInit (R : Reader Data Info Font Name) (disk : Nat → Option Data) (s : Slot Data Font) :
    Option (Slot Data Font × Option Font) :=
  match s.cell with
  | some f => some (s, f)
  | none => match s.loader.load R disk with
    | none => none
    | some f => some ({ s with loader := .used, cell := some f }, f)

/-- `SystemFontSearcher`, system.rs:19-27, with its `MemoryFontSearcher`. -/
structure Searcher (Data Info Font : Type) where
  fonts : List (Info × Slot Data Font)
  paths : List Nat
  db : List (Nat × Nat)

def Searcher.new : Searcher Data Info Font := ⟨[], [], []⟩

/-- `flush`, system.rs:78-103. -/
def Searcher.flush (R : Reader Data Info Font Name) (disk : Nat → Option Data) (s : Searcher Data Info Font) :
    Searcher Data Info Font :=
  { s with
    fonts := s.fonts ++ s.db.filterMap fun (path, index) => do
      let data ← disk path
      let info ← R.info data index
      some (info, ⟨.file path index, none, some (.file path)⟩)
    db := [] }

/-- `extend_bytes`, memory.rs:50-80, with the source given by `add_memory_fonts`, memory.rs:34-39. -/
def bytesFonts (R : Reader Data Info Font Name) (source : Option Source) (data : List Data) :
    List (Info × Slot Data Font) :=
  data.flatMap fun d =>
    (List.range ((R.count d).getD 1)).filterMap fun index => do
      let info ← R.info d index
      some (info, ⟨.buffer d index, none, source⟩)

/-- `add_memory_fonts`, system.rs:114-121: it panics if faces are not flushed. -/
def Searcher.addMemoryFonts (R : Reader Data Info Font Name) (s : Searcher Data Info Font) (data : List Data) :
    Option (Searcher Data Info Font) :=
  if s.db.isEmpty then some { s with fonts := s.fonts ++ bytesFonts R (some .memory) data } else none

/-- `search_dir` and `search_file`, system.rs:140-153: a path of the user, and the faces `fontdb` finds. -/
def Searcher.search (s : Searcher Data Info Font) (path : Nat) (faces : List (Nat × Nat)) :
    Searcher Data Info Font :=
  { s with paths := s.paths ++ [path], db := s.db ++ faces }

/-- `CompileFontOpts`: the paths of the user, each with the faces found below it, the faces of the system
unless they are not to be used, and the embedded fonts. -/
structure Opts (Data : Type) where
  userPaths : List (Nat × List (Nat × Nat))
  systemFaces : List (Nat × Nat)
  noSystem : Bool
  embedded : List Data

/-- `resolve_opts`, system.rs:46-76. -/
def Searcher.resolve (R : Reader Data Info Font Name) (disk : Nat → Option Data) (o : Opts Data)
    (s : Searcher Data Info Font) : Option (Searcher Data Info Font) :=
  let s := o.userPaths.foldl (fun s p => s.search p.1 p.2) s
  let s := if !o.noSystem then { s with db := s.db ++ o.systemFaces } else s
  (s.flush R disk).addMemoryFonts R o.embedded

/-- `FontBook` of typst: the infos, and the indices of each family under its name in lower case. -/
structure Book (Info Name : Type) where
  infos : List Info
  families : List (Name × List Nat)

/-- `BTreeMap::entry(..).or_default().push(..)`; the order of the keys does not matter here. -/
def addTo [DecidableEq Name] (l : List (Name × List Nat)) (k : Name) (i : Nat) : List (Name × List Nat) :=
  match l with
  | [] => [(k, [i])]
  | (k', is) :: rest => if k' = k then (k', is ++ [i]) :: rest else (k', is) :: addTo rest k i

/-- `FontBook::push` of typst. -/
def Book.push [DecidableEq Name] (R : Reader Data Info Font Name) (b : Book Info Name) (info : Info) :
    Book Info Name :=
  ⟨b.infos ++ [info], addTo b.families (R.lower (R.family info)) b.infos.length⟩

/-- `FontBook::from_infos` of typst. -/
def Book.of [DecidableEq Name] (R : Reader Data Info Font Name) (infos : List Info) : Book Info Name :=
  infos.foldl (Book.push R) ⟨[], []⟩

/-- `FontResolverImpl`, resolver.rs:95-100. -/
structure Resolver (Data Info Font Name : Type) where
  paths : List Nat
  book : Book Info Name
  slots : List (Slot Data Font)

/-- `build`, system.rs:40-42 and memory.rs:83-87. -/
def Searcher.build [DecidableEq Name] (R : Reader Data Info Font Name) (s : Searcher Data Info Font) :
    Resolver Data Info Font Name :=
  ⟨s.paths, Book.of R (s.fonts.map (·.1)), s.fonts.map (·.2)⟩

/-- `font`, resolver.rs:199-201; `none` is a panic. -/
def Resolver.font (R : Reader Data Info Font Name) (disk : Nat → Option Data)
    (r : Resolver Data Info Font Name) (i : Nat) : Option (Resolver Data Info Font Name × Option Font) :=
  match r.slots[i]? with
  | none => none
  | some s => match s.getOrInit R disk with
    | none => none
    | some (s', f) => some ({ r with slots := r.slots.set i s' }, f)

/-- A row of requests for fonts; between them the files change: each is made with the disk as it is then. -/
def Resolver.run (R : Reader Data Info Font Name) (r : Resolver Data Info Font Name) :
    List ((Nat → Option Data) × Nat) → Option (Resolver Data Info Font Name × List (Option Font))
  | [] => some (r, [])
  | (disk, i) :: rest =>
    match r.font R disk i with
    | none => none
    | some (r', f) =>
      match r'.run R rest with
      | none => none
      | some (r'', fs) => some (r'', f :: fs)

/-- `default_get_by_info`, resolver.rs:45-59: `fallback` is `select_fallback` of the book, which finds
nothing exactly in an empty book; `none` is a panic. -/
def Resolver.getByInfo (R : Reader Data Info Font Name) (disk : Nat → Option Data)
    (fallback : List Info → Info → Option Nat) (r : Resolver Data Info Font Name) (info : Info) :
    Option (Option Font) :=
  match fallback r.book.infos info with
  | none => none
  | some i => (r.font R disk i).map (·.2)

/-! ## The list of fonts -/

/-- `TypstFontInfo`, resource/fonts.rs:17-36, without style, weight and stretch. -/
structure Item (Name : Type) where
  name : Name
  source : Option Nat
  index : Nat
  deriving DecidableEq

/-- `internal_source`, resource/fonts.rs:54-62: the number of a source, a new one if needed. The map and the
list of sources hold the same. -/
def internal (sources : List Source) (s : Source) : List Source × Nat :=
  if s ∈ sources then (sources, sources.idxOf s) else (sources ++ [s], sources.length)

/-- The infos of a family, resource/fonts.rs:68-82. `describe_font_by_id` is resolver.rs:178-180, `none` is
its panic. -/
def listFonts (R : Reader Data Info Font Name) (r : Resolver Data Info Font Name) :
    List Nat → List Source → Option (List Source × List (Item Name))
  | [], sources => some (sources, [])
  | id :: ids, sources =>
    match r.slots[id]? with
    | none => none
    | some slot =>
      let (sources, source) := match slot.source with
        | none => (sources, none)
        | some s => ((internal sources s).1, some (internal sources s).2)
      match listFonts R r ids sources with
      | none => none
      | some (sources, items) =>
        match r.book.infos[id]? with
        | none => some (sources, items)
        | some info => some (sources, ⟨R.family info, source, id⟩ :: items)

/-- The name of a family: that of its first font; `families` of typst. -/
def familyName (R : Reader Data Info Font Name) (b : Book Info Name) (ids : List Nat) : Option Name :=
  ids.head?.bind fun i => (b.infos[i]?).map R.family

/-- `select_family` of typst. -/
def selectFamily [DecidableEq Name] (b : Book Info Name) (k : Name) : List Nat :=
  match b.families.find? fun f => f.1 = k with
  | some f => f.2
  | none => []

/-- The families, resource/fonts.rs:64-88. -/
def listFamilies [DecidableEq Name] (R : Reader Data Info Font Name) (r : Resolver Data Info Font Name) :
    List (Name × List Nat) → List Source → Option (List Source × List (Name × List (Item Name)))
  | [], sources => some (sources, [])
  | f :: rest, sources =>
    match familyName R r.book f.2 with
    | none => none
    | some name =>
      match listFonts R r (selectFamily r.book (R.lower name)) sources with
      | none => none
      | some (sources, items) =>
        match listFamilies R r rest sources with
        | none => none
        | some (sources, fams) => some (sources, (name, items) :: fams)

/-- `get_font_resources`, resource/fonts.rs:46-92. -/
def fontResources [DecidableEq Name] (R : Reader Data Info Font Name) (r : Resolver Data Info Font Name) :
    Option (List Source × List (Name × List (Item Name))) :=
  listFamilies R r r.book.families []

end
end Tinymist.Fonts
