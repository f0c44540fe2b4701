import Verif.Model.Scoping

/-!
# Find references and rename

Models `ReferencesWorker` of `crates/tinymist-query/src/references.rs`, `SearchCtx` of
`crates/tinymist-query/src/analysis/global.rs` (1370-1399), `get_refs` and `is_exported` of
`crates/tinymist-analysis/src/syntax/def.rs` (81-104), `IndexWorker` of
`crates/tinymist-query/src/syntax/index.rs` and the last branch of `RenameRequest`
(`crates/tinymist-query/src/rename.rs` 89-109), on top of the tables of
`Verif.Model.Scoping`.  Labels are not modelled.
-/
namespace Tinymist.Scoping

mutual
/-- The identifiers of a file (index.rs 25-66). -/
def identifiers : E → List Name
  | .skip => []
  | .ident _ n _ => [n]
  | .seq a b => identifiers a ++ identifiers b
  | .block b => identifiers b
  | .item b => identifiers b
  | .letPat p init => identifiers init ++ p.map (·.2)
  | .closure _ name ps body => name.toList ++ (identifiersParams ps ++ identifiers body)
  | .destruct p v => p.map (·.2) ++ identifiers v
  | .forIn p iter body => p.map (·.2) ++ (identifiers iter ++ identifiers body)
  | .ctx b => identifiers b
  | .imp i =>
    (match i.src with
      | .path _ _ => []
      | .ident _ n => [n]) ++ (i.alias.toList.map (·.2) ++
    (match i.what with
      | .items l => l.flatMap (fun it => it.path.map (·.2) ++ it.rename.toList.map (·.2))
      | _ => []))

def identifiersParams : Ps → List Name
  | .nil => []
  | .pos p rest => p.map (·.2) ++ identifiersParams rest
  | .named _ n dflt rest => n :: (identifiers dflt ++ identifiersParams rest)
  | .sink _ n rest => n :: identifiersParams rest
  | .noSink _ rest => identifiersParams rest
end

mutual
/-- The files a file imports: the keys of `ExprInfo::imports` (expr.rs 1201-1212).  A module
imported through a variable is not counted. -/
def importsOf : E → List File
  | .skip => []
  | .ident _ _ _ => []
  | .seq a b => importsOf a ++ importsOf b
  | .block b => importsOf b
  | .item b => importsOf b
  | .letPat _ init => importsOf init
  | .closure _ _ ps body => importsOfParams ps ++ importsOf body
  | .destruct _ v => importsOf v
  | .forIn _ iter body => importsOf iter ++ importsOf body
  | .ctx b => importsOf b
  | .imp i => match i.src with
    | .path _ f => [f]
    | .ident _ _ => []

def importsOfParams : Ps → List File
  | .nil => []
  | .pos _ rest => importsOfParams rest
  | .named _ _ dflt rest => importsOf dflt ++ importsOfParams rest
  | .sink _ _ rest => importsOfParams rest
  | .noSink _ rest => importsOfParams rest
end

/-- `Decl::name`. -/
def Decl.name (W : World) : Decl → Name
  | .var _ n => n
  | .func _ n => n
  | .closure _ => 0
  | .spread _ => 0
  | .module f => W.stem f

/-- The filter of `get_refs` (def.rs 88-94). -/
def isRefOf (d : Decl) (r : RefExpr) : Bool :=
  r.site == some d || r.root == some (.decl d)

/-- `get_refs` (def.rs 81-95): one entry per span, the last one. -/
def refsIn (d : Decl) : List (Span × RefExpr) → List Span
  | [] => []
  | (s, r) :: rest =>
    if (lookupLast s rest).isNone && isRefOf d r then s :: refsIn d rest else refsIn d rest

/-- `is_exported` (def.rs 97-104). -/
def isExported (W : World) (exports : LexicalScope) (d : Decl) : Bool :=
  match exports.lookup (d.name W) with
  | some (.decl d') => d' == d
  | some (.ref r) => r.root == some (.decl d)
  | some .other => false
  | none => false

/-- The check of the index at the top of `file` (references.rs 99-117). -/
def indexed (W : World) (d : Decl) (e : E) : Bool :=
  match d with
  | .module f => (identifiers e).contains (d.name W) || (importsOf e).contains f
  | _ => (identifiers e).contains (d.name W)

/-- The files importing a file (module.rs 22-61). -/
def dependents (files : List E) (k : File) : List File :=
  (List.range files.length).filter (fun j => match files[j]? with
    | some e => (importsOf e).contains k
    | none => false)

/-- `SearchCtx` and the references found. -/
structure Search where
  searched : List File
  worklist : List File
  out : List (File × Span)
  deriving DecidableEq, Repr

/-- `SearchCtx::push` (global.rs 1382-1389). -/
def Search.push (st : Search) (k : File) : Search :=
  if st.searched.contains k then st
  else { st with searched := st.searched ++ [k], worklist := st.worklist ++ [k] }

/-- `push_dependents` (global.rs 1392-1398). -/
def Search.pushAll (st : Search) : List File → Search
  | [] => st
  | k :: rest => (st.push k).pushAll rest

/-- `ReferencesWorker::file` (references.rs 95-130). -/
def visit (W : World) (files : List E) (d : Decl) (k : File) (st : Search) : Search :=
  match files[k]? with
  | none => st
  | some e =>
    if indexed W d e then
      let st := { st with out := st.out ++ (refsIn d (tableOf W files k)).map (fun s => (k, s)) }
      if isExported W (exportsOf (exportsAll W files) k) d then
        st.pushAll (dependents files k)
      else st
    else st

/-- The loop of `ident_root` (references.rs 86-93).  The fuel is never used up
(`search_ends`). -/
def searchLoop (W : World) (files : List E) (d : Decl) : Nat → Search → Search
  | 0, st => st
  | fuel + 1, st =>
    match st.worklist.getLast? with
    | none => st
    | some k => searchLoop W files d fuel
        (visit W files d k { st with worklist := st.worklist.dropLast })

/-- Find references of the definition `d`, which is in the file `home`. -/
def search (W : World) (files : List E) (home : File) (d : Decl) : Search :=
  searchLoop W files d files.length (visit W files d home ⟨[], [], []⟩)

def references (W : World) (files : List E) (home : File) (d : Decl) : List (File × Span) :=
  (search W files home d).out

/-! ## Applying the edits of a rename -/

/-- The text edit replaces a name where one of the references is. -/
def renameAt (hit : Span → Bool) (new : Name) (s : Span) (n : Name) : Name :=
  if hit s then new else n

def renamePat (hit : Span → Bool) (new : Name) (p : Pat) : Pat :=
  p.map (fun x => (x.1, renameAt hit new x.1 x.2))

def renameItem (hit : Span → Bool) (new : Name) (it : Item) : Item :=
  ⟨renamePat hit new it.path, it.rename.map (fun x => (x.1, renameAt hit new x.1 x.2))⟩

def renameImport (hit : Span → Bool) (new : Name) (i : Import) : Import :=
  ⟨i.stmt,
   match i.src with
   | .path s f => .path s f
   | .ident s n => .ident s (renameAt hit new s n),
   i.alias.map (fun x => (x.1, renameAt hit new x.1 x.2)),
   match i.what with
   | .items l => .items (l.map (renameItem hit new))
   | w => w⟩

mutual
/-- A document with the edits applied (rename.rs 89-109). -/
def renameE (hit : Span → Bool) (new : Name) : E → E
  | .skip => .skip
  | .ident s n m => .ident s (renameAt hit new s n) m
  | .seq a b => .seq (renameE hit new a) (renameE hit new b)
  | .block b => .block (renameE hit new b)
  | .item b => .item (renameE hit new b)
  | .letPat p init => .letPat (renamePat hit new p) (renameE hit new init)
  | .closure s name ps body =>
    .closure s (name.map (renameAt hit new s)) (renamePs hit new ps) (renameE hit new body)
  | .destruct p v => .destruct (renamePat hit new p) (renameE hit new v)
  | .forIn p iter body =>
    .forIn (renamePat hit new p) (renameE hit new iter) (renameE hit new body)
  | .ctx b => .ctx (renameE hit new b)
  | .imp i => .imp (renameImport hit new i)

def renamePs (hit : Span → Bool) (new : Name) : Ps → Ps
  | .nil => .nil
  | .pos p rest => .pos (renamePat hit new p) (renamePs hit new rest)
  | .named s n dflt rest =>
    .named s (renameAt hit new s n) (renameE hit new dflt) (renamePs hit new rest)
  | .sink s n rest => .sink s (renameAt hit new s n) (renamePs hit new rest)
  | .noSink s rest => .noSink s (renamePs hit new rest)
end

/-- The project after the rename: the edits of each file are the references in it. -/
def renameProject (W : World) (files : List E) (home : File) (d : Decl) (new : Name) : List E :=
  files.mapIdx (fun k e =>
    renameE (fun s => (references W files home d).contains (k, s)) new e)

end Tinymist.Scoping
