/-!
# The names offered at a cursor

Models `previous_items` and `previous_decls` of `crates/tinymist-analysis/src/syntax/matcher.rs` and `Defines` and
`scope_defs` of `crates/tinymist-query/src/analysis/completion/scope.rs`.

A cursor is given by the path from the leaf before it to the root of the syntax tree. Of every node on the path and of
every sibling to its left, that is not trivia, only what it declares is kept. Types are values of any type `τ`. What
`type_of_span` and `analyze_import_source` find out is part of the declarations.
-/

namespace Tinymist.Offer

/-- A name that is bound, and the type that is known of it (`type_of_span`, or `Ty::Any`). -/
structure Binding (τ : Type) where
  name : String
  ty : τ
  deriving DecidableEq, Repr

/-- `ast::Imports`, the part behind the colon. -/
inductive Imports (τ : Type) where
  | wildcard
  | items (bound : List (Binding τ))
  deriving DecidableEq, Repr

/-- The type that `analyze_import_source` (scope.rs:194-203) finds for the source of an import: its name and what can be
imported of it. -/
structure Module (τ : Type) where
  self : Binding τ
  members : List (Binding τ)
  deriving DecidableEq, Repr

/-- `ast::Import`: what is behind the colon, the new name, and the source when it is found. -/
structure Import (τ : Type) where
  imports : Option (Imports τ)
  newName : Option (Binding τ)
  source : Option (Module τ)
  deriving DecidableEq, Repr

/-- A node, by what it declares. `letFn` is a `let` that defines a function with a name, `letB` any other `let`. `nested`
is a node that is no block and has expressions inside, such as a heading, a list item or strong text. `code` is the
expressions in the braces of a block, without the blanks behind them: the parser leaves those to the block. `closing` is
the mark that ends a block. Everything else, with blocks and functions, is `other`. -/
inductive Item (τ : Type) where
  | letB (bound : List (Binding τ))
  | letFn (bound : Binding τ)
  | imports (i : Import τ)
  | nested (items : List (Item τ))
  | code (items : List (Item τ))
  | closing
  | other

/-- `ast::Param`. -/
inductive Param (τ : Type) where
  | pos (bound : List (Binding τ))
  | named (bound : Binding τ)
  | spread (sink : Option (Binding τ))
  deriving DecidableEq, Repr

/-- How a node is in its parent: in the body of a `for` or of a function, in another part of a function, or in any other
way. -/
inductive Cross (τ : Type) where
  | forBody (pattern : List (Binding τ))
  | fnBody (params : List (Param τ))
  | fnHead
  | plain
  deriving DecidableEq, Repr

/-- A node on the path to the root, with its siblings to the left in the order of the text, and how it is in its
parent. -/
structure Frame (τ : Type) where
  self : Item τ
  left : List (Item τ)
  cross : Cross τ

/-- `PreviousItem` (matcher.rs:108-113). -/
inductive PreviousItem (τ : Type) where
  | sibling (i : Item τ)
  | parent (c : Cross τ)

/-- `previous_items` (matcher.rs:128-153): the items in the order in which they are visited. The function that receives
them never ends the visit in the only use that is made of it. -/
def previousItems {τ : Type} : List (Frame τ) → List (PreviousItem τ)
  | [] => []
  | f :: up => (.sibling f.self :: f.left.reverse.map .sibling) ++ .parent f.cross :: previousItems up

/-- `PreviousDecl` (matcher.rs:157-187). -/
inductive PreviousDecl (τ : Type) where
  | ident (b : Binding τ)
  | importSource (m : Option (Module τ))
  | importAll (m : Option (Module τ))

/-- The parameters of a function, as `previous_decls` goes through them (matcher.rs:256-279). -/
def paramDecls {τ : Type} : Param τ → List (PreviousDecl τ)
  | .pos bound => bound.map .ident
  | .named b => [.ident b]
  | .spread sink => sink.toList.map .ident

/-- An import, as `previous_decls` takes it apart (matcher.rs:204-233). -/
def importDecls {τ : Type} (i : Import τ) : List (PreviousDecl τ) :=
  (match i.imports with
    | some .wildcard => [.importAll i.source]
    | some (.items bound) => bound.map .ident
    | none => []) ++
  match i.newName with
  | some b => [.ident b]
  | none => if i.imports.isNone then [.importSource i.source] else []

/-- The declarations of one item (matcher.rs:191-287). -/
def itemDecls {τ : Type} : PreviousItem τ → List (PreviousDecl τ)
  | .sibling (.letB bound) => bound.map .ident
  | .sibling (.letFn b) => [.ident b]
  | .sibling (.imports i) => importDecls i
  | .sibling _ => []
  | .parent (.forBody pattern) => pattern.map .ident
  | .parent (.fnBody params) => params.flatMap paramDecls
  | .parent _ => []

/-- `previous_decls` (matcher.rs:191-287). -/
def previousDecls {τ : Type} (path : List (Frame τ)) : List (PreviousDecl τ) := (previousItems path).flatMap itemDecls

/-- `Defines` (scope.rs:9-15), without documentation. -/
abbrev Defines (τ : Type) := List (String × τ)

/-- `Defines::insert` (scope.rs:18-27): the first type of a name is kept. -/
def insert {τ : Type} (d : Defines τ) (b : Binding τ) : Defines τ :=
  if b.name = "" then d else if (d.lookup b.name).isSome then d else d ++ [(b.name, b.ty)]

/-- The declarations that `scope_defs` inserts for one found (scope.rs:62-90). -/
def provided {τ : Type} : PreviousDecl τ → List (Binding τ)
  | .ident b => [b]
  | .importSource (some m) => [m.self]
  | .importAll (some m) => m.members
  | _ => []

/-- `scope_defs` (scope.rs:53-107). `lib` is the scope of the library for the mode at the cursor, and `std` the module
`std`. -/
def scopeDefs {τ : Type} (lib : List (Binding τ)) (std : τ) (path : List (Frame τ)) : Defines τ :=
  insert (lib.foldl insert (((previousDecls path).flatMap provided).foldl insert [])) ⟨"std", std⟩

end Tinymist.Offer
