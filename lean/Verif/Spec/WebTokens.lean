import Verif.Model.WebTokens
/-!
# What the semantic tokens of the compiler library should be
-/
namespace Tinymist.WebTokens.Spec
open WebTokens Position

/-- A node of a document: what is written before it, the kinds of the nodes around it from the inside out, and
the node. -/
structure Place where
  before : Text
  around : List Kind
  node : Node

mutual
/-- All nodes of a tree, in the order in which they begin, those around before those within. -/
def places (before : Text) (around : List Kind) : Node → List Place
  | .leaf i t => [⟨before, around, .leaf i t⟩]
  | .inner i cs => ⟨before, around, .inner i cs⟩ :: placesIn before (i.kind :: around) cs
/-- All nodes of siblings. -/
def placesIn (before : Text) (around : List Kind) : List Node → List Place
  | [] => []
  | n :: ns => places before around n ++ placesIn (before ++ n.text) around ns
end

/-- A node without nodes in it. -/
def IsLeaf : Node → Prop
  | .leaf _ _ => True
  | .inner _ cs => cs = []

/-- A token as an editor understands it. -/
structure Token where
  line : Nat
  char : Nat
  length : Nat
  type : Option String
  mods : List String
  deriving DecidableEq, Repr

/-- The names whose bits are set, from the lowest. -/
def namesOf : Nat → List String → List String
  | _, [] => []
  | n, s :: ss => (if n % 2 = 1 then [s] else []) ++ namesOf (n / 2) ss

/-- How an editor reads tokens (Language Server Protocol, `textDocument/semanticTokens`), given the names. -/
def decode (types mods : List String) : Nat × Nat → List Sem → List Token
  | _, [] => []
  | p, t :: ts =>
    let q := if t.deltaLine = 0 then (p.1, p.2 + t.deltaStart) else (p.1 + t.deltaLine, t.deltaStart)
    ⟨q.1, q.2, t.length, types[t.type]?, namesOf t.mods mods⟩ :: decode types mods q ts

/-- The styles of a place: those of the node and of all around it. -/
def styles (ks : List Kind) : List String :=
  (if Kind.strong ∈ ks then ["strong"] else []) ++ (if Kind.emph ∈ ks then ["emph"] else []) ++
    (if Kind.math ∈ ks ∨ Kind.equation ∈ ks then ["math"] else [])

/-- What each name of a type is for, apart from stars, underscores, names and hashes. -/
def table : List (String × List Kind) := [
  ("punctuation", [.leftBrace, .rightBrace, .leftBracket, .rightBracket, .leftParen, .rightParen, .comma, .semicolon,
    .colon]),
  ("escape", [.linebreak, .escape, .shorthand]), ("link", [.link]), ("raw", [.raw]), ("label", [.label]),
  ("ref", [.refMarker]), ("heading", [.heading, .headingMarker]), ("marker", [.listMarker, .enumMarker, .termMarker]),
  ("operator", [.mathAlignPoint, .plus, .minus, .slash, .hat, .dot, .eq, .eqEq, .exclEq, .lt, .ltEq, .gt, .gtEq,
    .plusEq, .hyphEq, .starEq, .slashEq, .dots, .arrow, .not, .and, .or]),
  ("delim", [.dollar]),
  ("keyword", [.none, .auto, .klet, .kshow, .kif, .kelse, .kfor, .kin, .kwhile, .kbreak, .kcontinue, .kreturn, .kimport,
    .kinclude, .kas, .kset]),
  ("bool", [.bool]), ("number", [.int, .float, .numeric]), ("string", [.str]),
  ("comment", [.lineComment, .blockComment]), ("error", [.error])]

/-- What kind of name is followed by what makes it a call. -/
def Called (next : Option (Kind × Option Kind)) : Prop :=
  next = some (.leftParen, some .args) ∨ next = some (.leftParen, some .params) ∨
    next = some (.leftBracket, some .contentBlock)

/-- The name of the type of a leaf or node that is no hash: `Named kind parent next name`. -/
inductive Named : Kind → Option Kind → Option (Kind × Option Kind) → String → Prop
  | table {k p n name ks} (h : (name, ks) ∈ table) (hk : k ∈ ks) : Named k p n name
  | bold {n} : Named .star (some .strong) n "punctuation"
  | glob {n} : Named .star (some .moduleImport) n "operator"
  | italic {n} : Named .underscore (some .emph) n "punctuation"
  | sub {n} : Named .underscore (some .mathAttach) n "operator"
  | call {k p n} (hk : k = .ident ∨ k = .mathIdent) (h : Called n) : Named k p n "function"
  | var {k p n} (hk : k = .ident ∨ k = .mathIdent) (h : ¬ Called n) : Named k p n "pol"

/-- The name of the type of any node; a hash is like what is behind it. -/
def HasName (i : Info) (parent : Option Kind) (name : String) : Prop :=
  if i.kind = .hash then ∃ k p n, i.follow = some (k, p, n) ∧ Named k p n name
  else Named i.kind parent i.next name

/-- The token of a place, if it has one: at the position right behind what is written before, as long as what is
written there in UTF-16, with the name of its type or `text` for a leaf without, and its styles. -/
def IsToken (enc : Encoding) (doc : Text) (p : Place) (t : Token) : Prop :=
  toLsp enc doc (len8 p.before) = some (t.line, t.char) ∧ t.length = len16 p.node.text ∧
    t.mods = styles (p.node.info.kind :: p.around) ∧
    ∃ name, t.type = some name ∧
      (HasName p.node.info p.around.head? name ∨
        ((¬ ∃ name, HasName p.node.info p.around.head? name) ∧ IsLeaf p.node ∧ name = "text"))

/-- A place has no token: no name, and not a leaf. -/
def Untold (p : Place) : Prop := (¬ ∃ name, HasName p.node.info p.around.head? name) ∧ ¬ IsLeaf p.node

/-- `Tokens enc doc ps ts`: the tokens `ts` are those of the places `ps`, in order. -/
inductive Tokens (enc : Encoding) (doc : Text) : List Place → List Token → Prop
  | nil : Tokens enc doc [] []
  | skip {p ps ts} (h : Untold p) (hs : Tokens enc doc ps ts) : Tokens enc doc (p :: ps) ts
  | token {p ps t ts} (h : IsToken enc doc p t) (hs : Tokens enc doc ps ts) : Tokens enc doc (p :: ps) (t :: ts)

end Tinymist.WebTokens.Spec
