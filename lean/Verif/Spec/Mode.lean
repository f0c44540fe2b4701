import Verif.Model.Mode

/-!
# The mode in which a place is read
-/

namespace Tinymist.Mode.Spec

/-- The nodes whose contents the parser reads in a mode of their own: blocks and equations, strings, raw texts and
comments. A hash counts as code. -/
def own : Kind → Option Mode
  | .lineComment | .blockComment | .shebang => some .comment
  | .raw => some .raw
  | .str => some .string
  | .codeBlock | .code | .hash => some .code
  | .contentBlock | .markup => some .markup
  | .equation | .math => some .math
  | _ => none

/-- A node stands behind a hash: the last sibling to the left that is no trivia is one. -/
def Behind (left : List Tree) : Prop :=
  ∃ pre h blanks, left = pre ++ h :: blanks ∧ h = .node .hash [] ∧ ∀ b ∈ blanks, trivia b.kind = true

/-- The mode in which the contents of the first of the nodes are read. One that has no mode of its own is read in code
behind a hash, and otherwise as what is around it; what is around everything is markup. -/
inductive Reads : List Step → Mode → Prop where
  | top : Reads [] .markup
  | own {s up m} : own s.kind = some m → Reads (s :: up) m
  | hash {s up} : own s.kind = none → trivia s.kind = false → Behind s.left → Reads (s :: up) .code
  | inner {s up m} : own s.kind = none → (trivia s.kind = true ∨ ¬ Behind s.left) → Reads up m → Reads (s :: up) m

/-- The mode in which the parser makes a node of a kind, if there is only one: lists, headings and the like are made in
markup, fractions and the like in math, statements and operators in code. -/
def onlyIn : Kind → Option Mode
  | .strong | .emph | .link | .ref | .refMarker | .heading | .headingMarker | .listItem | .listMarker | .enumItem
  | .enumMarker | .termItem | .termMarker => some .markup
  | .mathIdent | .mathAlignPoint | .mathDelimited | .mathAttach | .mathPrimes | .mathFrac | .mathRoot
  | .mathShorthand | .mathText => some .math
  | .letKw | .setKw | .showKw | .contextKw | .ifKw | .elseKw | .forKw | .inKw | .whileKw | .breakKw | .continueKw
  | .returnKw | .importKw | .includeKw | .closure | .params | .letBinding | .setRule | .showRule | .contextual
  | .conditional | .whileLoop | .forLoop | .loopBreak | .moduleImport | .importItems | .importItemPath
  | .renamedImportItem | .moduleInclude | .loopContinue | .funcReturn | .unary | .binary | .parenthesized | .dict
  | .destructuring | .destructAssignment => some .code
  | _ => none

/-- A tree that is no trivia has a last leaf, and one that ends in a hash is that hash: behind a hash there is an
expression or an error. -/
def Closed (t : Tree) : Prop := rightmost t ≠ none ∧ (rightmost t = some .hash → t = .node .hash [])

/-- The parser makes such a place: nodes of one mode only are read in it, trivia have nothing inside, and hashes are not
the last in their parent. -/
inductive Parsed : List Step → Prop where
  | top : Parsed []
  | step {s up} : Parsed up →
      (∀ m, onlyIn s.kind = some m → Reads (s :: up) m) →
      (∀ t ∈ s.left, trivia t.kind = false → Closed t) →
      (∀ u, up.head? = some u → trivia u.kind = false) →
      Parsed (s :: up)

/-- Nothing but trivia is to the left. -/
def First (left : List Tree) : Prop := ∀ t ∈ left, trivia t.kind = true

/-- What is in front of a node in the text is a hash. -/
inductive StartsBehind : List Step → Prop where
  | here {s up} : Behind s.left → StartsBehind (s :: up)
  | up {s up} : First s.left → StartsBehind up → StartsBehind (s :: up)

/-- The first node in a block, equation or raw text that is behind a hash, such as the bracket in `#[`. -/
inductive Opening : List Step → Prop where
  | mk {s u up m} : First s.left → own u.kind = some m → m ≠ .code → StartsBehind (u :: up) → Opening (s :: u :: up)

end Tinymist.Mode.Spec
