import Verif.Model.Coloring
import Verif.Spec.Pointer

/-!
# What tokens should be colored as
-/

namespace Tinymist.Coloring

open Mode (Kind)
open Pointer

/-- The bits of the modifiers, in the order of the legend. -/
def bitStrong : Nat := 0
def bitEmph : Nat := 1
def bitMath : Nat := 2
def bitReadOnly : Nat := 3
def bitStatic : Nat := 4
def bitLibrary : Nat := 5

/-- A place is a node of one of these kinds, or is in one. -/
def Within (p : Place) (ks : List Kind) : Prop := p.tree.kind ∈ ks ∨ ∃ f ∈ p.up, f.kind ∈ ks

/-- The kinds that a name or a hash may have. -/
def named : List Kind := [.ident, .mathIdent, .hash]

/-- The kinds that change the style of what is in them. -/
def styled : List Kind := [.strong, .emph, .math, .equation]

/-- What a name stands for. -/
inductive Stands where
  | function | type | module

/-- How what a name stands for is shown: as which kind, whether read-only and static, and whether of the library. -/
def shown : Stands → String × Bool × Bool
  | .function => ("function", false, false)
  | .type => ("function", false, true)
  | .module => ("namespace", true, false)

/-- A value stands for this. -/
def Means : Term → Stands → Prop
  | .func, s => s = .function
  | .value .func, s => s = .function
  | .value .type, s => s = .type
  | .value .module, s => s = .module
  | .value .other, _ => False
  | .other, _ => False

/-- A name stands for this by where its reference ends. -/
inductive StandsFor : Resolved → Stands → Prop where
  | declaredFunction {t} : StandsFor ⟨some (.decl .func), t⟩ .function
  | declaredModule {t d} : d = .module ∨ d = .moduleAlias ∨ d = .pathStem → StandsFor ⟨some (.decl d), t⟩ .module
  | type {t t' s} : Means t s → StandsFor ⟨some (.type t), t'⟩ s
  | value {t s} : Means t s → StandsFor ⟨some .other, some t⟩ s
  | term {t s} : Means t s → StandsFor ⟨none, some t⟩ s

/-- A token is right before another one: it is at the right end of a node, the other one at the left end of the next, which is no blank. -/
def Before (p m : Place) : Prop :=
  ∃ (k : Kind) (l r : List Tree) (up fs gs : List Frame), (∀ g ∈ gs, g.right = []) ∧ (∀ f ∈ fs, f.left = []) ∧
    p.up = gs ++ ⟨k, l, around m.tree fs :: r⟩ :: up ∧ m.up = fs ++ ⟨k, l ++ [around p.tree gs], r⟩ :: up ∧
    ¬Blank (around m.tree fs).kind

/-- Arguments, parameters or content begin right behind the name. -/
def Called (p : Place) : Prop :=
  ∃ m, Before p m ∧ ∃ f up, m.up = f :: up ∧
    ((∃ t, m.tree = .leaf .leftParen t ∧ (f.kind = .args ∨ f.kind = .params)) ∨ ∃ t, m.tree = .leaf .leftBracket t ∧ f.kind = .contentBlock)

/-- Somewhere in the same file, right behind the text of the name, arguments, parameters or content begin. -/
def CalledIn (root : Tree) (p : Place) : Prop :=
  ∃ m f up, In root m ∧ m.up = f :: up ∧ (textBefore m.up).length = (textBefore p.up).length + p.tree.full.length ∧
    ((m.tree.kind = .leftParen ∧ (f.kind = .args ∨ f.kind = .params)) ∨ (m.tree.kind = .leftBracket ∧ f.kind = .contentBlock))

/-- The leaf is the first one of the expression behind the hash. -/
inductive FirstBehind : Place → Place → Prop where
  | mk {k : Kind} {l bs r : List Tree} {h t : Text} {lk : Kind} {fs up : List Frame} :
      (∀ b ∈ bs, Blank b.kind) → (∀ f ∈ fs, f.left = []) → isHash (around (.leaf lk t) fs).kind = true →
      FirstBehind ⟨.leaf .hash h, ⟨k, l, bs ++ around (.leaf lk t) fs :: r⟩ :: up⟩
        ⟨.leaf lk t, fs ++ ⟨k, l ++ .leaf .hash h :: bs, r⟩ :: up⟩

/-- How tokens are shown whose kind says it all. -/
inductive Plain : Kind → String → Prop where
  | keyword {k} : k ∈ [.letKw, .setKw, .showKw, .contextKw, .ifKw, .elseKw, .forKw, .inKw, .whileKw, .breakKw, .continueKw, .returnKw,
      .importKw, .includeKw, .asKw, .noneKw, .autoKw, .notKw, .andKw, .orKw] → Plain k "keyword"
  | punctuation {k} : k ∈ [.leftBrace, .rightBrace, .leftBracket, .rightBracket, .leftParen, .rightParen, .comma, .semicolon, .colon] →
      Plain k "punct"
  | operator {k} : k ∈ [.plus, .minus, .slash, .hat, .dot, .eq, .eqEq, .exclEq, .lt, .ltEq, .gt, .gtEq, .plusEq, .hyphEq, .starEq, .slashEq,
      .dots, .arrow, .mathAlignPoint] → Plain k "operator"
  | escape {k} : k ∈ [.linebreak, .escape, .shorthand] → Plain k "escape"
  | number {k} : k ∈ [.int, .float, .numeric] → Plain k "number"
  | comment {k} : k ∈ [.lineComment, .blockComment] → Plain k "comment"
  | marker {k} : k ∈ [.listMarker, .enumMarker, .termMarker] → Plain k "marker"
  | heading : Plain .headingMarker "heading"
  | dollar : Plain .dollar "delim"
  | str : Plain .str "string"
  | bool : Plain .bool "bool"
  | link : Plain .link "link"
  | label : Plain .label "label"
  | ref : Plain .refMarker "ref"
  | error : Plain .error "error"
  | text {k} : k ∈ [.text, .space, .parbreak, .smartQuote, .mathText] → Plain k "text"

/-- How stars and underscores are shown in a node. -/
inductive InNode : Kind → Kind → String → Prop where
  | strong : InNode .star .strong "punct"
  | everything : InNode .star .moduleImport "operator"
  | emph : InNode .underscore .emph "punct"
  | sub : InNode .underscore .mathAttach "operator"

end Tinymist.Coloring
