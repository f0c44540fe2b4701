import Verif.Model.Pointer

/-!
# What a position is about

Tokens and their places in a tree, the positions on a token, and the name that a token is.
-/

namespace Tinymist.Pointer

open Mode (Kind)

/-- The tree around a node. -/
def around (t : Tree) : List Frame → Tree
  | [] => t
  | f :: up => around (.inner f.kind (f.left ++ [t] ++ f.right)) up

/-- The place is in the file. -/
def In (root : Tree) (p : Place) : Prop := around p.tree p.up = root

/-- The text of the file before a place. -/
def textBefore : List Frame → Text
  | [] => []
  | f :: up => textBefore up ++ fullOf f.left

/-- The character behind the position is one of the token. -/
def On (p : Place) (pos : Nat) : Prop := (textBefore p.up).length ≤ pos ∧ pos < (textBefore p.up).length + p.tree.text.length

/-- The position is right behind the token. -/
def Behind (p : Place) (pos : Nat) : Prop := pos = (textBefore p.up).length + p.tree.text.length

/-- A name in code or in math. -/
def Name (p : Place) : Prop := ∃ t, t ≠ [] ∧ (p.tree = .leaf .ident t ∨ p.tree = .leaf .mathIdent t)

/-- What a name is: the field of a field access, which is then meant, if it is the last identifier of one; a variable otherwise. -/
inductive Meaning : Place → Class → Prop
  | field {t f up} : f.kind = .fieldAccess → (∀ x ∈ f.right, x.kind ≠ .ident) → t.kind = .ident →
      Meaning ⟨t, f :: up⟩ (.fieldAccess ⟨.inner .fieldAccess (f.left ++ [t] ++ f.right), up⟩)
  | variable {t f up} : ¬(f.kind = .fieldAccess ∧ (∀ x ∈ f.right, x.kind ≠ .ident) ∧ t.kind = .ident) → Meaning ⟨t, f :: up⟩ (.ident ⟨t, f :: up⟩)
  | alone {t} : Meaning ⟨t, []⟩ (.ident ⟨t, []⟩)

/-- Blanks and comments. -/
def Blank (k : Kind) : Prop := k ∈ [Kind.space, .parbreak, .lineComment, .blockComment, .shebang]

/-- Two tokens next to each other: the first one is at the right end of a node, the second one at the left end of the next. -/
def Adjacent (p m : Place) : Prop :=
  ∃ (k : Kind) (l r : List Tree) (up fs gs : List Frame), (∀ g ∈ gs, g.right = []) ∧ (∀ f ∈ fs, f.left = []) ∧
    p.up = gs ++ ⟨k, l, around m.tree fs :: r⟩ :: up ∧ m.up = fs ++ ⟨k, l ++ [around p.tree gs], r⟩ :: up ∧
    ¬Blank (around p.tree gs).kind

/-- Brackets, operators and other marks that names may be followed by. -/
def Mark (k : Kind) : Prop :=
  k ∈ [Kind.leftParen, .rightParen, .leftBracket, .rightBracket, .leftBrace, .rightBrace, .comma, .colon, .semicolon, .dot, .dots, .eq,
    .plus, .minus, .slash, .lt, .gt, .eqEq, .exclEq, .ltEq, .gtEq, .plusEq, .hyphEq, .starEq, .slashEq, .arrow, .hat, .hash, .mathAlignPoint]

/-- The nodes of code in which names, blanks and comments are next to each other. -/
def Coded (k : Kind) : Prop :=
  k ∈ [Kind.code, .codeBlock, .args, .params, .array, .dict, .parenthesized, .destructuring, .letBinding, .binary, .unary, .named, .conditional,
    .whileLoop, .forLoop, .closure, .moduleImport, .importItems, .funcReturn]

end Tinymist.Pointer
