import Verif.Model.Listed

/-!
# Which names should be listed
-/

namespace Tinymist.Listed

open Mode (Kind)
open Pointer

/-- A node is another one or in it. -/
inductive Sub : Tree → Tree → Prop where
  | self {t} : Sub t t
  | child {k cs c s} : c ∈ cs → Sub c s → Sub (.inner k cs) s

/-- A name is written in what a `let` or a `for` binds, or among the parameters of a function. -/
def Bound (root : Tree) (n : Text) : Prop :=
  (∃ k cs p, Sub root (.inner k cs) ∧ (k = .letBinding ∨ k = .forLoop) ∧ p ∈ cs ∧ (isExpr p.kind = true ∨ p.kind = .underscore ∨ p.kind = .destructuring) ∧
    Sub p (.leaf .ident n)) ∨
  ∃ cs, Sub root (.inner .params cs) ∧ Sub (.inner .params cs) (.leaf .ident n)

/-- A function has this name. -/
def Named (root : Tree) (n : Text) : Prop := ∃ rest, Sub root (.inner .closure (.leaf .ident n :: rest))

/-- What stands for space. -/
def Blank (k : Kind) : Prop := k ∈ [Kind.shebang, .lineComment, .blockComment, .space, .parbreak]

/-- What is written before a node, in the node they are in, says that it is a value: an opening bracket, a comma, a colon or a keyword. -/
def AsValue (before : List Tree) : Prop :=
  ∃ a y b, before = a ++ y :: b ∧ (∀ z ∈ b, Blank z.kind) ∧ ¬ Blank y.kind ∧
    (y.kind ∈ [Kind.leftBracket, .leftBrace, .leftParen, .comma, .colon] ∨ isKeyword y.kind = true)

/-- A label is written in a node, and not as a value. -/
def Labelled (root : Tree) (n : Text) : Prop :=
  root = .leaf .label n ∨ ∃ k a b, Sub root (.inner k (a ++ .leaf .label n :: b)) ∧ ¬ AsValue a

/-- Nodes whose children all matter alike. -/
def Ordinary (k : Kind) : Prop :=
  k ∉ [.letBinding, .forLoop, .closure, .fieldAccess, .named, .error, .shebang, .lineComment, .blockComment, .space, .parbreak] ∧
    isKeyword k = false ∧ isMark k = false

/-- The last expression among the children. -/
def LastExpr (cs : List Tree) (e : Tree) : Prop := ∃ a b, cs = a ++ e :: b ∧ isExpr e.kind = true ∧ ∀ x ∈ b, isExpr x.kind = false

/-- A pattern, and what is behind it. -/
def FirstPattern (cs : List Tree) (p : Tree) (rest : List Tree) : Prop :=
  ∃ a, cs = a ++ p :: rest ∧ (isExpr p.kind = true ∨ p.kind = .underscore ∨ p.kind = .destructuring) ∧
    ∀ x ∈ a, isExpr x.kind = false ∧ x.kind ≠ .underscore ∧ x.kind ≠ .destructuring

/-- A node is part of another one as a statement: in blocks and calls, in the values of bindings and named arguments, in the bodies of
functions and loops. -/
inductive Reach : Tree → Tree → Prop where
  | self {t} : Reach t t
  | child {k cs c s} : Ordinary k → c ∈ cs → Reach c s → Reach (.inner k cs) s
  | function {cs p rest s} : FirstPattern cs p rest → p.kind = .closure → Reach p s → Reach (.inner .letBinding cs) s
  | value {cs p rest e s} : FirstPattern cs p rest → p.kind ≠ .closure → LastExpr rest e → Reach e s → Reach (.inner .letBinding cs) s
  | body {cs e s} : LastExpr cs e → Reach e s → Reach (.inner .closure cs) s
  | argument {cs e s} : LastExpr cs e → Reach e s → Reach (.inner .named cs) s
  | loop {a b i c e s} {t : Text} : (∀ x ∈ a, x.kind ≠ .inKw) → (∀ x ∈ b, isExpr x.kind = false) → isExpr i.kind = true → LastExpr c e → Reach e s →
      Reach (.inner .forLoop (a ++ .leaf .inKw t :: (b ++ i :: c))) s

/-- A name is bound by a pattern: it is the pattern, or one of what is taken apart, alone, in parentheses or as the rest. -/
inductive Binds : Tree → Text → Prop where
  | name {n} : Binds (.leaf .ident n) n
  | part {k cs c n} : k = .destructuring ∨ k = .parenthesized ∨ k = .spread → c ∈ cs → Binds c n → Binds (.inner k cs) n

end Tinymist.Listed
