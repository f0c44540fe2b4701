import Verif.Model.Pointer

/-!
# Which names of a file are listed as its symbols

Models how `LexicalHierarchyWorker` goes through the syntax tree of a file for its symbols (crates/tinymist-query/src/syntax/lexical_hierarchy.rs:
207-225, 239-291, 294-298, 331-467, 469-498): `check_node`, `check_nodes`, `enter_node`, `check_first_sub_expr` and `get_ident`, with
`LexicalScopeKind::Symbol`. How what is found is nested, with headings, lists and comments, is modelled in `Sections`; here all that is found is in
one list, in the order of that tree.

Simplified: names and labels are leaves, as the parser makes them, so `IdentContext::Func` is met only at the name of a function and left out.
Nodes take up text, so that one that begins behind another one is one of its later siblings.
-/

namespace Tinymist.Listed

open Mode (Kind trivia)
open Pointer

/-- `LexicalVarKind` (lexical_hierarchy.rs:48-68), those that are made. -/
inductive SymKind where
  | variable_ | function | label
  deriving DecidableEq, Repr

/-- What is found. -/
structure Sym where
  name : Text
  kind : SymKind
  deriving DecidableEq, Repr

/-- `IdentContext` (lexical_hierarchy.rs:207-214). -/
inductive Ctx where
  | ref | var | params
  deriving DecidableEq, Repr

/-- `is_plain_token` (lexical_hierarchy.rs:223-225). -/
def plain (k : Kind) : Bool := trivia k || isKeyword k || isMark k || k == .error

/-- `Pattern::from_untyped` of typst. -/
def isPattern (k : Kind) : Bool := isExpr k || k == .underscore || k == .destructuring

/-- `enter_node` (lexical_hierarchy.rs:240-251). -/
def enter (k : Kind) (ctx : Ctx) : Ctx :=
  match k with
  | .refMarker => .ref
  | .letBinding => .ref
  | .params => .params
  | _ => ctx

/-- The sibling before the next one: `prev_sibling_kind` of typst leaves out trivia. -/
def next (prev : Option Kind) (c : Tree) : Option Kind := if trivia c.kind then prev else some c.kind

/-- A label in code (lexical_hierarchy.rs:473-484). -/
def inCode : Option Kind → Bool
  | none => false
  | some k => k == .leftBracket || k == .leftBrace || k == .leftParen || k == .comma || k == .colon || isKeyword k

/-- `<anonymous>` (lexical_hierarchy.rs:381-385). -/
def anonymous : Text := "<anonymous>".toList

/-- The symbol of a leaf (lexical_hierarchy.rs:470-498). -/
def own (ctx : Ctx) (prev : Option Kind) (k : Kind) (t : Text) : List Sym :=
  match k with
  | .label => if inCode prev then [] else [⟨t, .label⟩]
  | .ident =>
    match ctx with
    | .var => [⟨t, .variable_⟩]
    | .params => [⟨t, .variable_⟩]
    | .ref => []
  | _ => []

/-- The name of a function with its value (lexical_hierarchy.rs:365-402); `body` is what is found in it, if it is there. -/
def closureSyms (first : Option Tree) (body : Option (List Sym)) : List Sym :=
  match first with
  | some (.leaf .ident n) => ⟨n, .function⟩ :: body.getD []
  | _ =>
    match body with
    | some b => ⟨anonymous, .function⟩ :: b
    | none => []

mutual
/-- `check_node` (lexical_hierarchy.rs:294-420). -/
def visit (ctx : Ctx) (prev : Option Kind) : Tree → List Sym
  | .leaf k t => own ctx prev k t
  | .inner k cs =>
    match k with
    | .letBinding => visitLet none cs
    | .forLoop =>
      match visitFor none cs with
      | some (iter, body) => iter ++ (visitFirst isPattern .var none cs).getD [] ++ body
      | none => (visitFirst isPattern .var none cs).getD [] ++ (visitLast none cs).getD []
    | .closure => closureSyms cs.head? (visitLast none cs)
    | .fieldAccess => (visitFirst isExpr .ref none cs).getD []
    | .named =>
      (visitLast none cs).getD [] ++ if ctx = .params then (visitFirst (· == .ident) .var none cs).getD [] else []
    | k => if plain k then [] else visitAll (enter k ctx) none cs

/-- `check_nodes` (lexical_hierarchy.rs:258-291). -/
def visitAll (ctx : Ctx) (prev : Option Kind) : List Tree → List Sym
  | [] => []
  | c :: cs => (if plain c.kind then [] else visit ctx prev c) ++ visitAll ctx (next prev c) cs

/-- The first child of a kind. -/
def visitFirst (p : Kind → Bool) (ctx : Ctx) (prev : Option Kind) : List Tree → Option (List Sym)
  | [] => none
  | c :: cs => if p c.kind then some (visit ctx prev c) else visitFirst p ctx (next prev c) cs

/-- `check_first_sub_expr` from the end (lexical_hierarchy.rs:437-452). -/
def visitLast (prev : Option Kind) : List Tree → Option (List Sym)
  | [] => none
  | c :: cs =>
    match visitLast (next prev c) cs with
    | some r => some r
    | none => if isExpr c.kind then some (visit .ref prev c) else none

/-- The arm for `let` (lexical_hierarchy.rs:334-351). -/
def visitLet (prev : Option Kind) : List Tree → List Sym
  | [] => []
  | c :: cs =>
    if isPattern c.kind then
      if c.kind == .closure then visit .ref prev c else visit .var prev c ++ (visitLast (next prev c) cs).getD []
    else visitLet (next prev c) cs

/-- What `for` goes through and what is done with it (lexical_hierarchy.rs:354-362). -/
def visitFor (prev : Option Kind) : List Tree → Option (List Sym × List Sym)
  | [] => none
  | c :: cs => if c.kind == .inKw then visitIter (next prev c) cs else visitFor (next prev c) cs

def visitIter (prev : Option Kind) : List Tree → Option (List Sym × List Sym)
  | [] => none
  | c :: cs =>
    if isExpr c.kind then some (visit .ref prev c, (visitLast (next prev c) cs).getD []) else visitIter (next prev c) cs
end

/-- The symbols of a file (lexical_hierarchy.rs:14-46). -/
def symbols (root : Tree) : List Sym := visit .ref none root

end Tinymist.Listed
