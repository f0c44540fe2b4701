import Verif.Model.Groups

/-!
# Nothing is offered for a name that is being made up

Models what a request for completion begins with (crates/tinymist-query/src/completion.rs:44-52) and the checks before anything is looked
for (crates/tinymist-query/src/analysis/completion.rs:470-507), in front of the groups of completions.

Simplifications: a node is found by its span below another one if it is in it. `LetBinding::init` and `Closure::body` are those of typst
and written down here: the crate is not part of this repository. Of the completions behind the checks only the groups by mode are looked at.
-/

namespace Tinymist.Naming

open Mode (Kind)
open Pointer
open Groups (Got)

/-- What `Pattern` may be cast from. -/
def isPattern (k : Kind) : Bool := isExpr k || k == .underscore || k == .destructuring

/-- Which of the expressions in a binding is its value: `LetBinding::init` of typst. -/
def initIndex (cs : List Tree) : Nat :=
  match cs.find? fun t => isPattern t.kind with
  | none => 1
  | some t => if t.kind = .closure ∨ t.kind = .underscore ∨ t.kind = .destructuring then 0 else 1

/-- The child is the value of the binding (completion.rs:477-480). -/
def isInit (f : Frame) (t : Tree) : Bool :=
  isExpr t.kind && (f.left.filter fun x => isExpr x.kind).length == initIndex (f.left ++ t :: f.right)

/-- The child is the body of the function, its last expression: `Closure::body` of typst (completion.rs:484-487). -/
def isBody (f : Frame) (t : Tree) : Bool := isExpr t.kind && f.right.all fun x => !isExpr x.kind

/-- The node is made up in a binding (completion.rs:474-490). -/
def madeUp (p : Place) : Bool :=
  match p.up with
  | [] => false
  | f :: _ => if f.kind = .letBinding then !isInit f p.tree else if f.kind = .closure then !isBody f p.tree else false

/-- The first check (completion.rs:471-491): of the accesses only. -/
def skipsName : Option Class → Bool
  | some (.ident p) | some (.fieldAccess p) | some (.dotAccess p) => madeUp p
  | _ => false

/-- The text of an error begins with a number (completion.rs:499-506). -/
def beginsNumber (numeric : Char → Bool) : Text → Bool
  | [] => false
  | [c] => numeric c
  | c :: d :: _ => numeric c || c == '.' && numeric d

/-- The second check (completion.rs:493-507). -/
def skipsNumber (numeric : Char → Bool) (c : Option Class) (leaf : Place) : Bool :=
  (match c with
    | some (.callee _) | some (.ident _) | some (.fieldAccess _) | some (.dotAccess _) | some (.normal _) => true
    | _ => false) && leaf.tree.kind == .error && beginsNumber numeric leaf.tree.text

/-- `CompletionWorker::work` (completion.rs:468-507, 524): the checks, then the groups. -/
def offered (isIdent : Text → Bool) (numeric idStart idContinue : Char → Bool) (text : Text) (p : Place) (cursor : Nat) (explicit punc : Bool) :
    Option Got :=
  let c := classify isIdent p cursor
  if skipsName c || skipsNumber numeric c p then none
  else some (Groups.groups idStart idContinue text p cursor explicit punc)

/-- A request by a character that was typed (crates/tinymist-query/src/completion.rs:45-52): by those that begin an argument only as set. -/
def answered (onPlaceholders : Bool) (trigger : Option Char) (rest : Option Got) : Option Got :=
  if (trigger = some '(' ∨ trigger = some ',' ∨ trigger = some ':') ∧ !onPlaceholders then none else rest

end Tinymist.Naming
