import Verif.Model.Context

/-!
# What kinds of things are offered at a place

`complete_code`, `complete_math` and `complete_markup` (crates/tinymist-query/src/analysis/completion/mode.rs 60-202), and which of them are
used (crates/tinymist-query/src/analysis/completion.rs 564-590, 713-768).

Simplifications: offsets count characters; completion by types, of fields, of paths and of references, which come before, are elsewhere.
-/

namespace Tinymist.Groups

open Mode (Kind trivia)
open Pointer
open Context (Surrounding)

/-- What is offered: names in scope (`scope_completions`), snippets of code, of markup and of equations (`snippet_completions`), that of an unnamed
function (mode.rs 194-200), languages (`raw_completions`), and those of selectors and transformations (completion.rs 736-768). -/
inductive Offer where
  | names
  | code
  | function
  | markup
  | math
  | languages
  | selectors
  | transforms
  deriving DecidableEq, Repr

/-- What is offered and where it is put: `from`, if it is changed. -/
structure Got where
  start : Option Nat
  offers : List Offer
  deriving DecidableEq, Repr

/-- `code_completions` (mode.rs 184-201). -/
def codeOffers (hash : Bool) : List Offer := [.names, .code] ++ (if hash then [] else [.function])

/-- `is_hash_expr` (completion.rs 925-942). -/
def isHashExpr (p : Place) : Bool :=
  match p.tree.kind with
  | .hash => true
  | .ident => (p.prevLeaf.map fun l => l.tree.kind) == some .hash
  | _ => false

/-- The kind of the parent. -/
def parentKind (p : Place) : Option Kind := p.parent.map fun q => q.tree.kind

/-- `complete_code` (mode.rs 136-181). -/
def completeCode (p : Place) (cursor : Nat) : Got :=
  let k := p.tree.kind
  if k = .hash then ⟨some cursor, codeOffers true⟩
  else if k = .ident then ⟨some p.offset, codeOffers (isHashExpr p)⟩
  else if (p.prevLeaf.map fun l => l.tree.kind) = some .contextKw then ⟨some cursor, codeOffers false⟩
  else if k = .ident ∧ parentKind p ≠ some .fieldAccess then ⟨some p.offset, codeOffers false⟩
  else if trivia k ∨ k = .leftParen ∨ k = .leftBrace ∨ (k = .colon ∧ parentKind p = some .showRule) then ⟨some cursor, codeOffers false⟩
  else ⟨none, []⟩

/-- `complete_math` (mode.rs 111-133). -/
def completeMath (p : Place) (cursor : Nat) (explicit punc : Bool) : Got :=
  let k := p.tree.kind
  if !punc ∧ (k = .text ∨ k = .mathIdent ∨ k = .mathText) then ⟨some p.offset, [.names, .math]⟩
  else if !punc && explicit then ⟨some cursor, [.names, .math]⟩
  else ⟨none, []⟩

/-- The offset of the nearest raw text around a node, or of itself (mode.rs 62-63). -/
def rawAt (t : Tree) : List Frame → Option Nat
  | [] => if t.kind = .raw then some 0 else none
  | f :: up => if t.kind = .raw then some (offset (f :: up)) else rawAt (.inner f.kind (f.left ++ t :: f.right)) up

/-- The language of a raw text that begins here (mode.rs 91-98): where it begins and where it ends. -/
def language (idStart idContinue : Char → Bool) (text : Text) (off : Nat) : Option (Nat × Nat) :=
  if ['`', '`', '`'].isPrefixOf (text.drop off) then
    let start := off + 3 + ((text.drop (off + 3)).takeWhile (· == '`')).length
    match text.drop start with
    | [] => some (start, start)
    | c :: cs => if idStart c then some (start, start + 1 + (cs.takeWhile idContinue).length) else some (start, start)
  else none

/-- Behind the sign of a binding (mode.rs 66-75). -/
def behindBinding (p : Place) : Bool :=
  match p.prevLeaf with
  | none => false
  | some l => (l.tree.kind == .eq || l.tree.kind == .arrow) && (parentKind l == some .letBinding || parentKind l == some .closure)

/-- `complete_markup` (mode.rs 60-108). -/
def completeMarkup (idStart idContinue : Char → Bool) (text : Text) (p : Place) (cursor : Nat) (explicit punc : Bool) : Got :=
  if behindBinding p then ⟨some cursor, codeOffers false⟩
  else if (p.prevLeaf.map fun l => l.tree.kind) = some .contextKw then ⟨some cursor, codeOffers false⟩
  else
    match (rawAt p.tree p.up).bind (language idStart idContinue text) with
    | some (start, stop) => if stop = cursor then ⟨some start, [.languages]⟩ else ⟨none, []⟩
    | none => if !punc && explicit then ⟨some cursor, [.markup]⟩ else ⟨none, []⟩

/-- The completions by mode (completion.rs 713-734). -/
def byMode (idStart idContinue : Char → Bool) (text : Text) (mode : Mode.Mode) (sur : Surrounding) (p : Place) (cursor : Nat)
    (explicit punc : Bool) : Got :=
  match mode with
  | .code => completeCode p cursor
  | .math => completeMath p cursor explicit punc
  | .raw => completeMarkup idStart idContinue text p cursor explicit punc
  | .markup =>
    match sur with
    | .regular => completeMarkup idStart idContinue text p cursor explicit punc
    | .selector | .showTransform | .setRule => completeCode p cursor
    | .stringContent | .importList | .paramList => ⟨none, []⟩
  | .comment | .string => ⟨none, []⟩

/-- The snippets by what is around (completion.rs 736-768). -/
def bySurrounding : Surrounding → List Offer
  | .selector => [.selectors]
  | .showTransform => [.transforms]
  | _ => []

/-- What is offered by mode and by what is around (completion.rs 564-590, 713-768): nothing in comments, and in the lists of imports and parameters,
which have their own completions. -/
def groups (idStart idContinue : Char → Bool) (text : Text) (p : Place) (cursor : Nat) (explicit punc : Bool) : Got :=
  if p.tree.kind = .lineComment ∨ p.tree.kind = .blockComment then ⟨none, []⟩
  else
    let sur := Context.surrounding p
    if sur = .importList ∨ sur = .paramList then ⟨none, []⟩
    else
      let g := byMode idStart idContinue text (modeAt p.tree p.up) sur p cursor explicit punc
      ⟨g.start, g.offers ++ bySurrounding sur⟩

end Tinymist.Groups
