/-!
# Folding ranges

Models `calc_folding_range` and the processing for clients that fold whole lines
(`crates/tinymist-query/src/folding_range.rs` 44-158). The lexical hierarchy comes with its ranges as
positions; texts shown when folded are left out. Line numbers are natural numbers; they do not come near
`u32::MAX`.
-/

namespace Tinymist.Folding

/-- A position: line and character. -/
structure Loc where
  line : Nat
  char : Nat
deriving DecidableEq

/-- `LexicalKind`, as far as folding looks at it. -/
inductive Kind where
  | heading
  | comment
  | other
deriving DecidableEq

/-- `LexicalHierarchy` (`syntax/lexical_hierarchy.rs` 138-142). -/
inductive Item where
  | mk (kind : Kind) (start stop : Loc) (children : List Item)

def Item.kind : Item → Kind
  | .mk k _ _ _ => k

def Item.start : Item → Loc
  | .mk _ s _ _ => s

def Item.stop : Item → Loc
  | .mk _ _ e _ => e

def Item.children : Item → List Item
  | .mk _ _ _ c => c

/-- `lsp_types::FoldingRange`. -/
structure Fold where
  start : Nat
  startChar : Option Nat
  stop : Nat
  stopChar : Option Nat
  comment : Bool
deriving DecidableEq

/-- The range of one item (`folding_range.rs` 108-138). `next`: where its next sibling starts; `parentLast`, `last`,
`isLast`: the parameters of `calc_folding_range`. -/
def foldOf (kind : Kind) (start stop : Loc) (next : Option Loc) (parentLast last : Loc) (isLast : Bool) : Fold :=
  let nextStart := match next with
    | some n => n
    | none => if isLast then last else parentLast
  let stopLine := if kind = .heading then
      max stop.line (if next.isSome then nextStart.line - 1 else nextStart.line)
    else stop.line
  ⟨start.line, some start.char, stopLine, some stop.char, kind = .comment⟩

mutual
/-- `calc_folding_range` (`folding_range.rs` 94-158). -/
def folds (parentLast last : Loc) (isLast : Bool) : List Item → List Fold
  | [] => []
  | i :: rest => foldsItem parentLast last isLast rest.head? i ++ folds parentLast last isLast rest

/-- One turn of its loop: the ranges inside the item, then the item's own. -/
def foldsItem (parentLast last : Loc) (isLast : Bool) (next : Option Item) : Item → List Fold
  | .mk kind start stop children =>
    folds (if next.isSome then stop else parentLast) last (isLast && next.isNone) children ++
      [foldOf kind start stop (next.map Item.start) parentLast last isLast]
end

/-- The lines of a range. -/
abbrev Lines := Nat × Nat

/-- `line_coverage` and `pair_coverage` (`folding_range.rs` 62-63), as what they contain. -/
structure Cover where
  lines : List Nat
  pairs : List Lines
deriving DecidableEq

/-- `if line_coverage[r.start_line] { r.start_line += 1; }`. -/
def pushStart (c : Cover) (n : Nat) : Nat := if n ∈ c.lines then n + 1 else n

/-- `if line_coverage[r.end_line] { r.end_line = r.end_line.saturating_sub(1); }`. -/
def pullStop (c : Cover) (n : Nat) : Nat := if n ∈ c.lines then n - 1 else n

/-- One turn of `retain_mut` (`folding_range.rs` 65-83): the range that is kept, if any. -/
def keep (c : Cover) (r : Lines) : Cover × Option Lines :=
  if r ∈ c.pairs then (c, none)
  else if pushStart c r.1 ≥ pullStop c r.2 then (c, none)
  else
    (⟨pushStart c r.1 :: c.lines, (pushStart c r.1, pullStop c r.2) :: c.pairs⟩,
      some (pushStart c r.1, pullStop c r.2))

/-- `retain_mut` over the reversed list. -/
def retain (c : Cover) : List Lines → List Lines
  | [] => []
  | r :: rest =>
    match keep c r with
    | (c', none) => retain c' rest
    | (c', some r') => r' :: retain c' rest

/-- The processing for clients that fold whole lines (`folding_range.rs` 54-84). -/
def lineOnly (l : List Lines) : List Lines := (retain ⟨[], []⟩ l.reverse).reverse

/-- The answer to `textDocument/foldingRange`, as the lines folded: `eof` is the position of the end of the text. -/
def request (lineFoldingOnly : Bool) (eof : Loc) (items : List Item) : List Lines :=
  let all := (folds eof eof true items).map (fun f => (f.start, f.stop))
  if lineFoldingOnly then lineOnly all else all

end Tinymist.Folding
