import Verif.Model.Position
import Verif.Model.Utf8

/-!
# The edit of a formatting request

Models `calc_diff` (`crates/tinymist/src/task/format.rs` 61-94). The
formatters themselves are libraries; the claim is about any two texts.
`none` stands for a panic: a subtraction below zero or a slice off a character boundary or out of order.
-/

namespace Tinymist.Format

open Tinymist.Position

/-- `zip(a, b).take_while(|(x, y)| x == y).count()`. -/
def commonLen : List Nat → List Nat → Nat
  | a :: as, b :: bs => if a = b then commonLen as bs + 1 else 0
  | _, _ => 0

/-- `str::is_char_boundary`. -/
def isBoundary (s : Text) (k : Nat) : Bool := (splitAtByte s k).isSome

/-- `while !old.is_char_boundary(prefix) || !new.is_char_boundary(prefix) { prefix -= 1 }`
(`format.rs` 73-75). -/
def shrink (old new : Text) : Nat → Nat
  | 0 => 0
  | k + 1 => if isBoundary old (k + 1) && isBoundary new (k + 1) then k + 1 else shrink old new k

/-- `while !old.is_char_boundary(old.len() - suffix) || ... { suffix += 1 }`
(`format.rs` 81-83); `fuel` is the number of times it can go on before a
subtraction goes below zero. -/
def grow (old new : Text) (suffix : Nat) : Nat → Option Nat
  | 0 => none
  | fuel + 1 =>
    if isBoundary old (len8 old - suffix) && isBoundary new (len8 new - suffix) then some suffix
    else grow old new (suffix + 1) fuel

/-- The edit before positions are computed: none, or the bytes to replace and
the text to put there (`format.rs` 62-86). -/
def calcDiff (old new : Text) : Option (Option ((Nat × Nat) × Text)) :=
  let p := commonLen (Utf8.encode old) (Utf8.encode new)
  if p = len8 old ∧ p = len8 new then some none
  else do
    let p := shrink old new p
    let suffix := commonLen ((Utf8.encode old).drop p).reverse ((Utf8.encode new).drop p).reverse
    let suffix ← grow old new suffix (min (len8 old) (len8 new) + 1 - suffix)
    let stop := len8 new - suffix
    if p ≤ stop then do
      let a ← splitAtByte new p
      let b ← splitAtByte a.2 (stop - p)
      pure (some ((p, len8 old - suffix), b.1))
    else none

/-- `calc_diff` (`format.rs` 61-94), as the change a client is asked to make;
`to_lsp_range` converts both ends. -/
def formatEdits (enc : Encoding) (old new : Text) : Option (List Change) := do
  match ← calcDiff old new with
  | none => pure []
  | some (r, w) =>
    let a ← toLsp enc old r.1
    let b ← toLsp enc old r.2
    pure [⟨some (a, b), w⟩]

end Tinymist.Format
