import Verif.Model.Uris

/-!
# What URIs of documents have to be
-/

namespace Tinymist.Uris

/-- The name of a file or a directory: bytes, but no slash among them; not empty and no dot. -/
def IsName (n : Bytes) : Prop := n ≠ [] ∧ n ≠ ['.'.toNat] ∧ '/'.toNat ∉ n ∧ ∀ b ∈ n, b < 256

/-- A path of a file that is not the root. -/
def IsPath (p : Path) : Prop := p ≠ [] ∧ ∀ n ∈ p, IsName n

/-- The path of a file on disk: not in `/untitled`. -/
def OnDisk (p : Path) : Prop := IsPath p ∧ ∀ rest, p ≠ "untitled".toList.map Char.toNat :: rest

/-- A name without the characters that mean something in a URI, white space other than blanks and dots that go back. -/
def Simple (n : Bytes) : Prop := IsName n ∧ n ≠ [('.').toNat, ('.').toNat] ∧ ∀ b ∈ n, b ≠ '%'.toNat ∧ b ≠ '?'.toNat ∧ b ≠ '#'.toNat ∧
  b ≠ '\t'.toNat ∧ b ≠ '\n'.toNat ∧ b ≠ '\r'.toNat

/-- The path of a document without a file, which has a simple name that does not end with a blank. -/
def Untitled (p : Path) : Prop :=
  ∃ init last b, p = "untitled".toList.map Char.toNat :: (init ++ [last ++ [b]]) ∧ (∀ n ∈ init ++ [last ++ [b]], Simple n) ∧ 32 < b

/-- `c` is a hexadecimal digit of the value `x`: a digit, or a letter of either case. -/
def Hex (c x : Nat) : Prop := (c = 48 + x ∧ x < 10) ∨ (10 ≤ x ∧ x < 16 ∧ (c = 65 + (x - 10) ∨ c = 97 + (x - 10)))

/-- The sixteen digits that are written. -/
def digits : List Nat := [48, 49, 50, 51, 52, 53, 54, 55, 56, 57, 65, 66, 67, 68, 69, 70]

/-- How a byte of the name of an unsaved document is written: as it is if it can be seen or is a space. -/
def written (b : Nat) : Bytes :=
  if 32 ≤ b ∧ b ≤ 126 then [b] else [37, digits.getD (b / 16) 0, digits.getD (b % 16) 0]

end Tinymist.Uris
