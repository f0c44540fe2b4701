import Verif.Model.Mirror

/-!
# What a recording has to do

The start of a session, and the contents of a file.
-/

namespace Tinymist.Mirror

/-- The standard input at the start: bytes arrive in these pieces, and where a piece is empty, the input ends for the moment. -/
def arriving (pieces : List (List Nat)) : Buffered := ⟨[], pieces⟩

/-- The same with an empty mirror. -/
def recording (pieces : List (List Nat)) : Mirrored := ⟨⟨[], pieces⟩, []⟩

/-- A file is read in some pieces, which are not empty before its end. -/
def FileIn (bytes : List Nat) (pieces : List (List Nat)) : Prop := pieces.flatten = bytes ∧ [] ∉ pieces

end Tinymist.Mirror
