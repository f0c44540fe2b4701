import Verif.Model.DiagConvert
import Verif.Spec.Position

/-!
# Where diagnostics belong
-/

namespace Tinymist.DiagConvert

open Position (Text Encoding Pos)

variable {F U : Type}

/-- The file of a diagnostic: that of its span; if it has none, that of the first of its trace points that has one; if
there is none, the main file. -/
inductive Place (w : World F U) (d : Diag F) : F → Option Nat → Prop
  | span (f n) (h : d.span = some (f, n)) : Place w d f (some n)
  | trace (f n) (pre post m) (h0 : d.span = none) (h : d.trace = pre ++ (some (f, n), m) :: post)
      (hp : ∀ t ∈ pre, t.1 = none) : Place w d f (some n)
  | main (h0 : d.span = none) (h : ∀ t ∈ d.trace, t.1 = none) : Place w d w.main none

/-- A diagnostic that can be shown in the file `u`: its place is in a file with that address that can be read. -/
def ShownIn (w : World F U) (d : Diag F) (u : U) : Prop :=
  ∃ f n, Place w d f n ∧ w.uri f = some u ∧ (w.source f).isSome = true

/-- The message for the user: the compiler's message and every hint on a line of its own. -/
def fullMessage (m : Text) : List Text → Text
  | [] => m
  | h :: hs => fullMessage (m ++ "\nHint: ".toList ++ h) hs

/-- A text occurs in another. -/
def Occurs (pat s : Text) : Prop := ∃ a b, s = a ++ pat ++ b

/-- The hints of a diagnostic: the compiler's and, for a message of an older version, one that says so. -/
def allHints (w : World F U) (d : Diag F) : List Text :=
  d.hints ++ if w.deprecated d.message then [w.deprecation] else []

/-- A file outside of the root was asked for. -/
def OutOfRoot (w : World F U) (d : Diag F) : Prop :=
  Occurs "failed to load file (access denied)".toList d.message ∧
    ∃ h ∈ allHints w d, Occurs "cannot read file outside of project root".toList h

/-- A trace point that can be shown: it is at a node of a file with an address that can be read. -/
def PointAt (w : World F U) (t : Span F × Text) (u : U) (s : Source) (node : Text × Text) : Prop :=
  ∃ f n, t.1 = some (f, n) ∧ w.uri f = some u ∧ w.source f = some s ∧ s.find n = some node

/-- The range that the client takes for a piece of text. -/
def Covers (enc : Encoding) (text pre mid post : Text) (r : Range) : Prop :=
  text = pre ++ mid ++ post ∧ Pos enc text r.1.1 r.1.2 (mid ++ post) ∧ Pos enc text r.2.1 r.2.2 post

end Tinymist.DiagConvert
