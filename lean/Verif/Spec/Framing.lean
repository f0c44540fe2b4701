import Verif.Model.Framing
/-!
# Specification for C17: header fields of the base protocol
-/
namespace Tinymist.Framing.Spec
open Tinymist

/-- A header field other than the length: any name without the separator and any value, on one line. -/
structure ExtraHeader where
  name : List Char
  value : List Char

/-- The text of a header line. -/
def line (name value : List Char) : List Char := name ++ ": ".toList ++ value

def ExtraHeader.Ok (h : ExtraHeader) : Prop :=
  h.name.map Char.toLower ≠ "content-length".toList ∧ ¬ ": ".toList <:+: h.name ∧
  '\n' ∉ h.name ∧ '\n' ∉ h.value

/-- The bytes of a message with the given header lines. -/
def frame (lines : List (List Char)) (body : List Char) : List Nat :=
  lines.flatMap (fun l => Utf8.encode (l ++ "\r\n".toList)) ++ Utf8.encode "\r\n".toList ++ Utf8.encode body

end Tinymist.Framing.Spec
