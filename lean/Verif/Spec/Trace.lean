import Verif.Model.Trace
/-!
# What profiling a document promises
-/
namespace Tinymist.Trace.Spec
open Trace

/-- A text that neither begins nor ends with white space. -/
def Bare (s : Text) : Prop :=
  (∀ c, s.head? = some c → Pages.isWhitespace c = false) ∧ ∀ c, s.getLast? = some c → Pages.isWhitespace c = false

/-- A text that is not mistaken for an option. -/
def Plain (s : Text) : Prop := s.head? ≠ some '-'

/-- The inputs of a request, all strings. -/
def strings (ins : List (Text × Text)) : List (Text × Value) := ins.map fun (k, v) => (k, .str v)

/-- An input that survives the command line. -/
def Passes (kv : Text × Text) : Prop := kv.1 ≠ [] ∧ '=' ∉ kv.1 ∧ Bare kv.1 ∧ Bare kv.2

/-- What is sent as messages one after another. -/
def Sends (msgs : List Text) (out : List Nat) : Prop := out = msgs.flatMap Framing.writeMsg

/-- Every message is short enough to have a length. -/
def Fits (msgs : List Text) : Prop := ∀ m ∈ msgs, (Utf8.encode m).length < 2 ^ 64

/-- The times at which the server is used, from its start. -/
def uses (start : Nat) (reqs : List (Nat × Req)) : List Nat := start :: reqs.map Prod.fst

/-- The times come in order. -/
def InOrder (start : Nat) (reqs : List (Nat × Req)) : Prop := (uses start reqs).Pairwise (· ≤ ·)

end Tinymist.Trace.Spec
