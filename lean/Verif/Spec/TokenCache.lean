import Verif.Model.TokenCache
import Verif.Props.TokenDelta
/-!
# Specification for C02: the client's side of the semantic token protocol

The client remembers, per document and result id, the integer stream it has.  A full reply replaces
it; a delta reply is applied to the stream held for the previous result id quoted in the request.
-/
namespace Tinymist.TokenCache.Spec
open Tinymist.TokenCache Tinymist.TokenDelta Tinymist.TokenDelta.Spec

/-- What the client makes of one reply, given what it holds. -/
def decode (held : Path → Nat → Option (List Nat)) (r : Reply) : Option (List Nat) :=
  match r.body with
  | .full data => some (wire data)
  | .delta edits =>
    match r.quoted with
    | none => none
    | some q => (held r.path q).map fun old => clientApply old edits

structure Client where
  held : Path → Nat → Option (List Nat)
  /-- the stream shown to the user after each reply (`none`: the reply was undecodable) -/
  shown : List (Option (List Nat))

def Client.init : Client := { held := fun _ _ => none, shown := [] }

def receive (c : Client) (r : Reply) : Client :=
  let d := decode c.held r
  { held := fun p i => if p = r.path ∧ i = r.id then d else c.held p i,
    shown := c.shown ++ [d] }

/-- The client after a list of replies. -/
def clientAfter (rs : List Reply) : Client := rs.foldl receive Client.init

/-- The documents that were asked for, in order. The k-th request, counted from 1, gets the result id k, and its context
the number k - 1. -/
def asked (ops : List Op) : List Path :=
  ops.filterMap fun
    | .acquire p _ => some p
    | .respond .. => none
    | .release _ => none
    | .clear => none

/-- The client quotes ids only that it was sent for the document, or none at all (`0` is not an id). -/
def Honest (ops : List Op) : Prop :=
  ∀ pre p i post, ops = pre ++ .acquire p (some i) :: post → i = 0 ∨
    ∃ s outs, run init pre = some (s, outs) ∧ ∃ o ∈ outs, o.2.path = p ∧ o.2.id = i

/-- The server still has to know the result `i` of a document: it was the last one asked for, or a request for the
document that is not later than it is not yet over. -/
def StillKnown (ops : List Op) (p : Path) (i : Nat) : Prop :=
  (∀ j, (asked ops)[j]? = some p → j + 1 ≤ i) ∨
    ∃ k, k + 1 ≤ i ∧ (asked ops)[k]? = some p ∧ Op.release k ∉ ops

end Tinymist.TokenCache.Spec
