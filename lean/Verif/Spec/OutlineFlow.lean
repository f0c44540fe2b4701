import Verif.Model.OutlineFlow

/-!
# What the outline in the editor should be
-/

namespace Tinymist.OutlineFlow

variable {D : Type}

/-- The documents that were stored, in order. -/
def stored : List (Op D) → List D
  | [] => []
  | .store d :: ops => d :: stored ops
  | _ :: ops => stored ops

/-- Nothing is left to do: all documents are announced, no message waits, and the loop waits for one. -/
def Quiet (s : State D) : Prop := s.posting = 0 ∧ s.queue = 0 ∧ s.lagged = false ∧ s.phase = .idle

/-- The outline the editor shows: the last one that was sent. -/
def shown (s : State D) : Option D := s.sent.getLast?

/-- Some of a list, perhaps several times, in its order. -/
def Follows (part whole : List D) : Prop := ∃ is : List Nat, is.Pairwise (· ≤ ·) ∧ is.map (whole[·]?) = part.map some

/-- A document came, or something was asked for. -/
def Asked (ops : List (Op D)) : Prop := (∃ d, .store d ∈ ops) ∨ .request ∈ ops

/-- How many documents came and how many things were asked for. -/
def asks : List (Op D) → Nat
  | [] => 0
  | .store _ :: ops => asks ops + 1
  | .request :: ops => asks ops + 1
  | _ :: ops => asks ops

/-- What the loop and the announcing do by themselves. -/
def Own : Op D → Prop
  | .store _ => False
  | .request => False
  | _ => True

end Tinymist.OutlineFlow
