import Verif.Model.OutlineMany

/-!
# What the outline in the editor should be, with several pages
-/

namespace Tinymist.OutlineMany

variable {D : Type}

/-- The documents that were stored, in order. -/
def stored : List (Act D) → List D
  | [] => []
  | .store d :: acts => d :: stored acts
  | _ :: acts => stored acts

/-- Nothing is left to do: all documents are announced, and every loop waits for a message and has none. -/
def Quiet (s : State D) : Prop := s.posting = 0 ∧ ∀ l ∈ s.loops, l.queue = 0 ∧ l.lagged = false ∧ l.phase = .idle

/-- The outline the editor shows: the last one that was sent. -/
def shown (s : State D) : Option D := s.sent.getLast?

/-- A document came, or something was asked for. -/
def Asked (acts : List (Act D)) : Prop := (∃ d, .store d ∈ acts) ∨ .request ∈ acts

/-- How many documents came and how many things were asked for. -/
def asks : List (Act D) → Nat
  | [] => 0
  | .store _ :: acts => asks acts + 1
  | .request :: acts => asks acts + 1
  | _ :: acts => asks acts

/-- How many pages connected after the first. -/
def joined : List (Act D) → Nat
  | [] => 0
  | .connect :: acts => joined acts + 1
  | _ :: acts => joined acts

/-- What the loops and the announcing do by themselves. -/
def Own : Act D → Prop
  | .store _ => False
  | .request => False
  | .connect => False
  | _ => True

end Tinymist.OutlineMany
