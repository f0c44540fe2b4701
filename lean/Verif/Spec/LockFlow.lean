import Verif.Model.LockFlow

/-!
# What processes at one lock file should see

Updates have their effect one after the other, in the order in which they release their locks.
-/
namespace Tinymist.LockFlow.Spec

/-- What an update makes of contents: an update that fails leaves them. -/
def applied (u : Bytes → Option Bytes) (b : Bytes) : Bytes := (u b).getD b

/-- The contents after some updates, one after the other. A file that is not there has no contents. -/
def after (kind : Nat → Kind) (file : Option Bytes) (order : List Nat) : Bytes :=
  order.foldl (fun b i => match kind i with | .writer u => applied u b | .reader => b) (file.getD [])

/-- The updates that released their locks, in this order. -/
def finished (kind : Nat → Kind) (es : List Event) : List Nat :=
  es.filterMap fun e => match e with
    | .unlock i => (match kind i with | .writer _ => some i | .reader => none)
    | _ => none

/-- No process was killed while it wrote. -/
def NoneTorn (s : State) : Prop := ∀ i, s.phase i ≠ .torn

/-- No process is about to write. -/
def NoneWriting (s : State) : Prop := ∀ i new pos, s.phase i ≠ .writing new pos

/-- A process that has begun and not ended. -/
def Busy (s : State) (i : Nat) : Prop := s.phase i = .opened ∨ (s.phase i).holds = true

end Tinymist.LockFlow.Spec
