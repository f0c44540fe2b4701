import Verif.Model.LatestDoc

/-!
# The newest document
-/

namespace Tinymist.LatestDoc

/-- A result of a revision that none finished before is as new as. -/
def Newest (before : List Event) (r : Nat) : Prop := ∀ d ok deps, Event.delivered d ok deps ∈ before → d.rev < r

/-- A document is the last one made, among those newer than all results finished before them, since the main file was changed. -/
def Kept (trace : List Event) (d : Doc) : Prop :=
  ∃ a deps b, trace = a ++ .delivered d true deps :: b ∧ Newest a d.rev ∧ .changed ∉ b ∧
    ∀ b1 e es b2, b = b1 ++ .delivered e true es :: b2 → ¬ Newest (a ++ .delivered d true deps :: b1) e.rev

/-- The dependencies of the newest result. -/
def Watched (trace : List Event) (deps : List Nat) : Prop :=
  ∃ a d ok b, trace = a ++ .delivered d ok deps :: b ∧ Newest a d.rev ∧
    ∀ e o es, Event.delivered e o es ∈ b → e.rev ≤ d.rev

end Tinymist.LatestDoc
