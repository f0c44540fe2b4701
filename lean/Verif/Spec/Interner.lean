import Verif.Model.Interner
/-!
# Specification for C38

Time is the number of document refreshes so far.  An id issued at time `t` expires at `t + 30`.
-/
namespace Tinymist.Interner.Spec
open Tinymist.Interner
variable {S : Type}

/-- Number of document refreshes in a history. -/
def time : List (Op S) → Nat
  | [] => 0
  | .reset :: ops => time ops + 1
  | .intern _ :: ops => time ops

/-- Number of ids requested in a history. -/
def requests : List (Op S) → Nat
  | [] => 0
  | .reset :: ops => requests ops
  | .intern _ :: ops => requests ops + 1

/-- No id that was still alive when the history was `pre` has expired when it is `pre ++ post`. -/
def NoneExpiredBetween (pre post : List (Op S)) : Prop :=
  ∀ p x q, pre = p ++ .intern x :: q →
    time p + 30 ≤ time pre ∨ time (pre ++ post) < time p + 30

end Tinymist.Interner.Spec
