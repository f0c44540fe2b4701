import Verif.Model.Sampled

/-!
# Runs of values
-/

namespace Tinymist.Sampled.Spec

/-- Values put into runs: each is the first value of a run and the number of values in it; all of a run are the same as
the first, and the next one is not. -/
inductive Runs {V : Type} (same : V → V → Bool) : List V → List (V × Nat) → Prop where
  | nil : Runs same [] []
  | run {v : V} {eqs rest : List V} {rs : List (V × Nat)} :
      (∀ e ∈ eqs, same v e = true) → (∀ w, rest.head? = some w → same v w = false) → Runs same rest rs →
      Runs same (v :: eqs ++ rest) ((v, eqs.length + 1) :: rs)

/-- The text of a run: the value, and how often it came when that is more than once. -/
def runText {V : Type} (repr : V → String) (r : V × Nat) : String :=
  if r.2 = 1 then repr r.1 else repr r.1 ++ " (x" ++ toString r.2 ++ ")"

end Tinymist.Sampled.Spec
