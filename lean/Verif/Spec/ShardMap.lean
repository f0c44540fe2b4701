import Verif.Model.ShardMap

/-! A map as a history of insertions and removals. -/

namespace Tinymist.ShardMap

open Fingerprint (Fp)

/-- The value a fingerprint has after a history: that of the last operation on it. -/
def value {V : Type} (f : Fp) (ops : List (Op V)) : Option V :=
  match (ops.filter (fun o => o.key = f)).getLast? with
  | some (.insert _ v) => some v
  | _ => none

end Tinymist.ShardMap
