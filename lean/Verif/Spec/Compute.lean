import Verif.Model.Compute
/-! What users of a compute graph rely on. -/
namespace Tinymist.Compute
variable {K R : Type} [DecidableEq K]

/-- The result an event is about. -/
def Event.result : Event K R → Option (K × R)
  | .completed k r => some (k, r)
  | .provided k r => some (k, r)
  | .observed k r => some (k, r)
  | _ => none

/-- How often a computation was started, finished, given up and provided. -/
def starts (log : List (Event K R)) (k : K) : Nat := log.countP fun | .began k' => k' = k | _ => false
def ends (log : List (Event K R)) (k : K) : Nat := log.countP fun | .completed k' _ => k' = k | _ => false
def gaveUp (log : List (Event K R)) (k : K) : Nat := log.countP fun | .aborted k' => k' = k | _ => false
def gifts (log : List (Event K R)) (k : K) : Nat := log.countP fun | .provided k' _ => k' = k | _ => false

/-- A thread has nothing left to do. -/
def Thread.ended (t : Thread K R) : Prop := t.frames = [] ∧ (t.client = none ∨ ∃ r, t.client = some (.ret r))

/-- Every computation a program asks for, or provides, has a smaller rank. -/
def Below (rank : K → Nat) (n : Nat) : Prog K R → Prop
  | .ret _ => True
  | .compute k cont => rank k < n ∧ ∀ r, Below rank n (cont r)
  | .get _ cont => ∀ r, Below rank n (cont r)
  | .provide k _ cont => rank k < n ∧ ∀ b, Below rank n (cont b)
  | .panic => True

/-- The computations depend on each other without cycles. -/
def Acyclic (task : K → Prog K R) : Prop := ∃ rank : K → Nat, ∀ k, Below rank (rank k) (task k)

end Tinymist.Compute
