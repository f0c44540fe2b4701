import Verif.Model.Interned

/-!
# What interned objects promise
-/

namespace Tinymist.Interned.Spec

variable {V : Type}

/-- The handle with the number `i` is in use. -/
def InUse (s : State V) (i : Nat) (h : Handle V) : Prop := s.handles[i]? = some h ∧ h.phase = .live

/-- A handle reads the value it was made from. -/
def Reads (s : State V) (h : Handle V) : Prop := ∃ n, s.mem h.addr = some (h.value, n)

/-- A program in which drops are not interleaved with anything. -/
inductive Sequential : List (Op V) → Prop where
  | nil : Sequential []
  | intern (v : V) (a : Nat) {ops} : Sequential ops → Sequential (.intern v a :: ops)
  | clone (i : Nat) {ops} : Sequential ops → Sequential (.clone i :: ops)
  | drop (i : Nat) {ops} : Sequential ops → Sequential (.drop i :: .dropSlow i :: .release i :: ops)

end Tinymist.Interned.Spec
