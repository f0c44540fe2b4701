import Verif.Model.Alias

/-!
# Names of functions with arguments given in advance
-/

namespace Tinymist.Alias

mutual

/-- The functions with arguments given in advance that a type may be: how many the last `with` gives, and what is called in the end. -/
def given : Ty → List (Nat × Target)
  | .var _ ubs lbs => givens ubs ++ givens lbs
  | .bounds ubs lbs => givens ubs ++ givens lbs
  | .union l => givens l
  | .bind t n => (called t).map fun x => (n, x)
  | .func _ => []
  | .known _ => []
  | .other => []

def givens : List Ty → List (Nat × Target)
  | [] => []
  | t :: l => given t ++ givens l

/-- The functions that a name stands for. -/
def called : Ty → List Target
  | .var (.function d) _ _ => [.user d]
  | .var .variable ubs lbs => (givens ubs ++ givens lbs).map fun x => x.2
  | .var .other _ _ => []
  | .bounds ubs lbs => calleds ubs ++ calleds lbs
  | .union l => calleds l
  | .known f => (f.map Target.known).toList
  | .bind _ _ => []
  | .func _ => []
  | .other => []

def calleds : List Ty → List Target
  | [] => []
  | t :: l => called t ++ calleds l

end

/-- A name of a function: that of its definition, or one given by `let g = f.with(..)`, where `f` is a name again. The numbers are those of
the positional arguments given, the last ones first. -/
inductive Names : Ty → Target → Option SigTy → List Nat → Prop where
  | defined {d s} : Names (.var (.function d) [] [.func s]) (.user d) (some s) []
  | known {f} : Names (.known (some f)) (.known f) none []
  | aliased {t g s ns n} : Names t g s ns → Names (.var .variable [] [.bind t n]) g s (n :: ns)

/-- What a signature says of a parameter, by what is documented and what its type is. -/
def Described (d : FnDocs) (s : SigTy) (ps : List Param) : Prop :=
  ps.length = d.pos.length + s.named.length + d.rest.toList.length ∧
  (∀ (i : Nat) p, d.pos[i]? = some p → ∃ q, ps[i]? = some q ∧ q.name = p.name ∧ q.docs = some p.docs ∧ q.default = p.default ∧
    q.ty = s.pos[i]? ∧ q.kind = .positional) ∧
  (∀ (i : Nat) n t, s.named[i]? = some (n, t) → ∃ q, ps[d.pos.length + i]? = some q ∧ q.name = n ∧ q.ty = some t ∧ q.kind = .named ∧
    q.docs = (d.named.lookup n).map ParamDoc.docs) ∧
  (∀ p, d.rest = some p → ∃ q, ps[d.pos.length + s.named.length]? = some q ∧ q.name = p.name ∧ q.docs = some p.docs ∧ q.ty = s.rest ∧
    q.kind = .variadic)

end Tinymist.Alias
