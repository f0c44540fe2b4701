import Verif.Model.Members

/-!
# What may stand behind a dot
-/

namespace Tinymist.Members

/-- The interfaces of a type, in order: those of the upper bounds before those of the lower ones. -/
inductive Flat : Ty → List Iface → Prop where
  | leaf (i) : Flat (.leaf i) [i]
  | unknown : Flat .unknown []
  | none : Flat (.union []) []
  | more {t l a b} : Flat t a → Flat (.union l) b → Flat (.union (t :: l)) (a ++ b)
  | bounds {u l a b} : Flat (.union u) a → Flat (.union l) b → Flat (.bounds u l) (a ++ b)
  | var {u l a b} : Flat (.union u) a → Flat (.union l) b → Flat (.var u l) (a ++ b)

/-- A function takes what is before the dot: its first required parameter is called so. -/
def TakesSelf (v : Val) : Prop :=
  ∃ id pre post, v = .func id (some (pre ++ ("self", true) :: post)) ∧ ∀ p ∈ pre, p.2 = false

/-- A name in the scope of a type, behind something of that type. -/
def Method (self : Nat) (t : TypeDef) (n : String) (g : Got) : Prop :=
  ∃ v, (n, v) ∈ t.scope ∧ ((TakesSelf v ∧ g = .bound self v) ∨ (¬ TakesSelf v ∧ g = .val v))

/-- A name behind something of a type: a field, or in the scope of the type. -/
def OfType (self : Nat) (t : TypeDef) (n : String) (g : Got) : Prop := (n ∈ t.fields ∧ g = .any) ∨ Method self t n g

def InScope (s : Scope) (n : String) (g : Got) : Prop := ∃ v, (n, v) ∈ s ∧ g = .val v

/-- A name may stand behind a dot behind something with an interface, and stands for something then. -/
def Behind (b : Builtins) (i : Iface) (n : String) (g : Got) : Prop :=
  match i with
  | .array self => OfType self b.array n g
  | .tuple self => OfType self b.array n g
  | .dict self fields => (∃ t, (n, t) ∈ fields ∧ g = .ty t) ∨ Method self b.dict n g
  | .value fields => InScope fields n g ∨ ∃ self, Method self b.dict n g
  | .content fields _ =>
    (∃ f ∈ fields, f.name = n ∧
      (((∃ p d, f.param = some (p, d) ∧ ((f.style = none ∧ g = .ty p) ∨ (f.style ≠ none ∧ g = .optional p)))) ∨
        (f.param = none ∧ ((∃ s, f.style = some s ∧ g = .optional s) ∨ (f.style = none ∧ g = .any))))) ∨
      ∃ self, Method self b.content n g
  | .typeType t => InScope t.scope n g
  | .type self t => OfType self t n g
  | .func self scope => OfType self b.func n g ∨ ∃ s, scope = some s ∧ InScope s n g
  | .module (.inl exports) => ∃ t, (n, t) ∈ exports ∧ g = .ty t
  | .module (.inr scope) => ∃ s, scope = some s ∧ InScope s n g
  | .moduleVal scope => InScope scope n g

/-- A name is imported with all of something with an interface. -/
def Importable (i : Iface) (n : String) (g : Got) : Prop :=
  match i with
  | .typeType t => InScope t.scope n g
  | .type _ t => InScope t.scope n g
  | .func _ scope => ∃ s, scope = some s ∧ InScope s n g
  | .content _ scope => InScope scope n g
  | .module (.inl exports) => ∃ t, (n, t) ∈ exports ∧ g = .ty t
  | .module (.inr scope) => ∃ s, scope = some s ∧ InScope s n g
  | .moduleVal scope => InScope scope n g
  | .array _ => False
  | .tuple _ => False
  | .dict _ _ => False
  | .value _ => False

/-- A type that is one of several is, through and through, of a kind. -/
inductive AllOf (k : Kind) : KTy → Prop where
  | one : AllOf k (.one k)
  | several {l} : l ≠ [] → (∀ t ∈ l, AllOf k t) → AllOf k (.several l)

end Tinymist.Members
