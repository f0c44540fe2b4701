import Verif.Model.Tips
import Verif.Spec.Pointer

/-!
# What should be said about an argument
-/

namespace Tinymist.Tips

open Mode (Kind)
open Pointer

/-- The strings that a parameter takes with their docs, in order. -/
inductive Lists : CastInfo → List (Text × Text) → Prop where
  | any : Lists .any []
  | other : Lists .other []
  | str {s d} : Lists (.str s d) [(s, d)]
  | none : Lists (.union []) []
  | more {o os l ls} : Lists o l → Lists (.union os) ls → Lists (.union (o :: os)) (l ++ ls)

/-- The first one of these docs for the string. -/
def First (l : List (Text × Text)) (s d : Text) : Prop := ∃ a b, l = a ++ (s, d) :: b ∧ ∀ x ∈ a, x.1 ≠ s

/-- The place is in a named argument of a call, or of a set rule, whose first expression is the name `f`. -/
inductive ArgumentOf (f : Text) : Place → Prop where
  | mk {t : Tree} {k : Kind} {l1 r1 l2 r2 l3 r3 pre post : List Tree} {up : List Frame} : (k = .funcCall ∨ k = .setRule) →
      l3 ++ .inner .args (l2 ++ .inner .named (l1 ++ t :: r1) :: r2) :: r3 = pre ++ .leaf .ident f :: post →
      (∀ x ∈ pre, isExpr x.kind = false) →
      ArgumentOf f ⟨t, ⟨.named, l1, r1⟩ :: ⟨.args, l2, r2⟩ :: ⟨k, l3, r3⟩ :: up⟩

/-- The place is the name of a named argument. -/
def IsName (p : Place) (n : Text) : Prop := p.tree = .leaf .ident n ∧ ∃ r up, p.up = ⟨.named, [], r⟩ :: up

/-- The place is a string in the named argument `n`. -/
def IsString (p : Place) (n s : Text) : Prop :=
  p.tree = .leaf .str s ∧ ∃ pre post r up, p.up = ⟨.named, pre ++ .leaf .ident n :: post, r⟩ :: up ∧ ∀ x ∈ pre, x.kind ≠ .ident

/-- The place is right in an argument whose first name is `n`. -/
def ArgNamed (p : Place) (n : Text) : Prop :=
  ∃ m up pre x post, p.up = m :: up ∧ m.left ++ p.tree :: m.right = pre ++ x :: post ∧ x.kind = .ident ∧ x.text = n ∧
    ∀ y ∈ pre, y.kind ≠ .ident

/-- A name is bound by a `let` in the tree right before the place, in a block around it. -/
def BoundBefore (f : Text) (p : Place) : Prop :=
  ∃ g ∈ p.up, ∃ cs rest, Tree.inner .letBinding (.leaf .letKw "let".toList :: .leaf .space [' '] :: .inner .closure (.leaf .ident f :: cs) :: rest) ∈ g.left

end Tinymist.Tips
