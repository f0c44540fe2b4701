import Verif.Model.Naming
import Verif.Spec.Groups

/-!
# The names that are made up
-/

namespace Tinymist.Naming

open Mode (Kind)
open Pointer

/-- What may stand before the sign of a binding: an expression, a placeholder or a pattern in parentheses. -/
def Bindable (k : Kind) : Prop := isExpr k = true ∨ k = .underscore ∨ k = .destructuring

/-- The names that are made up where they stand. -/
inductive MadeUp : Place → Prop where
  /-- `let x` -/
  | variable {t l r up} : t ≠ [] → (∀ x ∈ l, ¬ Bindable x.kind) → MadeUp ⟨.leaf .ident t, ⟨.letBinding, l, r⟩ :: up⟩
  /-- `let f(..)` -/
  | function {t r up} : t ≠ [] → (∃ x ∈ r, x.kind = .params) → MadeUp ⟨.leaf .ident t, ⟨.closure, [], r⟩ :: up⟩
  /-- `let (x, ..)` -/
  | part {t l r l' r' up} : t ≠ [] → (∀ x ∈ l', ¬ Bindable x.kind) →
      MadeUp ⟨.leaf .ident t, ⟨.destructuring, l, r⟩ :: ⟨.letBinding, l', r'⟩ :: up⟩
  /-- `for x in ..` -/
  | loop {t l r up} : t ≠ [] → (∀ x ∈ l, ¬ Bindable x.kind) → MadeUp ⟨.leaf .ident t, ⟨.forLoop, l, r⟩ :: up⟩
  /-- `import .. as x` -/
  | module {t l a b r up} : t ≠ [] → l = a ++ .leaf .asKw ['a', 's'] :: b → (∀ x ∈ b, ¬ Bindable x.kind) →
      MadeUp ⟨.leaf .ident t, ⟨.moduleImport, l, r⟩ :: up⟩

/-- The value of `let x = value`, or of a pattern: the first expression behind the sign, and one thing is bound before it. -/
inductive ValueOf : Place → Prop where
  | mk {v b a a' e bs r up} : ¬ (b : Tree).kind = .closure → Bindable b.kind → (∀ x ∈ a, ¬ Bindable x.kind) → (∀ x ∈ a', ¬ Bindable x.kind) → e ≠ [] →
      (∀ x ∈ bs, ¬ Bindable x.kind) → isExpr (v : Tree).kind = true →
      ValueOf ⟨v, ⟨.letBinding, a ++ b :: a' ++ .leaf .eq e :: bs, r⟩ :: up⟩

/-- The body of a function: the last expression in it. -/
inductive BodyOf : Place → Prop where
  | mk {v l r up} : isExpr (v : Tree).kind = true → (∀ x ∈ r, isExpr x.kind = false) → BodyOf ⟨v, ⟨.closure, l, r⟩ :: up⟩

/-- A text that begins with a number, maybe with the dot before its digits. -/
def Numeral (numeric : Char → Bool) (t : List Char) : Prop := ∃ d r, numeric d = true ∧ (t = d :: r ∨ t = '.' :: d :: r)

end Tinymist.Naming
