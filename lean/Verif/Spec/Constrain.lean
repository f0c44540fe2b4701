import Verif.Model.Constrain
import Verif.Spec.Ty

/-!
# What uses tell of types
-/

namespace Tinymist.Constrain

open Types

/-- What can be learned: a variable is at most, or at least, some type. -/
inductive Fact where
  | atMost (v : Nat) (t : Ty)
  | atLeast (v : Nat) (t : Ty)

/-- The `i`-th positional type of a signature, which may be the one of the rest. -/
def nth (s : SigTy) (i : Nat) : Option Ty :=
  if i < (s.inputs.take s.shape.start).length then (s.inputs.take s.shape.start)[i]?
  else if s.shape.right then s.inputs.getLast? else none

/-- A parameter meets an argument: at the same place, or with the same name. If both have a rest, these meet once. -/
inductive Meets (s args : SigTy) : Ty → Ty → Prop where
  | place (i : Nat) (p a : Ty) : nth s i = some p → nth args i = some a →
      i < (s.inputs.take s.shape.start).length ∨ i < (args.inputs.take args.shape.start).length ∨
        ((∀ j < i, j < (s.inputs.take s.shape.start).length ∨ j < (args.inputs.take args.shape.start).length) ∧
          s.shape.right = true ∧ args.shape.right = true) → Meets s args p a
  | name (x i j : Nat) (p a : Ty) : s.shape.names[i]? = some x → args.shape.names[j]? = some x → s.inputs[i + s.shape.start]? = some p →
      args.inputs[j + args.shape.start]? = some a → Meets s args p a

/-- The signature in the type of a function. -/
inductive IsFunction : Ty → SigTy → Prop where
  | body (s : Shape) (ts : List Ty) (b : Ty) : IsFunction (.node (.sig .func s true) (ts ++ [b])) ⟨ts, some b, s⟩
  | plain (s : Shape) (ts : List Ty) : IsFunction (.node (.sig .func s false) ts) ⟨ts, none, s⟩

def IsVar (t : Ty) : Prop := ∃ v, t = .var v

def IsUnion (t : Ty) : Prop := ∃ ts, t = .node .union ts

/-- What is told by that something of one type is used as something of another type. Of the same type nothing is told. -/
inductive Tells (lib : Lib) : Ty → Ty → Fact → Prop where
  | atMost (v : Nat) (r : Ty) : ¬ IsVar r → Tells lib (.var v) r (.atMost v r)
  | atLeast (v : Nat) (l : Ty) : ¬ IsVar l → Tells lib l (.var v) (.atLeast v l)
  | any (ts : List Ty) (r t : Ty) (f : Fact) : ¬ IsVar r → r ≠ .node .union ts → t ∈ ts → Tells lib t r f → Tells lib (.node .union ts) r f
  | alternative (l t : Ty) (ts : List Ty) (f : Fact) : ¬ IsVar l → ¬ IsUnion l → t ∈ ts → Tells lib l t f →
      Tells lib l (.node .union ts) f
  | written (ns : List Nat) (ts : List Ty) (k : Nat) (d : List (Nat × Ty)) (f : Fact) : lib.short k = some d →
      Tells lib (.node (.dict ns) ts) (.node (.dict (d.map (·.1))) (d.map (·.2))) f → Tells lib (.node (.dict ns) ts) (.leaf (.builtin k)) f
  | read (ns : List Nat) (ts : List Ty) (k : Nat) (d : List (Nat × Ty)) (f : Fact) : lib.short k = some d →
      Tells lib (.node (.dict (d.map (·.1))) (d.map (·.2))) (.node (.dict ns) ts) f → Tells lib (.leaf (.builtin k)) (.node (.dict ns) ts) f
  | field (ns ms : List Nat) (ts us : List Ty) (x i j : Nat) (t u : Ty) (f : Fact) : Ty.node (.dict ns) ts ≠ .node (.dict ms) us →
      ns[i]? = some x → ms[j]? = some x → ts[i]? = some t → us[j]? = some u → Tells lib t u f →
      Tells lib (.node (.dict ns) ts) (.node (.dict ms) us) f
  | operand (op : Nat) (x y : Ty) (f : Fact) : Tells lib x y f → x ≠ y → Tells lib (.node (.unary op) [x]) (.node (.unary op) [y]) f
  | typeOf (x : Ty) (k : Leaf) (f : Fact) : lib.isType k = true → Tells lib x (.leaf k) f → Tells lib (.node (.unary lib.typeOf) [x]) (.leaf k) f
  | isTypeOf (y : Ty) (k : Leaf) (f : Fact) : lib.isType k = true → Tells lib (.leaf k) y f → Tells lib (.leaf k) (.node (.unary lib.typeOf) [y]) f
  | function (l r : Ty) (s args : SigTy) (p a : Ty) (f : Fact) : l ≠ r → IsFunction l s → IsFunction r args → Meets s args p a →
      Tells lib a p f → Tells lib l r f

/-- A fact is known. A variable that has been weakened may know of a value no more than its type. -/
def Knows (lib : Lib) (s : State) : Fact → Prop
  | .atMost v t => ∃ b, s.vars v = some b ∧ t ∈ b.ubs
  | .atLeast v t => ∃ b, s.vars v = some b ∧ (t ∈ b.lbs ∨ (b.weak = true ∧ ∃ n, t = .leaf (.value n) ∧ lib.lift n ∈ b.lbs))

/-- What is kept of a fact about a variable: of a value only the type, if the variable has been weakened. -/
def Keeps (lib : Lib) (weak : Bool) (told kept : Ty) : Prop :=
  (weak = true ∧ ∃ n, told = .leaf (.value n) ∧ kept = lib.lift n) ∨ ((weak = false ∨ ∀ n, told ≠ .leaf (.value n)) ∧ kept = told)

mutual
/-- The names in dictionaries and signatures are in order, as they are made, and a signature that is said to have a body has one. -/
def InOrder : Ty → Prop
  | .node (.dict ns) ts => ns.Pairwise (· < ·) ∧ AllInOrder ts
  | .node (.sig _ s b) ts => (s.names.Pairwise (· < ·) ∧ (b = true → ts ≠ [])) ∧ AllInOrder ts
  | .node _ ts => AllInOrder ts
  | _ => True
def AllInOrder : List Ty → Prop
  | [] => True
  | t :: ts => InOrder t ∧ AllInOrder ts
end

/-- The dictionaries of a library are in order, without variables, and not deeper than is said, and what they are written for is no type of types. -/
structure Fits (lib : Lib) : Prop where
  order : ∀ k d, lib.short k = some d → InOrder (.node (.dict (d.map (·.1))) (d.map (·.2)))
  plain : ∀ k d, lib.short k = some d → lib.isType (.builtin k) = false
  closed : ∀ k d, lib.short k = some d → ∀ x t v, (x, t) ∈ d → ¬ Types.Spec.Occurs v t
  deep : ∀ k d, lib.short k = some d → ∀ x t, (x, t) ∈ d → deep lib t ≤ lib.depth

/-- All that the calls that were gone through tell is known. -/
def Consistent (lib : Lib) (s : State) : Prop :=
  ∀ sig args withs p a, (sig, args, withs) ∈ s.seen → (p, a) ∈ sig.matches args withs → ∀ f, Tells lib a p f → Knows lib s f

/-- A variable is in a type, but not in the body of a function. -/
inductive Reached (v : Nat) : Ty → Prop where
  | var : Reached v (.var v)
  | node (h : Head) (ts : List Ty) (t : Ty) : (∀ k s, h ≠ .sig k s true) → (∀ s, h ≠ .withArgs s true) → t ∈ ts → Reached v t →
      Reached v (.node h ts)
  | input (k : Kind) (s : Shape) (ts : List Ty) (b t : Ty) : t ∈ ts → Reached v t → Reached v (.node (.sig k s true) (ts ++ [b]))
  | given (s : Shape) (ts : List Ty) (b t : Ty) : t ∈ ts → Reached v t → Reached v (.node (.withArgs s true) (ts ++ [b]))

end Tinymist.Constrain
