import Verif.Model.TyDescribe

/-!
# What the words for a type should be
-/

namespace Tinymist.Types.Spec

/-- A type that has one word. -/
inductive Word (w : Words) : Ty → Text → Prop where
  | leaf (l : Leaf) : w.leaf l ≠ [] → Word w (.leaf l) (w.leaf l)
  | dict (names : List Nat) (ts : List Ty) : Word w (.node (.dict names) ts) "dictionary".toList
  | tuple (ts : List Ty) : Word w (.node .tuple ts) "array".toList
  | array (ts : List Ty) : Word w (.node .array ts) "array".toList
  | args (s : Shape) (b : Bool) (ts : List Ty) : Word w (.node (.sig .args s b) ts) "arguments".toList
  | pattern (s : Shape) (b : Bool) (ts : List Ty) : Word w (.node (.sig .pattern s b) ts) "pattern".toList
  | param (n : Nat) (ts : List Ty) : Word w (.node (.param n) ts) "param".toList
  | select (n : Nat) (ts : List Ty) : Word w (.node (.select n) ts) "any".toList
  | unary (n : Nat) (ts : List Ty) : Word w (.node (.unary n) ts) "any".toList
  | binary (n : Nat) (ts : List Ty) : Word w (.node (.binary n) ts) "any".toList
  | cond (ts : List Ty) : Word w (.node .cond ts) "any".toList
  | withArgs (s : Shape) (b : Bool) (t : Ty) (ts : List Ty) (x : Text) : Word w t x → Word w (.node (.withArgs s b) (t :: ts)) x

/-- One of the alternatives of a type has the word. -/
inductive OneIs (w : Words) : Ty → Text → Prop where
  | word (t : Ty) (x : Text) : Word w t x → OneIs w t x
  | union (ts : List Ty) (t : Ty) (x : Text) : t ∈ ts → OneIs w t x → OneIs w (.node .union ts) x
  | bounds (n : Nat) (ts : List Ty) (t : Ty) (x : Text) : t ∈ ts → OneIs w t x → OneIs w (.node (.bounds n) ts) x
  | withArgs (s : Shape) (b : Bool) (t : Ty) (ts : List Ty) (x : Text) : OneIs w t x → OneIs w (.node (.withArgs s b) (t :: ts)) x

mutual
/-- The functions among the alternatives. -/
def functions : Ty → List Ty
  | .leaf _ => []
  | .var _ => []
  | .node h ts =>
    match h with
    | .sig .func s b => [.node (.sig .func s b) ts]
    | .union => functionsAll ts
    | .bounds _ => functionsAll ts
    | .withArgs _ _ => functionsFirst ts
    | _ => []
def functionsFirst : List Ty → List Ty
  | [] => []
  | t :: _ => functions t
def functionsAll : List Ty → List Ty
  | [] => []
  | t :: ts => functions t ++ functionsAll ts
end

/-- The texts are the given ones, each once, in order, with bars between them. -/
inductive Listed : List Text → Text → Prop where
  | one (a : Text) : Listed [a] a
  | cons (a b : Text) (l : List Text) (s : Text) : a < b → Listed (b :: l) s → Listed (a :: b :: l) (a ++ " | ".toList ++ s)

mutual
/-- What a type is described as: by its word, by the words of its alternatives, with the first function among them, or not at all. -/
inductive Describes (w : Words) : Ty → Option Text → Prop where
  | word (t : Ty) (x : Text) : Word w t x → Describes w t (some x)
  | none (t : Ty) : (∀ x, ¬ OneIs w t x) → functions t = [] → Describes w t none
  | plain (t : Ty) (l : List Text) (s : Text) : (∀ x, ¬ Word w t x) → functions t = [] → (∀ x, x ∈ l ↔ OneIs w t x) → Listed l s →
      Describes w t (some s)
  | withFunction (t f : Ty) (fs : List Ty) (ft : Text) (l : List Text) (s : Text) : functions t = f :: fs → DescribesFunction w f ft →
      (∀ x, x ∈ l ↔ OneIs w t x ∨ x = ft) → Listed l s → Describes w t (some s)

/-- The text for a function. -/
inductive DescribesFunction (w : Words) : Ty → Text → Prop where
  | noBody (k : Kind) (s : Shape) (inputs : List Ty) (ps : Text) :
      DescribesParams w ((inputs.take s.start).map (([], ·)) ++ (s.names.zip (inputs.drop s.start)).map (fun p => (w.name p.1 ++ ": ".toList, p.2)) ++
        (if s.right then inputs.getLast?.toList.map (("..: ".toList, ·)) else [])) true ps →
      DescribesFunction w (.node (.sig k s false) inputs) ("(".toList ++ ps ++ ") => any".toList)
  | body (k : Kind) (s : Shape) (inputs : List Ty) (b : Ty) (o : Option Text) (ps : Text) :
      DescribesParams w ((inputs.take s.start).map (([], ·)) ++ (s.names.zip (inputs.drop s.start)).map (fun p => (w.name p.1 ++ ": ".toList, p.2)) ++
        (if s.right then inputs.getLast?.toList.map (("..: ".toList, ·)) else [])) true ps →
      Describes w b o →
      DescribesFunction w (.node (.sig k s true) (inputs ++ [b])) ("(".toList ++ ps ++ ") => ".toList ++ o.getD "any".toList)

/-- The text for parameters, with commas between them. -/
inductive DescribesParams (w : Words) : List (Text × Ty) → Bool → Text → Prop where
  | nil (first : Bool) : DescribesParams w [] first []
  | cons (pre : Text) (t : Ty) (o : Option Text) (ps : List (Text × Ty)) (first : Bool) (rest : Text) : Describes w t o →
      DescribesParams w ps false rest →
      DescribesParams w ((pre, t) :: ps) first ((if first then [] else ", ".toList) ++ pre ++ o.getD "any".toList ++ rest)
end

/-- A type as the checker makes them: a function with a body has the body. -/
inductive Made : Ty → Prop where
  | leaf (l : Leaf) : Made (.leaf l)
  | var (d : Nat) : Made (.var d)
  | node (h : Head) (ts : List Ty) : (∀ t, t ∈ ts → Made t) → (∀ k s, h = .sig k s true → ts ≠ []) →
      Made (.node h ts)

end Tinymist.Types.Spec
