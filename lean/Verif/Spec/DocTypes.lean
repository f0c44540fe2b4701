import Verif.Model.DocTypes
import Verif.Spec.Pages
/-!
# What types in doc comments mean

Uses the syntax and the types of the model. Closures are not in here.
-/

namespace Tinymist.DocTypes.Spec

/-- The names that are built in. -/
inductive Builtin (types : Text → Option Text) : Text → Ty → Prop where
  | any : Builtin types "any".toList .any
  | bool : Builtin types "bool".toList (.bool none)
  | boolean : Builtin types "boolean".toList (.bool none)
  | false : Builtin types "false".toList (.bool (some false))
  | true : Builtin types "true".toList (.bool (some true))
  | type (x t : Text) (hx : x ∉ ["any".toList, "bool".toList, "boolean".toList, "false".toList, "true".toList]) (h : types x = some t) :
    Builtin types x (.type t)

/-- Several types as one: nothing is anything, one is itself. -/
inductive Joined : List Ty → Ty → Prop where
  | none : Joined [] .any
  | one (t : Ty) : Joined [t] t
  | many (a b : Ty) (ts : List Ty) : Joined (a :: b :: ts) (.union (a :: b :: ts))

mutual
/-- What an expression means, names standing for what the doc comment binds them to. -/
inductive Means (types : Text → Option Text) (m : Mod) : Expr → Ty → Prop where
  | builtin (x t) (h : Builtin types x t) : Means types m (.ident x) t
  | bound (x e t) (hb : ¬∃ t, Builtin types x t) (hx : m x = some (some e)) (h : Means types m e t) : Means types m (.ident x) t
  | str (s) : Means types m (.str s) (.value s)
  | lit (v) : Means types m (.lit v) (.value v)
  | union (l r t ts) (hl : Means types m l t) (hr : Rest types m r ts) : Means types m (.binary true l r) (.union (t :: ts))
  | array (e t) (h : Means types m e t) : Means types m (.call (some "array".toList) (some e)) (.array t)
  | tag (s) : Means types m (.call (some "tag".toList) (some (.str s))) (.tag s)

/-- What the right side of `or` adds to a union: parts of a further `or` on the right belong to the same union. -/
inductive Rest (types : Text → Option Text) (m : Mod) : Expr → List Ty → Prop where
  | more (l r t ts) (hl : Means types m l t) (hr : Rest types m r ts) : Rest types m (.binary true l r) (t :: ts)
  | last (e t) (he : ∀ l r, e ≠ .binary true l r) (h : Means types m e t) : Rest types m e [t]
end

/-- Those of the names that mean something, in order. -/
inductive Known (types : Text → Option Text) (m : Mod) : List Text → List Ty → Prop where
  | nil : Known types m [] []
  | known (x xs t ts) (h : Means types m (.ident x) t) (hs : Known types m xs ts) : Known types m (x :: xs) (t :: ts)
  | unknown (x xs ts) (h : ¬∃ t, Means types m (.ident x) t) (hs : Known types m xs ts) : Known types m (x :: xs) ts

/-- Names separated by commas, with blanks around them. A name may have blanks in it. -/
inductive Listed : Text → List Text → Prop where
  | one (a x b : Text) (ha : Pages.Blank a) (hb : Pages.Blank b) (hf : ∀ c, x.head? = some c → ¬Pages.Space c)
      (hl : ∀ c, x.getLast? = some c → ¬Pages.Space c) (hc : ',' ∉ x) : Listed (a ++ x ++ b) [x]
  | more (a x b rest : Text) (xs : List Text) (ha : Pages.Blank a) (hb : Pages.Blank b)
      (hf : ∀ c, x.head? = some c → ¬Pages.Space c) (hl : ∀ c, x.getLast? = some c → ¬Pages.Space c) (hc : ',' ∉ x)
      (h : Listed rest xs) : Listed (a ++ x ++ b ++ ',' :: rest) (x :: xs)

/-- What a list of types in a doc comment means. -/
def TypeOf (types : Text → Option Text) (m : Mod) (input : Text) (t : Ty) : Prop :=
  ∃ xs ts, Listed input xs ∧ Known types m xs ts ∧ Joined ts t

/-- No closures, and no operators other than `or`. -/
inductive Plain : Expr → Prop where
  | ident (x) : Plain (.ident x)
  | str (s) : Plain (.str s)
  | lit (v) : Plain (.lit v)
  | binary (l r) (hl : Plain l) (hr : Plain r) : Plain (.binary true l r)
  | call0 (c) : Plain (.call c none)
  | call (c e) (h : Plain e) : Plain (.call c (some e))
  | other : Plain .other

/-- All that a doc comment binds is plain. -/
def PlainMod (m : Mod) : Prop := ∀ x e, m x = some (some e) → Plain e

mutual
/-- The names in an expression. -/
def names : Expr → List Text
  | .ident x => [x]
  | .str _ => []
  | .lit _ => []
  | .binary _ l r => names l ++ names r
  | .call _ none => []
  | .call _ (some e) => names e
  | .closure ps b => namesOf ps ++ names b
  | .other => []
def namesOf : List Param → List Text
  | [] => []
  | .named _ e :: ps => names e ++ namesOf ps
  | _ :: ps => namesOf ps
end

/-- What a doc comment binds is not circular. -/
def Ranked (m : Mod) (rank : Text → Nat) : Prop := ∀ x e, m x = some (some e) → ∀ y ∈ names e, rank y < rank x

/-- To say what the expression means it has to be said first what the name means. -/
inductive Needs : Expr → Text → Prop where
  | ident (x) : Needs (.ident x) x
  | binary (o l r x) (h : Needs l x) : Needs (.binary o l r) x
  | array (e x) (h : Needs e x) : Needs (.call (some "array".toList) (some e)) x

end Tinymist.DocTypes.Spec
