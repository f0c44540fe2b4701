import Verif.Model.Links
import Verif.Spec.Rename

/-!
# What is a link
-/

namespace Tinymist.Links

open Paths

/-- A node has the other one in it, or is it. -/
inductive Has : Node → Node → Prop
  | refl (n) : Has n n
  | field {t m x} : Has t m → Has (.field t x) m
  | array {items n m} : n ∈ items → Has n m → Has (.array items) m
  | callee {c args m} : Has c m → Has (.call c args) m
  | arg {c args n m} : n ∈ args → Has n m → Has (.call c args) m
  | named {x v m} : Has v m → Has (.named x v) m
  | spread {v m} : Has v m → Has (.spread v) m
  | incl {s m} : Has s m → Has (.incl s) m
  | other {cs n m} : n ∈ cs → Has n m → Has (.other cs) m

/-- An expression gives a path by a string: it is the string, or an array with it. -/
inductive Gives : Node → Node → Prop
  | str {a b t} : Gives (.str a b t) (.str a b t)
  | array {items a b t} : .str a b t ∈ items → Gives (.array items) (.str a b t)

/-- A function is called by its name, in `std` or not. -/
inductive Calls : Node → String → Prop
  | plain (f : String) : Calls (.ident f.toList) f
  | std (f : String) : Calls (.field (.ident "std".toList) f.toList) f

/-- The functions whose first argument is looked at. -/
def byPosition : List String := ["bibliography", "cbor", "csv", "image", "read", "json", "yaml", "xml"]

/-- The named arguments that are looked at. -/
def byName : String → List String
  | "raw" => ["theme", "syntaxes"]
  | "bibliography" => ["cite", "style", "path"]
  | "cbor" | "csv" | "image" | "read" | "json" | "yaml" | "xml" => ["path"]
  | _ => []

/-- In the node, a file is named by the string: in an `include`, as the first argument of a function that reads a file, or
by a named argument that is a file. -/
inductive Names (s : Node) : Node → Prop
  | incl {e} : Gives e s → Names s (.incl e)
  | first {c f e rest} : Calls c f → f ∈ byPosition → Gives e s → Names s (.call c (e :: rest))
  | named {c f args x e} : Calls c f → x ∈ byName f → .named x.toList e ∈ args → Gives e s → Names s (.call c args)

/-- The link a string is: the text between its quotes. A text that begins with `@` is a package, if it can be. -/
def LinkOf (isSpec : Text → Bool) : Node → Link → Prop
  | .str a b t, l =>
    a + 1 < b - 1 ∧ l.start = a + 1 ∧ l.stop = b - 1 ∧
      ((t.head? = some '@' ∧ isSpec t = true ∧ l.target = .package t) ∨ (t.head? ≠ some '@' ∧ l.target = .path t))
  | _, _ => False

mutual
/-- The places of the string literals of a node. -/
def places : Node → List Nat
  | .str a _ _ => [a]
  | .ident _ => []
  | .field t _ => places t
  | .array items => placesAll items
  | .call c args => places c ++ placesAll args
  | .named _ v => places v
  | .spread v => places v
  | .incl s => places s
  | .quiet => []
  | .other cs => placesAll cs

/-- Those of several nodes. -/
def placesAll : List Node → List Nat
  | [] => []
  | n :: ns => places n ++ placesAll ns
end

end Tinymist.Links
