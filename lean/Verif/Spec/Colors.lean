import Verif.Model.Colors

/-!
# Which colors a file has
-/

namespace Tinymist.Colors.Spec

variable {C : Type}

mutual
/-- The calls of a tree in the order of the text, an outer one before the inner ones, but those in trivia, keywords and
errors. -/
def calls : Node → List Call
  | .call c children => c :: callsIn children
  | .skipped _ => []
  | .other children => callsIn children

/-- The calls of some trees. -/
def callsIn : List Node → List Call
  | [] => []
  | n :: rest => calls n ++ callsIn rest
end

/-- The functions that make a color, but `rgb`. -/
def maker (n : List Char) : Prop :=
  n ∈ ["luma", "oklab", "oklch", "linear-rgb", "cmyk", "hsl", "hsv"].map String.toList

/-- A call calls a function by its name, or as one of `color`. -/
def Calls (c : Call) (n : List Char) : Prop :=
  c.callee = .ident n ∨ c.callee = .field (some "color".toList) n

/-- A call shows a color: a call of `rgb` with a single string that is a color, a call of `rgb` with two arguments or
more or a call of another function, whose value is a color. -/
inductive Shows (t : Typst C) (c : Call) (v : C) : Prop where
  | hex (s : List Char) (name : Calls c "rgb".toList) (args : c.args = [.str s]) (value : t.hex s = some v)
  | rgb (name : Calls c "rgb".toList) (args : 2 ≤ c.args.length) (value : t.eval c.id = some v)
  | maker (n : List Char) (name : Calls c n) (known : maker n) (value : t.eval c.id = some v)

end Tinymist.Colors.Spec
