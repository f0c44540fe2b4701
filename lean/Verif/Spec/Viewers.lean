import Verif.Model.Viewers

/-!
# What the viewers of a preview should get

The messages of the protocol, as the page writes them (`tools/typst-preview-frontend/src/ws.ts`).
-/
namespace Tinymist.Viewers.Spec

variable {F P L : Type}

/-- The messages of the protocol and what they ask for. An argument is one word. -/
inductive Says (rd : Reads F P L) : Text → Req F P L → Prop where
  | current : Says rd "current".toList .renderAll
  | source (span : Text) : (∀ c ∈ span, c.isWhitespace = false) →
      Says rd ("srclocation ".toList ++ span) (.jumpToSource span)
  | page (n : Nat) : n < 2 ^ 64 →
      Says rd ("outline-sync,".toList ++ RustNum.print 10 n) (.viewport ⟨n, rd.zero, rd.zero⟩)
  | place (n : Nat) (tx ty : Text) (x y : F) : n < 2 ^ 64 → rd.float tx = some x → rd.float ty = some y →
      ' ' ∉ tx → ',' ∉ tx → ' ' ∉ ty → ',' ∉ ty →
      Says rd ("outline-sync,".toList ++ RustNum.print 10 n ++ ' ' :: tx ++ ' ' :: ty) (.viewport ⟨n, x, y⟩)
  | path (t : Text) (p : P) : ' ' ∉ t → rd.path t = some p → Says rd ("srcpath ".toList ++ t) (.resolvePath p)
  | point (t : Text) (l : L) : ' ' ∉ t → rd.point t = some l → Says rd ("src-point ".toList ++ t) (.resolvePoint l)

/-- The words the messages of the protocol begin with. -/
def keywords : List Text := ["srclocation".toList, "outline-sync".toList, "srcpath".toList, "src-point".toList]

/-- A message that belongs to the protocol as far as its first word goes. -/
def Known (m : Text) : Prop := m = "current".toList ∨ ∃ k ∈ keywords, k <+: m

/-- A message without the argument its first word calls for. -/
def NoArgument (m : Text) : Prop :=
  (("srclocation".toList <+: m ∨ "srcpath".toList <+: m ∨ "src-point".toList <+: m) ∧ ' ' ∉ m) ∨
  ("outline-sync".toList <+: m ∧ ',' ∉ m)

/-- How floats are printed: as what is read back, in one word without commas. -/
structure Prints (rd : Reads F P L) (sh : F → Text) : Prop where
  reads : ∀ x, rd.float (sh x) = some x
  word : ∀ x, ∀ c ∈ sh x, c.isWhitespace = false ∧ c ≠ ','

/-- How many pages apart. -/
def apart (a b : Nat) : Nat := if a ≤ b then b - a else a - b

/-- A viewer that is there, or coming. -/
def Present (s : State) (i : Nat) : Prop := s.conns[i]? = some .opening ∨ s.conns[i]? = some .isOpen

/-- What the states of a history are. -/
def Happens (rd : Reads F P L) (canIdle : Bool) (es : List Event) (s : State) : Prop :=
  run rd (start canIdle) es = some s

end Tinymist.Viewers.Spec
