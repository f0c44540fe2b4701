import Verif.Model.Breakpoint
import Verif.Spec.Coverage

/-!
# What breakpoints should do

The tree, and where a body begins and ends, are as for coverage (`Spec/Coverage.lean`).
-/

namespace Tinymist.Breakpoint.Spec

open Tinymist.Coverage (Node Role ShownBy begins ends)

mutual
/-- The texts of the leaves of a program, in order. -/
def texts : Node → List String
  | .mk _ _ _ _ text cs => (if text = "" then [] else [text]) ++ textsAll cs
def textsAll : List Node → List String
  | [] => []
  | c :: cs => texts c ++ textsAll cs
end

mutual
/-- What the parser guarantees: a node with text is a leaf, and no expression that the worker singles out. Every node has
a span. -/
def Parsed : Node → Prop
  | .mk sp role _ _ text cs =>
    sp ≠ 0 ∧ (text ≠ "" → role = .other ∨ role = .trivia) ∧ ParsedAll cs
def ParsedAll : List Node → Prop
  | [] => True
  | c :: cs => Parsed c ∧ ParsedAll cs
end

/-- What is copied into a rewritten text. -/
def copied (out : List Piece) : List String :=
  out.filterMap fun p => match p with | .src t => some t | _ => none

/-- The numbers of the breakpoints of a rewritten text. -/
def numbers (out : List Piece) : List Nat :=
  out.filterMap fun p => match p with | .point _ n => some n | _ => none

/-- `b` is in the program and not what a show rule does. -/
inductive Occurs : Node → Node → Prop where
  | self {n} : Occurs n n
  | child {n m c} : Tinymist.Coverage.Within m n → c ∈ m.children → ¬ ShownBy c m → Occurs c n

/-- The rewritten text has `b`, and nothing else of the program, between two breakpoints, one for where it begins and one
for where it ends. -/
def Stops (b : Node) (w : Worker) : Prop :=
  ∃ pre mid post i j,
    w.out = pre ++ [.glue "{\n", .point .blockStart i] ++ mid ++ [.glue "\n", .point .blockEnd j, .glue "}\n"] ++ post
      ∧ w.places[i]? = some (begins b) ∧ w.places[j]? = some (ends b) ∧ copied mid = texts b

end Tinymist.Breakpoint.Spec
