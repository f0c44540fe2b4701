import Verif.Spec.Pages
import Verif.Model.Docs

/-!
# What documents a definition
-/

namespace Tinymist.Docs

/-- Only comments, white space and the hash sign of a definition. -/
def Child.quiet : Child → Prop
  | .expr _ => False
  | .other => False
  | _ => True

/-- No two children next to each other are white space, as the parser gives it. -/
def SpacesApart : List Child → Prop
  | .space _ :: .space _ :: _ => False
  | _ :: cs => SpacesApart cs
  | [] => True

/-- Nothing that would separate comments. -/
def Quiet (cs : List Child) : Prop := (∀ c ∈ cs, c.quiet) ∧ SpacesApart cs

/-- The comments among some children. -/
def commentsOf : List Child → List Comment
  | [] => []
  | .line t :: cs => .line t :: commentsOf cs
  | .block t :: cs => .block t :: commentsOf cs
  | _ :: cs => commentsOf cs

/-- The comments that begin with three slashes. -/
def docLines : List Child → List Comment
  | [] => []
  | .line ('/' :: '/' :: '/' :: t) :: cs => .line ('/' :: '/' :: '/' :: t) :: docLines cs
  | _ :: cs => docLines cs

/-- The number of expressions among some children. -/
def exprs : List Child → Nat
  | [] => 0
  | .expr _ :: cs => exprs cs + 1
  | _ :: cs => exprs cs

/-- The children begin a group of comments: there is nothing, or something else than comments, before them. -/
def Begins (before : List Child) : Prop := before = [] ∨ ∃ a c, before = a ++ [c] ∧ ¬ c.quiet

/-- No white space at either end. -/
def Trimmed (s : List Char) : Prop :=
  (∀ c, s.head? = some c → ¬ Pages.Space c) ∧ ∀ c, s.getLast? = some c → ¬ Pages.Space c

/-- A line comment says what follows the slashes, a block comment what is between its ends, without a further star at its
beginning and without the white space around. -/
inductive Says : Comment → List Char → Prop where
  | line (n : Nat) (s : List Char) : (∀ r, s ≠ '/' :: r) → Says (.line (List.replicate n '/' ++ s)) s
  | block (w s w' : List Char) : Pages.Blank w → Pages.Blank w' → Trimmed s → (∀ r, s ≠ '*' :: r) →
      Says (.block (['/', '*'] ++ (w ++ s ++ w') ++ ['*', '/'])) s
  | star (v w s w' : List Char) : Pages.Blank v → Pages.Blank w → Pages.Blank w' → Trimmed s →
      Says (.block (['/', '*'] ++ (v ++ '*' :: (w ++ s ++ w')) ++ ['*', '/'])) s

/-- Comments and what they say. -/
def Say : List Comment → List (List Char) → Prop
  | [], [] => True
  | c :: cs, s :: ss => Says c s ∧ Say cs ss
  | _, _ => False

/-- The text made of lines: `d` characters, which are white space, are taken from all of them, where `d` is as large as
possible, and empty lines at the beginning are left out. -/
def Unindented (lines : List (List Char)) (text : List Char) : Prop :=
  ∃ d, (∀ l ∈ lines, ∃ w r, l = w ++ r ∧ w.length = d ∧ Pages.Blank w) ∧
    (∃ l ∈ lines, ∃ w r, l = w ++ r ∧ w.length = d ∧ ∀ c, r.head? = some c → ¬ Pages.Space c) ∧
    text = List.intercalate ['\n'] ((lines.map (List.drop d)).dropWhile (· = []))

/-! ## Parameters -/

/-- Braces are balanced. -/
inductive Balanced : List Char → Prop where
  | nil : Balanced []
  | char (c : Char) (s : List Char) : c ≠ '(' → c ≠ ')' → Balanced s → Balanced (c :: s)
  | brace (a b : List Char) : Balanced a → Balanced b → Balanced ('(' :: (a ++ ')' :: b))

/-- The beginning and the end of a list item in converted documentation. -/
def itemBegin : List Char := "- <!-- typlite:begin:list-item 0 -->".toList
def itemEnd : List Char := "<!-- typlite:end:list-item 0 -->".toList

/-- A line begins a list item. -/
def BeginsItem (line : List Char) : Prop :=
  ∃ w w' r, Pages.Blank w ∧ Pages.Blank w' ∧
    line = w ++ '-' :: ' ' :: (w' ++ "<!-- typlite:begin:list-item 0 -->".toList ++ r)

/-- A parameter as it is documented: the first line of its description and further lines. -/
structure Documented where
  name : List Char
  types : List Char
  first : List Char
  more : List (List Char)
  /-- Empty lines after it. -/
  gap : Nat

/-- The lines with the mark for the end of the item at the last. -/
def closed : List Char → List (List Char) → List (List Char)
  | l, [] => [l ++ itemEnd]
  | l, m :: ms => l :: closed m ms

/-- How a parameter is written: `- name (types): description`. -/
def Documented.lines (p : Documented) : List (List Char) :=
  closed (itemBegin ++ p.name ++ " (".toList ++ p.types ++ "): ".toList ++ p.first) p.more ++ List.replicate p.gap []

/-- A name without white space, types with balanced braces, and a description none of whose lines begins another item. -/
def Documented.Ok (p : Documented) : Prop :=
  p.name ≠ [] ∧ (∀ c ∈ p.name, ¬ Pages.Space c) ∧ Balanced p.types ∧ Trimmed p.first ∧ ∀ l ∈ p.more, ¬ BeginsItem l

/-- The line with the type of the result. -/
def returnLines : Option (List Char × Nat) → List (List Char)
  | none => []
  | some (ty, gap) => ("-> ".toList ++ ty) :: List.replicate gap []

/-- A line could be taken for that with the type of the result. -/
def LikeReturn (line : List Char) : Prop := ∃ w r, Pages.Blank w ∧ line = w ++ '-' :: '>' :: r

/-- The last line that is not empty. -/
def LastFull (lines : List (List Char)) (l : List Char) : Prop := ∃ a n, lines = a ++ [l] ++ List.replicate n [] ∧ l ≠ []

/-- A line could be taken for the end of an item. -/
def LikeEnd (line : List Char) : Prop := ∃ r w, Pages.Blank w ∧ line = r ++ itemEnd ++ w

/-- The lines do not end in a parameter: the last line does not end an item, or nothing begins one, or the item has no
brace in its first line. -/
def EndsPlain (lines : List (List Char)) : Prop :=
  (∀ l, lines.getLast? = some l → ¬ LikeEnd l) ∨ (∀ l ∈ lines, ¬ BeginsItem l) ∨
    ∃ above text more, lines = above ++ closed (itemBegin ++ text) more ∧ '(' ∉ text ∧ ∀ l ∈ more, ¬ BeginsItem l

end Tinymist.Docs
