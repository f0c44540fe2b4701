import Verif.Model.Complete
import Verif.Spec.Pages
/-!
# What the editor makes of completions
-/
namespace Tinymist.Complete
open Position (len8)

/-- A decimal digit. -/
def Digit (c : Char) : Prop := '0'.toNat ≤ c.toNat ∧ c.toNat ≤ '9'.toNat

/-- A character that begins a variable's name in a snippet. -/
def NameStart (c : Char) : Prop :=
  ('a'.toNat ≤ c.toNat ∧ c.toNat ≤ 'z'.toNat) ∨ ('A'.toNat ≤ c.toNat ∧ c.toNat ≤ 'Z'.toNat) ∨ c = '_'

/-- The number written with some digits. -/
def value (ds : Text) : Nat := ds.foldl (fun n c => 10 * n + (c.toNat - '0'.toNat)) 0

/-- A character with a meaning inside of a placeholder. -/
def Special (c : Char) : Prop := c = '$' ∨ c = '\\' ∨ c = '}'

/-- What the editor inserts for a snippet in the syntax of the Language Server Protocol and the tab stops: numbers with
the texts that are selected there. Choices, transformations, nested placeholders and variables in braces are left out:
nothing is said about snippets with them. -/
inductive Shows : Text → Text → List (Nat × Text) → Prop where
  | nil : Shows [] [] []
  /-- Other characters stand for themselves. -/
  | char (c : Char) (s out : Text) (st : List (Nat × Text)) : c ≠ '$' → c ≠ '\\' → Shows s out st →
      Shows (c :: s) (c :: out) st
  /-- A backslash escapes the special characters. -/
  | escape (c : Char) (s out : Text) (st : List (Nat × Text)) : Special c → Shows s out st →
      Shows ('\\' :: c :: s) (c :: out) st
  /-- Elsewhere it stands for itself. -/
  | backslash (s out : Text) (st : List (Nat × Text)) : (∀ c r, s = c :: r → ¬ Special c) → Shows s out st →
      Shows ('\\' :: s) ('\\' :: out) st
  /-- A tab stop with a placeholder, like `${1:body}`. -/
  | placeholder (ds b s out : Text) (st : List (Nat × Text)) : ds ≠ [] → (∀ c ∈ ds, Digit c) → (∀ c ∈ b, ¬ Special c) →
      Shows s out st → Shows ('$' :: '{' :: ds ++ ':' :: b ++ '}' :: s) (b ++ out) ((value ds, b) :: st)
  /-- A tab stop, like `$1`. -/
  | stop (ds s out : Text) (st : List (Nat × Text)) : ds ≠ [] → (∀ c ∈ ds, Digit c) →
      (∀ c r, s = c :: r → ¬ Digit c) → Shows s out st → Shows ('$' :: ds ++ s) out ((value ds, []) :: st)
  /-- A variable, like `$name`: the editor inserts its name, if it does not know it. -/
  | variable (a : Char) (n s out : Text) (st : List (Nat × Text)) : NameStart a → (∀ c ∈ n, NameStart c ∨ Digit c) →
      (∀ c r, s = c :: r → ¬ (NameStart c ∨ Digit c)) → Shows s out st → Shows ('$' :: a :: n ++ s) (a :: n ++ out) st
  /-- Any other dollar sign stands for itself. -/
  | dollar (s out : Text) (st : List (Nat × Text)) : (∀ c r, s = c :: r → ¬ Digit c ∧ ¬ NameStart c ∧ c ≠ '{') →
      Shows s out st → Shows ('$' :: s) ('$' :: out) st

/-- A part of one of typst's snippets: fixed text or a hole with the text that is shown in it. -/
inductive Piece where
  | fixed (t : Text)
  | gap (b : Text)
deriving DecidableEq, Repr

/-- How a part is written. -/
def Piece.source : Piece → Text
  | .fixed t => t
  | .gap b => ['$', '{'] ++ b ++ ['}']

/-- What one sees of a part. -/
def Piece.shown : Piece → Text
  | .fixed t => t
  | .gap b => b

/-- How a snippet is written. -/
def source (ps : List Piece) : Text := ps.flatMap Piece.source

/-- What one sees of it. -/
def shown (ps : List Piece) : Text := ps.flatMap Piece.shown

/-- The holes, numbered in their order. -/
def stops (n : Nat) : List Piece → List (Nat × Text)
  | [] => []
  | .fixed _ :: ps => stops n ps
  | .gap b :: ps => (n, b) :: stops (n + 1) ps

/-- A text after which `next` follows has nothing in it that means something in a snippet: no dollar sign in front of a
digit, a letter, an underscore or a brace, and no backslash in front of a special character. -/
def Calm (next : Text) : Text → Prop
  | [] => True
  | c :: t => (c = '$' → ∀ d r, t ++ next = d :: r → ¬ Digit d ∧ ¬ NameStart d ∧ d ≠ '{') ∧
      (c = '\\' → ∀ d r, t ++ next = d :: r → ¬ Special d) ∧ Calm next t

/-- The fixed texts of a snippet mean nothing in the protocol's syntax and neither do the texts in the holes. -/
def Plain : List Piece → Prop
  | [] => True
  | .fixed t :: ps => Calm (source ps) t ∧ Plain ps
  | .gap b :: ps => (∀ c ∈ b, ¬ Special c ∧ c ≠ '\n') ∧ Plain ps

/-- The lines that document the parameters and the result of a function, to be filled in. -/
def docLines : List Text → Text
  | [] => ['\n', '/', '/', '/', ' ', '-', '>', ' ']
  | p :: ps => ['\n', '/', '/', '/', ' ', '-', ' '] ++ p ++ [' ', '(', ')', ':', ' '] ++ docLines ps

/-- The text that results from edits, which are given from the front to the back and do not overlap; `n` is the offset
where the text begins. -/
inductive Edited : Nat → Text → List Edit → Text → Prop where
  | done (n : Nat) (s : Text) : Edited n s [] s
  | edit (n : Nat) (a b c out new : Text) (es : List Edit) : Edited (n + len8 a + len8 b) c es out →
      Edited n (a ++ b ++ c) (⟨n + len8 a, n + len8 a + len8 b, new⟩ :: es) (a ++ new ++ out)

/-- The characters of a text, which begins at offset `n`, that lie between two offsets as a whole. -/
def whole (start stop : Nat) : Nat → Text → Text
  | _, [] => []
  | n, c :: s =>
    if start ≤ n ∧ n + c.utf8Size ≤ stop then c :: whole start stop (n + c.utf8Size) s
    else whole start stop (n + c.utf8Size) s

/-- The order of completions: those without a sort text first, then by sort text and then by label. -/
def Before (a b : Item) : Prop :=
  (a.sort = none ∧ b.sort ≠ none) ∨ (∃ x y, a.sort = some x ∧ b.sort = some y ∧ x < y) ∨
    (a.sort = b.sort ∧ a.label ≤ b.label)

/-- The order in which an editor shows completions: by sort text. -/
def Shown (items shown : List Item) : Prop :=
  items.Perm shown ∧ shown.Pairwise fun a b => ∃ x y, a.sort = some x ∧ b.sort = some y ∧ x ≤ y

/-- The leaf at the cursor stands between `pre` and `post`, and the cursor in it or at one of its ends. -/
structure Stands (c : Cursor) (pre post : Text) : Prop where
  text : c.text = pre ++ c.leaf ++ post
  offset : c.offset = len8 pre
  before : c.offset ≤ c.cursor
  behind : c.cursor ≤ c.offset + len8 c.leaf
  /-- The cursor is between characters. -/
  between : ∃ a b, c.text = a ++ b ∧ len8 a = c.cursor

/-- A comma at the end, white space aside. -/
def EndsComma (s : Text) : Prop := ∃ a w, s = a ++ [','] ++ w ∧ ∀ c ∈ w, Pages.Space c

end Tinymist.Complete
