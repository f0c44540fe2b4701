import Verif.Model.CodeAction
import Verif.Spec.Position
import Verif.Spec.Pages
/-! What code actions should do to a document. -/
namespace Tinymist.CodeAction
open Position

/-- Several edits made at once, each given by positions in the document `doc` before all of them, in the order of the document:
`Replaced enc doc rest edits out`: they turn the end `rest` of the document into `out`. -/
inductive Replaced (enc : Encoding) (doc : Text) : Text → List Change → Text → Prop
  | nil (rest) : Replaced enc doc rest [] rest
  | cons (gap mid post w out l1 c1 l2 c2 es) (h1 : Pos enc doc l1 c1 (mid ++ post)) (h2 : Pos enc doc l2 c2 post)
      (h : Replaced enc doc post es out) :
      Replaced enc doc (gap ++ mid ++ post) (⟨some ((l1, c1), (l2, c2)), w⟩ :: es) (gap ++ w ++ out)

mutual
/-- All nodes of a tree in the order of their beginnings, outer ones first, each between the text before and behind it. -/
def occurrences (pre post : Text) : Node → List (Text × Node × Text)
  | .leaf k t => [(pre, .leaf k t, post)]
  | .inner k cs => (pre, .inner k cs, post) :: occurrencesIn pre post cs
def occurrencesIn (pre post : Text) : List Node → List (Text × Node × Text)
  | [] => []
  | c :: cs => occurrences pre (textAll cs ++ post) c ++ occurrencesIn (pre ++ text c) post cs
end

/-- The character that begins at byte `b` is inside. -/
def Around (b : Nat) (x : Text × Node × Text) : Bool := len8 x.1 ≤ b && b < len8 x.1 + len8 (text x.2.1)

/-- What is around a byte, from the innermost node to the whole, with the places where it begins. -/
def chain (root : Node) (b : Nat) : List (Nat × Node) :=
  ((occurrences [] [] root).filter (Around b)).reverse.map fun x => (len8 x.1, x.2.1)

/-- The innermost node of a kind around a byte of the document. -/
def Innermost (root : Node) (b : Nat) (k : Kind) (x : Text × Node × Text) : Prop :=
  ∃ outer inner, (occurrences [] [] root).filter (Around b) = outer ++ x :: inner ∧ x.2.1.kind = k ∧
    ∀ y ∈ inner, y.2.1.kind ≠ k

/-- The byte of the document looked at for a selection that starts at `b`: at the end of the document the one before. -/
def seen (root : Node) (b : Nat) : Nat := min b (len8 (text root) - 1)

/-- A heading whose marker has `d` signs: `front`, the marker, `rest`. -/
def IsHeading (n : Node) (front : Text) (d : Nat) (rest : Text) : Prop :=
  ∃ l m r, n.children = l ++ m :: r ∧ m.kind = .headingMarker ∧ (∀ c ∈ l, c.kind ≠ .headingMarker) ∧
    text m = List.replicate d '=' ∧ front = textAll l ∧ rest = textAll r

/-- An equation between two dollar signs: `front` and `back` are the spaces and comments beside its body. -/
def IsEquation (n : Node) (front body back : List Node) : Prop :=
  ∃ d1 d2, n.children = d1 :: front ++ body ++ back ++ [d2] ∧ d1.kind = .dollar ∧ d2.kind = .dollar ∧
    text d1 = ['$'] ∧ text d2 = ['$'] ∧ (∃ m, body = [m] ∧ m.kind = .math) ∧ ∀ c ∈ front, c.kind ≠ .math

/-- What typst's parser guarantees: a marker is made of equals signs, a dollar is a dollar sign, the body of an equation is not
next to the end of a line inside it, and without content it follows the dollar sign. -/
structure Parsed (root : Node) : Prop where
  marker : ∀ x ∈ occurrences [] [] root, x.2.1.kind = .headingMarker → ∃ d, 1 ≤ d ∧ text x.2.1 = List.replicate d '='
  dollar : ∀ x ∈ occurrences [] [] root, x.2.1.kind = .dollar → text x.2.1 = ['$']
  body : ∀ x ∈ occurrences [] [] root, ∀ front body back, IsEquation x.2.1 front body back →
    (textAll body = [] → textAll front = []) ∧
    (∀ c, (textAll body).head? = some c → c ≠ '\n') ∧ (∀ c, (textAll body).getLast? = some c → c ≠ '\r')

/-- The punctuation signs of ASCII. -/
def AsciiSign (c : Char) : Prop :=
  c ∈ ['!', '"', '#', '$', '%', '&', '\'', '(', ')', '*', '+', ',', '-', '.', '/', ':', ';', '<', '=', '>', '?', '@', '[', '\\',
    ']', '^', '_', '`', '{', '|', '}', '~']

/-- The sign behind an equation that a conversion to a block takes into it: a punctuation sign that no other ASCII punctuation
sign follows, or a punctuation sign that is not ASCII. -/
def Takes (punct : Char → Bool) (after : Text) (c : Char) (rest : Text) : Prop :=
  after = c :: rest ∧
    (AsciiSign c ∧ (∀ d, rest.head? = some d → ¬ AsciiSign d) ∨ ¬ AsciiSign c ∧ punct c = true)

/-- What becomes of `pre $front body back$ post` when the spaces beside the body become `new`. -/
inductive Converted (punct : Char → Bool) (pre body post new : Text) : Text → Prop
  | plain (h : new = [] ∨ ∀ c rest, ¬ Takes punct post c rest) :
      Converted punct pre body post new (pre ++ ['$'] ++ new ++ body ++ new ++ ['$'] ++ post)
  | taken (c rest) (hn : new ≠ []) (h : Takes punct post c rest) :
      Converted punct pre body post new (pre ++ ['$'] ++ new ++ body ++ [c] ++ new ++ ['$'] ++ rest)

/-- A block equation: spaces directly beside both dollar signs. -/
def Block (front back : List Node) : Prop :=
  (∃ s r, front = s :: r ∧ s.kind = .space) ∧ ∃ s r, back = r ++ [s] ∧ s.kind = .space

/-- What the document `pre ++ sel ++ post`, of which `sel` is selected, becomes by each action. -/
inductive Meant (punct : Char → Bool) (root : Node) (pre sel post : Text) : Title → Text → Prop
  | wrap (h : sel ≠ []) : Meant punct root pre sel post .wrap (pre ++ ['#', '['] ++ sel ++ [']'] ++ post)
  | decrease (x front d rest) (hx : Innermost root (seen root (len8 pre)) .heading x) (h : IsHeading x.2.1 front (d + 1) rest)
      (hd : 1 ≤ d) :
      Meant punct root pre sel post .decrease (x.1 ++ front ++ List.replicate d '=' ++ rest ++ x.2.2)
  | increase (x front d rest) (hx : Innermost root (seen root (len8 pre)) .heading x) (h : IsHeading x.2.1 front d rest) :
      Meant punct root pre sel post .increase (x.1 ++ front ++ List.replicate (d + 1) '=' ++ rest ++ x.2.2)
  | toInline (x front body back out) (hx : Innermost root (seen root (len8 pre)) .equation x)
      (h : IsEquation x.2.1 front body back) (hb : Block front back)
      (ho : Converted punct x.1 (textAll body) x.2.2 [] out) : Meant punct root pre sel post .toInline out
  | toBlock (x front body back out) (hx : Innermost root (seen root (len8 pre)) .equation x)
      (h : IsEquation x.2.1 front body back) (hb : ¬ Block front back)
      (ho : Converted punct x.1 (textAll body) x.2.2 [' '] out) : Meant punct root pre sel post .toBlock out
  | toLines (x front body back out) (hx : Innermost root (seen root (len8 pre)) .equation x)
      (h : IsEquation x.2.1 front body back)
      (ho : Converted punct x.1 (textAll body) x.2.2 ['\n'] out) : Meant punct root pre sel post .toLines out

instance : DecidablePred Pages.Space := fun c => by unfold Pages.Space; infer_instance

/-- A text without its white space. -/
def ink (s : Text) : Text := s.filter fun c => ¬ Pages.Space c

/-- When an action is on offer; `prose` tells whether the selection starts in markup or math. -/
def Offered (prose : Bool) (root : Node) (pre sel : Text) : Title → Prop
  | .wrap => sel ≠ [] ∧ prose = true
  | .decrease => ∃ x front d rest, Innermost root (seen root (len8 pre)) .heading x ∧ IsHeading x.2.1 front d rest ∧ 2 ≤ d
  | .increase => ∃ x front d rest, Innermost root (seen root (len8 pre)) .heading x ∧ IsHeading x.2.1 front d rest
  | .toInline => ∃ x front body back, Innermost root (seen root (len8 pre)) .equation x ∧
      IsEquation x.2.1 front body back ∧ Block front back
  | .toBlock => ∃ x front body back, Innermost root (seen root (len8 pre)) .equation x ∧
      IsEquation x.2.1 front body back ∧ ¬ Block front back
  | .toLines => ∃ x front body back, Innermost root (seen root (len8 pre)) .equation x ∧ IsEquation x.2.1 front body back

end Tinymist.CodeAction
