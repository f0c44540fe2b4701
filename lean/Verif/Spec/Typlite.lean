import Verif.Model.Typlite

/-!
# What a converted document has to say
-/

namespace Tinymist.Typlite

/-- The lines of a text. -/
def IsLines (t : Text) (ls : List Text) : Prop := ls ≠ [] ∧ (∀ l ∈ ls, '\n' ∉ l) ∧ t = List.intercalate ['\n'] ls

/-- A line that ends a block of code begun with `n` backticks (CommonMark 4.5): at most three spaces, at least as many backticks,
and then only spaces and tabs. -/
def Closes (n : Nat) (line : Text) : Prop :=
  ∃ s k t, s ≤ 3 ∧ n ≤ k ∧ (∀ c ∈ t, c = ' ' ∨ c = '\t') ∧ line = List.replicate s ' ' ++ List.replicate k '`' ++ t

/-- These lines are one block of code, all of them, with `code` in it and `info` behind the backticks it begins with. -/
def Fenced (ls : List Text) (info : Text) (code : List Text) : Prop :=
  ∃ n close, 3 ≤ n ∧ '`' ∉ info ∧ ls = (List.replicate n '`' ++ info) :: (code ++ [close]) ∧ Closes n close ∧
    ∀ l ∈ code, ¬ Closes n l

/-- A text is one block of code. -/
def CodeBlock (t info : Text) (code : List Text) : Prop := ∃ ls, IsLines t ls ∧ Fenced ls info code

/-- A text is code within a line (CommonMark 6.1), between single backticks, and shows `code`: line breaks are shown as spaces, and
of spaces at both ends one is taken away. -/
def CodeSpan (t code : Text) : Prop :=
  ∃ inner, t = '`' :: (inner ++ ['`']) ∧ inner ≠ [] ∧ '`' ∉ inner ∧
    let shown := inner.map fun c => if c = '\n' then ' ' else c
    (∃ m, shown = ' ' :: (m ++ [' ']) ∧ (∃ c ∈ m, c ≠ ' ') ∧ code = m) ∨
    ((∀ m, shown ≠ ' ' :: (m ++ [' '])) ∧ code = shown) ∨
    ((∀ c ∈ shown, c = ' ') ∧ code = shown)

/-- No run of `n` backticks. -/
def FewTicks (n : Nat) (t : Text) : Prop := ∀ a b, t ≠ a ++ (List.replicate n '`' ++ b)

/-! ## Values -/

/-- Nodes are converted one after the other, each to a text. -/
inductive Evals (ev : Node → M Value) : List Node → Worker → List Text → Worker → Prop where
  | nil (w : Worker) : Evals ev [] w [] w
  | cons {n : Node} {ns : List Node} {w w' w'' : Worker} {v : Value} {ts : List Text} :
      ev n w = .ok (v, w') → Evals ev ns w' ts w'' → Evals ev (n :: ns) w (value v :: ts) w''

/-- The source of a converted list of nodes that are neither headers nor footers of a table. -/
def Plain (kind : Text) (n : Node) : Prop :=
  ∀ src pos named, n ≠ .call src (.field kind "header".toList) pos named ∧ n ≠ .call src (.field kind "footer".toList) pos named

/-- What the arguments of a table are: cells, and headers with cells in them, converted one after the other. -/
inductive Arranged (ev : Node → M Value) (kind : Text) : List Node → Worker → List Text → List Text → Worker → Prop where
  | nil (w : Worker) : Arranged ev kind [] w [] [] w
  | cell {n : Node} {ns : List Node} {w w' w'' : Worker} {v : Value} {hs cs : List Text} : Plain kind n →
      ev n w = .ok (v, w') → Arranged ev kind ns w' hs cs w'' → Arranged ev kind (n :: ns) w hs (value v :: cs) w''
  | header {src : Text} {pos ns : List Node} {named : List (Text × Node)} {w w' w'' : Worker} {ts hs cs : List Text} :
      Evals ev pos w ts w' → Arranged ev kind ns w' hs cs w'' →
      Arranged ev kind (.call src (.field kind "header".toList) pos named :: ns) w (ts ++ hs) cs w''

/-- The number of columns: that of the sizes, the number itself, or one. -/
inductive Columns : List (Text × Node) → Nat → Prop where
  | one {named : List (Text × Node)} : (∀ p ∈ named, p.1 ≠ "columns".toList) → Columns named 1
  | sizes {a b : List (Text × Node)} (n : Nat) : (∀ p ∈ a, p.1 ≠ "columns".toList) →
      Columns (a ++ ("columns".toList, .array n) :: b) n
  | number {a b : List (Text × Node)} (n : Nat) : (∀ p ∈ a, p.1 ≠ "columns".toList) →
      Columns (a ++ ("columns".toList, .int n) :: b) n

/-- Cells in rows of `n`: only the last row may have fewer. -/
def InRows (n : Nat) (cells : List Text) (rows : List (List Text)) : Prop :=
  rows.flatten = cells ∧ (∀ r ∈ rows, r ≠ [] ∧ r.length ≤ n) ∧ ∀ a b r, rows = a ++ r :: b → b ≠ [] → r.length = n

def htmlRow (cell : String) (r : List Text) : Text :=
  "    <tr>\n".toList ++ r.flatMap (fun c => ("      <" ++ cell ++ ">").toList ++ c ++ ("</" ++ cell ++ ">\n").toList) ++
    "    </tr>\n".toList

/-- A table in HTML: with a row of header cells, if there are any, and with rows of cells. -/
def htmlTable (header : List Text) (rows : List (List Text)) : Text :=
  "<table>\n".toList ++ (if header = [] then [] else "  <thead>\n".toList ++ htmlRow "th" header ++ "  </thead>\n".toList) ++
    "  <tbody>\n".toList ++ rows.flatMap (htmlRow "td") ++ "  </tbody>\n</table>".toList

/-- The lines of a quotation, without the sign in front of them. -/
def Quotes (t : Text) (ls : List Text) : Prop := t = ls.flatMap fun l => ['>', ' '] ++ l ++ ['\n']

/-- The argument for a parameter: the one with its name, or the next one without a name; and the arguments without a name that are
left. -/
inductive Given (key : Text) : List Node → List (Text × Node) → Node → List Node → Prop where
  | name {pos : List Node} {a b : List (Text × Node)} {n : Node} : (∀ p ∈ a, p.1 ≠ key) →
      Given key pos (a ++ (key, n) :: b) n pos
  | next {pos : List Node} {named : List (Text × Node)} {n : Node} : (∀ p ∈ named, p.1 ≠ key) → Given key (n :: pos) named n pos

/-! ## Marks -/

/-- A text in which items are marked: the marks around an item have the number of items it is in, marks are nested properly, and
there are no others. Elsewhere `<!` does not occur. -/
inductive Nested : Nat → Text → Prop where
  | nil (d : Nat) : Nested d []
  | char (d : Nat) (c : Char) (t : Text) : c ≠ '<' → Nested d t → Nested d (c :: t)
  | tag (d : Nat) (c : Char) (t : Text) : c ≠ '!' → c ≠ '<' → Nested d t → Nested d ('<' :: c :: t)
  | item (d : Nat) (t rest : Text) : Nested (d + 1) t → Nested d rest →
      Nested d ("- <!-- typlite:begin:list-item ".toList ++ Nat.toDigits 10 d ++ " -->".toList ++ t ++
        "<!-- typlite:end:list-item ".toList ++ Nat.toDigits 10 d ++ " -->".toList ++ rest)

/-- Markup without calls, rendered code and included files, in whose texts there is no `<`. -/
inductive Markup : Node → Prop where
  | text (s : Text) : '<' ∉ s → Markup (.text s)
  | linebreak : Markup .linebreak
  | hash : Markup .hash
  | code (src : Text) : Markup (.code src)
  | quiet : Markup .quiet
  | int (n : Int) : Markup (.int n)
  | array (n : Nat) : Markup (.array n)
  | str (s : Text) : '<' ∉ s → Markup (.str s)
  | closure (src : Text) (b : Node) : Markup (.closure src b)
  | error : Markup .error
  | strong (b : List Node) : (∀ n ∈ b, Markup n) → Markup (.strong b)
  | emph (b : List Node) : (∀ n ∈ b, Markup n) → Markup (.emph b)
  | heading (l : Nat) (b : List Node) : (∀ n ∈ b, Markup n) → Markup (.heading l b)
  | item (b : List Node) : (∀ n ∈ b, Markup n) → Markup (.item b)
  | enum (k : Option Nat) (b : List Node) : (∀ n ∈ b, Markup n) → Markup (.enum k b)
  | group (b : List Node) : (∀ n ∈ b, Markup n) → Markup (.group b)
  | wrap (src : Text) (b : Node) : Markup b → Markup (.wrap src b)
  | raw (lang : Option Text) (block : Bool) (lines : List Text) (src : Text) : (∀ l ∈ lines, '<' ∉ l) → '<' ∉ src →
      Markup (.raw lang block lines src)
  | link (url : Text) : '<' ∉ url → Markup (.link url)

/-! ## Files -/

/-- What is in a file: what was written to it last. -/
def onDisk (writes : List (Text × Text)) (name : Text) : Option Text := (writes.reverse.find? fun p => p.1 = name).map (·.2)

/-- Text with definitions in it, and what these are as a document of their own: one in a line, after a hash. -/
inductive Definitions : List Node → Text → Text → Prop where
  | nil : Definitions [] [] []
  | text {ns : List Node} {shown defs : Text} (t : Text) : Definitions ns shown defs →
      Definitions (.text t :: ns) (t ++ shown) defs
  | define {ns : List Node} {shown defs : Text} (src : Text) : Definitions ns shown defs →
      Definitions (.hash :: .code src :: ns) shown (['#'] ++ src ++ ['\n'] ++ defs)

/-! ## Headings and items -/

/-- A line that is a heading of a level (CommonMark 4.2): one to six signs, a space and the text. -/
def Heading (line : Text) (level : Nat) (text : Text) : Prop :=
  1 ≤ level ∧ level ≤ 6 ∧ line = List.replicate level '#' ++ ' ' :: text

/-- A text that is one item of a list (CommonMark 5.2), with these lines in it: what follows the first line is blank or set in as far
as the text of the first line. -/
def Item (t marker : Text) (content : List Text) : Prop :=
  ∃ first rest rest', IsLines t ((marker ++ ' ' :: first) :: rest) ∧ content = first :: rest' ∧ rest.length = rest'.length ∧
    ∀ p ∈ rest.zip rest', (p.1 = [] ∧ p.2 = []) ∨ p.1 = List.replicate (marker.length + 1) ' ' ++ p.2

/-- The numbers of items in Typst: the one that is given, or the next one. -/
inductive Numbered : Nat → List (Option Nat) → List Nat → Prop where
  | nil (next : Nat) : Numbered next [] []
  | given {next : Nat} {os : List (Option Nat)} {ns : List Nat} (n : Nat) : Numbered (n + 1) os ns → Numbered next (some n :: os) (n :: ns)
  | next {next : Nat} {os : List (Option Nat)} {ns : List Nat} : Numbered (next + 1) os ns → Numbered next (none :: os) (next :: ns)

/-- The numbers of the items of a list in Markdown (CommonMark 5.3): they go on from the number of the first item, which has at most
nine digits, whatever the others say. -/
def MarkdownNumbers (ls : List Text) (ns : List Nat) : Prop :=
  (∀ l ∈ ls, ∃ n body, l = Nat.toDigits 10 n ++ '.' :: ' ' :: body) ∧
    ∀ l rest, ls = l :: rest → ∃ n body, l = Nat.toDigits 10 n ++ '.' :: ' ' :: body ∧ n < 10 ^ 9 ∧ ns = List.range' n ls.length

/-! ## Included files -/

/-- The files included in a node. -/
inductive Includes : Node → Nat → Prop where
  | here (i : Nat) : Includes (.incl (some i)) i
  | strong {b : List Node} {n : Node} {i : Nat} : n ∈ b → Includes n i → Includes (.strong b) i
  | emph {b : List Node} {n : Node} {i : Nat} : n ∈ b → Includes n i → Includes (.emph b) i
  | heading {l : Nat} {b : List Node} {n : Node} {i : Nat} : n ∈ b → Includes n i → Includes (.heading l b) i
  | item {b : List Node} {n : Node} {i : Nat} : n ∈ b → Includes n i → Includes (.item b) i
  | enum {k : Option Nat} {b : List Node} {n : Node} {i : Nat} : n ∈ b → Includes n i → Includes (.enum k b) i
  | group {b : List Node} {n : Node} {i : Nat} : n ∈ b → Includes n i → Includes (.group b) i
  | wrap {src : Text} {b : Node} {i : Nat} : Includes b i → Includes (.wrap src b) i
  | closure {src : Text} {b : Node} {i : Nat} : Includes b i → Includes (.closure src b) i
  | pos {src : Text} {c : Callee} {pos : List Node} {named : List (Text × Node)} {n : Node} {i : Nat} :
      n ∈ pos → Includes n i → Includes (.call src c pos named) i
  | named {src : Text} {c : Callee} {pos : List Node} {named : List (Text × Node)} {p : Text × Node} {i : Nat} :
      p ∈ named → Includes p.2 i → Includes (.call src c pos named) i

/-- A file that includes another. -/
def FileIncludes (file : Nat → List Node) (i j : Nat) : Prop := ∃ n ∈ file i, Includes n j

/-- A file that includes another, over any number of files. -/
inductive Reaches (file : Nat → List Node) : Nat → Nat → Prop where
  | one {i j : Nat} : FileIncludes file i j → Reaches file i j
  | more {i j k : Nat} : FileIncludes file i j → Reaches file j k → Reaches file i k

end Tinymist.Typlite
