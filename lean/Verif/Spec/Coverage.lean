import Verif.Model.Coverage

/-!
# What coverage should do

Written without the worker and without the counters' memory: the tokens of a program, its bodies,
how often each counter call ran.
-/

namespace Tinymist.Coverage

mutual
/-- The tokens of a program: the texts of its leaves, in order, without spaces and comments. -/
def tokens : Node → List String
  | .mk _ role _ _ text cs =>
    (if role = .trivia ∨ text = "" then [] else [text]) ++ tokensAll cs
def tokensAll : List Node → List String
  | [] => []
  | c :: cs => tokens c ++ tokensAll cs
end

/-- A space or a comment: a leaf. -/
def IsTrivia (n : Node) : Prop := ∃ sp b1 b2 t, n = .mk sp .trivia b1 b2 t []

mutual
/-- What the parser guarantees. Every node has a span. A `context` expression is the keyword, spaces
and comments, and the body, which is the node the accessor names. A node with text is a leaf, and is
no expression the worker singles out. -/
def Parsed : Node → Prop
  | .mk sp role b1 _ text cs =>
    sp ≠ 0 ∧ (role = .context → ∃ k ts body, cs = .mk k .other 0 0 "context" [] :: (ts ++ [body]) ∧
      k ≠ b1 ∧ (∀ t ∈ ts, IsTrivia t ∧ t.span ≠ b1) ∧ body.span = b1) ∧
    (text = "" ∨ cs = []) ∧ (text ≠ "" → role = .other ∨ role = .trivia) ∧ ParsedAll cs
def ParsedAll : List Node → Prop
  | [] => True
  | c :: cs => Parsed c ∧ ParsedAll cs
end

/-- `c` is the body of the loop or closure `n`, or a branch of the conditional `n`. -/
def BodyOf (c n : Node) : Prop :=
  c ∈ n.children ∧
    ((n.role = .loop ∨ n.role = .closure) ∧ n.b1 = c.span ∨
      n.role = .cond ∧ (n.b1 = c.span ∨ n.b2 = c.span))

/-- `c` is what the show rule `n` does. -/
def ShownBy (c n : Node) : Prop :=
  c ∈ n.children ∧ (n.role = .showSet ∨ n.role = .showFn) ∧ n.b1 = c.span

/-- `b` is a body inside `n`: a code block, the body of a loop or closure, a branch of a
conditional. -/
inductive Body : Node → Node → Prop
  | code {n} : n.role = .code → Body n n
  | own {n b} : BodyOf b n → Body b n
  | inside {n c b} : c ∈ n.children → Body b c → Body b n

/-- `t` is what a show rule inside `n` does. -/
inductive Shown : Node → Node → Prop
  | own {n t} : ShownBy t n → Shown t n
  | inside {n c t} : c ∈ n.children → Shown t c → Shown t n

/-- `m` is `n` or stands inside it. -/
inductive Within : Node → Node → Prop
  | self {n} : Within n n
  | child {n m c} : Within m n → c ∈ m.children → Within c n

/-- `m` is `n` or stands inside it, and is not itself the body of the node directly around it. -/
inductive Free : Node → Node → Prop
  | self {n} : Free n n
  | child {n m c} : Within m n → c ∈ m.children → ¬ BodyOf c m → Free c n

/-- Where a body begins: its first child, the opening brace of a block. -/
def begins (b : Node) : Nat := (b.children.head?.map Node.span).getD 0

/-- Where a body ends: its last child, the closing brace of a block; nowhere when it has fewer than
two children. -/
def ends (b : Node) : Nat :=
  if b.children.length < 2 then 0 else (b.children.getLast?.map Node.span).getD 0

/-- The copied tokens of a rewritten text. -/
def copied (out : List Piece) : List String :=
  out.filterMap (fun p => match p with | .src false t => some t | _ => none)

/-- The numbers of the counter calls of a rewritten text, in order. -/
def calls (out : List Piece) : List Nat :=
  out.filterMap (fun p => match p with | .probe n => some n | _ => none)

/-- The rewritten text runs `b` between two counter calls of its own: the first counts for the
place where `b` begins, the second for the place where it ends, and what stands between them is `b`,
token for token. -/
def Counted (b : Node) (w : Worker) : Prop :=
  ∃ pre mid post i j,
    w.out = pre ++ [.glue "{\n", .probe i] ++ mid ++ [.glue "\n", .probe j, .glue "}"] ++ post ∧
    w.places[i]? = some (begins b, .openBrace) ∧ w.places[j]? = some (ends b, .closeBrace) ∧
    copied mid = tokens b

/-- The rewritten text has a counter call inside the function it makes of the transform `t` of a
show rule. -/
def ShowCounted (t : Node) (w : Worker) : Prop :=
  ∃ pre mid post i, w.places[i]? = some (t.span, .show) ∧ copied mid = tokens t ∧
    (w.out = pre ++ [.glue "__it => {", .probe i] ++ mid ++ [.glue "\n__it; }\n"] ++ post ∨
      w.out = pre ++ [.glue "{\nlet __cov_show_body = "] ++ mid ++
        [.glue "\n__it => {", .probe i, .glue showFnTail] ++ post)

/-- A place is the beginning or end of a body of the program, or what a show rule of it does. -/
def Genuine (root : Node) (e : Nat × Kind) : Prop :=
  (∃ b, Body b root ∧ (e = (begins b, .openBrace) ∨ e = (ends b, .closeBrace))) ∨
    ∃ t, Shown t root ∧ e = (t.span, .show)

/-! ### Histories -/

/-- What came of the first time the file was asked for. -/
def firstRead : List Op → Nat → Option (Option Nat)
  | [], _ => none
  | .source g n :: os, f => if g = f then some n else firstRead os f
  | .hit _ _ :: os, f => firstRead os f

/-- How often counter call `i` of `f` ran. -/
def times (h : List Op) (f i : Nat) : Nat := h.count (.hit f i)

/-- A program can only run a counter call of a file that was read before, and the rewritten file
only has calls `0 … places - 1`. -/
def Fair (h : List Op) : Prop :=
  ∀ pre f i post, h = pre ++ .hit f i :: post → ∃ n, firstRead pre f = some (some n) ∧ i < n

/-- What the report should say of a file: for every place that has a range, in order, whether its
counter call ran. -/
def expected (range : Nat → Option (Nat × Nat)) (places : List Nat) (h : List Op) (f : Nat) :
    List (Bool × (Nat × Nat)) :=
  places.zipIdx.filterMap (fun e => (range e.1).map (fun r => (decide (times h f e.2 > 0), r)))

/-- The files that were read, without repetition, with the number of their places. -/
def filesRead : List Op → List (Nat × Nat) → Prop := fun h fs =>
  (fs.map (·.1)).Nodup ∧ ∀ f n, (f, n) ∈ fs ↔ firstRead h f = some (some n)

/-- How many of the first `n` counter calls of `f` ran at all. -/
def ran (h : List Op) (f n : Nat) : Nat :=
  (List.range n).countP (fun i => decide (times h f i > 0))

end Tinymist.Coverage
