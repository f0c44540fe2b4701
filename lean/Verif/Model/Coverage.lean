/-!
# Coverage: the rewritten program and the counters

Models `crates/tinymist-debug/src/cov.rs`, `crates/tinymist-debug/src/instrument.rs` and
`with_cov` of `crates/tinymist-debug/src/lib.rs`: the rewriting of a source file so that it counts
which of its blocks run, the counters, and the report.

Not modelled: Typst's parser and evaluator, its memoization, the JSON text of the report and the
percentages printed.
-/

namespace Tinymist.Coverage

/-- What `visit_node` sees when it casts a node to an expression (cov.rs 288-387). `trivia` is a
space or a comment; `other` stands for every expression of lines 331-384 and for a node that is not
an expression. `showSet` and `showFn` split `Expr::Show` by `is_set` (cov.rs 314). -/
inductive Role
  | code | loop | cond | closure | showSet | showFn | context | trivia | other
  deriving DecidableEq, Repr

/-- A syntax node. `span` identifies the node, 0 is `Span::detached()`. `b1` and `b2` are the spans
of the nodes that typst's accessors name: the body of a loop or closure, the two bodies of a
conditional, the transform of a show rule, the body of a `context` expression; 0 where there is none
(`unwrap_or_default().span()`, cov.rs 307). `text` is empty on an inner node. -/
inductive Node
  | mk (span : Nat) (role : Role) (b1 b2 : Nat) (text : String) (children : List Node)

namespace Node
def span : Node → Nat | mk s _ _ _ _ _ => s
def role : Node → Role | mk _ r _ _ _ _ => r
def b1 : Node → Nat | mk _ _ b _ _ _ => b
def b2 : Node → Nat | mk _ _ _ b _ _ => b
def text : Node → String | mk _ _ _ _ t _ => t
def children : Node → List Node | mk _ _ _ _ _ cs => cs
end Node

/-- cov.rs 237-242. -/
inductive Kind
  | openBrace | closeBrace | show
  deriving DecidableEq, Repr

/-- A piece of the rewritten text: text copied from the source (with a mark that says whether it is
a space or comment), text the worker adds, or a counter call. The worker's buffer is one string
(cov.rs 265-268); the model keeps the pieces apart and `render` puts them together. -/
inductive Piece
  | src (trivia : Bool) (text : String)
  | glue (text : String)
  | probe (n : Nat)
  deriving DecidableEq, Repr

/-- The text of a piece: cov.rs 404-406 for a counter call. -/
def Piece.render : Piece → String
  | .src _ t => t
  | .glue t => t
  | .probe n => "__cov_pc(" ++ toString n ++ ");\n"

/-- `InstrumentWorker` (cov.rs 265-268). -/
structure Worker where
  out : List Piece
  places : List (Nat × Kind)
  deriving DecidableEq, Repr

/-- `self.instrumented.push_str`. -/
def emit (p : Piece) (w : Worker) : Worker := { w with out := w.out ++ [p] }

/-- The first half of `visit_node_fallback` (cov.rs 390-393). -/
def copy (trivia : Bool) (text : String) (w : Worker) : Worker :=
  if text = "" then w else emit (.src trivia text) w

/-- `make_cov` (cov.rs 400-407). -/
def makeCov (span : Nat) (kind : Kind) (w : Worker) : Worker :=
  { out := w.out ++ [.probe w.places.length], places := w.places ++ [(span, kind)] }

/-- The span of the first child (cov.rs 412-416). -/
def firstSpan : List Node → Nat
  | [] => 0
  | c :: _ => c.span

/-- The span of the last child after the first (cov.rs 417-421): the iterator has already given up
the first child. -/
def lastSpan : List Node → Nat
  | [] => 0
  | _ :: cs => match cs.getLast? with
    | none => 0
    | some c => c.span

def showFnTail : String :=
  "if type(__cov_show_body) == function { __cov_show_body(__it); } else { __cov_show_body } } }\n"

mutual
/-- `visit_node` (cov.rs 283-388). The `code` case is `instrument_block` of the node itself. -/
def visit : Node → Worker → Worker
  | .mk _ role b1 b2 text cs, w =>
    match role with
    | .code =>
      emit (.glue "}") (makeCov (lastSpan cs) .closeBrace (emit (.glue "\n")
        (visitAll cs (copy false text (makeCov (firstSpan cs) .openBrace (emit (.glue "{\n") w))))))
    | .loop => bodies b1 0 cs w
    | .cond => bodies b1 b2 cs w
    | .closure => bodies b1 0 cs w
    | .showSet => transformSet b1 cs w
    | .showFn => transformFn b1 cs w
    | .context =>
      emit (.glue ")") (contextBody b1 cs (emit (.glue " (") (emit (.src false "context") w)))
    | .trivia => visitAll cs (copy true text w)
    | .other => visitAll cs (copy false text w)
/-- The loop of `visit_node_fallback` (cov.rs 395-397). -/
def visitAll : List Node → Worker → Worker
  | [], w => w
  | c :: cs, w => visitAll cs (visit c w)
/-- `instrument_block_child` (cov.rs 271-281). -/
def bodies (b1 b2 : Nat) : List Node → Worker → Worker
  | [], w => w
  | c :: cs, w =>
    if b1 = c.span ∨ b2 = c.span then bodies b1 b2 cs (block c w)
    else bodies b1 b2 cs (visit c w)
/-- `instrument_block` (cov.rs 409-430). -/
def block : Node → Worker → Worker
  | .mk _ role _ _ text cs, w =>
    emit (.glue "}") (makeCov (lastSpan cs) .closeBrace (emit (.glue "\n")
      (visitAll cs (copy (decide (role = .trivia)) text
        (makeCov (firstSpan cs) .openBrace (emit (.glue "{\n") w))))))
/-- The loop over the children of a show rule whose transform is a set rule (cov.rs 316-327) with
`instrument_show_set` (432-437). -/
def transformSet (b : Nat) : List Node → Worker → Worker
  | [], w => w
  | c :: cs, w =>
    if b = c.span then
      transformSet b cs (emit (.glue "\n__it; }\n") (visit c
        (makeCov c.span .show (emit (.glue "__it => {") w))))
    else transformSet b cs (visit c w)
/-- The loop over the children of any other show rule (cov.rs 316-327) with
`instrument_show_transform` (439-447). -/
def transformFn (b : Nat) : List Node → Worker → Worker
  | [], w => w
  | c :: cs, w =>
    if b = c.span then
      transformFn b cs (emit (.glue showFnTail) (makeCov c.span .show (emit (.glue "\n__it => {")
        (visit c (emit (.glue "{\nlet __cov_show_body = ") w)))))
    else transformFn b cs (visit c w)
/-- `self.visit_node(body.body().to_untyped())` (cov.rs 331): of the children of a `context`
expression only the body is visited. A missing body is typst's empty placeholder node. -/
def contextBody (b : Nat) : List Node → Worker → Worker
  | [], w => w
  | c :: cs, w => if b = c.span then visit c w else contextBody b cs w
end

/-- `instrument_coverage` (cov.rs 251-263). -/
def instrument (root : Node) : Worker := visit root ⟨[], []⟩

/-! ### The counters -/

/-- The part of the process that counts: `InstrumentWorld::instrumented` (instrument.rs 25), the
map of `CovInstr` (cov.rs 169-172) and the static `COVERAGE_MAP` (202-206). Only the number of
places of a file matters to them. A region is shared through an `Arc` (cov.rs 211), so regions live
in a heap and `regions` and `lastHit` hold addresses. -/
structure Counters where
  seen : List Nat
  sizes : List (Nat × Nat)
  heap : List (List Nat)
  regions : List (Nat × Nat)
  lastHit : Option (Nat × Nat)
  deriving DecidableEq, Repr

/-- `with_cov` starts with an empty world and, because it takes the map when it ends (lib.rs 61-64),
with an empty map. -/
def Counters.init : Counters := ⟨[], [], [], [], none⟩

/-- What happens during a coverage run. Both kinds of step hold a lock for their whole length
(instrument.rs 43, cov.rs 221), so a run on many threads is a sequence of them. -/
inductive Op
  /-- The compiler asks for a source file; `places` is the number of places the rewriting finds, or
  `none` if the file cannot be read. -/
  | source (file : Nat) (places : Option Nat)
  /-- The rewritten program runs counter call `i` of `file`. -/
  | hit (file i : Nat)
  deriving DecidableEq, Repr

/-- Insertion into a hash map: the new entry hides an old one. -/
def insert (k v : Nat) (m : List (Nat × Nat)) : List (Nat × Nat) :=
  (k, v) :: m.filter (fun e => decide (e.1 ≠ k))

/-- `c.saturating_add(1)` on a `u8`. -/
def bump (c : Nat) : Nat := if c < 255 then c + 1 else 255

/-- `hits[pc as usize]` incremented; `none` is the panic of an index out of range. -/
def bumpAt (l : List Nat) (i : Nat) : Option (List Nat) :=
  match l[i]? with
  | none => none
  | some c => some (l.set i (bump c))

/-- Increments counter `i` of the region at address `a`. -/
def hitRegion (s : Counters) (a i : Nat) : Option Counters :=
  match s.heap[a]? with
  | none => none
  | some l => match bumpAt l i with
    | none => none
    | some l' => some { s with heap := s.heap.set a l' }

/-- `InstrumentWorld::source` (instrument.rs 42-51) with `CovInstr::instrument` (cov.rs 175-190). -/
def source (s : Counters) (file : Nat) (places : Option Nat) : Counters :=
  if file ∈ s.seen then s
  else match places with
    | none => { s with seen := file :: s.seen }
    | some n =>
      { s with
        seen := file :: s.seen
        sizes := insert file n s.sizes
        heap := s.heap ++ [List.replicate n 0]
        regions := insert file s.heap.length s.regions }

/-- The slow path of `__cov_pc` (cov.rs 229-235): the region is looked up, created empty if it is
missing, and remembered. -/
def hitSlow (s : Counters) (file i : Nat) : Option Counters :=
  match s.regions.lookup file with
  | some a => (hitRegion s a i).map (fun s' => { s' with lastHit := some (file, a) })
  | none =>
    let s := { s with heap := s.heap ++ [[]], regions := insert file s.heap.length s.regions }
    (hitRegion s (s.heap.length - 1) i).map
      (fun s' => { s' with lastHit := some (file, s.heap.length - 1) })

/-- `__cov_pc` (cov.rs 216-235). -/
def hit (s : Counters) (file i : Nat) : Option Counters :=
  match s.lastHit with
  | some (f, a) => if f = file then hitRegion s a i else hitSlow s file i
  | none => hitSlow s file i

def step (s : Counters) : Op → Option Counters
  | .source f n => some (source s f n)
  | .hit f i => hit s f i

def run (s : Counters) : List Op → Option Counters
  | [] => some s
  | o :: os => match step s o with
    | none => none
    | some s' => run s' os

/-! ### The report -/

/-- The details of one file in `to_json` (cov.rs 44-66): `range` answers where a place is in the
source, if anywhere; `none` as the whole answer is a panic of `hits[idx]`. -/
def details (range : Nat → Option (Nat × Nat)) : List Nat → List Nat → Nat →
    Option (List (Bool × (Nat × Nat)))
  | [], _, _ => some []
  | sp :: places, hits, idx =>
    match range sp with
    | none => details range places hits (idx + 1)
    | some r =>
      match hits[idx]? with
      | none => none
      | some h => (details range places hits (idx + 1)).map ((decide (h > 0), r) :: ·)

/-- The counts of one file in the summary (cov.rs 127-135). -/
def fileSummary (s : Counters) (f : Nat) : Option (Nat × Nat) :=
  match s.regions.lookup f, s.sizes.lookup f with
  | some a, some n => (s.heap[a]?).map (fun l => (l.countP (fun c => decide (c > 0)), n))
  | _, _ => none

/-- The two totals of the summary (cov.rs 137-138). -/
def summary (s : Counters) : Nat × Nat :=
  let l := (s.regions.map (·.1)).filterMap (fileSummary s)
  ((l.map (·.1)).sum, (l.map (·.2)).sum)

end Tinymist.Coverage
