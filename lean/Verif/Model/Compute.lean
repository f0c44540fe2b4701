/-!
# The compute graph

Models `WorldComputeGraph`, `crates/tinymist-world/src/compute.rs`: threads that run, read and provide memoised
computations. `std::sync::OnceLock` is used by its contract: `get_or_init` and `set` wait while another thread
initialises the cell, `get` does not; a panicking initialiser leaves the cell empty. Looking up or creating the cell in
the map of entries (compute.rs:160-169, under a mutex) is merged with the operation on the cell.
-/
namespace Tinymist.Compute

/-- A program over the graph, computations `K` with results `R` (the `Result<AnyArc>` of compute.rs:22). -/
inductive Prog (K R : Type) where
  | ret (r : R)
  /-- `compute`, compute.rs:154-158. -/
  | compute (k : K) (cont : R → Prog K R)
  /-- `get`, compute.rs:128-131. -/
  | get (k : K) (cont : Option R → Prog K R)
  /-- `provide`, compute.rs:144-151: whether it was set. -/
  | provide (k : K) (r : R) (cont : Bool → Prog K R)
  | panic

/-- A cell, compute.rs:20-23. -/
inductive Cell (R : Type) where
  | empty
  | running
  | done (r : R)

/-- What happens to a computation. -/
inductive Event (K R : Type) where
  | began (k : K)
  | completed (k : K) (r : R)
  | aborted (k : K)
  | provided (k : K) (r : R)
  /-- A consumer got the result. -/
  | observed (k : K) (r : R)

/-- A thread: the initialisers it is in, the innermost first, and its main program (`none` after a panic). -/
structure Thread (K R : Type) where
  frames : List (K × Prog K R)
  client : Option (Prog K R)

structure State (K R : Type) where
  cells : K → Cell R
  threads : List (Thread K R)
  /-- Oldest first. -/
  log : List (Event K R)

variable {K R : Type} [DecidableEq K]

/-- What a program does next. -/
inductive Act (K R : Type) where
  | go (p : Prog K R) (ev : List (Event K R))
  | wait
  | call (k : K)
  | set (k : K) (r : R) (p : Prog K R)
  | done (r : R)
  | die

def act (cells : K → Cell R) : Prog K R → Act K R
  | .ret r => .done r
  | .compute k cont =>
    match cells k with
    | .done r => .go (cont r) [.observed k r]
    | .running => .wait
    | .empty => .call k
  | .get k cont =>
    match cells k with
    | .done r => .go (cont (some r)) [.observed k r]
    | _ => .go (cont none) []
  | .provide k r cont =>
    match cells k with
    | .done _ => .go (cont false) []
    | .running => .wait
    | .empty => .set k r (cont true)
  | .panic => .die

def setCell (cells : K → Cell R) (k : K) (c : Cell R) : K → Cell R := fun x => if x = k then c else cells x

/-- The program a thread is in. -/
def Thread.top (t : Thread K R) : Option (Prog K R) :=
  match t.frames with
  | [] => t.client
  | (_, p) :: _ => some p

def Thread.setTop (t : Thread K R) (p : Prog K R) : Thread K R :=
  match t.frames with
  | [] => ⟨[], some p⟩
  | (k, _) :: fs => ⟨(k, p) :: fs, t.client⟩

/-- A return: an initialiser fills its cell (the caller then finds it filled), the main program ends the thread. -/
def finish (s : State K R) (i : Nat) (t : Thread K R) (r : R) : Option (State K R) :=
  match t.frames with
  | [] => none
  | (k, _) :: fs =>
    some ⟨setCell s.cells k (.done r), s.threads.set i ⟨fs, t.client⟩, s.log ++ [.completed k r]⟩

/-- One step of thread `i`; `task` is `WorldComputable::compute` of each computation. `none` when the thread waits or has
ended. -/
def step (task : K → Prog K R) (s : State K R) (i : Nat) : Option (State K R) :=
  match s.threads[i]? with
  | none => none
  | some t =>
    match t.top with
    | none => none
    | some p =>
      match act s.cells p with
      | .go p' ev => some ⟨s.cells, s.threads.set i (t.setTop p'), s.log ++ ev⟩
      | .wait => none
      | .call k =>
        some ⟨setCell s.cells k .running, s.threads.set i ⟨(k, task k) :: t.frames, t.client⟩, s.log ++ [.began k]⟩
      | .set k r p' =>
        some ⟨setCell s.cells k (.done r), s.threads.set i (t.setTop p'), s.log ++ [.provided k r]⟩
      | .done r => finish s i t r
      | .die =>
        some ⟨fun x => if x ∈ t.frames.map (·.1) then .empty else s.cells x, s.threads.set i ⟨[], none⟩,
          s.log ++ t.frames.map fun f => .aborted f.1⟩

/-- A graph nobody has used, with some threads. -/
def State.init (clients : List (Prog K R)) : State K R := ⟨fun _ => .empty, clients.map fun p => ⟨[], some p⟩, []⟩

/-- The states some schedule leads to. -/
inductive Reachable (task : K → Prog K R) (clients : List (Prog K R)) : State K R → Prop
  | init : Reachable task clients (State.init clients)
  | step {s s' i} (h : Reachable task clients s) (hs : step task s i = some s') : Reachable task clients s'

/-! ## The compiler's computations -/

/-- A compilation, `Warned<SourceResult<Arc<D>>>`: the document or errors, and warnings. -/
structure Warned (Doc Diag : Type) where
  output : Except (List Diag) Doc
  warnings : List Diag

/-- Results of the computations. -/
inductive Val (Doc Diag : Type) where
  | flag (enabled : Bool)
  | compiled (c : Option (Warned Doc Diag))
  | document (d : Option Doc)
  /-- `DiagnosticsTask`: paged errors and warnings, html errors and warnings. -/
  | diags (paged html : Option (Warned Doc Diag))
  /-- `CompiledArtifact`: the document and the diagnostics in order. -/
  | artifact (doc : Option Doc) (diags : List Diag)

/-- The computations of compute.rs:231-369. -/
inductive Key where
  | flag (html : Bool)
  | compilation (html : Bool)
  | document (html : Bool)
  | diagnostics
  deriving DecidableEq

/-- `none` is an `Err`. -/
abbrev Res (Doc Diag : Type) := Option (Val Doc Diag)

variable {Doc Diag : Type}

/-- The rest of `CompilationTask::compute` after `must_get`, compute.rs:309-313; `run` is `execute`. -/
def compileWith (c : Warned Doc Diag) : Res Doc Diag → Res Doc Diag
  | some (.flag enabled) => some (.compiled (if enabled then some c else none))
  | _ => none

/-- The rest of `OptionDocumentTask::compute`, compute.rs:324-332. -/
def documentOf : Res Doc Diag → Res Doc Diag
  | some (.compiled c) => some (.document (c.bind fun w => w.output.toOption))
  | _ => none

/-- `execute`, compute.rs:259-300, with typst's result: one warning about html is dropped. -/
def execute (hasMain : Bool) (noMain : Diag) (aboutHtml : Diag → Bool) (html : Bool) (c : Warned Doc Diag) :
    Warned Doc Diag :=
  if !hasMain then ⟨.error [noMain], []⟩
  else if !html then c
  else
    match c.warnings with
    | [w] => if aboutHtml w then ⟨c.output, []⟩ else c
    | _ => c

/-- The second half of `DiagnosticsTask::compute`, compute.rs:361-369. -/
def diagsOf : Res Doc Diag → Res Doc Diag → Res Doc Diag
  | some (.compiled p), some (.compiled h) => some (.diags p h)
  | _, _ => none

/-- `WorldComputable::compute` of each; `run html` is what `execute` returns. An `Err` of a dependency is returned. -/
def task (run : Bool → Warned Doc Diag) : Key → Prog Key (Res Doc Diag)
  | .flag _ => .panic
  | .compilation html => .get (.flag html) fun r => .ret (compileWith (run html) (r.join))
  | .document html => .compute (.compilation html) fun r => .ret (documentOf r)
  | .diagnostics =>
    .compute (.compilation false) fun p =>
      match p with
      | none => .ret none
      | some p => .compute (.compilation true) fun h => .ret (diagsOf (some p) h)

/-- The diagnostics of a compilation, compute.rs:343-350. -/
def Warned.diagnostics (w : Warned Doc Diag) : List Diag :=
  (match w.output with | .error es => es | .ok _ => []) ++ w.warnings

/-- `DiagnosticsTask::diagnostics`, compute.rs:383-391. -/
def diagList : Option (Warned Doc Diag) → List Diag
  | some w => w.diagnostics
  | none => []

/-- The end of `CompiledArtifact::from_graph`, `crates/tinymist-project/src/compiler.rs:97-102`. -/
def artifactOf (doc : Option Doc) : Res Doc Diag → Prog Key (Res Doc Diag)
  | some (.diags p h) => .ret (some (.artifact doc (diagList p ++ diagList h)))
  | _ => .panic

/-- `expect("paged")` and what follows, compiler.rs:91-102. -/
def afterDocument : Res Doc Diag → Prog Key (Res Doc Diag)
  | some (.document doc) => .compute .diagnostics (artifactOf doc)
  | _ => .panic

/-- `CompiledArtifact::from_graph`, compiler.rs:88-103. -/
def fromGraph (isHtml : Bool) : Prog Key (Res Doc Diag) :=
  .provide (.flag true) (some (.flag isHtml)) fun _ =>
    .provide (.flag false) (some (.flag (!isHtml))) fun _ =>
      .compute (.document isHtml) afterDocument

/-! ## Copies of a graph -/

/-- Some graphs that share cells, compute.rs:98-109: each maps computations to cells; a cell holds the number of times it
was filled and its result. -/
structure Graphs (K R : Type) where
  graphs : List (List (K × Nat))
  cells : List (Option R)
  /-- The computations that were run. -/
  runs : List K

/-- `computed`, compute.rs:160-169. -/
def Graphs.cell (s : Graphs K R) (g : Nat) (k : K) : Graphs K R × Nat :=
  match (s.graphs[g]?.getD []).find? (·.1 = k) with
  | some e => (s, e.2)
  | none =>
    (⟨s.graphs.set g ((k, s.cells.length) :: s.graphs[g]?.getD []), s.cells ++ [none], s.runs⟩, s.cells.length)

/-- `get_or_init` of a cell whose initialiser would give `r`. -/
def Graphs.fill (s : Graphs K R) (c : Nat) (k : K) (r : R) : Graphs K R × R :=
  match s.cells[c]?.join with
  | some r' => (s, r')
  | none => (⟨s.graphs, s.cells.set c (some r), s.runs ++ [k]⟩, r)

/-- `compute` in graph `g`, by one thread, for a computation without dependencies that would give `r` now. -/
def Graphs.compute (s : Graphs K R) (g : Nat) (k : K) (r : R) : Graphs K R × R :=
  (s.cell g k).1.fill (s.cell g k).2 k r

/-- `snapshot_unsafe`, compute.rs:104-109. -/
def Graphs.snapshot (s : Graphs K R) (g : Nat) : Graphs K R :=
  { s with graphs := s.graphs ++ [s.graphs[g]?.getD []] }

end Tinymist.Compute
