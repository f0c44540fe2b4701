/-!
# The outline in the editor, with several pages

Every page that connects starts an `OutlineRenderActor` of its own (crates/typst-preview/src/lib.rs:133-139). They share the stored document, the
interner and the channel to the editor. Models `OutlineRenderActor::run` (crates/typst-preview/src/actor/render.rs:334-363) and `outline` (365-372)
of all of them, with `CompileWatcher::notify_compile` (lib.rs:412-444). Every interleaving is a list of `Act`s.

Simplified: of the channel of each loop only the number of waiting messages is kept, as nothing in them is looked at; an outline is identified with the
document it is of; pages and the editor do not go away.
-/

namespace Tinymist.OutlineMany

/-- Where a loop stands: waiting in `recv` (render.rs:337), reading the queue to empty (349), about to look for a document (352), with a document,
waiting for the interner (356, 366-371), or with an outline to send (358). -/
inductive Phase (D : Type) where
  | idle
  | drain
  | ready
  | found (d : D)
  | built (d : D)
  deriving DecidableEq, Repr

/-- A loop: its receiving end of the channel, and where it stands. -/
structure Loop (D : Type) where
  queue : Nat
  lagged : Bool
  phase : Phase D
  deriving DecidableEq, Repr

/-- `view`: the document that is stored; `interned`: the document whose places the interner keeps; `sent`: the outlines that were sent to the
editor; `posting`: documents stored and not yet announced. -/
structure State (D : Type) where
  view : Option D
  loops : List (Loop D)
  interned : Option D
  sent : List D
  posting : Nat
  deriving DecidableEq, Repr

inductive Act (D : Type) where
  /-- `*self.doc_sender.write() = Some(view)` (lib.rs:430). -/
  | store (d : D)
  /-- `render_tx.send(RenderIncremental)` (lib.rs:433). -/
  | announce
  /-- A request of a page or the editor, on the same channel. -/
  | request
  /-- A page connects (lib.rs:133-139). -/
  | connect
  | recv (i : Nat)
  | tryRecv (i : Nat)
  | look (i : Nat)
  | intern (i : Nat)
  | send (i : Nat)
  deriving DecidableEq, Repr

variable {D : Type}

/-- A loop that has just subscribed (lib.rs:134). -/
def Loop.new : Loop D := ⟨0, false, .idle⟩

/-- A message comes on a broadcast channel that keeps `cap` of them (lib.rs:208). -/
def Loop.post (cap : Nat) (l : Loop D) : Loop D := if l.queue < cap then { l with queue := l.queue + 1 } else { l with lagged := true }

/-- `signal.recv().await` (render.rs:337-347). -/
def Loop.recv (l : Loop D) : Loop D :=
  match l.phase with
  | .idle =>
    if l.lagged then { l with lagged := false, phase := .drain }
    else if l.queue = 0 then l
    else { l with queue := l.queue - 1, phase := .drain }
  | _ => l

/-- `signal.try_recv().is_ok()` (render.rs:349). -/
def Loop.tryRecv (l : Loop D) : Loop D :=
  match l.phase with
  | .drain =>
    if l.lagged then { l with lagged := false, phase := .ready }
    else if l.queue = 0 then { l with phase := .ready }
    else { l with queue := l.queue - 1 }
  | _ => l

/-- `self.document.read()` (render.rs:352-355). -/
def Loop.look (view : Option D) (l : Loop D) : Loop D :=
  match l.phase with
  | .ready =>
    match view with
    | none => { l with phase := .idle }
    | some d => { l with phase := .found d }
  | _ => l

/-- What an act does to the loop it is of. -/
def State.on (s : State D) (i : Nat) (f : Loop D → Loop D) : State D :=
  match s.loops[i]? with
  | some l => { s with loops := s.loops.set i (f l) }
  | none => s

/-- The interner is reset and filled, while nobody else has it (render.rs:366-371). -/
def State.intern (s : State D) (i : Nat) : State D :=
  match s.loops[i]? with
  | none => s
  | some l =>
    match l.phase with
    | .found d => { s with interned := some d, loops := s.loops.set i { l with phase := .built d } }
    | _ => s

/-- `editor_tx.send` (render.rs:358). -/
def State.send (s : State D) (i : Nat) : State D :=
  match s.loops[i]? with
  | none => s
  | some l =>
    match l.phase with
    | .built d => { s with sent := s.sent ++ [d], loops := s.loops.set i { l with phase := .idle } }
    | _ => s

def step (cap : Nat) (s : State D) : Act D → State D
  | .store d => { s with view := some d, posting := s.posting + 1 }
  | .announce => if s.posting = 0 then s else { s with posting := s.posting - 1, loops := s.loops.map (Loop.post cap) }
  | .request => { s with loops := s.loops.map (Loop.post cap) }
  | .connect => { s with loops := s.loops ++ [Loop.new] }
  | .recv i => s.on i Loop.recv
  | .tryRecv i => s.on i Loop.tryRecv
  | .look i => s.on i (Loop.look s.view)
  | .intern i => s.intern i
  | .send i => s.send i

/-- One page is connected; there may be a document already. -/
def start (view : Option D) : State D := ⟨view, [Loop.new], none, [], 0⟩

def run (cap : Nat) (view : Option D) (acts : List (Act D)) : State D := acts.foldl (step cap) (start view)

end Tinymist.OutlineMany
