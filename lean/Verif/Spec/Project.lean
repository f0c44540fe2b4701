import Verif.Model.Project
/-! What an editor and a user expect of the projects. -/
namespace Tinymist.Project
variable {Path C : Type} [DecidableEq Path]

abbrev History (Path C : Type) := List (Op Path C × (String → Bool))

/-- The client's buffer `q` after one of its messages. -/
def MemEvent.buffer (e : MemEvent Path C) (q : Path) (old : Option C) : Option C :=
  match e.inserts.reverse.find? (fun x => x.1 = q) with
  | some x => some x.2
  | none => if e.sync ∨ q ∈ e.removes then none else old

/-- The client's buffer `q` after all its messages, in the order the client sent them. -/
def clientBuffer (h : History Path C) (q : Path) : Option C :=
  h.foldl (fun old x => match x.1 with | .memory e _ => e.buffer q old | _ => old) none

/-- The message says something about the buffer. -/
def MemEvent.Touches (e : MemEvent Path C) (q : Path) : Prop :=
  e.sync = true ∨ q ∈ e.removes ∨ q ∈ e.inserts.map (·.1)

/-- Whenever a message about `q` arrives, it is deferred behind the others or no earlier message about `q` is
still waiting. -/
def NotOvertaking (q : Path) (inactive : Bool) (h : History Path C) : Prop :=
  ∀ pre e r clean post m, h = pre ++ (.memory e r, clean) :: post → run (init inactive) pre = some m → e.Touches q →
    m.dirty ≠ 0 ∨ ∀ x ∈ m.upstream, ¬ x.2.Touches q

/-- All the changes that reached the project are in a compilation that was issued for it, or were found not to
concern what it last compiled. -/
def Covered (s : Shared) (p : Proj Path C) : Prop :=
  p.stamp = 0 ∨ (∃ a ∈ s.issued, a.uid = p.uid ∧ a.snap.stamp = p.stamp) ∨ (p.uid, p.stamp) ∈ s.verdicts

/-- The step brings project `p` nothing new: an empty message of the editor, a report of the watcher about nothing the
project read (and about an empty delayed message), a font scan without a result. -/
def Op.Quiet (m : Machine Path C) (p : Proj Path C) : Op Path C → Prop
  | .memory e r => e.removes = [] ∧ e.inserts = [] ∧ (e.sync = true → r p.id = false)
  | .fs ack ch => ch p.id = false ∧ (ack = true → ∀ x ∈ m.upstream.head?, x.2.removes = [] ∧ x.2.inserts = [])
  | .font ch => ch = false
  | _ => False

/-- A message of the editor about its files, or a report of the watcher. -/
def Op.OfFiles : Op Path C → Prop
  | .memory _ _ => True
  | .fs _ _ => True
  | _ => False

/-- The steps after which the server looks at all projects for something to compile: everything that can change a
project, and the end of a compilation. A watcher's answer to an editor change counts if one is waiting for it. -/
def Op.Handled (m : Machine Path C) : Op Path C → Prop
  | .compile _ | .settle _ | .changeTask _ _ _ | .font _ | .memory _ _ => True
  | .fs ack _ => ack = true → m.upstream ≠ []
  | .compiled i => i < m.sh.inbox.length
  | _ => False

/-- The compilations under way and the results on their way, for a project id. -/
def Shared.inFlight (s : Shared) (id : String) : List Art :=
  (s.jobs.map (·.art) ++ s.inbox).filter (fun a => a.id = id)

/-- Projects are only addressed while they exist, are not removed while they compile, and the id of the primary
project is not reused. -/
def Op.Orderly (m : Machine Path C) : Op Path C → Prop
  | .restart g _ => g ≠ m.primary.id ∧ m.sh.inFlight g = []
  | .settle id => m.sh.inFlight id = []
  | .compile id => id ∈ m.projects.map (·.id)
  | .changeTask id inputs entry => id ∈ m.projects.map (·.id) ∧ (inputs = true ∨ entry.isSome = true)
  | _ => True

def Orderly (inactive : Bool) (h : History Path C) : Prop :=
  ∀ pre op clean post m, h = pre ++ (op, clean) :: post → run (init inactive) pre = some m → op.Orderly m

/-- While a message about a project that loses its entry is sent, none of its compilations is between recording
and sending its status. -/
def Op.Calm (m : Machine Path C) : Op Path C → Prop
  | .changeTask id _ (some true) => ∀ j ∈ m.sh.jobs, j.art.id = id → ∀ b, j.phase ≠ .checked b
  | _ => True

def Calm (inactive : Bool) (h : History Path C) : Prop :=
  ∀ pre op clean post m, h = pre ++ (op, clean) :: post → run (init inactive) pre = some m → op.Calm m

/-- The revisions of the results reported for `id` since the project was last removed. -/
def resultRevs (outs : List Out) (id : String) : List Nat :=
  outs.foldl (fun l o => match o with
    | .result i r _ _ => if i = id then l ++ [r] else l
    | .cleared i true => if i = id then [] else l
    | _ => l) []

/-- The revisions of the statuses reported for `id`. -/
def statusRevs (outs : List Out) (id : String) : List Nat :=
  outs.filterMap fun o => match o with
    | .status i r => if i = id then some r else none
    | _ => none

def Increasing (l : List Nat) : Prop := l.Pairwise (· < ·)
def NonDecreasing (l : List Nat) : Prop := l.Pairwise (· ≤ ·)

end Tinymist.Project
