import Verif.Model.Lock
/-!
# What a lock file should contain after updates
-/
namespace Tinymist.Lock
variable {D B T : Type}

/-- The document updates of a list of updates, in order. -/
def docUpdates : List (Update D B T) → List (Doc D)
  | [] => []
  | .document d :: us => d :: docUpdates us
  | _ :: us => docUpdates us

def taskUpdates : List (Update D B T) → List (Task B T)
  | [] => []
  | .task d :: us => d :: taskUpdates us
  | _ :: us => taskUpdates us

def routeUpdates : List (Update D B T) → List Route
  | [] => []
  | .route d :: us => d :: routeUpdates us
  | _ :: us => routeUpdates us

/-- The value of the last update for `id`. -/
def lastDoc (us : List (Update D B T)) (id : String) : Option (Doc D) :=
  (docUpdates us).reverse.find? (fun d => d.id = id)

def lastTask (us : List (Update D B T)) (id : String) : Option (Task B T) :=
  (taskUpdates us).reverse.find? (fun d => d.id = id)

/-- Keeps only the last occurrence of every id. -/
def keepLast : List Route → List Route
  | [] => []
  | r :: rs => if ∃ q ∈ rs, q.id = r.id then keepLast rs else r :: keepLast rs

/-- No id occurs twice. -/
structure Unique (l : LockFile D B T) : Prop where
  documents : (l.document.map Doc.id).Nodup
  tasks : (l.task.map Task.id).Nodup

/-- Documents by id; tasks by document, then by id. -/
structure Canonical (l : LockFile D B T) : Prop where
  documents : l.document.Pairwise fun a b => a.id ≤ b.id
  tasks : l.task.Pairwise fun a b => a.document < b.document ∨ (a.document = b.document ∧ a.id ≤ b.id)

/-- Resource paths without a colon inside, and tasks without transforms. -/
def PlainDoc (d : Doc D) : Prop := ∀ p ∈ d.paths, ':' ∉ p.scheme ∧ ':' ∉ p.path

def PlainTask (t : Task B T) : Prop := t.transform = []

structure Plain (l : LockFile D B T) : Prop where
  documents : ∀ d ∈ l.document, PlainDoc d
  tasks : ∀ t ∈ l.task, PlainTask t

def PlainUpdate : Update D B T → Prop
  | .document d => PlainDoc d
  | .task t => PlainTask t
  | .route _ => True

end Tinymist.Lock
