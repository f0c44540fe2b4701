import Verif.Model.Watch
/-! What the watcher should report. -/
namespace Tinymist.Watch
variable {Path : Type} [DecidableEq Path]

/-- What a consumer knows about `p` after a change: removals first, then insertions, the last one counts. -/
def Change.tell (c : Change Path) (old : Option Snap) (p : Path) : Option Snap :=
  match c.inserts.reverse.find? (fun x => x.1 = p) with
  | some x => some x.2
  | none => if p ∈ c.removes then none else old

/-- The last report about `p`. -/
def lastReport (cs : List (Change Path)) (p : Path) : Option Snap := cs.foldl (fun old c => c.tell old p) none

/-- What an operation finds at `p`, if it looks there: a dependency listed twice is looked at once. -/
def Op.finds (p : Path) : Op Path → Option Snap
  | .sync ds => (ds.find? (fun d => d.path = p)).map (·.file)
  | .event ps _ => (ps.reverse.find? (fun x => x.1 = p)).map (·.2)
  | .recheck _ _ => none

/-- What was found at `p` most recently. -/
def lastFound (ops : List (Op Path)) (p : Path) : Option Snap := ops.foldl (fun old op => (op.finds p).or old) none

/-- The dependencies of the last synchronisation. -/
def lastDeps (ops : List (Op Path)) : List (Dep Path) :=
  ops.foldl (fun old op => match op with | .sync ds => ds | _ => old) []

/-- The file has a content and it is not empty. -/
def Snap.Solid : Snap → Prop
  | .ok c => c ≠ []
  | .err _ => False

/-- Everything said about `p`, in order: `some` a content, or `none` for a removal. -/
def reports (cs : List (Change Path)) (p : Path) : List (Option Snap) :=
  cs.flatMap fun c =>
    (c.removes.filter (· = p)).map (fun _ => none) ++ (c.inserts.filter (·.1 = p)).map (fun x => some x.2)

/-- No element equals the one before it. -/
def NoRepeat {A : Type} : List A → Prop
  | a :: b :: l => a ≠ b ∧ NoRepeat (b :: l)
  | _ => True

/-- Without OS watcher there are no file system events. -/
def Op.Possible (hasWatcher : Bool) : Op Path → Prop
  | .event _ _ => hasWatcher = true
  | _ => True

/-- Everything that is found at `p`, in order. -/
def Op.sights (p : Path) : Op Path → List Snap
  | .sync ds => (ds.filter (fun d => d.path = p)).map (·.file)
  | .event ps _ => (ps.filter (fun x => x.1 = p)).map (·.2)
  | .recheck _ _ => []

/-- A non-empty content, or an error that does not look like the file being replaced: it is neither missing
nor an error of an unknown kind. -/
def Snap.Steady : Snap → Prop
  | .ok c => c ≠ []
  | .err (.hard _) => True
  | .err _ => False

instance : DecidablePred Snap.Steady := fun s => by
  rcases s with c | (_ | _ | _) <;> simp only [Snap.Steady] <;> infer_instance

/-- For how many updates `p` has not been a dependency; `none` if it never was one. -/
def idle (ops : List (Op Path)) (p : Path) : Option Nat :=
  ops.foldl (fun old op => match op with
    | .sync ds => if p ∈ ds.map (·.path) then some 0 else old.map (· + 1)
    | _ => old) none

end Tinymist.Watch
