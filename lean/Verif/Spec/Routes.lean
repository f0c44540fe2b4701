import Verif.Model.Routes

/-!
# Which project a file belongs to
-/

namespace Tinymist.Routes

/-- What the server knows of a directory: routes and the files of each
project. -/
structure Known where
  routes : List Route
  files : Id → Option (List Path)

/-- What is on disk: the routes of the lock file and, for each project, the files of the last material of
that name. Nothing without a lock file. -/
def OnDisk.known (d : OnDisk) : Known :=
  match d.lock with
  | none => ⟨[], fun _ => none⟩
  | some routes => ⟨routes, fun id => (d.materials.reverse.find? (·.id == id)).map (·.files)⟩

/-- The project is among the routes and the file among its files. -/
def Known.Leads (k : Known) (leaf : Path) (id : Id) : Prop :=
  (∃ r ∈ k.routes, r.id = id) ∧ ∃ fs, k.files id = some fs ∧ leaf ∈ fs

/-- The routing of a file by one lock file: the route added last wins among those leading to the file. -/
def Known.Routes (k : Known) (leaf : Path) (id : Id) : Prop :=
  ∃ before r after, k.routes = before ++ r :: after ∧ r.id = id ∧ k.Leads leaf id ∧
    ∀ r' ∈ after, ¬ k.Leads leaf r'.id

/-- The answer for a file: the nearest directory at or above it whose lock file
leads to it. -/
def Nearest (known : Path → Known) (leaf dir : Path) (id : Id) : Prop :=
  dir <+: leaf ∧ (known dir).Routes leaf id ∧
    ∀ dir', dir' <+: leaf → dir.length < dir'.length → ∀ id', ¬ (known dir').Routes leaf id'

end Tinymist.Routes
