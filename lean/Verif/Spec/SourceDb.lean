import Verif.Model.SourceDb
/-! What a compilation should see and report. -/
namespace Tinymist.SourceDb
variable {Fid V : Type} [DecidableEq Fid]

/-- The answer of the storage to the first read of the same file in the same form. -/
def firstAnswer (history : List (Read Fid V)) (r : Read Fid V) : Option V :=
  (history.find? fun x => x.fid = r.fid ∧ x.kind = r.kind).map (·.now)

end Tinymist.SourceDb
