import Verif.Model.EditorDiag
/-!
# Specification for C33

What the user should see, as a function of the history of reports only.
-/
namespace Tinymist.EditorDiag.Spec
open Tinymist.EditorDiag

variable {D : Type}

/-- The last report of project `p` in the history (`none`: never reported, or closed). -/
def lastReport (reqs : List (Proj × Option (DiagnosticsMap D))) (p : Proj) : Option (DiagnosticsMap D) :=
  match reqs.reverse.find? (fun r => r.1 == p) with
  | some r => r.2
  | none => none

/-- The diagnostics project `p` last reported for `uri`. -/
def current (reqs : List (Proj × Option (DiagnosticsMap D))) (p : Proj) (uri : Url) : List D :=
  (((lastReport reqs p).getD []).lookup uri).getD []

/-- Every project that ever reported, once. -/
def projects (reqs : List (Proj × Option (DiagnosticsMap D))) : List Proj := (reqs.map (·.1)).eraseDups

/-- The union of what each project last reported for `uri`. -/
def expected (reqs : List (Proj × Option (DiagnosticsMap D))) (uri : Url) : List D :=
  (projects reqs).flatMap fun p => current reqs p uri

/-- What the client shows for `uri`: the last message for it, nothing if there was none. -/
def shown (sent : List (Url × List D)) (uri : Url) : List D :=
  match sent.reverse.find? (fun m => m.1 == uri) with
  | some m => m.2
  | none => []

/-- Each report is a map: no file occurs twice. -/
def WellFormed (reqs : List (Proj × Option (DiagnosticsMap D))) : Prop :=
  ∀ r ∈ reqs, ∀ m, r.2 = some m → (m.map (·.1)).Nodup

end Tinymist.EditorDiag.Spec
