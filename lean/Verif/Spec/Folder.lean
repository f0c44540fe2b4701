import Verif.Model.Folder

/-!
# What an observer of background jobs can say
-/

namespace Tinymist.Folder

/-- No job panics in the history. -/
def Calm (ops : List Op) : Prop := ∀ i, Op.panic i ∉ ops

/-- The job executing now, if any, according to what has been observed. -/
def executing : List Ev → List Job
  | [] => []
  | .submitted _ :: l => executing l
  | .started j :: l => j :: executing l
  | .finished j :: l => (executing l).erase j

/-- Jobs that have started and not finished at a point of the history. -/
def inFlight (log : List Ev) : List Job := executing log.reverse

end Tinymist.Folder
