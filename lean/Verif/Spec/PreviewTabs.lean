import Verif.Model.PreviewTabs

/-!
# Which previews there are
-/

namespace Tinymist.PreviewTabs

/-- The tab that a request carries. -/
def Request.tab : Request → Option Tab
  | .started t => some t
  | _ => none

/-- The previews that are there: those starting, those on their way to the list of tabs, and those in it. -/
def alive (s : State) : List Tab :=
  s.tabs ++ (s.mailbox.filterMap Request.tab) ++ s.starting

/-- Compilations of the project are shown by the preview of the task. -/
def Watches (s : State) (project task : Name) : Prop := (project, task) ∈ s.watchers

/-- The preview watches its project, no other preview does, and no project is watched without a preview. -/
structure Fits (s : State) : Prop where
  watched : ∀ t ∈ alive s, Watches s t.project t.task
  shown : ∀ p k, Watches s p k → ∃ t ∈ alive s, t.project = p ∧ t.task = k
  once : ∀ p k k', Watches s p k → Watches s p k' → k = k'

/-- A history that keeps to what works: a preview is started under a name that no preview has, nothing fails on the
way after registration, and the projects are not reloaded. -/
def Careful (s : State) : Op → Prop
  | .start a => (∀ t ∈ alive s, t.task ≠ a.task) ∧ ¬ (a.entry = true ∧ a.mainFails = true) ∧ a.hostFails = false
  | .down _ => False
  | .reload => False
  | _ => True

end Tinymist.PreviewTabs
