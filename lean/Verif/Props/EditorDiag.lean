import Verif.Lemmas.EditorDiag
import Verif.Lemmas.Util
/-!
# C33: published diagnostics are the union of what each project last reported
-/
namespace Tinymist.EditorDiag
open Spec
variable {D : Type}

/-- **C33.** After any history of reports by any number of projects, for every file, the
diagnostics the client shows are (up to order, which depends on hash map iteration) exactly the
diagnostics each project reported for that file in its last report. -/
theorem shown_is_union_of_last_reports (reqs : List (Proj × Option (DiagnosticsMap D)))
    (hwf : WellFormed reqs) (uri : Url) :
    (shown (run (init D) reqs).sent uri).Perm (expected reqs uri) := by
  have hi := run_inv reqs hwf
  rw [hi.agrees.shows uri]
  unfold expected current
  have hkeys : ∀ k ∈ ((run (init D) reqs).diagnostics uri).map (·.1), k ∈ projects reqs := by
    intro k hk
    have hlook := hi.agrees.look uri k
    unfold projects
    rw [List.mem_eraseDups]
    by_cases hin : k ∈ reqs.map (·.1)
    · exact hin
    · exfalso
      have hl : lastReport reqs k = none := by
        unfold lastReport
        have : reqs.reverse.find? (fun r => r.1 == k) = none := by
          rw [List.find?_eq_none]
          intro r hr hc
          apply hin
          simp only [List.mem_reverse] at hr
          have : r.1 = k := by simpa using hc
          exact this ▸ List.mem_map_of_mem hr
        rw [this]
      rw [hl] at hlook
      simp only [Option.getD_none, List.lookup_nil] at hlook
      rw [List.mem_map] at hk
      obtain ⟨x, hx, rfl⟩ := hk
      rw [List.lookup_eq_none_iff] at hlook
      have := hlook x hx
      simp at this
  have := flatMap_lookup_perm _ (projects reqs) (hi.agrees.nodup uri) (Util.nodup_eraseDups _) hkeys
  refine this.trans ?_
  apply List.Perm.of_eq
  rw [List.flatMap_def, List.flatMap_def]
  congr 1
  apply List.map_congr_left
  intro p _
  rw [hi.agrees.look uri p]

/-- **C33.** Closing a project makes all its diagnostics disappear: they are not part of what is
expected any more, and nothing else is affected. -/
theorem closed_project_contributes_nothing (reqs : List (Proj × Option (DiagnosticsMap D))) (p : Proj)
    (uri : Url) : current (reqs ++ [(p, none)]) p uri = [] ∧
      ∀ q, q ≠ p → current (reqs ++ [(p, none)]) q uri = current reqs q uri := by
  constructor
  · simp [current, lastReport_append]
  · intro q hq; simp [current, lastReport_append, hq]

/-- Non-vacuity: two projects share a file, one stops reporting it, the other is closed. -/
example :
    let r1 : DiagnosticsMap String := [("a", ["x1", "x2"]), ("b", ["y"])]
    let r2 : DiagnosticsMap String := [("a", ["z"])]
    let r3 : DiagnosticsMap String := [("b", ["w"])]
    let reqs := [("p", some r1), ("q", some r2), ("p", some r3), ("q", none)]
    WellFormed reqs ∧
    shown (run (init String) (reqs.take 2)).sent "a" = ["x1", "x2", "z"] ∧
    shown (run (init String) (reqs.take 3)).sent "a" = ["z"] ∧
    shown (run (init String) reqs).sent "a" = [] ∧ shown (run (init String) reqs).sent "b" = ["w"] := by
  refine ⟨?_, by decide, by decide, by decide, by decide⟩
  intro r hr m hm
  simp at hr
  rcases hr with rfl | rfl | rfl | rfl <;> simp at hm <;> subst hm <;> decide

end Tinymist.EditorDiag
