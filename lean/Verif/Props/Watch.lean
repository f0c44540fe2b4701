import Verif.Lemmas.WatchRepeat
/-!
# C06, C07: what the file watcher reports

A history is any list of dependency updates, file system events and delayed rechecks, with whatever is found
on disk each time the watcher looks.
-/
namespace Tinymist.Watch
variable {Path : Type} [DecidableEq Path]

/-- C06, for contents: whatever happened before, when the watcher last found a non-empty content at a
dependency, that content is what it last reported.
Missing from the full property: a file that was removed or truncated (see `removal_not_reported` and
`truncation_not_reported`). -/
theorem last_report_is_disk_partial (ops : List (Op Path)) (p : Path) (c : List UInt8)
    (hdep : p ∈ (lastDeps ops).map (·.path)) (hc : c ≠ []) (hfound : lastFound ops p = some (.ok c)) :
    lastReport (run (init true) ops).2 p = some (.ok c) := by
  obtain ⟨h, hw⟩ := full_run true ops (fun op _ => by cases op <;> first | exact trivial | exact rfl)
  obtain ⟨d, hd, rfl⟩ := List.mem_map.mp hdep
  obtain ⟨e, he⟩ := Option.isSome_iff_exists.mp (h.has d hd)
  have g := h.inv.good _ e he
  exact g.prev _ (g.look hw _ hfound hc) hc

/-- C06 when files are not watched and only looked at with each update: whatever was found is reported. -/
theorem last_report_is_disk_unwatched (ops : List (Op Path)) (p : Path) (hno : ∀ op ∈ ops, op.Possible false)
    (hdep : p ∈ (lastDeps ops).map (·.path)) :
    lastReport (run (init false) ops).2 p = lastFound ops p ∧ lastFound ops p ≠ none := by
  obtain ⟨h, hw⟩ := full_run false ops hno
  obtain ⟨d, hd, rfl⟩ := List.mem_map.mp hdep
  obtain ⟨e, he⟩ := Option.isSome_iff_exists.mp (h.has d hd)
  have g := h.inv.good _ e he
  rw [(g.noW hw).1]
  exact ⟨rfl, g.told⟩

/-- C07: every dependency has a reported content. -/
theorem dependency_reported (w : Bool) (ops : List (Op Path)) (p : Path) (hno : ∀ op ∈ ops, op.Possible w)
    (hdep : p ∈ (lastDeps ops).map (·.path)) : lastReport (run (init w) ops).2 p ≠ none := by
  obtain ⟨h, hw⟩ := full_run w ops hno
  obtain ⟨d, hd, rfl⟩ := List.mem_map.mp hdep
  obtain ⟨e, he⟩ := Option.isSome_iff_exists.mp (h.has d hd)
  exact (h.inv.good _ e he).told

/-- C07: only dependencies are watched. -/
theorem only_dependencies_watched (ops : List (Op Path)) (p : Path)
    (hw : (run (init true) ops).1.osWatched p = true) : p ∈ (lastDeps ops).map (·.path) := by
  obtain ⟨h, hww⟩ := full_run true ops (fun op _ => by cases op <;> first | exact trivial | exact rfl)
  obtain ⟨d, hd, rfl⟩ := h.sub hww p hw
  exact List.mem_map.mpr ⟨d, hd, rfl⟩

/-- C07: right after an update every dependency that is a file the OS can watch is watched. -/
theorem dependencies_watched (ops : List (Op Path)) (ds : List (Dep Path)) (p : Path)
    (hfirst : (ds.find? (fun d => d.path = p)).any (fun d => d.regular && d.watchOk) = true) :
    (run (init true) (ops ++ [.sync ds])).1.osWatched p = true := by
  obtain ⟨h, hw⟩ := full_run true ops (fun op _ => by cases op <;> first | exact trivial | exact rfl)
  rw [run_snoc]
  have h0 : Inv { (run (init true) ops).1 with tick := (run (init true) ops).1.tick + 1 }
      (lastReport (run (init true) ops).2) (lastFound ops) := ⟨h.inv.good, h.inv.os, h.inv.noOs⟩
  obtain ⟨-, -, -, d, e⟩ := update_inv h0 ds
  exact d (e.trans hw) p hfirst

/-- C07 (and the last part of C06): a later report about a file differs from the previous one, for files that
are not caught empty or missing.
Missing from the full property: see `same_report_twice`. -/
theorem reports_differ_partial (ops : List (Op Path)) (p : Path)
    (hsteady : ∀ op ∈ ops, ∀ x ∈ op.sights p, x.Steady) : NoRepeat (reports (run (init true) ops).2 p) :=
  (seq_run ops p hsteady).1.nr

section Witnesses
private def A : List UInt8 := [65]
private def B : List UInt8 := [66]
private def dep (p : Nat) (s : Snap) : Dep Nat := ⟨p, true, true, s⟩

/-- C06 fails: a file is removed, the recheck has run, nothing is pending, and the last report is still the old
content. -/
theorem removal_not_reported : ∃ ops : List (Op Nat),
    1 ∈ (lastDeps ops).map (·.path) ∧ lastFound ops 1 = some (.err .notFound) ∧
    (run (init true) ops).1.queue = [] ∧ lastReport (run (init true) ops).2 1 = some (.ok [65]) :=
  ⟨[.sync [dep 1 (.ok A)], .event [(1, .err .notFound)] true, .recheck 0 false], by decide +kernel⟩

/-- C06 fails: the same for a file that was truncated. -/
theorem truncation_not_reported : ∃ ops : List (Op Nat),
    1 ∈ (lastDeps ops).map (·.path) ∧ lastFound ops 1 = some (.ok []) ∧
    (run (init true) ops).1.queue = [] ∧ lastReport (run (init true) ops).2 1 = some (.ok [65]) :=
  ⟨[.sync [dep 1 (.ok A)], .event [(1, .ok [])] false, .recheck 0 false], by decide +kernel⟩

/-- C07 fails: a file that is seen missing for a moment is reported again with the content it had before. -/
theorem same_report_twice : ∃ ops : List (Op Nat),
    reports (run (init true) ops).2 1 = [some (.ok [65]), some (.ok [65])] :=
  ⟨[.sync [dep 1 (.ok A)], .event [(1, .err .notFound)] true, .event [(1, .ok A)] false, .recheck 0 false],
    by decide +kernel⟩

/-- A truncated and rewritten file: the new content is reported, once. -/
example : reports (run (init true) ([.sync [dep 1 (.ok A), dep 2 (.ok B)], .event [(1, .ok [])] false, .event [(1, .ok B)] false,
    .recheck 0 false, .event [(1, .ok B)] false] : List (Op Nat))).2 1 = [some (.ok A), some (.ok B)] := by decide +kernel

/-- The hypotheses of the theorems. -/
example : let ops : List (Op Nat) := [.sync [dep 1 (.ok A), dep 2 (.ok B)], .event [(1, .ok B), (2, .err (.hard 0))] false,
      .sync [dep 1 (.ok B)], .event [(1, .ok A)] true]
    1 ∈ (lastDeps ops).map (·.path) ∧ lastFound ops 1 = some (.ok A) ∧ (∀ op ∈ ops, ∀ x ∈ op.sights 1, x.Steady) ∧
    (run (init true) ops).1.osWatched 1 = false ∧
    (run (init true) (ops ++ [.sync [dep 1 (.ok A)]])).1.osWatched 1 = true := by
  refine ⟨by decide +kernel, by decide +kernel, ?_, by decide +kernel, by decide +kernel⟩
  intro op hop x hx
  simp only [List.mem_cons, List.not_mem_nil, or_false] at hop
  rcases hop with rfl | rfl | rfl | rfl <;> revert x <;> decide +kernel

/-- Unwatched. -/
example : let ops : List (Op Nat) := [.sync [dep 1 (.ok A)], .sync [dep 1 (.err .notFound)]]
    (∀ op ∈ ops, op.Possible false) ∧ lastReport (run (init false) ops).2 1 = some (.err .notFound) := by
  refine ⟨?_, by decide +kernel⟩
  intro op hop
  simp only [List.mem_cons, List.not_mem_nil, or_false] at hop
  rcases hop with rfl | rfl <;> exact trivial
end Witnesses

end Tinymist.Watch
