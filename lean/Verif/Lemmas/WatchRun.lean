import Verif.Lemmas.Watch
import Verif.Lemmas.Util
/-! Whole histories of the watcher. -/
namespace Tinymist.Watch
variable {Path : Type} [DecidableEq Path]

theorem run_append (s : Actor Path) (a b : List (Op Path)) :
    run s (a ++ b) = ((run (run s a).1 b).1, (run s a).2 ++ (run (run s a).1 b).2) := by
  induction a generalizing s with
  | nil => rfl
  | cons o a ih => simp only [List.cons_append, run, ih]

theorem run_snoc (s : Actor Path) (a : List (Op Path)) (o : Op Path) :
    run s (a ++ [o]) = ((step (run s a).1 o).1, (run s a).2 ++ [(step (run s a).1 o).2]) := by
  rw [run_append]; rfl

theorem lastReport_snoc (cs : List (Change Path)) (c : Change Path) (p : Path) :
    lastReport (cs ++ [c]) p = c.tell (lastReport cs p) p := by
  unfold lastReport; rw [List.foldl_append]; rfl

theorem lastFound_snoc (ops : List (Op Path)) (op : Op Path) (p : Path) :
    lastFound (ops ++ [op]) p = (op.finds p).or (lastFound ops p) := by
  unfold lastFound; rw [List.foldl_append]; rfl

theorem lastDeps_snoc (ops : List (Op Path)) (op : Op Path) :
    lastDeps (ops ++ [op]) = match op with | .sync ds => ds | _ => lastDeps ops := by
  unfold lastDeps; rw [List.foldl_append]; cases op <;> rfl

/-- What holds after every history. -/
structure Full (s : Actor Path) (cs : List (Change Path)) (ops : List (Op Path)) : Prop where
  inv : Inv s (lastReport cs) (lastFound ops)
  has : ∀ d ∈ lastDeps ops, (s.entries d.path).isSome = true
  sub : s.hasWatcher = true → ∀ q, s.osWatched q = true → ∃ d ∈ lastDeps ops, d.path = q

theorem full_run (w : Bool) (ops : List (Op Path)) (hp : ∀ op ∈ ops, op.Possible w) :
    Full (run (init w) ops).1 (run (init w) ops).2 ops ∧ (run (init w) ops).1.hasWatcher = w := by
  induction ops using Util.reverseInd with
  | nil =>
    refine ⟨⟨⟨fun p e h => (by cases h), fun p => ?_, fun _ _ => rfl⟩, fun d hd => (by cases hd), fun _ q hq => (by cases hq)⟩,
      rfl⟩
    constructor
    · intro h; cases h
    · rintro ⟨e, h, -⟩; cases h
  | append_singleton ops op ih =>
    obtain ⟨h, hw⟩ := ih (fun o ho => hp o (List.mem_append_left _ ho))
    have hpo := hp op (by simp)
    rw [run_snoc]
    generalize (run (init w) ops).1 = s at *
    generalize (run (init w) ops).2 = cs at *
    have h0 : Inv { s with tick := s.tick + 1 } (lastReport cs) (lastFound ops) := ⟨h.inv.good, h.inv.os, h.inv.noOs⟩
    have e1 : ∀ c : Change Path, lastReport (cs ++ [c]) = fun q => c.tell (lastReport cs q) q :=
      fun c => funext fun q => lastReport_snoc cs c q
    have e2 : ∀ o, lastFound (ops ++ [o]) = fun q => (o.finds q).or (lastFound ops q) :=
      fun o => funext fun q => lastFound_snoc ops o q
    cases op with
    | sync ds =>
      obtain ⟨a, b, c, -, e⟩ := update_inv h0 ds
      refine ⟨⟨?_, ?_, ?_⟩, e.trans hw⟩
      · rw [e1, e2]; exact a
      · rw [lastDeps_snoc]
        intro d hd
        obtain ⟨x, hx⟩ := b d hd
        exact Option.isSome_iff_exists.mpr ⟨x, hx⟩
      · rw [lastDeps_snoc]; exact c
    | event ps removal =>
      have hww : s.hasWatcher = true := hw.trans hpo
      have hst : step s (.event ps removal) = notifyEvent { s with tick := s.tick + 1 } ps removal := by
        simp only [step, hww, if_true]
      rw [hst]
      obtain ⟨a, b, c, d⟩ := event_inv (s := { s with tick := s.tick + 1 }) hww h0 ps removal
      refine ⟨⟨?_, ?_, ?_⟩, b.trans hw⟩
      · rw [e1, e2]; exact a
      · rw [lastDeps_snoc]
        intro x hx
        rw [c]; exact h.has x hx
      · rw [lastDeps_snoc]
        intro _ q hq
        exact h.sub hww q (d q hq)
    | recheck i early =>
      obtain ⟨a, b, c, d⟩ := recheck_inv h0 i early
      refine ⟨⟨?_, ?_, ?_⟩, b.trans hw⟩
      · rw [e1, e2]
        have : (fun q => ((Op.recheck i early : Op Path).finds q).or (lastFound ops q)) = lastFound ops := by
          funext q; rfl
        rw [this]
        exact a
      · rw [lastDeps_snoc]
        intro x hx
        rw [show (step s (.recheck i early)).1 = (recheck { s with tick := s.tick + 1 } i early).1 from rfl, c]
        exact h.has x hx
      · rw [lastDeps_snoc]
        intro hww q hq
        rw [show (step s (.recheck i early)).1 = (recheck { s with tick := s.tick + 1 } i early).1 from rfl, d] at hq
        exact h.sub (b.symm.trans hww) q hq

end Tinymist.Watch
