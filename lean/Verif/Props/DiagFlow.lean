import Verif.Spec.DiagFlow
import Verif.Lemmas.EditorDiag
import Verif.Props.EditorDiag

/-!
# The diagnostics shown are those of the latest compilation (C60)
-/

namespace Tinymist.DiagFlow

open Tinymist.EditorDiag

variable {D : Type}

/-- The revision last notified for a project never exceeds the revisions
compiled. -/
theorem notified_lt (ops : List (Op D)) (p : Proj) (r : Nat) (hr : 0 < r)
    (h : ∀ b, Op.compiled b ∈ ops → b.id = p → b.rev < r) : (run (init D) ops).notified p < r := by
  suffices ∀ s : State D, s.notified p < r → (run s ops).notified p < r from this _ hr
  induction ops with
  | nil => exact fun _ h => h
  | cons op ops ih =>
    intro s hs
    refine ih (fun b hb => h b (List.mem_cons_of_mem _ hb)) _ ?_
    cases op with
    | compiled b =>
      have hb := h b List.mem_cons_self
      simp only [step, notifyCompile]
      split
      · exact hs
      · have : (notifyDiagnostics { s with notified := fun q => if q = b.id then b.rev else s.notified q }
            b).notified = fun q => if q = b.id then b.rev else s.notified q := by
          unfold notifyDiagnostics; split <;> (try split) <;> rfl
        rw [this]
        show (if p = b.id then b.rev else s.notified p) < r
        split
        · rename_i e; exact hb e.symm
        · exact hs
    | removed q =>
      show (if p = q then 0 else s.notified p) < r
      split
      · exact hr
      · exact hs
    | lintDone i =>
      simp only [step, lintDone]
      split <;> exact hs

theorem filter_eraseIdx_ne {α} (l : List α) (i : Nat) (q : α → Bool) (x : α) (h : l[i]? = some x)
    (hx : q x = false) : (l.eraseIdx i).filter q = l.filter q := by
  induction l generalizing i with
  | nil => rfl
  | cons a l ih =>
    cases i with
    | zero => simp at h; subst h; simp [hx]
    | succ i =>
      simp at h
      simp only [List.eraseIdx_cons_succ, List.filter_cons]
      split <;> rw [ih i h]

theorem filter_eraseIdx_single {α} (l : List α) (i : Nat) (q : α → Bool) (x y : α) (h : l[i]? = some x)
    (hx : q x = true) (hl : l.filter q = [y]) : x = y ∧ (l.eraseIdx i).filter q = [] := by
  induction l generalizing i with
  | nil => simp at h
  | cons a l ih =>
    cases i with
    | zero =>
      simp at h; subst h
      simp [List.filter_cons, hx] at hl
      exact ⟨hl.1, by simpa using hl.2⟩
    | succ i =>
      simp at h
      simp only [List.eraseIdx_cons_succ, List.filter_cons] at hl ⊢
      split at hl
      · have : l.filter q = [] := by simpa using (List.cons.inj hl).2
        have hm : x ∈ l.filter q := List.mem_filter.mpr ⟨List.mem_of_getElem? h, hx⟩
        rw [this] at hm; cases hm
      · rename_i ha
        have := ih i h hl
        refine ⟨this.1, ?_⟩
        simp [ha, this.2]

/-- After the compilation `a` was reported and nothing newer happened to its project. -/
structure Tail (s : State D) (a : Art D) : Prop where
  notified : a.rev ≤ s.notified a.id
  state : (s.pool.filter (fun e => decide (e.1 = a.id)) = [] ∧ told s a.id = verdict a) ∨
    (s.pool.filter (fun e => decide (e.1 = a.id)) = [(a.id, a.linted)] ∧ verdict a = some a.linted)

theorem tail_step {s : State D} {a : Art D} (h : Tail s a) (op : Op D)
    (hc : ∀ b, op = .compiled b → b.id = a.id → b.rev ≤ a.rev) (hr : op ≠ .removed a.id) :
    Tail (step s op) a := by
  cases op with
  | compiled b =>
    by_cases hb : b.id = a.id
    · have : step s (.compiled b) = s := by
        simp only [step, notifyCompile]
        rw [if_pos]
        have := hc b rfl hb
        have := h.notified
        rw [hb]; omega
      rw [this]; exact h
    · have hb' : ¬ (a.id = b.id) := fun e => hb e.symm
      simp only [step, notifyCompile]
      split
      · exact h
      · unfold notifyDiagnostics
        split
        · refine ⟨by simp [hb', h.notified], ?_⟩
          simpa [told, lastReport_append, hb'] using h.state
        · split
          · refine ⟨by simp [hb', h.notified], ?_⟩
            simpa [told, List.filter_append, List.filter_cons, hb] using h.state
          · refine ⟨by simp [hb', h.notified], ?_⟩
            simpa [told, lastReport_append, hb'] using h.state
  | removed q =>
    have hq : ¬ (a.id = q) := fun e => hr (by rw [e])
    refine ⟨by simp [step, notifyRemoved, hq, h.notified], ?_⟩
    simpa [step, notifyRemoved, told, lastReport_append, hq] using h.state
  | lintDone i =>
    simp only [step, lintDone]
    split
    · rename_i q d hi
      refine ⟨h.notified, ?_⟩
      by_cases hq : q = a.id
      · subst hq
        rcases h.state with ⟨h1, h2⟩ | ⟨h1, h2⟩
        · have : (a.id, d) ∈ s.pool.filter (fun e => decide (e.1 = a.id)) :=
            List.mem_filter.mpr ⟨List.mem_of_getElem? hi, by simp⟩
          rw [h1] at this; cases this
        · have := filter_eraseIdx_single s.pool i (fun e => decide (e.1 = a.id)) _ _ hi (by simp) h1
          injection this.1 with _ hd
          refine .inl ⟨this.2, ?_⟩
          show Spec.lastReport (s.chan ++ [(a.id, some d)]) a.id = _
          rw [lastReport_append, if_pos rfl, h2, hd]
      · have e := filter_eraseIdx_ne s.pool i (fun e => decide (e.1 = a.id)) _ hi (by simp [hq])
        have hq' : ¬ (a.id = q) := fun e => hq e.symm
        rw [e]
        simpa [told, lastReport_append, hq'] using h.state
    · exact h

theorem tail_run (ops : List (Op D)) : ∀ (s : State D) (a : Art D), Tail s a →
    (∀ b, Op.compiled b ∈ ops → b.id = a.id → b.rev ≤ a.rev) → Op.removed a.id ∉ ops →
    Tail (run s ops) a := by
  induction ops with
  | nil => exact fun _ _ h _ _ => h
  | cons op ops ih =>
    intro s a h hc hr
    refine ih _ a (tail_step h op (fun b e => hc b (e ▸ List.mem_cons_self))
      (fun e => hr (e ▸ List.mem_cons_self))) (fun b hb => hc b (List.mem_cons_of_mem _ hb))
      (fun h => hr (List.mem_cons_of_mem _ h))

/-- **C60, partial.** Let `a` be the newest compilation of its project, reported when no lint of the
project was running. Once no lint of the project runs, the editor has been told exactly what `a`
calls for, whatever other projects do and however the pool schedules their lints. Missing: a lint of an older compilation still running,
see `stale_lint_shown` and `closed_project_shown`. -/
theorem latest_told_partial (before after : List (Op D)) (a : Art D) (hrev : 0 < a.rev)
    (hbefore : ∀ b, Op.compiled b ∈ before → b.id = a.id → b.rev < a.rev)
    (hafter : ∀ b, Op.compiled b ∈ after → b.id = a.id → b.rev ≤ a.rev)
    (hopen : Op.removed a.id ∉ after)
    (hstart : ¬ Linting (run (init D) before) a.id)
    (hend : ¬ Linting (run (init D) (before ++ .compiled a :: after)) a.id) :
    told (run (init D) (before ++ .compiled a :: after)) a.id = verdict a := by
  have hn := notified_lt before a.id a.rev hrev hbefore
  have e : run (init D) (before ++ .compiled a :: after) =
      run (notifyCompile (run (init D) before) a) after := by
    rw [run, List.foldl_append]; rfl
  have h0 : (run (init D) before).pool.filter (fun e => decide (e.1 = a.id)) = [] := by
    rw [List.filter_eq_nil_iff]
    intro x hx; simpa using fun e => hstart ⟨x, hx, e⟩
  have ht : Tail (notifyCompile (run (init D) before) a) a := by
    unfold notifyCompile
    rw [if_neg (by omega)]
    unfold notifyDiagnostics
    split
    · rename_i hi
      refine ⟨by simp, .inl ⟨h0, ?_⟩⟩
      simp [told, lastReport_append, verdict, hi]
    · rename_i hi
      split
      · rename_i hl
        refine ⟨by simp, .inr ⟨?_, by simp [verdict, hi, hl]⟩⟩
        simp [List.filter_append, h0]
      · rename_i hl
        refine ⟨by simp, .inl ⟨h0, ?_⟩⟩
        simp [told, lastReport_append, verdict, hi, hl]
  have := tail_run after _ a ht hafter hopen
  rw [e] at hend ⊢
  rcases this.state with ⟨_, h⟩ | ⟨h, _⟩
  · exact h
  · exfalso
    apply hend
    have hm : (a.id, a.linted) ∈ (run (notifyCompile (run (init D) before) a) after).pool := by
      have : (a.id, a.linted) ∈ (run (notifyCompile (run (init D) before) a) after).pool.filter
        (fun e => decide (e.1 = a.id)) := by rw [h]; simp
      exact (List.mem_filter.mp this).1
    exact ⟨_, hm, rfl⟩

/-- **C60, partial.** With linting off the promise needs no assumption about running lints. -/
theorem latest_told_nolint_partial (before after : List (Op D)) (a : Art D) (hrev : 0 < a.rev)
    (hoff : ∀ b, Op.compiled b ∈ before ++ .compiled a :: after → b.lint = false)
    (hbefore : ∀ b, Op.compiled b ∈ before → b.id = a.id → b.rev < a.rev)
    (hafter : ∀ b, Op.compiled b ∈ after → b.id = a.id → b.rev ≤ a.rev)
    (hopen : Op.removed a.id ∉ after) :
    told (run (init D) (before ++ .compiled a :: after)) a.id = verdict a := by
  have key : ∀ ops : List (Op D), (∀ b, Op.compiled b ∈ ops → b.lint = false) →
      ∀ s : State D, s.pool = [] → (run s ops).pool = [] := by
    intro ops
    induction ops with
    | nil => exact fun _ _ h => h
    | cons op ops ih =>
      intro h s hs
      refine ih (fun b hb => h b (List.mem_cons_of_mem _ hb)) _ ?_
      cases op with
      | compiled b =>
        have hb := h b List.mem_cons_self
        simp only [step, notifyCompile, notifyDiagnostics, hb]
        split
        · exact hs
        · split <;> simp [hs]
      | removed q => exact hs
      | lintDone i => simp [step, lintDone, hs]
  refine latest_told_partial before after a hrev hbefore hafter hopen ?_ ?_
  · rintro ⟨x, hx, _⟩
    rw [key before (fun b hb => hoff b (by simp [hb])) _ rfl] at hx; cases hx
  · rintro ⟨x, hx, _⟩
    rw [key _ hoff _ rfl] at hx; cases hx

/-- **C60, partial.** After a project is closed while none of its lints runs, nothing of it is shown until it
compiles again. -/
theorem closed_told_partial (before after : List (Op D)) (p : Proj)
    (hafter : ∀ b, Op.compiled b ∈ after → b.id ≠ p)
    (hstart : ¬ Linting (run (init D) before) p) :
    told (run (init D) (before ++ .removed p :: after)) p = none := by
  have e : run (init D) (before ++ .removed p :: after) =
      run (notifyRemoved (run (init D) before) p) after := by
    rw [run, List.foldl_append]; rfl
  rw [e]
  have key : ∀ ops : List (Op D), (∀ b, Op.compiled b ∈ ops → b.id ≠ p) →
      ∀ s : State D, ¬ Linting s p → told s p = none → told (run s ops) p = none := by
    intro ops
    induction ops with
    | nil => exact fun _ _ _ h => h
    | cons op ops ih =>
      intro h s hl hs
      have hx : ∀ x ∈ s.pool, x.1 ≠ p := fun x hx e => hl ⟨x, hx, e⟩
      have both : ¬ Linting (step s op) p ∧ told (step s op) p = none := by
        cases op with
        | compiled b =>
          have hb := h b List.mem_cons_self
          have hb' : ¬ (p = b.id) := fun e => hb e.symm
          simp only [step, notifyCompile, notifyDiagnostics]
          split
          · exact ⟨hl, hs⟩
          · split
            · exact ⟨hl, by simpa [told, lastReport_append, hb'] using hs⟩
            · split
              · refine ⟨?_, hs⟩
                rintro ⟨x, hx', e⟩
                simp at hx'
                rcases hx' with h | h
                · exact hx x h e
                · subst h; exact hb e
              · exact ⟨hl, by simpa [told, lastReport_append, hb'] using hs⟩
        | removed q =>
          refine ⟨hl, ?_⟩
          simp only [step, notifyRemoved, told, lastReport_append]
          split
          · rfl
          · exact hs
        | lintDone i =>
          simp only [step, lintDone]
          split
          · rename_i q d hi
            have hq : ¬ (p = q) := fun e => hx _ (List.mem_of_getElem? hi) e.symm
            refine ⟨?_, by simpa [told, lastReport_append, hq] using hs⟩
            rintro ⟨x, hx', e⟩
            exact hx x (List.mem_of_mem_eraseIdx hx') e
          · exact ⟨hl, hs⟩
      exact ih (fun b hb => h b (List.mem_cons_of_mem _ hb)) _ both.1 both.2
  refine key after hafter _ hstart ?_
  simp [notifyRemoved, told, lastReport_append]

def art (rev : Nat) (lint : Bool) (d : String) : Art String :=
  ⟨"primary", rev, false, lint, [("main.typ", [d])], [("main.typ", [d, d ++ " lint"])]⟩

/-- **C60 fails while an older lint runs.** Revision 1 is saved and linted; revision 2 is typed and not
linted; the lint of revision 1 ends last. The editor is left showing the diagnostics of revision 1, and
no message is outstanding. -/
theorem stale_lint_shown :
    let s := run (init String) [.compiled (art 1 true "old"), .compiled (art 2 false "new"), .lintDone 0]
    s.pool = [] ∧ s.notified "primary" = 2 ∧
      Spec.shown (EditorDiag.run (EditorDiag.init String) s.chan).sent "main.typ" = ["old", "old lint"] := by
  decide

/-- **C60 fails for closed projects.** The lint ends after the project was closed: its diagnostics are shown
for a project that is gone. -/
theorem closed_project_shown :
    let s := run (init String) [.compiled (art 1 true "old"), .removed "primary", .lintDone 0]
    s.pool = [] ∧
      Spec.shown (EditorDiag.run (EditorDiag.init String) s.chan).sent "main.typ" = ["old", "old lint"] := by
  decide

/-- A history meeting the hypotheses of `latest_told_partial`. -/
example :
    let before : List (Op String) := [.compiled (art 1 true "a"), .lintDone 0]
    ¬ Linting (run (init String) before) "primary" ∧
      told (run (init String) (before ++ .compiled (art 2 true "b") :: [.lintDone 0])) "primary" =
        some [("main.typ", ["b", "b lint"])] := by
  refine ⟨?_, by decide⟩
  rintro ⟨x, hx, _⟩
  have e : (run (init String) [.compiled (art 1 true "a"), .lintDone 0]).pool = [] := by decide
  rw [e] at hx; cases hx

end Tinymist.DiagFlow
