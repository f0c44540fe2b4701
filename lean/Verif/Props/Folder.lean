import Verif.Spec.Folder

/-!
# Background jobs: one at a time, newest wins (C32, C59)
-/

namespace Tinymist.Folder

theorem inFlight_submitted (l : List Ev) (j : Job) :
    inFlight (l ++ [.submitted j]) = inFlight l := by
  simp [inFlight, executing]

theorem inFlight_started (l : List Ev) (j : Job) :
    inFlight (l ++ [.started j]) = j :: inFlight l := by
  simp [inFlight, executing]

theorem inFlight_finished (l : List Ev) (j : Job) :
    inFlight (l ++ [.finished j]) = (inFlight l).erase j := by
  simp [inFlight, executing]

/-- The newest-wins promise at a point of the history: whoever was submitted is
covered by a job at least as new, submitted itself, that started afterwards or is still
waiting. -/
def Covered (log : List Ev) (task : Option Job) : Prop :=
  ∀ l₁ x l₂, log = l₁ ++ Ev.submitted x :: l₂ →
    ∃ y, x.rev ≤ y.rev ∧ Ev.submitted y ∈ log ∧ (Ev.started y ∈ l₂ ∨ task = some y)

structure Inv (s : State) : Prop where
  driver : (s.running = true ∧ (s.drivers = [] ∨ ∃ d, s.drivers = [d])) ∨
    (s.running = false ∧ s.drivers = [] ∧ s.task = none)
  flight : inFlight s.log = s.drivers.filterMap id
  covered : Covered s.log s.task
  pending : ∀ j, s.task = some j → Ev.submitted j ∈ s.log
  counts : ∀ j, s.log.count (.started j) + (if s.task = some j then 1 else 0)
    ≤ s.log.count (.submitted j)

theorem append_split {α} {l l₁ l₂ : List α} {a b : α} (h : l ++ [b] = l₁ ++ a :: l₂) :
    (l₂ = [] ∧ l = l₁ ∧ b = a) ∨ ∃ l₂', l₂ = l₂' ++ [b] ∧ l = l₁ ++ a :: l₂' := by
  rcases List.eq_nil_or_concat l₂ with rfl | ⟨l₂', c, rfl⟩
  · have := List.append_inj' h (by simp)
    left; simp_all
  · rw [List.concat_eq_append] at h ⊢
    have h' : l ++ [b] = (l₁ ++ a :: l₂') ++ [c] := by simpa using h
    have := List.append_inj' h' (by simp)
    right; exact ⟨l₂', by simp_all, this.1⟩

theorem covered_submit {log : List Ev} {t t' : Option Job} {j : Job}
    (hc : Covered log t) (hp : ∀ p, t = some p → ∃ q, t' = some q ∧ p.rev ≤ q.rev ∧
      Ev.submitted q ∈ log ++ [.submitted j])
    (hj : ∃ q, t' = some q ∧ j.rev ≤ q.rev ∧ Ev.submitted q ∈ log ++ [.submitted j]) :
    Covered (log ++ [.submitted j]) t' := by
  intro l₁ x l₂ h
  rcases append_split h with ⟨rfl, rfl, hx⟩ | ⟨l₂', rfl, rfl⟩
  · injection hx with hx; subst hx
    obtain ⟨q, ht, hr, hm⟩ := hj
    exact ⟨q, hr, hm, .inr ht⟩
  · obtain ⟨y, hr, hm, hy⟩ := hc l₁ x l₂' rfl
    rcases hy with hy | hy
    · exact ⟨y, hr, by simp at hm ⊢; grind, .inl (by simp [hy])⟩
    · obtain ⟨q, ht, hq, hqm⟩ := hp y hy
      exact ⟨q, Nat.le_trans hr hq, hqm, .inr ht⟩

theorem inv_submit {s : State} (h : Inv s) (j : Job) : Inv (submit s j) := by
  obtain ⟨hd, hf, hc, hp, hn⟩ := h
  unfold submit
  split
  · rename_i p ht
    split
    · rename_i hlt
      refine ⟨?_, ?_, ?_, ?_, ?_⟩
      · rcases hd with h | h
        · exact .inl h
        · simp [h.2.2] at ht
      · rw [inFlight_submitted]; exact hf
      · apply covered_submit hc
        · intro p' hp'; rw [ht] at hp'; injection hp' with e; subst e
          exact ⟨j, rfl, by omega, by simp⟩
        · exact ⟨j, rfl, by omega, by simp⟩
      · intro j' e; injection e with e; subst e; simp
      · intro j'
        have := hn j'
        simp only [List.count_append, List.count_singleton]
        by_cases e : j = j'
        · subst e; simp; split at this <;> omega
        · have e' : ¬ (Ev.submitted j = Ev.submitted j') := by simpa using e
          simp [e]; split at this <;> omega
    · rename_i hlt
      refine ⟨?_, ?_, ?_, ?_, ?_⟩
      · rcases hd with h | h
        · exact .inl h
        · simp [h.2.2] at ht
      · rw [inFlight_submitted]; exact hf
      · apply covered_submit hc
        · intro p' hp'
          exact ⟨p', hp', by omega, by simp [hp p' hp']⟩
        · exact ⟨p, ht, by omega, by simp [hp p ht]⟩
      · intro j' e; simp [hp j' e]
      · intro j'
        have := hn j'
        simp only [List.count_append, List.count_singleton]
        show _ ≤ _
        have e0 : (Ev.submitted j == Ev.started j') = false := by simp
        rw [e0]
        simp only [Bool.false_eq_true, if_false]
        omega
  · rename_i ht
    have ht' : ∀ p, s.task = some p → False := by intro p h; simp [h] at ht
    have ht0 : s.task = none := by cases hs : s.task with
      | none => rfl
      | some p => exact (ht' p hs).elim
    have hcnt : ∀ j', List.count (Ev.started j') (s.log ++ [.submitted j]) +
        (if some j = some j' then 1 else 0) ≤ List.count (Ev.submitted j') (s.log ++ [.submitted j]) := by
      intro j'
      have := hn j'
      rw [ht0] at this
      simp only [List.count_append, List.count_singleton]
      by_cases e : j = j'
      · subst e; simp at this ⊢; omega
      · simp [e] at this ⊢; omega
    split
    · rename_i hr
      refine ⟨?_, ?_, ?_, ?_, hcnt⟩
      · rcases hd with h | h
        · exact .inl h
        · simp [h.1] at hr
      · rw [inFlight_submitted]; exact hf
      · apply covered_submit hc
        · intro p h; exact (ht' p h).elim
        · exact ⟨j, rfl, by omega, by simp⟩
      · intro j' e; injection e with e; subst e; simp
    · rename_i hr
      have hd' : s.drivers = [] := by
        rcases hd with h | h
        · simp [h.1] at hr
        · exact h.2.1
      refine ⟨?_, ?_, ?_, ?_, hcnt⟩
      · exact .inl ⟨rfl, .inr ⟨none, by simp [hd']⟩⟩
      · show inFlight (s.log ++ [.submitted j]) = (s.drivers ++ [none]).filterMap id
        rw [inFlight_submitted, hf, hd']; rfl
      · apply covered_submit hc
        · intro p h; exact (ht' p h).elim
        · exact ⟨j, rfl, by omega, by simp⟩
      · intro j' e; injection e with e; subst e; simp

theorem inv_drive {s : State} (h : Inv s) (i : Nat) : Inv (drive s i) := by
  unfold drive
  split
  · exact h
  · rename_i j hi
    obtain ⟨hd, hf, hc, hp, hn⟩ := h
    have ⟨hr, d, hds⟩ : s.running = true ∧ ∃ d, s.drivers = [d] := by
      rcases hd with ⟨h, h' | h'⟩ | h
      · simp [h'] at hi
      · exact ⟨h, h'⟩
      · simp [h.2.1] at hi
    rw [hds] at hi hf
    have hi0 : i = 0 := by
      cases i with
      | zero => rfl
      | succ n => simp at hi
    subst hi0
    simp at hi; subst hi
    refine ⟨.inl ⟨hr, .inr ⟨none, by simp [hds]⟩⟩, ?_, ?_, ?_, ?_⟩
    · show inFlight (s.log ++ [.finished j]) = (s.drivers.set 0 none).filterMap id
      rw [inFlight_finished, hf, hds]; simp
    · intro l₁ x l₂ e
      rcases append_split e with ⟨_, _, e'⟩ | ⟨l₂', rfl, e'⟩
      · cases e'
      · obtain ⟨y, hr, hm, hy⟩ := hc l₁ x l₂' e'
        exact ⟨y, hr, by simp [hm], by rcases hy with h | h <;> simp [h]⟩
    · intro j' e; simp [hp j' e]
    · intro j'
      have := hn j'
      simp only [List.count_append, List.count_singleton]
      have e0 : (Ev.finished j == Ev.started j') = false := by simp
      have e1 : (Ev.finished j == Ev.submitted j') = false := by simp
      rw [e0, e1]
      simpa using this
  · rename_i hi
    obtain ⟨hd, hf, hc, hp, hn⟩ := h
    have ⟨hr, d, hds⟩ : s.running = true ∧ ∃ d, s.drivers = [d] := by
      rcases hd with ⟨h, h' | h'⟩ | h
      · simp [h'] at hi
      · exact ⟨h, h'⟩
      · simp [h.2.1] at hi
    rw [hds] at hi hf
    have hi0 : i = 0 := by
      cases i with
      | zero => rfl
      | succ n => simp at hi
    subst hi0
    simp at hi; subst hi
    split
    · rename_i ht
      exact ⟨.inr ⟨rfl, by simp [hds], ht⟩, by simpa [hds] using hf, hc, hp, hn⟩
    · rename_i j ht
      refine ⟨.inl ⟨hr, .inr ⟨some j, by simp [hds]⟩⟩, ?_, ?_, by simp, ?_⟩
      · show inFlight (s.log ++ [.started j]) = (s.drivers.set 0 (some j)).filterMap id
        rw [inFlight_started, hf, hds]; simp
      · intro l₁ x l₂ e
        rcases append_split e with ⟨_, _, e'⟩ | ⟨l₂', rfl, e'⟩
        · cases e'
        · obtain ⟨y, hr, hm, hy⟩ := hc l₁ x l₂' e'
          refine ⟨y, hr, by simp [hm], .inl ?_⟩
          rcases hy with h | h
          · simp [h]
          · rw [ht] at h; injection h with h; subst h; simp
      · intro j'
        have := hn j'
        rw [ht] at this
        simp only [List.count_append, List.count_singleton]
        by_cases e : j = j'
        · subst e; simp at this ⊢; omega
        · simp [e] at this ⊢; omega

theorem inv_crash {s : State} (h : Inv s) (i : Nat) : Inv (crash s i) := by
  unfold crash
  split
  · rename_i j hi
    obtain ⟨hd, hf, hc, hp, hn⟩ := h
    have ⟨hr, d, hds⟩ : s.running = true ∧ ∃ d, s.drivers = [d] := by
      rcases hd with ⟨h, h' | h'⟩ | h
      · simp [h'] at hi
      · exact ⟨h, h'⟩
      · simp [h.2.1] at hi
    rw [hds] at hi hf
    have hi0 : i = 0 := by
      cases i with
      | zero => rfl
      | succ n => simp at hi
    subst hi0
    simp at hi; subst hi
    refine ⟨.inl ⟨hr, .inl (by simp [hds])⟩, ?_, ?_, ?_, ?_⟩
    · show inFlight (s.log ++ [.finished j]) = (s.drivers.eraseIdx 0).filterMap id
      rw [inFlight_finished, hf, hds]; simp
    · intro l₁ x l₂ e
      rcases append_split e with ⟨_, _, e'⟩ | ⟨l₂', rfl, e'⟩
      · cases e'
      · obtain ⟨y, hr, hm, hy⟩ := hc l₁ x l₂' e'
        exact ⟨y, hr, by simp [hm], by rcases hy with h | h <;> simp [h]⟩
    · intro j' e; simp [hp j' e]
    · intro j'
      have := hn j'
      simp only [List.count_append, List.count_singleton]
      have e0 : (Ev.finished j == Ev.started j') = false := by simp
      have e1 : (Ev.finished j == Ev.submitted j') = false := by simp
      rw [e0, e1]
      simpa using this
  · exact h

theorem inv_run (ops : List Op) : ∀ s, Inv s → Inv (run s ops) := by
  induction ops with
  | nil => exact fun _ h => h
  | cons op ops ih =>
    intro s h
    refine ih _ ?_
    cases op with
    | submit j => exact inv_submit h j
    | step i => exact inv_drive h i
    | panic i => exact inv_crash h i

theorem inv_init : Inv init :=
  ⟨.inr ⟨rfl, rfl, rfl⟩, rfl, fun l₁ x l₂ h => by simp [init] at h, fun j h => by simp [init] at h,
    fun j => by simp [init]⟩

theorem reachable (ops : List Op) : Inv (run init ops) := inv_run ops _ inv_init

/-- Without panics a waiting job has a driver. -/
theorem driven (ops : List Op) (h : Calm ops) :
    (run init ops).running = true → (run init ops).drivers ≠ [] := by
  suffices ∀ s, Inv s → (s.running = true → s.drivers ≠ []) →
      ((run s ops).running = true → (run s ops).drivers ≠ []) from
    this init inv_init (by simp [init])
  induction ops with
  | nil => exact fun _ _ h => h
  | cons op ops ih =>
    intro s hi hs
    refine ih (fun i hi => h i (List.mem_cons_of_mem _ hi)) _ (inv_run [op] s hi) ?_
    cases op with
    | submit j =>
      simp only [step, submit]
      split <;> split <;> simp_all
    | step i =>
      simp only [step, drive]
      split
      · exact hs
      · simpa using hs
      · split
        · simp
        · simpa using hs
    | panic i => exact absurd List.mem_cons_self (h i)

/-- **C32, one at a time.** At no point of any schedule are two jobs in flight: among
the jobs observed to start, at most one has not been observed to finish. -/
theorem one_at_a_time (ops : List Op) :
    (inFlight (run init ops).log).length ≤ 1 := by
  have hi := reachable ops
  rw [hi.flight]
  rcases hi.driver with ⟨_, hd | ⟨d, hd⟩⟩ | ⟨_, hd, _⟩
  · simp [hd]
  · rw [hd]; cases d <;> simp
  · simp [hd]

/-- **C32, newest wins.** In any schedule, whatever has been submitted is covered by a submission with an
equal or newer revision that started after it or is still waiting to start. -/
theorem newest_wins (ops : List Op) (l₁ l₂ : List Ev) (x : Job)
    (hl : (run init ops).log = l₁ ++ Ev.submitted x :: l₂) :
    ∃ y, x.rev ≤ y.rev ∧ Ev.submitted y ∈ (run init ops).log ∧
      (Ev.started y ∈ l₂ ∨ (run init ops).task = some y) :=
  (reachable ops).covered l₁ x l₂ hl

/-- **C32, first of equals.** A waiting job is not replaced by one that is not newer, and is replaced by one that is. -/
theorem waiting_replaced_iff (ops : List Op) (p j : Job) (h : (run init ops).task = some p) :
    (run init (ops ++ [.submit j])).task = some (if p.rev < j.rev then j else p) := by
  have e : run init (ops ++ [.submit j]) = submit (run init ops) j := by simp [run, List.foldl_append, step]
  rw [e, submit, h]
  simp only
  split <;> simp [h]

/-- **C32, nothing is run twice or made up.** A job starts at most as often as it was
submitted. -/
theorem starts_le_submissions (ops : List Op) (j : Job) :
    (run init ops).log.count (.started j) ≤ (run init ops).log.count (.submitted j) := by
  have := (reachable ops).counts j
  omega

/-- **C32, the queue drains.** If no job panics and no more jobs are submitted, then once the driver
has been polled four times, nothing is waiting and nothing is in flight, whatever happened before. -/
theorem drains (ops : List Op) (h : Calm ops) :
    let s := run init (ops ++ [.step 0, .step 0, .step 0, .step 0])
    s.task = none ∧ s.running = false ∧ inFlight s.log = [] := by
  have hi := reachable ops
  have hc' : Calm (ops ++ [.step 0, .step 0, .step 0, .step 0]) := by
    intro i; simp [h i]
  have hi' := reachable (ops ++ [.step 0, .step 0, .step 0, .step 0])
  have hdr := driven ops h
  intro s
  have key : s.drivers = [] := by
    show (run init (ops ++ [.step 0, .step 0, .step 0, .step 0])).drivers = []
    rw [run, List.foldl_append]
    show (drive (drive (drive (drive (run init ops) 0) 0) 0) 0).drivers = []
    have hd := hi.driver
    generalize run init ops = s0 at hd hdr
    obtain ⟨r, t, ds, lg⟩ := s0
    rcases hd with ⟨hr, hd | ⟨d, hd⟩⟩ | ⟨_, hd, _⟩
    · exact absurd hd (hdr hr)
    · simp only at hd; subst hd
      cases d <;> cases t <;> simp [drive]
    · simp only at hd; subst hd; simp [drive]
  have hdr' := driven _ hc'
  rcases hi'.driver with ⟨hr, _⟩ | ⟨hr, _, ht⟩
  · exact absurd key (hdr' hr)
  · exact ⟨ht, hr, by rw [hi'.flight]; show s.drivers.filterMap id = []; rw [key]; rfl⟩

/-- **C32, after the queue drains the newest submitted revision has been run.** -/
theorem drained_newest_ran (ops : List Op)
    (hd : (run init ops).task = none) (l₁ l₂ : List Ev) (x : Job)
    (hl : (run init ops).log = l₁ ++ Ev.submitted x :: l₂)
    (hmax : ∀ y, Ev.submitted y ∈ (run init ops).log → y.rev ≤ x.rev) :
    ∃ y, y.rev = x.rev ∧ Ev.started y ∈ l₂ := by
  obtain ⟨y, hr, hm, hy⟩ := newest_wins ops l₁ l₂ x hl
  rw [hd] at hy
  rcases hy with hy | hy
  · exact ⟨y, Nat.le_antisymm (hmax y hm) hr, hy⟩
  · cases hy

/-- A schedule with replaced, refused and drained submissions. -/
def schedule : List Op :=
  [.submit ⟨0, 1⟩, .step 0, .submit ⟨0, 2⟩, .submit ⟨0, 4⟩, .submit ⟨0, 3⟩, .step 0, .step 0,
    .submit ⟨0, 5⟩, .step 0, .step 0, .step 0, .step 0]

theorem schedule_calm : Calm schedule := by intro i; simp [schedule]

theorem schedule_runs :
    (run init schedule).log.filter (fun e => match e with | .started _ => true | _ => false) =
      [.started ⟨0, 1⟩, .started ⟨0, 4⟩, .started ⟨0, 5⟩] ∧ (run init schedule).task = none := by
  decide

/-- Once a job has panicked nothing is ever run again: whatever is submitted, whatever is polled. -/
theorem stuck (s : State) (hr : s.running = true) (hd : s.drivers = []) (ops : List Op) (j : Job) :
    Ev.started j ∈ (run s ops).log → Ev.started j ∈ s.log := by
  induction ops generalizing s with
  | nil => exact id
  | cons op ops ih =>
    intro hm
    have hm := ih (step s op) (by
      cases op with
      | submit j => simp only [step, submit]; split <;> split <;> simp_all
      | step i => simp [step, drive, hd, hr]
      | panic i => simp [step, crash, hd, hr]) (by
      cases op with
      | submit j => simp only [step, submit]; split <;> split <;> simp_all
      | step i => simp [step, drive, hd]
      | panic i => simp [step, crash, hd]) hm
    cases op with
    | submit j' => simp only [step, submit] at hm; split at hm <;> split at hm <;> simp_all
    | step i => simpa [step, drive, hd] using hm
    | panic i => simpa [step, crash, hd] using hm

/-- **C32 fails after a panic.** A history in which the first job panics; then, however many jobs are
submitted and however often the executor polls, none of them starts. -/
theorem panic_blocks_forever (ops : List Op) (j : Job) (hj : j ≠ ⟨0, 1⟩) :
    Ev.started j ∉ (run init ([.submit ⟨0, 1⟩, .step 0, .panic 0] ++ ops)).log := by
  intro h
  rw [run, List.foldl_append] at h
  have := stuck _ (by decide) (by decide) ops j h
  have e : (List.foldl step init [.submit ⟨0, 1⟩, .step 0, .panic 0]).log =
    [.submitted ⟨0, 1⟩, .started ⟨0, 1⟩, .finished ⟨0, 1⟩] := by decide
  rw [e] at this
  simp at this
  exact hj this

/-- **C59, partial.** If all jobs are for one project, then after the queue has drained the last revision
submitted for the project has been run. Missing: several projects, see
`other_project_lost`. -/
theorem latest_of_project_ran_partial (ops : List Op) (p : Nat)
    (hone : ∀ y, Ev.submitted y ∈ (run init ops).log → y.proj = p)
    (hd : (run init ops).task = none) (l₁ l₂ : List Ev) (x : Job)
    (hl : (run init ops).log = l₁ ++ Ev.submitted x :: l₂)
    (hmax : ∀ y, Ev.submitted y ∈ (run init ops).log → y.proj = p → y.rev ≤ x.rev) :
    Ev.started x ∈ l₂ := by
  have hm' : ∀ y, Ev.submitted y ∈ (run init ops).log → y.rev ≤ x.rev :=
    fun y hy => hmax y hy (hone y hy)
  obtain ⟨y, hr, hm, hy⟩ := newest_wins ops l₁ l₂ x hl
  rw [hd] at hy
  have hxp : x.proj = p := hone x (by rw [hl]; simp)
  have : y = x := by
    cases x; cases y
    have h1 := hone _ hm
    have h2 := hm' _ hm
    simp_all
    omega
  subst this
  rcases hy with hy | hy
  · exact hy
  · cases hy

/-- The history of `other_project_lost`: project 0 is at revision 9 and its export is waiting; project 1 is
saved at its revision 3. -/
def twoProjects : List Op :=
  [.submit ⟨0, 8⟩, .step 0, .submit ⟨0, 9⟩, .submit ⟨1, 3⟩, .step 0, .step 0, .step 0, .step 0]

/-- **C59 fails with two projects.** The only export ever requested for project 1 is dropped: nothing is
waiting, nothing runs, and it never started. (All projects of the server share
one folder, `crates/tinymist/src/project.rs` 139-151, and count their revisions separately.) -/
theorem other_project_lost :
    Calm twoProjects ∧ Ev.submitted ⟨1, 3⟩ ∈ (run init twoProjects).log ∧
      (run init twoProjects).task = none ∧ (run init twoProjects).running = false ∧
      ∀ r, Ev.started ⟨1, r⟩ ∉ (run init twoProjects).log := by
  refine ⟨by intro i; simp [twoProjects], by decide, by decide, by decide, ?_⟩
  have e : (run init twoProjects).log = [.submitted ⟨0, 8⟩, .started ⟨0, 8⟩, .submitted ⟨0, 9⟩,
    .submitted ⟨1, 3⟩, .finished ⟨0, 8⟩, .started ⟨0, 9⟩, .finished ⟨0, 9⟩] := by decide
  intro r; rw [e]; simp

end Tinymist.Folder
