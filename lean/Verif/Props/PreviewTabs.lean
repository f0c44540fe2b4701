import Verif.Spec.PreviewTabs

/-!
# C61: a preview that is gone has let go of its project
-/

namespace Tinymist.PreviewTabs

/-- The invariant behind `Fits`. -/
structure Inv (s : State) : Prop where
  fits : Fits s
  tasks : ((alive s).map (·.task)).Nodup
  projects : ∀ t ∈ alive s, t.project = primary ∨ t.project = t.task
  names : ∀ t ∈ alive s, t.task ≠ primary

theorem inv_init : Inv init :=
  ⟨⟨(by simp [alive, init]), (by simp [Watches, init]), (by simp [Watches, init])⟩, (by simp [alive, init]),
    (by simp [alive, init]), (by simp [alive, init])⟩

theorem register_some {w w' : List (Name × Name)} {p k : Name} (h : register w p k = some w') :
    w' = w ++ [(p, k)] ∧ ∀ x ∈ w, x.1 ≠ p := by
  unfold register at h
  split at h
  · cases h
  · rename_i hn
    cases h
    refine ⟨rfl, fun x hx hp => hn ?_⟩
    rw [List.any_eq_true]
    exact ⟨x, hx, by simpa using hp⟩

theorem register_none {w : List (Name × Name)} {p k : Name} (h : register w p k = none) : ∃ x ∈ w, x.1 = p := by
  unfold register at h
  split at h
  · rename_i hn
    rw [List.any_eq_true] at hn
    obtain ⟨x, hx, hp⟩ := hn
    exact ⟨x, hx, by simpa using hp⟩
  · cases h

theorem inv_spawn (s : State) (a : Args) (p : Name) (w : List (Name × Name)) (h : Inv s)
    (hw : register s.watchers p a.task = some w) (hfresh : ∀ t ∈ alive s, t.task ≠ a.task)
    (hn : a.task ≠ primary) (hp : p = primary ∨ p = a.task) (hh : a.hostFails = false) :
    Inv (spawn { s with watchers := w } a p).1 := by
  obtain ⟨rfl, hno⟩ := register_some hw
  obtain ⟨⟨h1, h2, h3⟩, h4, h5, h6⟩ := h
  unfold spawn
  rw [if_neg (by simp [hh])]
  generalize hnew : (⟨a.task, p, decide (a.kind = .background)⟩ : Tab) = new
  have hal : alive { s with watchers := s.watchers ++ [(p, a.task)], starting := s.starting ++ [new] } =
      alive s ++ [new] := by simp [alive]
  have hnt : new.task = a.task := by rw [← hnew]
  have hnp : new.project = p := by rw [← hnew]
  refine ⟨⟨?_, ?_, ?_⟩, ?_, ?_, ?_⟩
  · show ∀ t ∈ alive _, _
    rw [hal]
    intro t ht
    rw [List.mem_append, List.mem_singleton] at ht
    rcases ht with ht | rfl
    · exact List.mem_append_left _ (h1 t ht)
    · rw [hnt, hnp]; simp [Watches]
  · intro q k hq
    rw [hal]
    simp only [Watches, List.mem_append, List.mem_singleton] at hq
    rcases hq with hq | hq
    · obtain ⟨t, ht, e⟩ := h2 q k hq
      exact ⟨t, List.mem_append_left _ ht, e⟩
    · cases hq
      exact ⟨new, by simp, hnp, hnt⟩
  · intro q k k' hk hk'
    simp only [Watches, List.mem_append, List.mem_singleton] at hk hk'
    rcases hk with hk | hk <;> rcases hk' with hk' | hk'
    · exact h3 q k k' hk hk'
    · cases hk'; exact absurd rfl (hno _ hk)
    · cases hk; exact absurd rfl (hno _ hk')
    · cases hk; cases hk'; rfl
  · rw [hal, List.map_append, List.nodup_append]
    refine ⟨h4, by simp, ?_⟩
    intro x hx y hy
    simp only [List.map_cons, List.map_nil, List.mem_singleton] at hy
    rw [List.mem_map] at hx
    obtain ⟨t, ht, rfl⟩ := hx
    rw [hy, hnt]
    exact hfresh t ht
  · rw [hal]
    intro t ht
    rw [List.mem_append, List.mem_singleton] at ht
    rcases ht with ht | rfl
    · exact h5 t ht
    · rw [hnp, hnt]; exact hp
  · rw [hal]
    intro t ht
    rw [List.mem_append, List.mem_singleton] at ht
    rcases ht with ht | rfl
    · exact h6 t ht
    · rw [hnt]; exact hn

theorem inv_start (s : State) (a : Args) (h : Inv s) (hc : Careful s (.start a)) : Inv (start s a).1 := by
  obtain ⟨hfresh, hmain, hhost⟩ := hc
  unfold start
  split
  · exact h
  · rename_i hn
    split
    · exact h
    · split
      · rename_i w hw
        split at hw
        · split
          · rename_i hm; simp at hm; exact absurd hm hmain
          · exact inv_spawn s a primary w h hw hfresh hn (.inl rfl) hhost
        · cases hw
      · split
        · exact h
        · unfold startDedicated
          split
          · split
            · exact h
            · rename_i w hw
              exact inv_spawn s a a.task w h hw hfresh hn (.inr rfl) hhost
          · exact h

/-- What only rearranges the previews keeps the invariant. -/
theorem inv_same (s s' : State) (h : Inv s) (hw : s'.watchers = s.watchers) (hmem : ∀ t, t ∈ alive s' ↔ t ∈ alive s)
    (hnd : ((alive s').map (·.task)).Nodup) : Inv s' := by
  obtain ⟨⟨h1, h2, h3⟩, h4, h5, h6⟩ := h
  refine ⟨⟨?_, ?_, ?_⟩, hnd, ?_, ?_⟩
  · intro t ht; unfold Watches; rw [hw]; exact h1 t ((hmem t).mp ht)
  · intro p k hk
    unfold Watches at hk; rw [hw] at hk
    obtain ⟨t, ht, e⟩ := h2 p k hk
    exact ⟨t, (hmem t).mpr ht, e⟩
  · intro p k k' hk hk'
    unfold Watches at hk hk'; rw [hw] at hk hk'
    exact h3 p k k' hk hk'
  · intro t ht; exact h5 t ((hmem t).mp ht)
  · intro t ht; exact h6 t ((hmem t).mp ht)

theorem filter_one {l : List Tab} (h : (l.map (·.task)).Nodup) (t : Tab) (ht : t ∈ l) (t' : Tab) (ht' : t' ∈ l)
    (e : t.task = t'.task) : t = t' := by
  induction l with
  | nil => cases ht
  | cons a l ih =>
    rw [List.map_cons, List.nodup_cons] at h
    rw [List.mem_cons] at ht ht'
    rcases ht with rfl | ht <;> rcases ht' with rfl | ht'
    · rfl
    · exact absurd (List.mem_map.mpr ⟨t', ht', e.symm⟩) h.1
    · exact absurd (List.mem_map.mpr ⟨t, ht, e⟩) h.1
    · exact ih h.2 ht ht'

/-- Killing a preview takes it away together with its watcher, and nothing else. -/
theorem inv_kill (s : State) (task : Name) (h : Inv s) : Inv (kill s task) := by
  unfold kill
  split
  · exact h
  · rename_i t hf
    split
    · exact h
    · have htask : t.task = task := by simpa using List.find?_some hf
      have htm : t ∈ s.tabs := List.mem_of_find?_eq_some hf
      obtain ⟨⟨h1, h2, h3⟩, h4, h5, h6⟩ := h
      have hta : t ∈ alive s := by unfold alive; simp [htm]
      have hrest : ∀ u, u ∈ alive s → u.task = task → u = t := fun u hu e =>
        filter_one h4 u hu t hta (e.trans htask.symm)
      generalize hs' : ({ s with tabs := s.tabs.filter (fun t => t.task ≠ task), watchers := unregister s.watchers t.project } : State) = s'
      have hsub : (alive s').Sublist (alive s) := by
        rw [← hs']; unfold alive
        exact ((List.filter_sublist.append (List.Sublist.refl _)).append (List.Sublist.refl _))
      have hw : ∀ p k, Watches s' p k ↔ Watches s p k ∧ p ≠ t.project := by
        intro p k; rw [← hs']; simp [Watches, unregister]
      have hmem : ∀ u, u ∈ alive s' ↔ u ∈ alive s ∧ u.task ≠ task := by
        intro u
        have hdisj : ∀ u, u ∈ (s.mailbox.filterMap Request.tab) ++ s.starting →
            u.task ≠ task := by
          intro u hu e
          have hnd : ((s.tabs ++ ((s.mailbox.filterMap Request.tab) ++
              s.starting)).map (·.task)).Nodup := by rw [← List.append_assoc]; exact h4
          rw [List.map_append, List.nodup_append] at hnd
          exact hnd.2.2 t.task (List.mem_map.mpr ⟨t, htm, rfl⟩) u.task (List.mem_map.mpr ⟨u, hu, rfl⟩) (htask.trans e.symm)
        rw [← hs']
        unfold alive
        rw [List.append_assoc, List.append_assoc, List.mem_append, List.mem_append (s := s.tabs)]
        constructor
        · rintro (hu | hu)
          · rw [List.mem_filter] at hu
            exact ⟨.inl hu.1, by simpa using hu.2⟩
          · exact ⟨.inr hu, hdisj u hu⟩
        · rintro ⟨hu | hu, hk⟩
          · exact .inl (List.mem_filter.mpr ⟨hu, by simpa using hk⟩)
          · exact .inr hu
      have hproj : ∀ u, u ∈ alive s → u.project = t.project → u = t := by
        intro u hu e
        have a := h1 u hu
        have b := h1 t hta
        rw [e] at a
        exact hrest u hu ((h3 _ _ _ a b).trans htask)
      refine ⟨⟨?_, ?_, ?_⟩, h4.sublist (hsub.map _), ?_, ?_⟩
      · intro u hu
        obtain ⟨hu, hk⟩ := (hmem u).mp hu
        rw [hw]
        refine ⟨h1 u hu, fun e => hk ?_⟩
        rw [hproj u hu e, htask]
      · intro p k hk
        rw [hw] at hk
        obtain ⟨u, hu, e1, e2⟩ := h2 p k hk.1
        refine ⟨u, (hmem u).mpr ⟨hu, fun e => hk.2 ?_⟩, e1, e2⟩
        rw [← e1, hrest u hu e]
      · intro p k k' hk hk'
        rw [hw] at hk hk'
        exact h3 p k k' hk.1 hk'.1
      · intro u hu; exact h5 u ((hmem u).mp hu).1
      · intro u hu; exact h6 u ((hmem u).mp hu).1

theorem inv_kills (ks : List Name) (s : State) (h : Inv s) : Inv (ks.foldl kill s) := by
  induction ks generalizing s with
  | nil => exact h
  | cons k ks ih => exact ih _ (inv_kill s k h)

theorem inv_step (s : State) (op : Op) (h : Inv s) (hc : Careful s op) : Inv (step s op) := by
  cases op with
  | start a => exact inv_start s a h hc
  | down task => exact hc.elim
  | reload => exact hc.elim
  | kill task =>
    have e : alive (step s (.kill task)) = alive s := by simp [alive, step, Request.tab]
    exact inv_same s _ h rfl (fun t => by rw [e]) (by rw [e]; exact h.tasks)
  | killAll =>
    have e : alive (step s .killAll) = alive s := by simp [alive, step, Request.tab]
    exact inv_same s _ h rfl (fun t => by rw [e]) (by rw [e]; exact h.tasks)
  | up task =>
    have e : alive (step s (.up task)) = s.tabs ++ (s.mailbox.filterMap Request.tab) ++
        (s.starting.filter (fun t => t.task = task) ++ s.starting.filter (fun t => t.task ≠ task)) := by
      simp only [alive, step, List.filterMap_append, List.filterMap_map, List.append_assoc]
      congr 2
      rw [List.append_cancel_right_eq]
      exact List.filterMap_some
    have hperm : (s.starting.filter (fun t => t.task = task) ++ s.starting.filter (fun t => t.task ≠ task)).Perm s.starting := by
      have := List.filter_append_perm (fun t : Tab => decide (t.task = task)) s.starting
      simpa using this
    have hp : (alive (step s (.up task))).Perm (alive s) := by
      rw [e]; exact hperm.append_left _
    exact inv_same s _ h rfl (fun t => hp.mem_iff) ((hp.map _).nodup_iff.mpr h.tasks)
  | handle =>
    simp only [step]
    split
    · exact h
    · rename_i r rest hm
      cases r with
      | started t =>
        have ea : alive s = s.tabs ++ (t :: (rest.filterMap Request.tab)) ++
            s.starting := by simp [alive, hm, Request.tab]
        have hnd := h.tasks
        rw [ea] at hnd
        have hf : s.tabs.filter (fun u => u.task ≠ t.task) = s.tabs := by
          rw [List.filter_eq_self]
          intro u hu
          rw [List.append_assoc, List.map_append, List.nodup_append] at hnd
          have := hnd.2.2 u.task (List.mem_map.mpr ⟨u, hu, rfl⟩) t.task (by simp)
          simpa using this
        have e : alive (handle { s with mailbox := rest } (.started t)) = alive s := by
          rw [ea]
          simp only [alive, handle, hf]
          simp
        exact inv_same s _ h rfl (fun u => by rw [e]) (by rw [e]; exact h.tasks)
      | kill task =>
        have e : alive { s with mailbox := rest } = alive s := by simp only [alive, hm]; rfl
        exact inv_kill _ task (inv_same s _ h rfl (fun u => by rw [e]) (by rw [e]; exact h.tasks))
      | killAll =>
        have e : alive { s with mailbox := rest } = alive s := by simp only [alive, hm]; rfl
        exact inv_kills _ _ (inv_same s _ h rfl (fun u => by rw [e]) (by rw [e]; exact h.tasks))

theorem run_snoc (ops : List Op) (op : Op) : run (ops ++ [op]) = step (run ops) op := by
  unfold run; rw [List.foldl_append]; rfl

theorem inv_run (ops : List Op) (hc : ∀ pre op post, ops = pre ++ op :: post → Careful (run pre) op) : Inv (run ops) := by
  have : ∀ (post pre : List Op), ops = pre ++ post → Inv (run pre) → Inv (run ops) := by
    intro post
    induction post with
    | nil => intro pre e h; rw [e, List.append_nil]; exact h
    | cons op post ih =>
      intro pre e h
      refine ih (pre ++ [op]) (by simp [e]) ?_
      rw [run_snoc]
      exact inv_step _ _ h (hc pre op post e)
  exact this ops [] rfl inv_init

/-- **C61, partial.** In every careful history, however the server, the starting previews and the actor interleave,
exactly the projects of the previews that are there are watched, each by its preview. Missing from the full claim:
starts that fail, names used twice, and reloads of the projects. -/
theorem watched_iff_there_partial (ops : List Op)
    (hc : ∀ pre op post, ops = pre ++ op :: post → Careful (run pre) op) : Fits (run ops) :=
  (inv_run ops hc).fits

/-- **C61, a killed preview lets go.** When the actor has handled the request to kill a preview that can be killed, the
preview is gone and its project is free. -/
theorem killed_is_free_partial (ops : List Op) (hc : ∀ pre op post, ops = pre ++ op :: post → Careful (run pre) op)
    (t : Tab) (ht : t ∈ (run ops).tabs) (hb : t.background = false) (rest : List Request)
    (hm : (run ops).mailbox = .kill t.task :: rest) :
    (∀ u ∈ alive (run (ops ++ [.handle])), u.task ≠ t.task) ∧ ∀ k, ¬ Watches (run (ops ++ [.handle])) t.project k := by
  have h := inv_run ops hc
  have h' : Inv (run (ops ++ [.handle])) := by
    rw [run_snoc]; exact inv_step _ _ h trivial
  have hta : t ∈ alive (run ops) := by unfold alive; simp [ht]
  have hrun : run (ops ++ [.handle]) = kill { run ops with mailbox := rest } t.task := by
    rw [run_snoc]; simp only [step, hm]; rfl
  have hfind : (run ops).tabs.find? (fun u => u.task = t.task) = some t := by
    cases hf : (run ops).tabs.find? (fun u => u.task = t.task) with
    | none =>
      rw [List.find?_eq_none] at hf
      exact absurd (by simp) (hf t ht)
    | some u =>
      have hu := List.mem_of_find?_eq_some hf
      have e : u.task = t.task := by simpa using List.find?_some hf
      rw [filter_one h.tasks u (by unfold alive; simp [hu]) t hta e]
  have hk : ∀ k, ¬ Watches (run (ops ++ [.handle])) t.project k := by
    intro k hk
    rw [hrun] at hk
    unfold kill at hk
    simp only [hfind, hb] at hk
    simp [Watches, unregister] at hk
  refine ⟨fun u hu e => ?_, hk⟩
  have hsub : ∀ u ∈ alive (run (ops ++ [.handle])), u ∈ alive (run ops) := by
    intro u hu
    rw [hrun] at hu
    unfold kill at hu
    simp only [hfind, hb] at hu
    simp [alive, hm, Request.tab] at hu ⊢
    grind
  have : u = t := filter_one h.tasks u (hsub u hu) t hta e
  exact hk u.task (this ▸ h'.fits.watched u hu)

/-- **C61, a preview can be started.** In a careful history a preview with a main file, a new name and nothing else
wrong is always accepted. -/
theorem can_start_partial (ops : List Op) (hc : ∀ pre op post, ops = pre ++ op :: post → Careful (run pre) op)
    (a : Args) (ha : Careful (run ops) (.start a)) (he : a.entry = true) (hk : a.kind = .regular)
    (hn : a.task ≠ primary) : (start (run ops) a).2 = true := by
  have h := inv_run ops hc
  obtain ⟨hfresh, hmain, hhost⟩ := ha
  unfold start
  rw [if_neg hn, if_neg (by simp [hk])]
  split
  · rw [if_neg (by simpa using hmain)]
    unfold spawn; simp [hhost]
  · rw [if_neg (by simp [hk])]
    unfold startDedicated
    rw [if_pos he]
    split
    · rename_i hr
      obtain ⟨x, hx, e⟩ := register_none hr
      obtain ⟨t, ht, e1, e2⟩ := h.fits.shown x.1 x.2 hx
      rcases h.projects t ht with hp | hp
      · exact absurd (e.symm.trans (e1.symm.trans hp)) hn
      · exact absurd (hp.symm.trans (e1.trans e)) (hfresh t ht)
    · unfold spawn; simp [hhost]

/-- A request with a main file and nothing wrong. -/
def plain (task : String) : Args := ⟨task.toList, true, .regular, false, false, false⟩

/-- Meets the hypotheses: two previews, the first one the primary one; the first is killed, a third takes its place. -/
example : (run [.start (plain "a"), .start (plain "b"), .up "a".toList, .up "b".toList, .handle, .handle,
    .kill "a".toList, .handle, .start (plain "c")]).watchers =
    [("b".toList, "b".toList), (primary, "c".toList)] := by decide

/-- **C61 fails.** A start that fails after registration leaves the project watched by a preview that does not exist:
here because the address cannot be bound, because a removed option is given, and because the main file cannot be changed. No later preview can show the
primary project. -/
theorem failed_start_leaks :
    (let s := run [.start (plain "a"), .down "a".toList, .kill "a".toList, .handle]
     alive s = [] ∧ Watches s primary "a".toList) ∧
    (let s := run [.start { plain "a" with hostFails := true }, .kill "a".toList, .handle]
     alive s = [] ∧ Watches s primary "a".toList) ∧
    (let s := run [.start { plain "a" with mainFails := true }, .kill "a".toList, .handle]
     alive s = [] ∧ Watches s primary "a".toList) := by
  refine ⟨⟨by decide, ?_⟩, ⟨by decide, ?_⟩, by decide, ?_⟩ <;> (unfold Watches; decide)

/-- **C61 fails.** Starting twice under the same name loses the first preview: it cannot be killed any more and its
project stays watched. -/
theorem same_name_leaks :
    let s := run [.start (plain "a"), .up "a".toList, .handle, .start (plain "a"), .up "a".toList, .handle,
      .kill "a".toList, .handle, .killAll, .handle]
    alive s = [] ∧ Watches s primary "a".toList := by
  refine ⟨by decide, ?_⟩; unfold Watches; decide

/-- **C61 fails.** A preview started right after a reload of the projects loses its project when the actor gets round
to killing the preview from before. -/
theorem reload_race :
    let s := run [.start (plain "a"), .up "a".toList, .handle, .reload, .start (plain "b"), .handle, .up "b".toList, .handle]
    s.tabs = [⟨"b".toList, primary, false⟩] ∧ s.watchers = [] := by decide

/-- **C61 fails.** A reload cuts a background preview off from its project; it keeps running, cannot be killed, and is
never told of a compilation again. -/
theorem reload_blinds_background :
    let s := run [.start ⟨"bg".toList, false, .background, false, false, false⟩, .up "bg".toList, .handle, .reload, .handle,
      .kill "bg".toList, .handle]
    s.tabs = [⟨"bg".toList, primary, true⟩] ∧ s.watchers = [] := by decide

/-! ## Answers -/

theorem spawn_answer (s : State) (a : Args) (p : Name) :
    ((spawn s a p).2 = true ↔ a.hostFails = false) ∧ (spawn s a p).1.watchers = s.watchers ∧
      (spawn s a p).1.tabs = s.tabs ∧ (spawn s a p).1.mailbox = s.mailbox ∧
      (spawn s a p).1.starting =
        if a.hostFails then s.starting else s.starting ++ [⟨a.task, p, decide (a.kind = .background)⟩] := by
  unfold spawn
  split <;> simp_all

/-- **C61, what the answer says.** A request to start is answered with success exactly if a preview of the name is
starting because of it, connected to a project; else no preview is. -/
theorem answer_tells (s : State) (a : Args) :
    ((start s a).2 = true → ∃ p, (start s a).1.starting = s.starting ++ [⟨a.task, p, decide (a.kind = .background)⟩] ∧
      (∀ x ∈ s.watchers, x.1 ≠ p) ∧ (start s a).1.watchers = s.watchers ++ [(p, a.task)]) ∧
    ((start s a).2 = false → (start s a).1.starting = s.starting) ∧
    (start s a).1.tabs = s.tabs ∧ (start s a).1.mailbox = s.mailbox := by
  unfold start
  split
  · simp
  · split
    · simp
    · split
      · rename_i w hw
        have hw' : register s.watchers primary a.task = some w := by
          split at hw
          · exact hw
          · cases hw
        obtain ⟨rfl, hno⟩ := register_some hw'
        split
        · simp
        · obtain ⟨h1, h2, h3, h4, h5⟩ := spawn_answer { s with watchers := s.watchers ++ [(primary, a.task)] } a primary
          refine ⟨fun h => ⟨primary, ?_, hno, h2⟩, fun h => ?_, h3, h4⟩
          · rw [h5, if_neg (by simp [h1.mp h])]
          · rw [h5, if_pos]
            cases hh : a.hostFails
            · rw [h1.mpr hh] at h; cases h
            · rfl
      · split
        · simp
        · unfold startDedicated
          split
          · split
            · simp
            · rename_i w hw
              obtain ⟨rfl, hno⟩ := register_some hw
              obtain ⟨h1, h2, h3, h4, h5⟩ := spawn_answer { s with watchers := s.watchers ++ [(a.task, a.task)] } a a.task
              refine ⟨fun h => ⟨a.task, ?_, hno, h2⟩, fun h => ?_, h3, h4⟩
              · rw [h5, if_neg (by simp [h1.mp h])]
              · rw [h5, if_pos]
                cases hh : a.hostFails
                · rw [h1.mpr hh] at h; cases h
                · rfl
          · simp

/-- **C61, which project.** A preview that is accepted shows the primary project exactly if it may (it does not decline,
and it browses, runs in the background or names a main file) and no preview does already; else a project of its own. -/
theorem which_project (s : State) (a : Args) (h : (start s a).2 = true) :
    ∃ p, (start s a).1.watchers = s.watchers ++ [(p, a.task)] ∧
      let may := a.notPrimary = false ∧ (a.kind = .browsing ∨ a.kind = .background ∨ a.entry = true) ∧
        ∀ k, ¬ Watches s primary k
      (may → p = primary) ∧ (¬ may → p = a.task) := by
  have hwant : wantsPrimary a = true ↔ a.notPrimary = false ∧ (a.kind = .browsing ∨ a.kind = .background ∨ a.entry = true) := by
    simp [wantsPrimary, or_assoc]
  unfold start at h ⊢
  split at h
  · cases h
  · split at h
    · cases h
    · rename_i hn1 hn2
      rw [if_neg hn1, if_neg hn2]
      split at h
      · rename_i w hw
        by_cases hp : wantsPrimary a = true
        · rw [if_pos hp] at hw
          obtain ⟨rfl, hno⟩ := register_some hw
          split at h
          · cases h
          · rename_i hm
            rw [if_neg hm]
            refine ⟨primary, (spawn_answer _ a primary).2.1, ?_⟩
            exact ⟨fun _ => rfl, fun hm => absurd ⟨(hwant.mp hp).1, (hwant.mp hp).2, fun k hk => hno _ hk rfl⟩ hm⟩
        · rw [if_neg hp] at hw; cases hw
      · rename_i hw
        have hneg : ¬ (a.notPrimary = false ∧ (a.kind = .browsing ∨ a.kind = .background ∨ a.entry = true) ∧
            (∀ k, ¬ Watches s primary k)) := by
          rintro ⟨h1, h2, h3⟩
          rw [if_pos (hwant.mpr ⟨h1, h2⟩)] at hw
          obtain ⟨x, hx, hxp⟩ := register_none hw
          exact h3 x.2 (by unfold Watches; rw [← hxp]; exact hx)
        split at h
        · cases h
        · rename_i hk
          rw [if_neg hk]
          unfold startDedicated at h ⊢
          split at h
          · rename_i he
            rw [if_pos he]
            split at h
            · cases h
            · rename_i w hw2
              obtain ⟨rfl, hno⟩ := register_some hw2
              exact ⟨a.task, (spawn_answer _ a a.task).2.1, fun hm => absurd hm hneg, fun _ => rfl⟩
          · cases h

/-! ## Stopping -/

theorem run_append (a b : List Op) : run (a ++ b) = b.foldl step (run a) := by
  unfold run; rw [List.foldl_append]

theorem kill_other (s : State) (k : Name) : (kill s k).starting = s.starting ∧ (kill s k).mailbox = s.mailbox ∧
    ∀ t ∈ (kill s k).tabs, t ∈ s.tabs := by
  unfold kill
  split
  · exact ⟨rfl, rfl, fun t h => h⟩
  · split
    · exact ⟨rfl, rfl, fun t h => h⟩
    · exact ⟨rfl, rfl, fun t h => (List.mem_filter.mp h).1⟩

theorem kills_other (ks : List Name) (s : State) : (ks.foldl kill s).starting = s.starting ∧
    (ks.foldl kill s).mailbox = s.mailbox ∧ ∀ t ∈ (ks.foldl kill s).tabs, t ∈ s.tabs := by
  induction ks generalizing s with
  | nil => exact ⟨rfl, rfl, fun t h => h⟩
  | cons k ks ih =>
    obtain ⟨h1, h2, h3⟩ := kill_other s k
    obtain ⟨h4, h5, h6⟩ := ih (kill s k)
    exact ⟨h4.trans h1, h5.trans h2, fun t h => h3 t (h6 t h)⟩

theorem kill_gone (s : State) (k : Name) (hn : (s.tabs.map (·.task)).Nodup) :
    ∀ t ∈ (kill s k).tabs, t.task = k → t.background = true := by
  intro t ht hk
  have hmem := (kill_other s k).2.2 t ht
  unfold kill at ht
  split at ht
  · rename_i hf
    have := List.find?_eq_none.mp hf t hmem
    simp [hk] at this
  · rename_i u hf
    have hu : u.task = k := by simpa using List.find?_some hf
    have : u = t := filter_one hn u (List.mem_of_find?_eq_some hf) t hmem (hu.trans hk.symm)
    split at ht
    · rename_i hb; rw [← this]; exact hb
    · have := (List.mem_filter.mp ht).2
      simp [hk] at this

theorem kills_gone (ks : List Name) (s : State) (hn : (s.tabs.map (·.task)).Nodup) :
    ∀ t ∈ (ks.foldl kill s).tabs, t.task ∈ ks → t.background = true := by
  induction ks generalizing s with
  | nil => intro t _ h; cases h
  | cons k ks ih =>
    have hn' : ((kill s k).tabs.map (·.task)).Nodup := by
      unfold kill
      split
      · exact hn
      · split
        · exact hn
        · exact List.Sublist.nodup (List.Sublist.map _ (List.filter_sublist)) hn
    intro t ht hk
    by_cases hin : t.task ∈ ks
    · exact ih (kill s k) hn' t ht hin
    · have : t.task = k := by simpa [hin] using hk
      exact kill_gone s k hn t ((kills_other ks (kill s k)).2.2 t ht) this

theorem tabs_nodup {s : State} (h : Inv s) : (s.tabs.map (·.task)).Nodup := by
  have := h.tasks
  unfold alive at this
  rw [List.append_assoc, List.map_append, List.nodup_append] at this
  exact this.1

/-- The actor works off its mailbox up to a request to kill. -/
theorem handles_kill (r : Request) (P : Tab → Prop)
    (hr : ∀ s, Inv s → ∀ t ∈ (handle s r).tabs, P t → t.background = true)
    (hm : ∀ s, (handle s r).mailbox = s.mailbox ∧ (handle s r).starting = s.starting) (ms : List Request) (s : State)
    (h : Inv s) (he : s.mailbox = ms ++ [r]) (hcl : r.tab = none) :
    ((List.replicate (ms.length + 1) Op.handle).foldl step s).mailbox = [] ∧
    ((List.replicate (ms.length + 1) Op.handle).foldl step s).starting = s.starting ∧
    ∀ t ∈ ((List.replicate (ms.length + 1) Op.handle).foldl step s).tabs, P t → t.background = true := by
  induction ms generalizing s with
  | nil =>
    have e : (List.replicate ([] : List Request).length.succ Op.handle).foldl step s = handle { s with mailbox := [] } r := by
      simp [step, he]
    change ((List.replicate ([] : List Request).length.succ Op.handle).foldl step s).mailbox = [] ∧ _
    rw [e]
    have hi : Inv { s with mailbox := [] } := by
      have ea : alive { s with mailbox := [] } = alive s := by
        simp only [alive, he, List.nil_append, List.filterMap_cons, hcl, List.filterMap_nil]
      exact inv_same s _ h rfl (fun u => by rw [ea]) (by rw [ea]; exact h.tasks)
    exact ⟨(hm _).1, (hm _).2, hr _ hi⟩
  | cons x ms ih =>
    have hs : Inv (step s .handle) := inv_step s .handle h trivial
    have hb : (step s .handle).mailbox = ms ++ [r] ∧ (step s .handle).starting = s.starting := by
      simp only [step, he, List.cons_append]
      cases x with
      | started t => exact ⟨rfl, rfl⟩
      | kill k => exact ⟨(kill_other _ _).2.1, (kill_other _ _).1⟩
      | killAll => exact ⟨(kills_other _ _).2.1, (kills_other _ _).1⟩
    have := ih (step s .handle) hs hb.1
    rw [List.length_cons, List.replicate_succ, List.foldl_cons]
    exact ⟨this.1, this.2.1.trans hb.2, this.2.2⟩

/-- **C61, stopping works.** Once the actor has worked off its requests, a request to kill has ended the preview of the
name, if it was up or on its way to the list of tabs, unless it runs in the background. -/
theorem kill_takes_effect_partial (ops : List Op) (hc : ∀ pre op post, ops = pre ++ op :: post → Careful (run pre) op) (k : Name) :
    ∀ t ∈ alive (run (ops ++ .kill k :: List.replicate ((run ops).mailbox.length + 1) .handle)), t.task = k →
      t.background = true ∨ t ∈ (run ops).starting := by
  have h := inv_run ops hc
  have hi : Inv (step (run ops) (.kill k)) := inv_step _ _ h trivial
  obtain ⟨h1, h2, h3⟩ := handles_kill (.kill k) (fun t => t.task = k)
    (fun s hs t ht hk => kill_gone s k (tabs_nodup hs) t ht hk) (fun s => ⟨(kill_other _ _).2.1, (kill_other _ _).1⟩)
    (run ops).mailbox (step (run ops) (.kill k)) hi rfl rfl
  rw [show ops ++ .kill k :: List.replicate ((run ops).mailbox.length + 1) Op.handle =
    ops ++ ([.kill k] ++ List.replicate ((run ops).mailbox.length + 1) Op.handle) by simp, run_append, List.foldl_append]
  intro t ht hk
  unfold alive at ht
  rw [show [Op.kill k].foldl step (run ops) = step (run ops) (.kill k) from rfl, h1, h2] at ht
  simp only [List.filterMap_nil, List.append_nil, List.mem_append] at ht
  rcases ht with ht | ht
  · exact .inl (h3 t ht hk)
  · exact .inr ht

/-- **C61, stopping all works.** -/
theorem killAll_takes_effect_partial (ops : List Op) (hc : ∀ pre op post, ops = pre ++ op :: post → Careful (run pre) op) :
    ∀ t ∈ alive (run (ops ++ .killAll :: List.replicate ((run ops).mailbox.length + 1) .handle)),
      t.background = true ∨ t ∈ (run ops).starting := by
  have h := inv_run ops hc
  have hi : Inv (step (run ops) .killAll) := inv_step _ _ h trivial
  obtain ⟨h1, h2, h3⟩ := handles_kill .killAll (fun _ => True)
    (fun s hs t ht _ => kills_gone _ s (tabs_nodup hs) t ht (List.mem_map_of_mem ((kills_other _ s).2.2 t ht)))
    (fun s => ⟨(kills_other _ _).2.1, (kills_other _ _).1⟩)
    (run ops).mailbox (step (run ops) .killAll) hi rfl rfl
  rw [show ops ++ .killAll :: List.replicate ((run ops).mailbox.length + 1) Op.handle =
    ops ++ ([.killAll] ++ List.replicate ((run ops).mailbox.length + 1) Op.handle) by simp, run_append, List.foldl_append]
  intro t ht
  unfold alive at ht
  rw [show [Op.killAll].foldl step (run ops) = step (run ops) .killAll from rfl, h1, h2] at ht
  simp only [List.filterMap_nil, List.append_nil, List.mem_append] at ht
  rcases ht with ht | ht
  · exact .inl (h3 t ht trivial)
  · exact .inr ht

end Tinymist.PreviewTabs
