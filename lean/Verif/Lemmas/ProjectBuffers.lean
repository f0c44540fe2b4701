import Verif.Lemmas.Project
/-! What the compiler sees of the editor's buffers. -/
namespace Tinymist.Project
variable {Path C : Type} [DecidableEq Path]

theorem removes_at (l : List Path) (sh : Path → Option C) (q : Path) :
    l.foldl (fun sh p => set sh p none) sh q = if q ∈ l then none else sh q := by
  induction l generalizing sh with
  | nil => simp
  | cons p l ih =>
    rw [List.foldl_cons, ih]
    by_cases h : q ∈ l
    · simp [h]
    · by_cases hp : q = p
      · subst hp; simp [h, set_eq]
      · simp [h, hp, set_ne]

theorem inserts_at (l : List (Path × C)) (sh : Path → Option C) (q : Path) :
    l.foldl (fun sh x => set sh x.1 (some x.2)) sh q =
      match l.reverse.find? (fun x => x.1 = q) with | some x => some x.2 | none => sh q := by
  induction l generalizing sh with
  | nil => rfl
  | cons x l ih =>
    rw [List.foldl_cons, ih, List.reverse_cons, List.find?_append]
    cases l.reverse.find? (fun x => decide (x.1 = q)) with
    | some y => rfl
    | none =>
      by_cases hx : x.1 = q
      · subst hx; simp [set_eq]
      · have : ¬ q = x.1 := fun e => hx e.symm
        simp [hx, set_ne _ _ this]

theorem apply_at (e : MemEvent Path C) (sh : Path → Option C) (q : Path) : e.apply sh q = e.buffer q (sh q) := by
  unfold MemEvent.apply MemEvent.buffer
  rw [inserts_at]
  cases e.inserts.reverse.find? (fun x => decide (x.1 = q)) with
  | some x => rfl
  | none =>
    simp only
    rw [removes_at]
    cases e.sync <;> simp

theorem buffer_untouched {e : MemEvent Path C} {q : Path} (h : ¬ e.Touches q) (old : Option C) : e.buffer q old = old := by
  unfold MemEvent.Touches at h
  unfold MemEvent.buffer
  have h1 : e.inserts.reverse.find? (fun x => decide (x.1 = q)) = none := by
    rw [List.find?_eq_none]
    intro x hx
    simp only [decide_eq_true_eq]
    rintro rfl
    exact h (Or.inr (Or.inr (List.mem_map_of_mem (List.mem_reverse.mp hx))))
  rw [h1]
  simp only
  rw [if_neg]
  rintro (h2 | h2)
  · exact h (Or.inl h2)
  · exact h (Or.inr (Or.inl h2))

theorem fold_untouched (l : List (Nat × MemEvent Path C)) (q : Path) (h : ∀ x ∈ l, ¬ x.2.Touches q) (o : Option C) :
    l.foldl (fun o x => x.2.buffer q o) o = o := by
  induction l generalizing o with
  | nil => rfl
  | cons x l ih =>
    rw [List.foldl_cons, buffer_untouched (h x (List.mem_cons_self ..))]
    exact ih (fun y hy => h y (List.mem_cons_of_mem _ hy)) o

theorem clientBuffer_snoc (h : History Path C) (x : Op Path C × (String → Bool)) (q : Path) :
    clientBuffer (h ++ [x]) q = match x.1 with | .memory e _ => e.buffer q (clientBuffer h q) | _ => clientBuffer h q := by
  unfold clientBuffer
  rw [List.foldl_append]
  rfl

/-- All projects see `q` as `S`. -/
def Sees (m : Machine Path C) (q : Path) (S : Option C) : Prop := ∀ p ∈ m.projects, p.shadow q = S

theorem sees_map {l l' : List (Proj Path C)} (h : l'.map (·.shadow) = l.map (·.shadow)) {q : Path} {S : Option C}
    (hs : ∀ p ∈ l, p.shadow q = S) : ∀ p ∈ l', p.shadow q = S := by
  intro p hp
  have : p.shadow ∈ l'.map (·.shadow) := List.mem_map_of_mem hp
  rw [h] at this
  obtain ⟨p0, h0, h1⟩ := List.mem_map.mp this
  rw [← h1]; exact hs p0 h0

theorem sees_onAny {clean : String → Bool} {m : Machine Path C} {q : Path} {S : Option C} (h : Sees m q S) :
    Sees (onAny clean m) q S := sees_map (onAny_shadow clean m) h

theorem sees_onProject {m m' : Machine Path C} {id : String} {f : Proj Path C → Shared × Proj Path C × List String}
    (h : m.onProject id f = some m') (hf : ∀ p, (f p).2.1.shadow = p.shadow) {q : Path} {S : Option C} (hs : Sees m q S) :
    Sees m' q S ∧ m'.upstream = m.upstream ∧ m'.dirty = m.dirty := by
  obtain ⟨l1, p, l2, h1, -, -, h2, -, -, h3, h4, -⟩ := onProject_some h
  refine ⟨?_, h3, h4⟩
  refine sees_map (l := m.projects) ?_ hs
  rw [h1, h2]
  simp [hf]

theorem sees_remove (m : Machine Path C) (id : String) {q : Path} {S : Option C} (hs : Sees m q S) :
    Sees (removeDedicates m id) q S ∧ (removeDedicates m id).upstream = m.upstream ∧
      (removeDedicates m id).dirty = m.dirty ∧ (removeDedicates m id).primary = m.primary ∧
      (removeDedicates m id).nextUid = m.nextUid := by
  rcases remove_cases m id with ⟨h, -⟩ | ⟨l1, p, l2, h1, -, -, h2⟩
  · rw [h]; exact ⟨hs, rfl, rfl, rfl, rfl⟩
  · rw [h2]
    refine ⟨fun p' hp => hs p' ?_, rfl, rfl, rfl, rfl⟩
    unfold Machine.projects at hp ⊢
    rw [h1]
    rcases List.mem_cons.mp hp with hp | hp
    · exact List.mem_cons.mpr (Or.inl hp)
    · refine List.mem_cons_of_mem _ ?_
      rcases List.mem_append.mp hp with hp | hp
      · exact List.mem_append_left _ hp
      · exact List.mem_append_right _ (List.mem_cons_of_mem _ hp)

/-- What an operation other than an editor change or an acknowledgement does to buffers: nothing. -/
theorem interrupt_quiet {m m1 : Machine Path C} {op : Op Path C} {b : Bool} (h : interrupt m op = some (m1, b))
    (h1 : ∀ e r, op ≠ .memory e r) (h2 : ∀ c, op = .fs true c → m.upstream = []) {q : Path} {S : Option C}
    (hs : Sees m q S) : Sees m1 q S ∧ m1.upstream = m.upstream ∧ m1.dirty = m.dirty := by
  cases op with
  | compile id =>
    simp only [interrupt] at h
    obtain ⟨x, a, b⟩ := Option.map_eq_some_iff.mp h
    cases b
    exact sees_onProject a (fun p => rfl) hs
  | settle id =>
    simp only [interrupt] at h
    cases h
    obtain ⟨a, b, c, -⟩ := sees_remove m id hs
    exact ⟨a, b, c⟩
  | compiled i =>
    simp only [interrupt] at h
    split at h
    · cases h; exact ⟨hs, rfl, rfl⟩
    · obtain ⟨x, a, b⟩ := Option.map_eq_some_iff.mp h
      cases b
      refine sees_onProject a (fun p => ?_) hs
      exact (commit_keeps _ _).1.trans (extCompiled_keeps _ _ _).1
  | changeTask id inputs entry =>
    simp only [interrupt] at h
    obtain ⟨x, a, b⟩ := Option.map_eq_some_iff.mp h
    cases b
    refine sees_onProject a (fun p => ?_) hs
    simp only
    split <;> rfl
  | font changed =>
    simp only [interrupt] at h
    cases h
    split
    · refine ⟨?_, rfl, rfl⟩
      refine sees_map (l := m.projects) ?_ hs
      rw [mapAll_projects]
      simp [Proj.bump]
    · exact ⟨hs, rfl, rfl⟩
  | memory e r => exact (h1 e r rfl).elim
  | fs ack changes =>
    cases ack with
    | true =>
      have := h2 changes rfl
      simp only [interrupt, this] at h
      cases h
      exact ⟨hs, rfl, rfl⟩
    | false =>
      simp only [interrupt] at h
      cases h
      refine ⟨?_, rfl, rfl⟩
      refine sees_map (l := m.projects) ?_ hs
      rw [mapAll_projects, List.map_map]
      refine List.map_congr_left fun p _ => ?_
      simp only [Function.comp, Proj.fsEvent, Proj.bump, Bool.or_false]
      split <;> rfl
  | snapshot =>
    simp only [interrupt] at h
    cases h
    refine ⟨fun p hp => ?_, rfl, rfl⟩
    rcases List.mem_cons.mp hp with hp | hp
    · rw [hp]; exact hs m.primary (List.mem_cons_self ..)
    · exact hs p (List.mem_cons_of_mem _ hp)
  | restart group inactive =>
    simp only [interrupt] at h
    cases h
    obtain ⟨a, b, c, d, -⟩ := sees_remove m group hs
    refine ⟨?_, b, c⟩
    intro p hp
    unfold restart Machine.projects at hp
    rcases List.mem_cons.mp hp with hp | hp
    · exact a p (List.mem_cons.mpr (Or.inl hp))
    · rcases List.mem_append.mp hp with hp | hp
      · exact a p (List.mem_cons_of_mem _ hp)
      · rw [List.mem_singleton.mp hp]
        exact hs m.primary (List.mem_cons_self ..)
  | jobCheck i =>
    simp only [interrupt] at h
    split at h <;> cases h <;> exact ⟨hs, rfl, rfl⟩
  | jobSend i =>
    simp only [interrupt] at h
    split at h <;> cases h <;> exact ⟨hs, rfl, rfl⟩
  | jobNotify i =>
    simp only [interrupt] at h
    split at h <;> cases h <;> exact ⟨hs, rfl, rfl⟩

theorem memory_shadow (r : Bool) (e : MemEvent Path C) (p : Proj Path C) : (p.memory r e).shadow = e.apply p.shadow := by
  unfold Proj.memory
  simp only
  split <;> rfl

theorem fsEvent_shadow (e : MemEvent Path C) (c : Bool) (p : Proj Path C) :
    (p.fsEvent (some e) c).shadow = e.apply p.shadow := by
  unfold Proj.fsEvent
  simp only
  split <;> rfl

/-- Every project sees the same, for every history. -/
theorem sees_step {clean : String → Bool} {m m' : Machine Path C} {op : Op Path C} (h : step clean m op = some m') {q : Path}
    {S : Option C} (hs : Sees m q S) :
    (∃ e r, op = .memory e r ∧ ((m.dirty = 0 ∧ e.invalidates m.estimated = [] ∧ Sees m' q (e.buffer q S) ∧
        m'.upstream = m.upstream ∧ m'.dirty = 0) ∨
      ((e.invalidates m.estimated ≠ [] ∨ m.dirty ≠ 0) ∧ Sees m' q S ∧ m'.upstream = m.upstream ++ [(m.tick, e)] ∧
        m'.dirty = m.tick))) ∨
    (∃ c t e rest, op = .fs true c ∧ m.upstream = (t, e) :: rest ∧ Sees m' q (e.buffer q S) ∧ m'.upstream = rest) ∨
    ((∀ e r, op ≠ .memory e r) ∧ Sees m' q S ∧ m'.upstream = m.upstream ∧ m'.dirty = m.dirty) := by
  obtain ⟨m1, b, h1, rfl⟩ := step_eq h
  have up : ∀ m1 : Machine Path C, (if b = true then onAny clean m1 else m1).upstream = m1.upstream := by
    intro m1; split <;> rfl
  have dirty : ∀ m1 : Machine Path C, (if b = true then onAny clean m1 else m1).dirty = m1.dirty := by
    intro m1; split <;> rfl
  have sees : ∀ (m1 : Machine Path C) (T : Option C), Sees m1 q T → Sees (if b = true then onAny clean m1 else m1) q T := by
    intro m1 T hT
    split
    · exact sees_onAny hT
    · exact hT
  rw [up, dirty]
  by_cases hm : ∃ e r, op = .memory e r
  · obtain ⟨e, r, rfl⟩ := hm
    left
    refine ⟨e, r, rfl, ?_⟩
    simp only [interrupt] at h1
    split at h1
    · rename_i hc
      cases h1
      left
      simp only [Bool.and_eq_true, List.isEmpty_iff, beq_iff_eq] at hc
      refine ⟨hc.2, hc.1, sees _ _ ?_, rfl, hc.2⟩
      intro p hp
      rw [mapAll_projects] at hp
      obtain ⟨p0, h0, rfl⟩ := List.mem_map.mp hp
      rw [memory_shadow, apply_at]
      rw [hs p0 h0]
    · rename_i hc
      cases h1
      right
      refine ⟨?_, sees _ _ hs, rfl, rfl⟩
      by_cases hd : m.dirty = 0
      · left
        intro hi
        apply hc
        simp only [Bool.and_eq_true, List.isEmpty_iff, beq_iff_eq]
        exact ⟨hi, hd⟩
      · exact Or.inr hd
  · right
    have hm : ∀ e r, op ≠ .memory e r := fun e r he => hm ⟨e, r, he⟩
    by_cases hf : ∃ c t e rest, op = .fs true c ∧ m.upstream = (t, e) :: rest
    · obtain ⟨c, t, e, rest, rfl, hu⟩ := hf
      left
      simp only [interrupt, hu] at h1
      cases h1
      refine ⟨c, t, e, rest, rfl, hu, sees _ _ ?_, rfl⟩
      intro p hp
      rw [mapAll_projects] at hp
      obtain ⟨p0, h0, rfl⟩ := List.mem_map.mp hp
      rw [fsEvent_shadow, apply_at, hs p0 h0]
    · right
      have hu : ∀ c, op = .fs true c → m.upstream = [] := by
        intro c hc
        cases hu : m.upstream with
        | nil => rfl
        | cons x rest => exact (hf ⟨c, x.1, x.2, rest, hc, hu⟩).elim
      obtain ⟨a, b', c⟩ := interrupt_quiet h1 hm hu hs
      exact ⟨hm, sees _ _ a, b', c⟩

theorem sees_init (inactive : Bool) (q : Path) : Sees (init (C := C) inactive) q none := by
  intro p hp
  rw [List.mem_singleton.mp hp]
  rfl

theorem projects_agree {inactive : Bool} {h : History Path C} {m : Machine Path C} (hr : run (init inactive) h = some m)
    (q : Path) : ∃ S, Sees m q S := by
  refine run_inv (I := fun m _ => ∃ S, Sees m q S) ⟨none, sees_init inactive q⟩ ?_ hr
  intro m h op clean m' _ ⟨S, hs⟩ hstep
  rcases sees_step hstep hs with ⟨e, r, -, ⟨-, -, a, -⟩ | ⟨-, a, -⟩⟩ | ⟨c, t, e, rest, -, -, a, -⟩ | ⟨-, a, -⟩ <;> exact ⟨_, a⟩

theorem not_overtaking_pre {q : Path} {inactive : Bool} {h : History Path C} {x : Op Path C × (String → Bool)}
    (hn : NotOvertaking q inactive (h ++ [x])) : NotOvertaking q inactive h := by
  intro pre e r clean post m hh
  exact hn pre e r clean (post ++ [x]) m (by rw [hh]; simp)

theorem buffer_inv {inactive : Bool} {h : History Path C} {m : Machine Path C} (hr : run (init inactive) h = some m)
    (q : Path) (hn : NotOvertaking q inactive h) :
    ∃ S, Sees m q S ∧ clientBuffer h q = m.upstream.foldl (fun o x => x.2.buffer q o) S := by
  refine run_inv (I := fun m h => NotOvertaking q inactive h →
    ∃ S, Sees m q S ∧ clientBuffer h q = m.upstream.foldl (fun o x => x.2.buffer q o) S)
    (fun _ => ⟨none, sees_init inactive q, rfl⟩) ?_ hr hn
  intro m h op clean m' hm ih hstep hn
  obtain ⟨S, hs, hb⟩ := ih (not_overtaking_pre hn)
  rcases sees_step hstep hs with ⟨e, r, rfl, ⟨hd, -, a, hu, -⟩ | ⟨-, a, hu, -⟩⟩ | ⟨c, t, e, rest, rfl, hu, a, hu'⟩ | ⟨hne, a, hu, -⟩
  · refine ⟨_, a, ?_⟩
    rw [clientBuffer_snoc]
    simp only
    rw [hu, hb]
    by_cases ht : e.Touches q
    · rcases hn h e r clean [] m rfl hm ht with h1 | h1
      · exact absurd hd h1
      · rw [fold_untouched _ _ h1, fold_untouched _ _ h1]
    · rw [buffer_untouched ht, buffer_untouched ht]
  · refine ⟨_, a, ?_⟩
    rw [clientBuffer_snoc]
    simp only
    rw [hu, hb, List.foldl_append]
    rfl
  · refine ⟨_, a, ?_⟩
    rw [clientBuffer_snoc]
    simp only
    rw [hb, hu, hu', List.foldl_cons]
  · refine ⟨_, a, ?_⟩
    rw [clientBuffer_snoc, hu, ← hb]
    cases op with
    | memory e r => exact (hne e r rfl).elim
    | _ => rfl

end Tinymist.Project
