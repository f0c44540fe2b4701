import Verif.Lemmas.ProjectOrd
/-! Statuses. -/
namespace Tinymist.Project
variable {Path C : Type} [DecidableEq Path]

theorem statusRevs_append (a b : List Out) (id : String) : statusRevs (a ++ b) id = statusRevs a id ++ statusRevs b id := by
  unfold statusRevs
  rw [List.filterMap_append]

structure StOk (s : Shared) : Prop where
  sent : ∀ id, NonDecreasing (statusRevs s.outs id) ∧ ∀ r ∈ statusRevs s.outs id, r ≤ s.statusRev id
  checked : ∀ j ∈ s.jobs, j.phase = .checked true → j.art.snap.rev = s.statusRev j.art.id

theorem stOk_same {s s' : Shared} (h : StOk s) (ho : ∀ id, statusRevs s'.outs id = statusRevs s.outs id)
    (hs : s'.statusRev = s.statusRev) (hj : ∀ j ∈ s'.jobs, j.phase = .checked true → j ∈ s.jobs) : StOk s' := by
  refine ⟨fun id => ?_, fun j hj' hp => ?_⟩
  · rw [ho, hs]; exact h.sent id
  · rw [hs]; exact h.checked j (hj j hj' hp) hp

theorem sent_push {l : List Nat} {n r : Nat} (h : NonDecreasing l ∧ ∀ x ∈ l, x ≤ n) (hr : n ≤ r) :
    NonDecreasing (l ++ [r]) ∧ ∀ x ∈ l ++ [r], x ≤ r := by
  refine ⟨?_, ?_⟩
  · unfold NonDecreasing
    rw [List.pairwise_append]
    refine ⟨h.1, List.pairwise_singleton _ _, ?_⟩
    intro x hx y hy
    rw [List.mem_singleton.mp hy]
    exact Nat.le_trans (h.2 x hx) hr
  · intro x hx
    rcases List.mem_append.mp hx with hx | hx
    · exact Nat.le_trans (h.2 x hx) hr
    · rw [List.mem_singleton.mp hx]
      exact Nat.le_refl _

theorem stOk_status {s : Shared} (h : StOk s) (id : String) (rev : Nat) (b : Bool)
    (hc : ∀ j ∈ s.jobs, j.art.id = id → j.phase ≠ .checked true) : StOk (s.status id rev b) := by
  unfold Shared.status Shared.statusCheck
  simp only
  split
  · exact h
  · rename_i hle
    simp only [if_true]
    refine ⟨fun id' => ?_, fun j hj hp => ?_⟩
    · simp only
      rw [statusRevs_append, statusRevs_append]
      have e : statusRevs (if b = true then [Out.cleared id false] else []) id' = [] := by cases b <;> rfl
      rw [e, List.nil_append]
      by_cases hid : id = id'
      · subst hid
        have e2 : statusRevs [Out.status id rev] id = [rev] := by simp [statusRevs]
        rw [e2, set_eq]
        exact sent_push (h.sent id) (by omega)
      · have e2 : statusRevs [Out.status id rev] id' = [] := by simp [statusRevs, hid]
        rw [e2, List.append_nil, set_ne _ _ (fun e => hid e.symm)]
        exact h.sent id'
    · simp only at hj ⊢
      rw [set_ne _ _ (fun e => hc j hj e hp)]
      exact h.checked j hj hp

theorem emitPending_quiet_of {s : Shared} {p : Proj Path C} (hs : Stage s p) (hc : p.isCompiling = false)
    (hl : ∀ a, p.last = some a → a.id = p.id ∧ a.snap.rev = p.notified) (x : List (Nat × Nat)) (r1 r2 : Reasons) :
    (emitPending { s with verdicts := x } { p with pending := r1, reason := r2 }).1 = { s with verdicts := x } := by
  apply emitPending_quiet
  intro b hb
  obtain ⟨h1, h2⟩ := hl b hb
  simp only
  rw [h1, h2]
  cases hs with
  | idle hc' hj' hb' hn' hr ha => rw [hn']; exact Nat.le_refl _
  | running j0 hc' => rw [hc] at hc'; cases hc'
  | done j0 hc' => rw [hc] at hc'; cases hc'

theorem statusRevs_notify (s : Shared) (a : Art) (b : Bool) (id : String) :
    statusRevs (s.notify a b).outs id = statusRevs s.outs id := by
  unfold Shared.notify
  split
  · rfl
  · simp only
    rw [statusRevs_append]
    simp [statusRevs]

theorem stOk_micro {v w : View Path C} (ho : OrdOk v) (h : StOk v.sh) (hm : Micro true true v w) : StOk w.sh := by
  cases hm with
  | touch | retouch | shade | snapshot | add => exact h
  | suspend s ps u id rev hc =>
    exact stOk_status h id rev true (fun j hj e => hc rfl j hj e true)
  | deliver s l1 p l2 u i a hi hp h1 =>
    simp only
    have h' : StOk { s with inbox := s.inbox.eraseIdx i } := stOk_same h (fun _ => rfl) rfl (fun j hj _ => hj)
    rcases extCompiled_shared { s with inbox := s.inbox.eraseIdx i } p a with e | ⟨b, e⟩
    · rw [e]; exact h'
    · rw [e]
      obtain ⟨e1, e2, -⟩ := notify_keeps { s with inbox := s.inbox.eraseIdx i } b true
      exact stOk_same h' (fun id => statusRevs_notify _ _ _ id) e1 (fun j hj _ => by rw [e2] at hj; exact hj)
  | reason s l1 p l2 u clean =>
    simp only
    rcases anyReason_cases clean s p with ⟨-, e⟩ | ⟨hc, -, -, -, -, e⟩ | ⟨-, -, e⟩ | ⟨hc, hany, -, e⟩
    · rw [e]; exact h
    · rw [e, emitPending_quiet_of (ho.stage p (mem_mid _ _ _)) hc (ho.last p (mem_mid _ _ _))]
      exact stOk_same h (fun _ => rfl) rfl (fun j hj _ => hj)
    · rw [e]; exact h
    · rw [e]
      have hst := ho.stage p (mem_mid _ _ _)
      have hj : jobsOf s p.id = [] := by
        cases hst with
        | idle hc' hj' hb' hn' hr ha => exact hj'
        | running j0 hc' => rw [hc] at hc'; cases hc'
        | done j0 hc' => rw [hc] at hc'; cases hc'
      have hs := stOk_status h p.id p.snapshot.rev false (fun j hj' e => by
        have : j ∈ jobsOf s p.id := List.mem_filter.mpr ⟨hj', by simp [e]⟩
        rw [hj] at this; cases this)
      refine stOk_same hs (fun _ => rfl) rfl ?_
      intro j hj' hp
      simp only at hj'
      rcases List.mem_append.mp hj' with hj' | hj'
      · rw [(status_keeps ..).2.1]; exact hj'
      · rw [List.mem_singleton.mp hj'] at hp
        cases hp
  | remove s l1 p l2 u _ =>
    refine stOk_same h (fun id => ?_) rfl (fun j hj _ => hj)
    simp only
    rw [statusRevs_append]
    simp [statusRevs]
  | check s ps u i a hi =>
    obtain ⟨-, -, -, -, -, e2⟩ := statusCheck_keeps s a.id a.snap.rev
    have huniq : ∀ j ∈ s.jobs, j.art.id = a.id → j = ⟨a, .running⟩ := by
      intro j hj e
      obtain ⟨p, hp, he⟩ := ho.known.1 _ (List.mem_of_getElem? hi)
      simp only at he
      have h1 : (⟨a, .running⟩ : Job) ∈ jobsOf s p.id := List.mem_filter.mpr ⟨List.mem_of_getElem? hi, by simp [he]⟩
      have h2 : j ∈ jobsOf s p.id := List.mem_filter.mpr ⟨hj, by simp [he, e]⟩
      have hst := ho.stage p hp
      cases hst with
      | idle hc' hj' => simp only at hj'; rw [hj'] at h1; cases h1
      | done a hc' hj' => simp only at hj'; rw [hj'] at h1; cases h1
      | running j0 hc' hj' =>
        simp only at hj'
        rw [hj'] at h1 h2
        rw [List.mem_singleton.mp h2, List.mem_singleton.mp h1]
    have hs : (s.statusCheck a.id a.snap.rev = (s, false)) ∨
        (s.statusRev a.id ≤ a.snap.rev ∧
          s.statusCheck a.id a.snap.rev = ({ s with statusRev := set s.statusRev a.id a.snap.rev }, true)) := by
      unfold Shared.statusCheck
      split
      · exact Or.inl rfl
      · exact Or.inr ⟨by omega, rfl⟩
    rcases hs with hs | ⟨hle, hs⟩
    · simp only [hs]
      refine stOk_same h (fun _ => rfl) rfl ?_
      intro j hj hp
      rcases List.mem_or_eq_of_mem_set hj with hj | rfl
      · exact hj
      · cases hp
    · simp only [hs]
      refine ⟨fun id => ?_, ?_⟩
      · simp only
        obtain ⟨g1, g2⟩ := h.sent id
        refine ⟨g1, fun r hr => ?_⟩
        by_cases e : id = a.id
        · subst e
          rw [set_eq]
          exact Nat.le_trans (g2 r hr) hle
        · rw [set_ne _ _ e]; exact g2 r hr
      · intro j hj hp
        simp only at hj ⊢
        rcases List.mem_or_eq_of_mem_set hj with hj | rfl
        · have hne : j.art.id ≠ a.id := by
            intro e
            rw [huniq j hj e] at hp
            cases hp
          rw [set_ne _ _ hne]
          exact h.checked j hj hp
        · simp only
          rw [set_eq]
  | send s ps u i a pass hi =>
    cases pass with
    | false =>
      refine stOk_same h (fun _ => rfl) rfl ?_
      intro j hj hp
      rcases List.mem_or_eq_of_mem_set hj with hj | rfl
      · exact hj
      · cases hp
    | true =>
      have hr := h.checked _ (List.mem_of_getElem? hi) rfl
      simp only at hr
      refine ⟨fun id => ?_, ?_⟩
      · simp only [if_true]
        rw [statusRevs_append]
        by_cases e : a.id = id
        · subst e
          have e2 : statusRevs [Out.status a.id a.snap.rev] a.id = [a.snap.rev] := by simp [statusRevs]
          rw [e2]
          obtain ⟨g1, g2⟩ := sent_push (h.sent a.id) (Nat.le_of_eq hr.symm)
          exact ⟨g1, fun x hx => by rw [← hr]; exact g2 x hx⟩
        · have e2 : statusRevs [Out.status a.id a.snap.rev] id = [] := by simp [statusRevs, e]
          rw [e2, List.append_nil]
          exact h.sent id
      · intro j hj hp
        simp only at hj ⊢
        rcases List.mem_or_eq_of_mem_set hj with hj | rfl
        · exact h.checked j hj hp
        · cases hp
  | notify s ps u i a hi =>
    obtain ⟨e1, e2, -⟩ := notify_keeps s a false
    exact stOk_same h (fun id => statusRevs_notify _ _ _ id) e1 (fun j hj _ => List.mem_of_mem_eraseIdx hj)

theorem stOk_run {inactive : Bool} {h : History Path C} {m : Machine Path C} (hr : run (init inactive) h = some m)
    (ho : Orderly inactive h) (hc : Calm inactive h) : StOk m.sh := by
  refine ((micros_run (o := true) (c := true) hr (fun _ => ho) (fun _ => hc)).inv (I := fun v => OrdOk v ∧ StOk v.sh)
    (fun v w hv hm => ⟨ordOk_micro hv.1 hm, stOk_micro hv.1 hv.2 hm⟩) ⟨ordOk_init inactive, ?_⟩).2
  refine ⟨fun id => ⟨List.Pairwise.nil, fun r hr => (by cases hr)⟩, fun j hj => (by cases hj)⟩

end Tinymist.Project
