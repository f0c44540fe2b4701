import Verif.Lemmas.ProjectMicro
/-! What holds in every history: no change is forgotten, results come in order. -/
namespace Tinymist.Project
variable {Path C : Type} [DecidableEq Path]

theorem Reasons.see_any (a b : Reasons) : (a.see b).any = (a.any || b.any) := by
  cases a; cases b
  simp only [see, any]
  grind

theorem mem_replace {A : Type} {l1 l2 : List A} {p p' q : A} (h : q ∈ l1 ++ p' :: l2) : q = p' ∨ q ∈ l1 ++ p :: l2 := by
  simp only [List.mem_append, List.mem_cons] at h ⊢
  grind

theorem mem_mid {A : Type} (l1 l2 : List A) (p : A) : p ∈ l1 ++ p :: l2 := by simp

theorem status_keeps (s : Shared) (id : String) (rev : Nat) (b : Bool) :
    (s.status id rev b).notifiedRev = s.notifiedRev ∧ (s.status id rev b).jobs = s.jobs ∧
    (s.status id rev b).inbox = s.inbox ∧ (s.status id rev b).issued = s.issued ∧
    (s.status id rev b).verdicts = s.verdicts := by
  unfold Shared.status Shared.statusCheck
  simp only
  split <;> simp

theorem statusCheck_keeps (s : Shared) (id : String) (rev : Nat) :
    (s.statusCheck id rev).1.notifiedRev = s.notifiedRev ∧ (s.statusCheck id rev).1.jobs = s.jobs ∧
    (s.statusCheck id rev).1.inbox = s.inbox ∧ (s.statusCheck id rev).1.issued = s.issued ∧
    (s.statusCheck id rev).1.verdicts = s.verdicts ∧ (s.statusCheck id rev).1.outs = s.outs := by
  unfold Shared.statusCheck
  split <;> simp

theorem notify_keeps (s : Shared) (a : Art) (b : Bool) :
    (s.notify a b).statusRev = s.statusRev ∧ (s.notify a b).jobs = s.jobs ∧
    (s.notify a b).issued = s.issued ∧ (s.notify a b).verdicts = s.verdicts := by
  unfold Shared.notify
  split <;> simp

theorem emitPending_shared (s : Shared) (p : Proj Path C) :
    (emitPending s p).1 = s ∨ ∃ a, (emitPending s p).1 = s.notify a true := by
  unfold emitPending
  split
  · exact Or.inl rfl
  · split
    · exact Or.inl rfl
    · simp only
      split
      · exact Or.inl rfl
      · exact Or.inr ⟨_, rfl⟩

theorem extCompiled_shared (s : Shared) (p : Proj Path C) (a : Art) :
    (extCompiled s p a).1 = s ∨ ∃ b, (extCompiled s p a).1 = s.notify b true := by
  unfold extCompiled
  split
  · exact Or.inl rfl
  · exact emitPending_shared _ _

theorem anyReason_cases (clean : Bool) (s : Shared) (p : Proj Path C) :
    (p.isCompiling = true ∧ anyReason clean s p = (s, p)) ∨
    (p.isCompiling = false ∧ p.last.isSome = true ∧ p.reason.any = true ∧ clean = true ∧ p.reason.entry = false ∧
      anyReason clean s p = emitPending { s with verdicts := s.verdicts ++ [(p.uid, p.stamp)] }
        { p with pending := p.pending.see p.reason, reason := .none }) ∨
    (p.isCompiling = false ∧ (p.reason.any = false ∨ p.inactive = true) ∧
      anyReason clean s p = (s, { p with pending := .none, emitted := p.reason })) ∨
    (p.isCompiling = false ∧ p.reason.any = true ∧ p.inactive = false ∧
      anyReason clean s p =
        ({ s.status p.id p.snapshot.rev false with
            jobs := s.jobs ++ [⟨⟨p.id, p.uid, p.snapshot⟩, .running⟩]
            issued := s.issued ++ [⟨p.id, p.uid, p.snapshot⟩] },
          { p with pending := .none, emitted := p.reason, snap := some p.snapshot, reason := .none, isCompiling := true })) := by
  unfold anyReason
  by_cases hc : p.isCompiling = true
  · left
    rw [if_pos hc]
    exact ⟨hc, rfl⟩
  · right
    rw [if_neg hc]
    have hc' : p.isCompiling = false := by simpa using hc
    simp only
    split
    · rename_i hv
      left
      simp only [Bool.and_eq_true, Bool.not_eq_true'] at hv
      refine ⟨hc', hv.1.2, hv.1.1.1, hv.2, ?_, rfl⟩
      have h2 := hv.1.1.2
      generalize p.reason = r at h2
      cases r
      simp only [Reasons.exclude, Reasons.any] at h2
      grind
    · right
      unfold mayCompile
      by_cases hr : (!p.reason.any || p.inactive) = true
      · left
        simp only [hr, if_true]
        refine ⟨hc', ?_, trivial⟩
        simpa using hr
      · right
        simp only [hr]
        simp only [Bool.or_eq_true, Bool.not_eq_true', not_or, Bool.not_eq_false, Bool.not_eq_true] at hr
        refine ⟨hc', hr.1, hr.2, ?_⟩
        obtain ⟨-, e1, -, e2, -⟩ := status_keeps s p.id p.snapshot.rev false
        rw [← e1, ← e2]
        rfl

theorem snapshot_rev (p : Proj Path C) : p.snapshot.rev = p.rev := by
  unfold Proj.snapshot
  split
  · split
    · assumption
    · rfl
  · rfl

/-- The cached snapshot is of the present state if its revision is the present one. -/
def SnapOk (p : Proj Path C) : Prop := ∀ s, p.snap = some s → s.rev ≤ p.rev ∧ (s.rev = p.rev → s.stamp = p.stamp)

theorem snapshot_stamp {p : Proj Path C} (h : SnapOk p) : p.snapshot.stamp = p.stamp := by
  unfold Proj.snapshot
  split
  · rename_i s hs
    split
    · rename_i e; exact (h s hs).2 e
    · rfl
  · rfl

theorem snapOk_snapshot {p : Proj Path C} (h : SnapOk p) : ∀ s, some p.snapshot = some s → s.rev ≤ p.rev ∧ (s.rev = p.rev → s.stamp = p.stamp) := by
  intro s hs
  injection hs with hs
  subst hs
  exact ⟨Nat.le_of_eq (snapshot_rev p), fun _ => snapshot_stamp h⟩

theorem covered_mono {s s' : Shared} {p p' : Proj Path C} (hi : ∀ a ∈ s.issued, a ∈ s'.issued)
    (hv : ∀ x ∈ s.verdicts, x ∈ s'.verdicts) (hu : p'.uid = p.uid) (hs : p'.stamp = p.stamp) (h : Covered s p) :
    Covered s' p' := by
  unfold Covered at h ⊢
  rw [hu, hs]
  rcases h with h | ⟨a, h1, h2⟩ | h
  · exact Or.inl h
  · exact Or.inr (Or.inl ⟨a, hi a h1, h2⟩)
  · exact Or.inr (Or.inr (hv _ h))

/-! Results are reported in order -/

theorem resultRevs_snoc (outs : List Out) (o : Out) (id : String) : resultRevs (outs ++ [o]) id =
    match o with
    | .result i r _ _ => if i = id then resultRevs outs id ++ [r] else resultRevs outs id
    | .cleared i true => if i = id then [] else resultRevs outs id
    | _ => resultRevs outs id := by
  unfold resultRevs
  rw [List.foldl_append]
  rfl

theorem resultRevs_status (s : Shared) (id id' : String) (rev : Nat) (b : Bool) :
    resultRevs (s.status id' rev b).outs id = resultRevs s.outs id := by
  unfold Shared.status Shared.statusCheck
  simp only
  split
  · simp
  · simp only [if_true]
    rw [← List.append_assoc, resultRevs_snoc]
    simp only
    cases b
    · simp
    · simp only [if_true]
      rw [resultRevs_snoc]

def RevsOk (s : Shared) : Prop :=
  ∀ id, Increasing (resultRevs s.outs id) ∧ ∀ r ∈ resultRevs s.outs id, 0 < r ∧ r ≤ s.notifiedRev id

theorem revsOk_same {s s' : Shared} (h : RevsOk s) (ho : ∀ id, resultRevs s'.outs id = resultRevs s.outs id)
    (hn : s'.notifiedRev = s.notifiedRev) : RevsOk s' := by
  intro id
  rw [ho, hn]
  exact h id

theorem revsOk_notify {s : Shared} (h : RevsOk s) (a : Art) (b : Bool) : RevsOk (s.notify a b) := by
  unfold Shared.notify
  split
  · exact h
  · rename_i hn
    intro id
    simp only
    rw [resultRevs_snoc]
    simp only
    by_cases e : a.id = id
    · subst e
      rw [if_pos rfl, set_eq]
      refine ⟨?_, ?_⟩
      · unfold Increasing
        rw [List.pairwise_append]
        refine ⟨(h a.id).1, List.pairwise_singleton _ _, ?_⟩
        intro x hx y hy
        rw [List.mem_singleton.mp hy]
        have := (h a.id).2 x hx
        omega
      · intro r hr
        rcases List.mem_append.mp hr with hr | hr
        · have := (h a.id).2 r hr
          omega
        · rw [List.mem_singleton.mp hr]
          omega
    · rw [if_neg e, set_ne _ _ (fun e' => e e'.symm)]
      exact h id

theorem revsOk_micro {o c : Bool} {v w : View Path C} (h : RevsOk v.sh) (hm : Micro o c v w) : RevsOk w.sh := by
  cases hm with
  | touch | retouch | shade | snapshot | add => exact h
  | suspend s ps u id rev _ =>
    exact revsOk_same h (fun id' => resultRevs_status s id' id rev true) (status_keeps ..).1
  | deliver s l1 p l2 u i a hi hp h1 =>
    have h' : RevsOk { s with inbox := s.inbox.eraseIdx i } := revsOk_same h (fun _ => rfl) rfl
    simp only
    rcases extCompiled_shared { s with inbox := s.inbox.eraseIdx i } p a with e | ⟨b, e⟩
    · rw [e]; exact h'
    · rw [e]; exact revsOk_notify h' _ _
  | reason s l1 p l2 u clean =>
    simp only
    rcases anyReason_cases clean s p with ⟨-, e⟩ | ⟨-, -, -, -, -, e⟩ | ⟨-, -, e⟩ | ⟨-, -, -, e⟩
    · rw [e]; exact h
    · rw [e]
      have h' : RevsOk { s with verdicts := s.verdicts ++ [(p.uid, p.stamp)] } := revsOk_same h (fun _ => rfl) rfl
      rcases emitPending_shared { s with verdicts := s.verdicts ++ [(p.uid, p.stamp)] }
        { p with pending := p.pending.see p.reason, reason := .none } with e | ⟨b, e⟩
      · rw [e]; exact h'
      · rw [e]; exact revsOk_notify h' _ _
    · rw [e]; exact h
    · rw [e]
      exact revsOk_same h (fun id' => resultRevs_status s id' _ _ _) (status_keeps ..).1
  | remove s l1 p l2 u _ =>
    intro id
    simp only
    rw [resultRevs_snoc]
    simp only
    by_cases e : p.id = id
    · subst e
      rw [if_pos rfl]
      exact ⟨List.Pairwise.nil, fun r hr => (by cases hr)⟩
    · rw [if_neg e, set_ne _ _ (fun e' => e e'.symm)]
      exact h id
  | check s ps u i a hi =>
    obtain ⟨e1, -, -, -, -, e2⟩ := statusCheck_keeps s a.id a.snap.rev
    refine revsOk_same h (fun id => ?_) e1
    simp only
    rw [e2]
  | send s ps u i a pass hi =>
    refine revsOk_same h (fun id => ?_) rfl
    cases pass
    · rfl
    · simp only [if_true]
      rw [resultRevs_snoc]
  | notify s ps u i a hi =>
    exact revsOk_same (revsOk_notify h a false) (fun _ => rfl) rfl

/-! No change is forgotten -/

structure CovOk (v : View Path C) : Prop where
  cov : ∀ p ∈ v.ps, p.reason.any = true ∨ Covered v.sh p
  snap : ∀ p ∈ v.ps, SnapOk p
  uid : (∀ p ∈ v.ps, p.uid < v.uid) ∧ (∀ a ∈ v.sh.issued, a.uid < v.uid) ∧ (∀ x ∈ v.sh.verdicts, x.1 < v.uid) ∧
    (v.ps.map (·.uid)).Nodup

theorem covOk_sh {v w : View Path C} (h : CovOk v) (hp : w.ps = v.ps) (hu : w.uid = v.uid) (hi : w.sh.issued = v.sh.issued)
    (hv : w.sh.verdicts = v.sh.verdicts) : CovOk w := by
  refine ⟨?_, ?_, ?_⟩
  · intro p hp'
    rw [hp] at hp'
    rcases h.cov p hp' with h | h
    · exact Or.inl h
    · exact Or.inr (covered_mono (by rw [hi]; exact fun _ h => h) (by rw [hv]; exact fun _ h => h) rfl rfl h)
  · rw [hp]; exact h.snap
  · rw [hp, hu, hi, hv]; exact h.uid

/-- One project changes. -/
theorem covOk_one {s s' : Shared} {l1 l2 : List (Proj Path C)} {p p' : Proj Path C} {u : Nat}
    (h : CovOk ⟨s, l1 ++ p :: l2, u⟩) (hu : p'.uid = p.uid) (hs : SnapOk p → SnapOk p')
    (hi : ∀ a ∈ s.issued, a ∈ s'.issued) (hi' : ∀ a ∈ s'.issued, a ∈ s.issued ∨ a.uid = p.uid)
    (hv : ∀ x ∈ s.verdicts, x ∈ s'.verdicts) (hv' : ∀ x ∈ s'.verdicts, x ∈ s.verdicts ∨ x.1 = p.uid)
    (hc : SnapOk p → (p.reason.any = true ∨ Covered s p) → p'.reason.any = true ∨ Covered s' p') :
    CovOk ⟨s', l1 ++ p' :: l2, u⟩ := by
  have hm := mem_mid l1 l2 p
  refine ⟨?_, ?_, ?_, ?_, ?_, ?_⟩
  · intro q hq
    rcases mem_replace (p := p) hq with rfl | hq
    · exact hc (h.snap p hm) (h.cov p hm)
    · rcases h.cov q hq with h | h
      · exact Or.inl h
      · exact Or.inr (covered_mono hi hv rfl rfl h)
  · intro q hq
    rcases mem_replace (p := p) hq with rfl | hq
    · exact hs (h.snap p hm)
    · exact h.snap q hq
  · intro q hq
    rcases mem_replace (p := p) hq with rfl | hq
    · rw [hu]; exact h.uid.1 p hm
    · exact h.uid.1 q hq
  · intro a ha
    rcases hi' a ha with ha | ha
    · exact h.uid.2.1 a ha
    · simp only; rw [ha]; exact h.uid.1 p hm
  · intro x hx
    rcases hv' x hx with hx | hx
    · exact h.uid.2.2.1 x hx
    · simp only; rw [hx]; exact h.uid.1 p hm
  · have := h.uid.2.2.2
    simp only [List.map_append, List.map_cons] at this ⊢
    rw [hu]; exact this

theorem covOk_keep {s : Shared} {l1 l2 : List (Proj Path C)} {p p' : Proj Path C} {u : Nat}
    (h : CovOk ⟨s, l1 ++ p :: l2, u⟩) (hu : p'.uid = p.uid) (hs : SnapOk p → SnapOk p')
    (hc : SnapOk p → (p.reason.any = true ∨ Covered s p) → p'.reason.any = true ∨ Covered s p') :
    CovOk ⟨s, l1 ++ p' :: l2, u⟩ :=
  covOk_one h hu hs (fun _ h => h) (fun _ h => Or.inl h) (fun _ h => h) (fun _ h => Or.inl h) hc

theorem covOk_micro {o c : Bool} {v w : View Path C} (h : CovOk v) (hm : Micro o c v w) : CovOk w := by
  cases hm with
  | touch s l1 p l2 u r ina shad hr =>
    refine covOk_keep h rfl ?_ ?_
    · intro hs t ht
      have := hs t ht
      refine ⟨by simp only; omega, fun e => ?_⟩
      simp only at e; omega
    · intro _ _
      left
      simp only
      rw [Reasons.see_any, hr, Bool.or_true]
  | retouch s l1 p l2 u r hr ho =>
    refine covOk_keep h rfl (fun h => h) ?_
    intro _ _
    left
    simp only
    rw [Reasons.see_any, hr, Bool.or_true]
  | shade s l1 p l2 u shad => exact covOk_keep h rfl (fun h => h) (fun _ h => h)
  | suspend s ps u id rev _ =>
    obtain ⟨-, -, -, e1, e2⟩ := status_keeps s id rev true
    exact covOk_sh h rfl rfl e1 e2
  | deliver s l1 p l2 u i a hi hp h1 =>
    obtain ⟨-, -, k3, k4, k5, -, -, k8, k9⟩ := extCompiled_keeps { s with inbox := s.inbox.eraseIdx i } p a
    obtain ⟨-, -, c3, c4, c5, -, c7, c8, -⟩ := commit_keeps (extCompiled { s with inbox := s.inbox.eraseIdx i } p a).2 a
    have he : (extCompiled { s with inbox := s.inbox.eraseIdx i } p a).1.issued = s.issued ∧
        (extCompiled { s with inbox := s.inbox.eraseIdx i } p a).1.verdicts = s.verdicts := by
      rcases extCompiled_shared { s with inbox := s.inbox.eraseIdx i } p a with e | ⟨b, e⟩
      · rw [e]; exact ⟨rfl, rfl⟩
      · rw [e]
        exact ⟨(notify_keeps ..).2.2.1, (notify_keeps ..).2.2.2⟩
    refine covOk_one h (c3.trans k3) ?_ (by rw [he.1]; exact fun _ h => h) (by rw [he.1]; exact fun _ h => Or.inl h)
      (by rw [he.2]; exact fun _ h => h) (by rw [he.2]; exact fun _ h => Or.inl h) ?_
    · intro hs
      unfold SnapOk
      rw [c8, k9, c5, k5, c4, k4]
      exact hs
    · intro _ hc
      rw [c7, k8]
      rcases hc with hc | hc
      · exact Or.inl hc
      · exact Or.inr (covered_mono (by rw [he.1]; exact fun _ h => h) (by rw [he.2]; exact fun _ h => h) (c3.trans k3) (c4.trans k4) hc)
  | reason s l1 p l2 u clean =>
    rcases anyReason_cases clean s p with ⟨-, e⟩ | ⟨-, -, -, -, -, e⟩ | ⟨-, -, e⟩ | ⟨-, -, -, e⟩
    · rw [e]; exact h
    · rw [e]
      generalize hs : ({ s with verdicts := s.verdicts ++ [(p.uid, p.stamp)] } : Shared) = s'
      generalize hq : ({ p with pending := p.pending.see p.reason, reason := .none } : Proj Path C) = q
      obtain ⟨-, -, k3, k4, k5, -, -, k8, k9, -⟩ := emitPending_keeps s' q
      have he : (emitPending s' q).1.issued = s.issued ∧ (emitPending s' q).1.verdicts = s.verdicts ++ [(p.uid, p.stamp)] := by
        rcases emitPending_shared s' q with e | ⟨b, e⟩
        · rw [e, ← hs]; exact ⟨rfl, rfl⟩
        · rw [e, (notify_keeps ..).2.2.1, (notify_keeps ..).2.2.2, ← hs]
          exact ⟨rfl, rfl⟩
      have qu : q.uid = p.uid := by rw [← hq]
      have qs : q.stamp = p.stamp := by rw [← hq]
      refine covOk_one h (k3.trans qu) ?_ (by rw [he.1]; exact fun _ h => h) (by rw [he.1]; exact fun _ h => Or.inl h)
        (by rw [he.2]; exact fun _ h => List.mem_append_left _ h)
        (by
          rw [he.2]
          intro x hx
          rcases List.mem_append.mp hx with hx | hx
          · exact Or.inl hx
          · right; rw [List.mem_singleton.mp hx]) ?_
      · intro hso
        unfold SnapOk
        rw [k9, k5, k4, ← hq]
        exact hso
      · intro _ _
        right
        unfold Covered
        rw [k3, k4, qu, qs, he.2]
        exact Or.inr (Or.inr (List.mem_append_right _ (List.mem_singleton.mpr rfl)))
    · rw [e]
      exact covOk_keep h rfl (fun h => h) (fun _ h => h)
    · rw [e]
      refine covOk_one h rfl (fun hs => snapOk_snapshot hs) (fun a ha => List.mem_append_left _ ha) ?_
        (by rw [(status_keeps ..).2.2.2.2]; exact fun _ h => h) (by rw [(status_keeps ..).2.2.2.2]; exact fun _ h => Or.inl h) ?_
      · intro a ha
        rcases List.mem_append.mp ha with ha | ha
        · exact Or.inl ha
        · right; rw [List.mem_singleton.mp ha]
      · intro hs _
        right
        right
        left
        exact ⟨_, List.mem_append_right _ (List.mem_singleton.mpr rfl), rfl, snapshot_stamp hs⟩
  | snapshot s l1 p l2 u => exact covOk_keep h rfl (fun hs => snapOk_snapshot hs) (fun _ h => h)
  | remove s l1 p l2 u ho =>
    have hsub : (l1 ++ l2).Sublist (l1 ++ p :: l2) := by simp
    refine ⟨?_, fun q hq => h.snap q (hsub.subset hq), fun q hq => h.uid.1 q (hsub.subset hq), h.uid.2.1, h.uid.2.2.1,
      h.uid.2.2.2.sublist (hsub.map _)⟩
    intro q hq
    rcases h.cov q (hsub.subset hq) with h | h
    · exact Or.inl h
    · exact Or.inr (covered_mono (fun _ h => h) (fun _ h => h) rfl rfl h)
  | add s ps u g ina shad ho =>
    refine ⟨?_, ?_, ?_, ?_, ?_, ?_⟩
    · intro q hq
      rcases List.mem_append.mp hq with hq | hq
      · exact h.cov q hq
      · left; rw [List.mem_singleton.mp hq]; rfl
    · intro q hq
      rcases List.mem_append.mp hq with hq | hq
      · exact h.snap q hq
      · rw [List.mem_singleton.mp hq]
        intro s hs
        cases hs
    · intro q hq
      rcases List.mem_append.mp hq with hq | hq
      · exact Nat.lt_succ_of_lt (h.uid.1 q hq)
      · rw [List.mem_singleton.mp hq]
        exact Nat.lt_succ_self _
    · intro a ha
      exact Nat.lt_succ_of_lt (h.uid.2.1 a ha)
    · intro a ha
      exact Nat.lt_succ_of_lt (h.uid.2.2.1 a ha)
    · rw [List.map_append, List.nodup_append]
      refine ⟨h.uid.2.2.2, by simp, ?_⟩
      intro a ha b hb
      obtain ⟨q, hq, rfl⟩ := List.mem_map.mp ha
      rw [List.map_singleton] at hb
      rw [List.mem_singleton.mp hb]
      have := h.uid.1 q hq
      simp only at this
      simp only [newProj]
      omega
  | check s ps u i a hi =>
    obtain ⟨-, -, -, e1, e2, -⟩ := statusCheck_keeps s a.id a.snap.rev
    exact covOk_sh h rfl rfl e1 e2
  | send s ps u i a pass hi => exact covOk_sh h rfl rfl rfl rfl
  | notify s ps u i a hi =>
    obtain ⟨-, -, e1, e2⟩ := notify_keeps s a false
    exact covOk_sh h rfl rfl e1 e2

theorem covOk_run {inactive : Bool} {h : History Path C} {m : Machine Path C} (hr : run (init inactive) h = some m) :
    CovOk m.view := by
  refine (micros_run (o := false) (c := false) hr (by simp) (by simp)).inv (fun v w hv hm => covOk_micro hv hm) ?_
  refine ⟨?_, ?_, ?_, ?_, ?_, ?_⟩
  · intro p hp
    rw [List.mem_singleton.mp hp]
    exact Or.inr (Or.inl rfl)
  · intro p hp
    rw [List.mem_singleton.mp hp]
    intro s hs
    cases hs
  · intro p hp
    rw [List.mem_singleton.mp hp]
    exact Nat.lt_succ_self _
  · intro a ha; cases ha
  · intro a ha; cases ha
  · simp [init, Machine.view, Machine.projects]

theorem revsOk_run {inactive : Bool} {h : History Path C} {m : Machine Path C} (hr : run (init inactive) h = some m) :
    RevsOk m.sh := by
  refine (micros_run (o := false) (c := false) hr (by simp) (by simp)).inv (I := fun v => RevsOk v.sh)
    (fun v w hv hm => revsOk_micro hv hm) ?_
  intro id
  exact ⟨List.Pairwise.nil, fun r hr => (by cases hr)⟩

/-- After the main thread looked at all projects. -/
theorem eachProj_done (clean : String → Bool) (s : Shared) (l : List (Proj Path C)) :
    ∀ p ∈ (eachProj (fun s p => anyReason (clean p.id) s p) s l).2,
      p.isCompiling = true ∨ p.inactive = true ∨ p.reason.any = false := by
  induction l generalizing s with
  | nil => intro p hp; cases hp
  | cons q l ih =>
    intro p hp
    simp only [eachProj] at hp
    rcases List.mem_cons.mp hp with rfl | hp
    · rcases anyReason_cases (clean q.id) s q with ⟨hc, e⟩ | ⟨-, -, -, -, -, e⟩ | ⟨-, hr, e⟩ | ⟨-, -, -, e⟩
      · rw [e]; exact Or.inl hc
      · rw [e]
        right; right
        rw [(emitPending_keeps ..).2.2.2.2.2.2.2.1]
        rfl
      · rw [e]
        rcases hr with hr | hr
        · exact Or.inr (Or.inr hr)
        · exact Or.inr (Or.inl hr)
      · rw [e]
        exact Or.inl rfl
    · exact ih _ p hp

/-! Commits -/

theorem micro_committed {o c : Bool} {v w : View Path C} (hm : Micro o c v w) :
    v.uid ≤ w.uid ∧ ∀ p' ∈ w.ps, (∃ p ∈ v.ps, p.uid = p'.uid ∧ p.committed ≤ p'.committed) ∨ v.uid ≤ p'.uid := by
  have one : ∀ (l1 l2 : List (Proj Path C)) (p q : Proj Path C), q.uid = p.uid → p.committed ≤ q.committed →
      ∀ p' ∈ l1 ++ q :: l2, ∃ p0 ∈ l1 ++ p :: l2, p0.uid = p'.uid ∧ p0.committed ≤ p'.committed := by
    intro l1 l2 p q hu hc p' hp'
    rcases mem_replace (p := p) hp' with rfl | h
    · exact ⟨p, mem_mid _ _ _, hu.symm, hc⟩
    · exact ⟨p', h, rfl, Nat.le_refl _⟩
  cases hm with
  | touch | retouch | shade | snapshot =>
    refine ⟨Nat.le_refl _, fun p' hp' => Or.inl ?_⟩
    refine one _ _ _ _ ?_ ?_ p' hp'
    · rfl
    · exact Nat.le_refl _
  | deliver s l1 p l2 u i a hi hp h1 =>
    refine ⟨Nat.le_refl _, fun p' hp' => Or.inl (one _ _ _ _ ?_ ?_ p' hp')⟩
    · exact (commit_keeps _ _).2.2.1.trans (extCompiled_keeps _ _ _).2.2.1
    · have e := (extCompiled_keeps { s with inbox := s.inbox.eraseIdx i } p a).2.2.2.2.2.2.1
      generalize (extCompiled { s with inbox := s.inbox.eraseIdx i } p a).2 = q at e
      rw [← e]
      unfold Proj.commit
      split
      · exact Nat.le_refl _
      · simp only; omega
  | reason s l1 p l2 u clean =>
    refine ⟨Nat.le_refl _, fun p' hp' => Or.inl (one _ _ _ _ ?_ ?_ p' hp')⟩
    · exact (anyReason_keeps ..).2.2.1
    · exact Nat.le_of_eq (anyReason_keeps clean s p).2.2.2.2.2.2.1.symm
  | remove s l1 p l2 u _ =>
    refine ⟨Nat.le_refl _, fun p' hp' => Or.inl ⟨p', ?_, rfl, Nat.le_refl _⟩⟩
    simp only [List.mem_append, List.mem_cons] at hp' ⊢
    grind
  | add s ps u g ina shad _ =>
    refine ⟨Nat.le_succ _, fun p' hp' => ?_⟩
    rcases List.mem_append.mp hp' with h | h
    · exact Or.inl ⟨p', h, rfl, Nat.le_refl _⟩
    · right
      rw [List.mem_singleton.mp h]
      exact Nat.le_refl _
  | suspend | check | send | notify => exact ⟨Nat.le_refl _, fun p' hp' => Or.inl ⟨p', hp', rfl, Nat.le_refl _⟩⟩

theorem micros_committed {o c : Bool} {v w : View Path C} (hm : Micros o c v w) :
    v.uid ≤ w.uid ∧ ∀ p' ∈ w.ps, (∃ p ∈ v.ps, p.uid = p'.uid ∧ p.committed ≤ p'.committed) ∨ v.uid ≤ p'.uid := by
  induction hm with
  | refl => exact ⟨Nat.le_refl _, fun p' hp' => Or.inl ⟨p', hp', rfl, Nat.le_refl _⟩⟩
  | tail _ m ih =>
    obtain ⟨h1, h2⟩ := ih
    obtain ⟨g1, g2⟩ := micro_committed m
    refine ⟨Nat.le_trans h1 g1, fun p' hp' => ?_⟩
    rcases g2 p' hp' with ⟨q, hq, e, hc⟩ | h
    · rcases h2 q hq with ⟨p, hp, e', hc'⟩ | h
      · exact Or.inl ⟨p, hp, e'.trans e, Nat.le_trans hc' hc⟩
      · exact Or.inr (by omega)
    · exact Or.inr (Nat.le_trans h1 h)

end Tinymist.Project
