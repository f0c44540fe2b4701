import Verif.Lemmas.ProjectGen
/-! What holds when projects are not removed while they compile. -/
namespace Tinymist.Project
variable {Path C : Type} [DecidableEq Path]

def jobsOf (s : Shared) (id : String) : List Job := s.jobs.filter (fun j => j.art.id = id)
def boxOf (s : Shared) (id : String) : List Art := s.inbox.filter (fun a => a.id = id)

theorem inFlight_eq (s : Shared) (id : String) : s.inFlight id = (jobsOf s id).map (·.art) ++ boxOf s id := by
  unfold Shared.inFlight jobsOf boxOf
  rw [List.filter_append]
  congr 1
  rw [List.filter_map]
  rfl

theorem inFlight_nil {s : Shared} {id : String} (h : s.inFlight id = []) : jobsOf s id = [] ∧ boxOf s id = [] := by
  rw [inFlight_eq, List.append_eq_nil_iff, List.map_eq_nil_iff] at h
  exact h

theorem filter_single {A : Type} {P : A → Bool} {l : List A} {x y : A} {i : Nat} (h : l.filter P = [x]) (hi : l[i]? = some y)
    (hy : P y = true) :
    y = x ∧ ∃ l1 l2, l = l1 ++ x :: l2 ∧ l1.filter P = [] ∧ l2.filter P = [] ∧ (∀ z, l.set i z = l1 ++ z :: l2) ∧
      l.eraseIdx i = l1 ++ l2 := by
  obtain ⟨hlt, he⟩ := List.getElem?_eq_some_iff.mp hi
  have hs : l = l.take i ++ y :: l.drop (i + 1) := by rw [← he]; simp
  have hf := h
  rw [hs, List.filter_append, List.filter_cons_of_pos hy] at hf
  have : (l.take i).filter P = [] ∧ y = x ∧ (l.drop (i + 1)).filter P = [] := by
    cases ht : (l.take i).filter P with
    | nil =>
      rw [ht, List.nil_append] at hf
      injection hf with h1 h2
      exact ⟨rfl, h1, h2⟩
    | cons z t =>
      rw [ht] at hf
      simp at hf
  obtain ⟨h1, rfl, h2⟩ := this
  exact ⟨rfl, l.take i, l.drop (i + 1), hs, h1, h2, fun z => by
    rw [List.set_eq_take_append_cons_drop, if_pos hlt], List.eraseIdx_eq_take_drop_succ _ _⟩

theorem filter_set_other {A : Type} {P : A → Bool} {l : List A} {y z : A} {i : Nat} (hi : l[i]? = some y)
    (hy : P y = false) (hz : P z = false) : (l.set i z).filter P = l.filter P := by
  obtain ⟨hlt, he⟩ := List.getElem?_eq_some_iff.mp hi
  have hs : l = l.take i ++ y :: l.drop (i + 1) := by rw [← he]; simp
  rw [List.set_eq_take_append_cons_drop, if_pos hlt, List.filter_append, List.filter_cons_of_neg (by simp [hz])]
  conv => rhs; rw [hs, List.filter_append, List.filter_cons_of_neg (by simp [hy])]

theorem filter_erase_other {A : Type} {P : A → Bool} {l : List A} {y : A} {i : Nat} (hi : l[i]? = some y)
    (hy : P y = false) : (l.eraseIdx i).filter P = l.filter P := by
  obtain ⟨hlt, he⟩ := List.getElem?_eq_some_iff.mp hi
  have hs : l = l.take i ++ y :: l.drop (i + 1) := by rw [← he]; simp
  rw [List.eraseIdx_eq_take_drop_succ, List.filter_append]
  conv => rhs; rw [hs, List.filter_append, List.filter_cons_of_neg (by simp [hy])]

/-- A project and what is under way for it. -/
inductive Stage (s : Shared) (p : Proj Path C) : Prop
  | idle (hc : p.isCompiling = false) (hj : jobsOf s p.id = []) (hb : boxOf s p.id = [])
      (hn : s.notifiedRev p.id = p.notified) (hr : p.notified ≤ p.rev) (ha : p.reason.any = true → p.notified < p.rev)
  | running (j : Job) (hc : p.isCompiling = true) (hj : jobsOf s p.id = [j]) (hb : boxOf s p.id = [])
      (hu : j.art.uid = p.uid) (hn : s.notifiedRev p.id = p.notified) (hn' : p.notified < j.art.snap.rev)
      (hr : j.art.snap.rev ≤ p.rev) (ha : p.reason.any = true → j.art.snap.rev < p.rev)
  | done (a : Art) (hc : p.isCompiling = true) (hj : jobsOf s p.id = []) (hb : boxOf s p.id = [a])
      (hu : a.uid = p.uid) (hn : s.notifiedRev p.id = a.snap.rev) (hn' : p.notified < a.snap.rev)
      (hr : a.snap.rev ≤ p.rev) (ha : p.reason.any = true → a.snap.rev < p.rev)

structure OrdOk (v : View Path C) : Prop where
  nodup : (v.ps.map (·.id)).Nodup
  known : (∀ j ∈ v.sh.jobs, ∃ p ∈ v.ps, p.id = j.art.id) ∧ (∀ a ∈ v.sh.inbox, ∃ p ∈ v.ps, p.id = a.id)
  fresh : ∀ id, id ∉ v.ps.map (·.id) → v.sh.notifiedRev id = 0
  stage : ∀ p ∈ v.ps, Stage v.sh p
  last : ∀ p ∈ v.ps, ∀ a, p.last = some a → a.id = p.id ∧ a.snap.rev = p.notified
  again : ∀ o ∈ v.sh.outs, ∀ id rev signal, o ≠ .result id rev signal true

theorem emitPending_quiet {s : Shared} {p : Proj Path C} (h : ∀ a, p.last = some a → s.notifiedRev a.id ≥ a.snap.rev) :
    (emitPending s p).1 = s := by
  unfold emitPending
  split
  · rfl
  · rename_i a ha
    split
    · rfl
    · simp only
      split
      · rfl
      · simp only [Shared.notify]
        rw [if_pos (h a ha)]

/-- A change that concerns one project only. -/
theorem ordOk_one {s s' : Shared} {l1 l2 : List (Proj Path C)} {p p' : Proj Path C} {u u' : Nat}
    (h : OrdOk ⟨s, l1 ++ p :: l2, u⟩) (hid : p'.id = p.id)
    (hj : ∀ id, id ≠ p.id → jobsOf s' id = jobsOf s id) (hb : ∀ id, id ≠ p.id → boxOf s' id = boxOf s id)
    (hn : ∀ id, id ≠ p.id → s'.notifiedRev id = s.notifiedRev id)
    (hst : Stage s' p') (hl : ∀ a, p'.last = some a → a.id = p'.id ∧ a.snap.rev = p'.notified)
    (hag : ∀ o ∈ s'.outs, ∀ id rev signal, o ≠ .result id rev signal true) : OrdOk ⟨s', l1 ++ p' :: l2, u'⟩ := by
  have hids : (l1 ++ p' :: l2).map (·.id) = (l1 ++ p :: l2).map (·.id) := by simp [hid]
  have hother : ∀ q ∈ l1 ++ p' :: l2, q = p' ∨ (q ∈ l1 ++ p :: l2 ∧ q.id ≠ p.id) := by
    intro q hq
    have hnd : ((l1 ++ p :: l2).map (·.id)).Nodup := h.nodup
    rw [List.map_append, List.map_cons, List.nodup_append] at hnd
    obtain ⟨-, h2, h3⟩ := hnd
    rw [List.nodup_cons] at h2
    simp only [List.mem_append, List.mem_cons] at hq
    rcases hq with hq | rfl | hq
    · right
      exact ⟨by simp [hq], h3 _ (List.mem_map_of_mem hq) _ (List.mem_cons_self ..)⟩
    · exact Or.inl rfl
    · right
      refine ⟨by simp [hq], fun e => h2.1 ?_⟩
      rw [← e]; exact List.mem_map_of_mem hq
  have hknown : ∀ id, (∃ q ∈ l1 ++ p :: l2, q.id = id) → ∃ q ∈ l1 ++ p' :: l2, q.id = id := by
    rintro id ⟨q, hq, rfl⟩
    rcases mem_replace (p := p') hq with rfl | hq
    · exact ⟨p', mem_mid _ _ _, hid⟩
    · exact ⟨q, hq, rfl⟩
  refine ⟨by rw [hids]; exact h.nodup, ⟨?_, ?_⟩, ?_, ?_, ?_, hag⟩
  · intro j hj'
    apply hknown
    by_cases e : j.art.id = p.id
    · exact ⟨p, mem_mid _ _ _, e.symm⟩
    · have : j ∈ jobsOf s' j.art.id := List.mem_filter.mpr ⟨hj', by simp⟩
      rw [hj _ e] at this
      exact h.known.1 j (List.mem_filter.mp this).1
  · intro a ha
    apply hknown
    by_cases e : a.id = p.id
    · exact ⟨p, mem_mid _ _ _, e.symm⟩
    · have : a ∈ boxOf s' a.id := List.mem_filter.mpr ⟨ha, by simp⟩
      rw [hb _ e] at this
      exact h.known.2 a (List.mem_filter.mp this).1
  · intro id hid'
    simp only at hid'
    rw [hids] at hid'
    have : id ≠ p.id := by
      rintro rfl
      exact hid' (List.mem_map_of_mem (mem_mid _ _ _))
    simp only
    rw [hn _ this]
    exact h.fresh id hid'
  · intro q hq
    rcases hother q hq with rfl | ⟨hq, hne⟩
    · exact hst
    · have := h.stage q hq
      cases this with
      | idle hc hj' hb' hn' hr ha => exact .idle hc ((hj _ hne).trans hj') ((hb _ hne).trans hb') ((hn _ hne).trans hn') hr ha
      | running j hc hj' hb' hu hn' hn'' hr ha =>
        exact .running j hc ((hj _ hne).trans hj') ((hb _ hne).trans hb') hu ((hn _ hne).trans hn') hn'' hr ha
      | done a hc hj' hb' hu hn' hn'' hr ha =>
        exact .done a hc ((hj _ hne).trans hj') ((hb _ hne).trans hb') hu ((hn _ hne).trans hn') hn'' hr ha
  · intro q hq
    rcases hother q hq with rfl | ⟨hq, hne⟩
    · exact hl
    · exact h.last q hq

theorem status_again (s : Shared) (id : String) (rev : Nat) (b : Bool)
    (h : ∀ o ∈ s.outs, ∀ id rev signal, o ≠ .result id rev signal true) :
    ∀ o ∈ (s.status id rev b).outs, ∀ id rev signal, o ≠ .result id rev signal true := by
  unfold Shared.status Shared.statusCheck
  simp only
  split
  · exact h
  · simp only [if_true]
    intro o ho
    rw [List.mem_append] at ho
    rcases ho with ho | ho
    · exact h o ho
    · cases b
      · simp only [Bool.false_eq_true, if_false, List.nil_append, List.mem_singleton] at ho
        subst ho
        intro _ _ _ e
        cases e
      · simp only [if_true, List.cons_append, List.nil_append, List.mem_cons, List.not_mem_nil, or_false] at ho
        rcases ho with rfl | rfl <;> (intro _ _ _ e; cases e)

/-- The project stays as it is but for one thing: it may have more to do. -/
theorem stage_touch {s : Shared} {p : Proj Path C} (h : Stage s p) (r : Reasons) (ina : Bool) (shad : Path → Option C) :
    Stage s { p with rev := p.rev + 1, stamp := p.stamp + 1, reason := p.reason.see r, inactive := ina, shadow := shad } := by
  cases h with
  | idle hc hj hb hn hr ha => exact .idle hc hj hb hn (Nat.le_succ_of_le hr) (fun _ => Nat.lt_succ_of_le hr)
  | running j hc hj hb hu hn hn' hr ha =>
    exact .running j hc hj hb hu hn hn' (Nat.le_succ_of_le hr) (fun _ => Nat.lt_succ_of_le hr)
  | done a hc hj hb hu hn hn' hr ha =>
    exact .done a hc hj hb hu hn hn' (Nat.le_succ_of_le hr) (fun _ => Nat.lt_succ_of_le hr)

theorem stage_same {s s' : Shared} {p p' : Proj Path C} (h : Stage s p) (hj : s'.jobs = s.jobs) (hb : s'.inbox = s.inbox)
    (hn : s'.notifiedRev = s.notifiedRev) (h1 : p'.id = p.id) (h2 : p'.isCompiling = p.isCompiling) (h3 : p'.uid = p.uid)
    (h4 : p'.notified = p.notified) (h5 : p'.rev = p.rev) (h6 : p'.reason.any = true → p.reason.any = true) : Stage s' p' := by
  have ej : ∀ id, jobsOf s' id = jobsOf s id := by intro id; unfold jobsOf; rw [hj]
  have eb : ∀ id, boxOf s' id = boxOf s id := by intro id; unfold boxOf; rw [hb]
  cases h with
  | idle hc hj' hb' hn' hr ha =>
    exact .idle (h2.trans hc) (by rw [ej, h1, hj']) (by rw [eb, h1, hb']) (by rw [hn, h1, h4, hn']) (by rw [h4, h5]; exact hr)
      (fun e => by rw [h4, h5]; exact ha (h6 e))
  | running j hc hj' hb' hu hn' hn'' hr ha =>
    exact .running j (h2.trans hc) (by rw [ej, h1, hj']) (by rw [eb, h1, hb']) (hu.trans h3.symm) (by rw [hn, h1, h4, hn'])
      (by rw [h4]; exact hn'') (by rw [h5]; exact hr) (fun e => by rw [h5]; exact ha (h6 e))
  | done a hc hj' hb' hu hn' hn'' hr ha =>
    exact .done a (h2.trans hc) (by rw [ej, h1, hj']) (by rw [eb, h1, hb']) (hu.trans h3.symm) (by rw [hn, h1, hn'])
      (by rw [h4]; exact hn'') (by rw [h5]; exact hr) (fun e => by rw [h5]; exact ha (h6 e))

/-- Only the shared part changes, and only where no project looks. -/
theorem ordOk_sh {s s' : Shared} {ps : List (Proj Path C)} {u : Nat} (h : OrdOk ⟨s, ps, u⟩) (hj : s'.jobs = s.jobs)
    (hb : s'.inbox = s.inbox) (hn : s'.notifiedRev = s.notifiedRev)
    (hag : ∀ o ∈ s'.outs, ∀ id rev signal, o ≠ .result id rev signal true) : OrdOk ⟨s', ps, u⟩ :=
  ⟨h.nodup, ⟨by simp only [hj]; exact h.known.1, by simp only [hb]; exact h.known.2⟩, by simp only [hn]; exact h.fresh,
    fun p hp => stage_same (h.stage p hp) hj hb hn rfl rfl rfl rfl rfl id, h.last, hag⟩

theorem split_known {ps : List (Proj Path C)} {id : String} (h : ∃ p ∈ ps, p.id = id) : ∃ l1 p l2, ps = l1 ++ p :: l2 ∧ p.id = id := by
  obtain ⟨p, hp, e⟩ := h
  obtain ⟨l1, l2, h⟩ := List.append_of_mem hp
  exact ⟨l1, p, l2, h, e⟩

theorem job_mem {s : Shared} {i : Nat} {j : Job} (hi : s.jobs[i]? = some j) : j ∈ jobsOf s j.art.id :=
  List.mem_filter.mpr ⟨List.mem_of_getElem? hi, by simp⟩

theorem box_mem {s : Shared} {i : Nat} {a : Art} (hi : s.inbox[i]? = some a) : a ∈ boxOf s a.id :=
  List.mem_filter.mpr ⟨List.mem_of_getElem? hi, by simp⟩

/-- A job moves on. -/
theorem ordOk_job {s s' : Shared} {ps : List (Proj Path C)} {u i : Nat} {j j' : Job} (h : OrdOk ⟨s, ps, u⟩)
    (hi : s.jobs[i]? = some j) (ha : j'.art = j.art) (hj : s'.jobs = s.jobs.set i j') (hb : s'.inbox = s.inbox)
    (hn : s'.notifiedRev = s.notifiedRev)
    (hag : ∀ o ∈ s'.outs, ∀ id rev signal, o ≠ .result id rev signal true) : OrdOk ⟨s', ps, u⟩ := by
  obtain ⟨l1, p, l2, rfl, hp⟩ := split_known (h.known.1 j (List.mem_of_getElem? hi))
  have hbox : ∀ id, boxOf s' id = boxOf s id := by intro id; unfold boxOf; rw [hb]
  refine ordOk_one h rfl ?_ (fun id _ => hbox id) (fun id _ => by rw [hn]) ?_ (h.last p (mem_mid _ _ _)) hag
  · intro id hid
    unfold jobsOf
    rw [hj]
    refine filter_set_other hi ?_ ?_
    · simp only [decide_eq_false_iff_not]; rw [← hp]; exact fun e => hid e.symm
    · simp only [decide_eq_false_iff_not]; rw [ha, ← hp]; exact fun e => hid e.symm
  · have hm := job_mem hi
    rw [← hp] at hm
    have hst := h.stage p (mem_mid _ _ _)
    cases hst with
    | idle hc hj' hb' hn' hr ha => simp only at hj'; rw [hj'] at hm; cases hm
    | done a hc hj' hb' hu hn' hn'' hr ha => simp only at hj'; rw [hj'] at hm; cases hm
    | running j0 hc hj' hb' hu hn' hn'' hr ha' =>
      simp only at hj' hb' hn'
      obtain ⟨e, k1, k2, hk, hk1, hk2, hset, -⟩ := filter_single hj' hi (by simp only [decide_eq_true_eq]; exact hp.symm)
      subst e
      refine .running j' hc ?_ (by rw [hbox]; exact hb') (by rw [ha]; exact hu) (by rw [hn]; exact hn') (by rw [ha]; exact hn'')
        (by rw [ha]; exact hr) (by rw [ha]; exact ha')
      unfold jobsOf
      rw [hj, hset, List.filter_append, List.filter_cons_of_pos (by simp only [decide_eq_true_eq]; rw [ha]; exact hp.symm), hk1, hk2]
      rfl

theorem ordOk_micro {c : Bool} {v w : View Path C} (h : OrdOk v) (hm : Micro true c v w) : OrdOk w := by
  cases hm with
  | touch s l1 p l2 u r ina shad hr =>
    exact ordOk_one h rfl (fun _ _ => rfl) (fun _ _ => rfl) (fun _ _ => rfl) (stage_touch (h.stage p (mem_mid _ _ _)) r ina shad)
      (h.last p (mem_mid _ _ _)) h.again
  | retouch s l1 p l2 u r hr ho => cases ho
  | shade s l1 p l2 u shad =>
    exact ordOk_one h rfl (fun _ _ => rfl) (fun _ _ => rfl) (fun _ _ => rfl)
      (stage_same (h.stage p (mem_mid _ _ _)) rfl rfl rfl rfl rfl rfl rfl rfl id) (h.last p (mem_mid _ _ _)) h.again
  | suspend s ps u id rev _ =>
    obtain ⟨e1, e2, e3, -⟩ := status_keeps s id rev true
    exact ordOk_sh h e2 e3 e1 (status_again s id rev true h.again)
  | deliver s l1 p l2 u i a hi hp h1 =>
    have hm := box_mem hi
    rw [← hp] at hm
    have hst := h.stage p (mem_mid _ _ _)
    cases hst with
    | idle hc hj' hb' hn' hr ha => simp only at hb'; rw [hb'] at hm; cases hm
    | running j0 hc hj' hb' hu hn' hn'' hr ha' => simp only at hb'; rw [hb'] at hm; cases hm
    | done a0 hc hj' hb' hu hn' hn'' hr ha =>
      simp only at hj' hb' hn'
      obtain ⟨e, k1, k2, hk, hk1, hk2, -, her⟩ := filter_single hb' hi (by simp only [decide_eq_true_eq]; exact hp.symm)
      subst e
      generalize hs : ({ s with inbox := s.inbox.eraseIdx i } : Shared) = s'
      have e1 : extCompiled s' p a = emitPending s' { p with notified := a.snap.rev, isCompiling := false, last := some a } := by
        unfold extCompiled
        rw [if_neg (by omega)]
      rw [e1]
      generalize hq : ({ p with notified := a.snap.rev, isCompiling := false, last := some a } : Proj Path C) = q
      have hquiet : (emitPending s' q).1 = s' := by
        apply emitPending_quiet
        intro b hb
        rw [← hq] at hb
        injection hb with hb
        subst hb
        rw [← hs]
        simp only
        rw [← hp, hn']
        exact Nat.le_refl _
      rw [hquiet]
      obtain ⟨-, k2, k3, k4, k5, -, -, k8, -, k10, k11, k12⟩ := emitPending_keeps s' q
      obtain ⟨-, c2, c3, c4, c5, -, c7, c8, c9, c10, c11, -⟩ := commit_keeps (emitPending s' q).2 a
      have q1 : ((emitPending s' q).2.commit a).id = p.id := by rw [c2, k2, ← hq]
      have q2 : ((emitPending s' q).2.commit a).notified = a.snap.rev := by rw [c10, k11, ← hq]
      have q3 : ((emitPending s' q).2.commit a).rev = p.rev := by rw [c5, k5, ← hq]
      have q4 : ((emitPending s' q).2.commit a).reason = p.reason := by rw [c7, k8, ← hq]
      have q5 : ((emitPending s' q).2.commit a).isCompiling = false := by rw [c9, k10, ← hq]
      have q6 : ((emitPending s' q).2.commit a).last = some a := by rw [c11, k12, ← hq]
      refine ordOk_one h q1 ?_ ?_ ?_ ?_ ?_ ?_
      · intro id _; rw [← hs]; rfl
      · intro id hid
        rw [← hs]
        unfold boxOf
        refine filter_erase_other hi ?_
        simp only [decide_eq_false_iff_not]; rw [← hp]; exact fun e => hid e.symm
      · intro id _; rw [← hs]
      · refine .idle q5 ?_ ?_ ?_ ?_ ?_
        · rw [q1, ← hs]; exact hj'
        · rw [q1, ← hs]
          unfold boxOf
          simp only
          rw [her, List.filter_append, hk1, hk2]
          rfl
        · rw [q1, q2, ← hs]; exact hn'
        · rw [q2, q3]; exact hr
        · rw [q2, q3, q4]; exact ha
      · intro b hb
        rw [q6] at hb
        injection hb with hb
        subst hb
        rw [q1, q2]
        exact ⟨hp.symm, rfl⟩
      · rw [← hs]; exact h.again
  | reason s l1 p l2 u clean =>
    rcases anyReason_cases clean s p with ⟨-, e⟩ | ⟨hc, -, -, -, -, e⟩ | ⟨-, -, e⟩ | ⟨hc, hany, -, e⟩
    · rw [e]; exact h
    · rw [e]
      have hst := h.stage p (mem_mid _ _ _)
      cases hst with
      | running j0 hc' hj' hb' hu hn' hn'' hr ha' => rw [hc] at hc'; cases hc'
      | done j0 hc' hj' hb' hu hn' hn'' hr ha' => rw [hc] at hc'; cases hc'
      | idle hc' hj' hb' hn' hr ha =>
        simp only at hj' hb' hn'
        generalize hs : ({ s with verdicts := s.verdicts ++ [(p.uid, p.stamp)] } : Shared) = s'
        generalize hq : ({ p with pending := p.pending.see p.reason, reason := .none } : Proj Path C) = q
        have hquiet : (emitPending s' q).1 = s' := by
          apply emitPending_quiet
          intro b hb
          rw [← hq] at hb
          obtain ⟨h1, h2⟩ := h.last p (mem_mid _ _ _) b hb
          rw [← hs]
          simp only
          rw [h1, h2, hn']
          exact Nat.le_refl _
        rw [hquiet]
        obtain ⟨-, k2, k3, k4, k5, -, -, k8, -, k10, k11, k12⟩ := emitPending_keeps s' q
        refine ordOk_one h (by rw [k2, ← hq]) (fun _ _ => by rw [← hs]; rfl) (fun _ _ => by rw [← hs]; rfl)
          (fun _ _ => by rw [← hs]) ?_ ?_ (by rw [← hs]; exact h.again)
        · refine stage_same (h.stage p (mem_mid _ _ _)) (by rw [← hs]) (by rw [← hs]) (by rw [← hs]) (by rw [k2, ← hq]) (by rw [k10, ← hq])
            (by rw [k3, ← hq]) (by rw [k11, ← hq]) (by rw [k5, ← hq]) ?_
          rw [k8, ← hq]
          intro e
          cases e
        · rw [k12, k2, k11, ← hq]
          exact h.last p (mem_mid _ _ _)
    · rw [e]
      exact ordOk_one h rfl (fun _ _ => rfl) (fun _ _ => rfl) (fun _ _ => rfl)
        (stage_same (h.stage p (mem_mid _ _ _)) rfl rfl rfl rfl rfl rfl rfl rfl id) (h.last p (mem_mid _ _ _)) h.again
    · rw [e]
      obtain ⟨e1, e2, e3, -⟩ := status_keeps s p.id p.snapshot.rev false
      have hst := h.stage p (mem_mid _ _ _)
      cases hst with
      | running j0 hc' hj' hb' hu hn' hn'' hr ha' => rw [hc] at hc'; cases hc'
      | done j0 hc' hj' hb' hu hn' hn'' hr ha' => rw [hc] at hc'; cases hc'
      | idle hc' hj' hb' hn' hr ha =>
        simp only at hj' hb' hn'
        refine ordOk_one h rfl ?_ ?_ ?_ ?_ (h.last p (mem_mid _ _ _)) (status_again s _ _ _ h.again)
        · intro id hid
          unfold jobsOf
          simp only
          rw [List.filter_append, List.filter_cons_of_neg (by simp only [decide_eq_true_eq]; exact fun e => hid e.symm)]
          simp
        · intro id _
          unfold boxOf
          simp only
          rw [e3]
        · intro id _
          simp only
          rw [e1]
        · refine .running ⟨⟨p.id, p.uid, p.snapshot⟩, .running⟩ rfl ?_ ?_ rfl ?_ ?_ ?_ ?_
          · unfold jobsOf at hj' ⊢
            simp only
            rw [List.filter_append, hj']
            simp
          · unfold boxOf at hb' ⊢
            simp only
            rw [e3]; exact hb'
          · simp only; rw [e1]; exact hn'
          · simp only [snapshot_rev]; exact ha hany
          · simp only [snapshot_rev]; exact Nat.le_refl _
          · intro e; cases e
  | snapshot s l1 p l2 u =>
    exact ordOk_one h rfl (fun _ _ => rfl) (fun _ _ => rfl) (fun _ _ => rfl)
      (stage_same (h.stage p (mem_mid _ _ _)) rfl rfl rfl rfl rfl rfl rfl rfl id) (h.last p (mem_mid _ _ _)) h.again
  | remove s l1 p l2 u ho =>
    obtain ⟨hf, hne⟩ := ho rfl
    obtain ⟨hj, hb⟩ := inFlight_nil hf
    have hsub : (l1 ++ l2).Sublist (l1 ++ p :: l2) := by simp
    have hk : ∀ id, id ≠ p.id → (∃ q ∈ l1 ++ p :: l2, q.id = id) → ∃ q ∈ l1 ++ l2, q.id = id := by
      rintro id hid ⟨q, hq, rfl⟩
      refine ⟨q, ?_, rfl⟩
      simp only [List.mem_append, List.mem_cons] at hq ⊢
      rcases hq with hq | rfl | hq
      · exact Or.inl hq
      · exact (hid rfl).elim
      · exact Or.inr hq
    refine ⟨h.nodup.sublist (hsub.map _), ⟨?_, ?_⟩, ?_, ?_, fun q hq => h.last q (hsub.subset hq), ?_⟩
    · intro j hj'
      refine hk _ ?_ (h.known.1 j hj')
      intro e
      have : j ∈ jobsOf s p.id := List.mem_filter.mpr ⟨hj', by simp [e]⟩
      rw [hj] at this; cases this
    · intro a ha
      refine hk _ ?_ (h.known.2 a ha)
      intro e
      have : a ∈ boxOf s p.id := List.mem_filter.mpr ⟨ha, by simp [e]⟩
      rw [hb] at this; cases this
    · intro id hid
      by_cases e : id = p.id
      · subst e; simp only; rw [set_eq]
      · simp only
        rw [set_ne _ _ e]
        apply h.fresh
        intro hm
        obtain ⟨q, hq, rfl⟩ := List.mem_map.mp hm
        obtain ⟨q', hq', e'⟩ := hk q.id e ⟨q, hq, rfl⟩
        exact hid (by rw [← e']; exact List.mem_map_of_mem hq')
    · intro q hq
      have hqn := hne q hq
      have hst := h.stage q (hsub.subset hq)
      cases hst with
      | idle hc hj' hb' hn' hr ha => exact .idle hc hj' hb' (by simp only; rw [set_ne _ _ hqn]; exact hn') hr ha
      | running j hc hj' hb' hu hn' hn'' hr ha =>
        exact .running j hc hj' hb' hu (by simp only; rw [set_ne _ _ hqn]; exact hn') hn'' hr ha
      | done a hc hj' hb' hu hn' hn'' hr ha =>
        exact .done a hc hj' hb' hu (by simp only; rw [set_ne _ _ hqn]; exact hn') hn'' hr ha
    · intro o ho
      simp only at ho
      rcases List.mem_append.mp ho with ho | ho
      · exact h.again o ho
      · rw [List.mem_singleton.mp ho]
        intro _ _ _ e; cases e
  | add s ps u g ina shad ho =>
    obtain ⟨hf, hne⟩ := ho rfl
    obtain ⟨hj, hb⟩ := inFlight_nil hf
    have hg : g ∉ ps.map (·.id) := by
      intro hm
      obtain ⟨q, hq, e⟩ := List.mem_map.mp hm
      exact hne q hq e
    refine ⟨?_, ⟨?_, ?_⟩, ?_, ?_, ?_, h.again⟩
    · rw [List.map_append, List.nodup_append]
      refine ⟨h.nodup, by simp, ?_⟩
      intro a ha b hb'
      rw [List.map_singleton] at hb'
      rw [List.mem_singleton.mp hb']
      rintro rfl
      exact hg ha
    · intro j hj'
      obtain ⟨q, hq, e⟩ := h.known.1 j hj'
      exact ⟨q, List.mem_append_left _ hq, e⟩
    · intro j hj'
      obtain ⟨q, hq, e⟩ := h.known.2 j hj'
      exact ⟨q, List.mem_append_left _ hq, e⟩
    · intro id hid
      apply h.fresh
      intro hm
      exact hid (by rw [List.map_append]; exact List.mem_append_left _ hm)
    · intro q hq
      rcases List.mem_append.mp hq with hq | hq
      · exact h.stage q hq
      · rw [List.mem_singleton.mp hq]
        refine .idle rfl hj hb (h.fresh g hg) (Nat.zero_le _) (fun _ => ?_)
        exact Nat.zero_lt_one
    · intro q hq
      rcases List.mem_append.mp hq with hq | hq
      · exact h.last q hq
      · rw [List.mem_singleton.mp hq]
        intro a ha; cases ha
  | check s ps u i a hi =>
    obtain ⟨e1, -, e3, -, -, e2⟩ := statusCheck_keeps s a.id a.snap.rev
    exact ordOk_job h hi (j' := ⟨a, .checked (s.statusCheck a.id a.snap.rev).2⟩) rfl rfl e3 e1 (by simp only; rw [e2]; exact h.again)
  | send s ps u i a pass hi =>
    refine ordOk_job h hi (j' := ⟨a, .sent⟩) rfl rfl rfl rfl ?_
    simp only
    split
    · intro o ho
      rcases List.mem_append.mp ho with ho | ho
      · exact h.again o ho
      · rw [List.mem_singleton.mp ho]
        intro _ _ _ e; cases e
    · exact h.again
  | notify s ps u i a hi =>
    obtain ⟨l1, p, l2, rfl, hp⟩ := split_known (h.known.1 _ (List.mem_of_getElem? hi))
    simp only at hp
    have hm := job_mem hi
    simp only at hm
    rw [← hp] at hm
    have hst := h.stage p (mem_mid _ _ _)
    cases hst with
    | idle hc hj' hb' hn' hr ha => simp only at hj'; rw [hj'] at hm; cases hm
    | done a hc hj' hb' hu hn' hn'' hr ha => simp only at hj'; rw [hj'] at hm; cases hm
    | running j0 hc hj' hb' hu hn' hn'' hr ha' =>
      simp only at hj' hb' hn'
      obtain ⟨e, k1, k2, hk, hk1, hk2, -, her⟩ := filter_single hj' hi (by simp only [decide_eq_true_eq]; exact hp.symm)
      subst e
      simp only at hu hn'' hr ha'
      have hno : ¬ (s.notifiedRev a.id ≥ a.snap.rev) := by rw [← hp, hn']; omega
      have en : s.notify a false = { s with notifiedRev := set s.notifiedRev a.id a.snap.rev, inbox := s.inbox ++ [a], outs := s.outs ++ [.result a.id a.snap.rev a.snap.signal false] } := by
        unfold Shared.notify
        rw [if_neg hno]
      rw [en]
      refine ordOk_one h rfl ?_ ?_ ?_ ?_ (h.last p (mem_mid _ _ _)) ?_
      · intro id hid
        unfold jobsOf
        refine filter_erase_other hi ?_
        simp only [decide_eq_false_iff_not]; rw [← hp]; exact fun e => hid e.symm
      · intro id hid
        unfold boxOf
        simp only
        rw [List.filter_append, List.filter_cons_of_neg (by simp only [decide_eq_true_eq]; rw [← hp]; exact fun e => hid e.symm)]
        simp
      · intro id hid
        simp only
        rw [set_ne _ _ (by rw [← hp]; exact hid)]
      · refine .done a hc ?_ ?_ hu ?_ hn'' hr ha'
        · unfold jobsOf
          simp only
          rw [her, List.filter_append, hk1, hk2]
          rfl
        · unfold boxOf at hb' ⊢
          simp only
          rw [List.filter_append, hb', List.filter_cons_of_pos (by simp only [decide_eq_true_eq]; exact hp.symm)]
          rfl
        · simp only
          rw [hp, set_eq]
      · intro o ho
        simp only at ho
        rcases List.mem_append.mp ho with ho | ho
        · exact h.again o ho
        · rw [List.mem_singleton.mp ho]
          intro _ _ _ e; cases e

theorem ordOk_init (inactive : Bool) : OrdOk (init (Path := Path) (C := C) inactive).view := by
  refine ⟨by simp [init, Machine.view, Machine.projects], ⟨?_, ?_⟩, fun _ _ => rfl, ?_, ?_, ?_⟩
  · intro j hj; cases hj
  · intro j hj; cases hj
  · intro p hp
    rw [List.mem_singleton.mp hp]
    exact .idle rfl rfl rfl rfl (Nat.zero_le _) (fun e => by cases e)
  · intro p hp
    rw [List.mem_singleton.mp hp]
    intro a ha; cases ha
  · intro o ho; cases ho

theorem ordOk_run {inactive : Bool} {h : History Path C} {m : Machine Path C} (hr : run (init inactive) h = some m)
    (ho : Orderly inactive h) : OrdOk m.view :=
  (micros_run (o := true) (c := false) hr (fun _ => ho) (by simp)).inv (fun v w hv hm => ordOk_micro hv hm) (ordOk_init inactive)

end Tinymist.Project
