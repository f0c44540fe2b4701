import Verif.Lemmas.Project
/-! A step of the machine as a sequence of changes of one project at a time. -/
namespace Tinymist.Project
variable {Path C : Type} [DecidableEq Path]

structure View (Path C : Type) where
  sh : Shared
  ps : List (Proj Path C)
  uid : Nat

def Machine.view (m : Machine Path C) : View Path C := ⟨m.sh, m.projects, m.nextUid⟩

/-- What the history promises: `orderly`, see `Op.Orderly`; `calm`, see `Op.Calm`. -/
inductive Micro (orderly calm : Bool) : View Path C → View Path C → Prop
  | touch (s l1 p l2 u r ina shad) (hr : r.any = true) :
      Micro orderly calm ⟨s, l1 ++ p :: l2, u⟩
        ⟨s, l1 ++ { p with rev := p.rev + 1, stamp := p.stamp + 1, reason := p.reason.see r, inactive := ina, shadow := shad } :: l2, u⟩
  | retouch (s l1 p l2 u r) (hr : r.any = true) (ho : orderly = false) :
      Micro orderly calm ⟨s, l1 ++ p :: l2, u⟩ ⟨s, l1 ++ { p with reason := p.reason.see r } :: l2, u⟩
  | shade (s l1 p l2 u shad) :
      Micro orderly calm ⟨s, l1 ++ p :: l2, u⟩ ⟨s, l1 ++ { p with shadow := shad } :: l2, u⟩
  | suspend (s ps u id rev) (hc : calm = true → ∀ j ∈ s.jobs, j.art.id = id → ∀ b, j.phase ≠ .checked b) :
      Micro orderly calm ⟨s, ps, u⟩ ⟨s.status id rev true, ps, u⟩
  | deliver (s l1 p l2 u i a) (hi : s.inbox[i]? = some a) (hp : p.id = a.id) (h1 : ∀ q ∈ l1, q.id ≠ a.id) :
      Micro orderly calm ⟨s, l1 ++ p :: l2, u⟩
        ⟨(extCompiled { s with inbox := s.inbox.eraseIdx i } p a).1,
          l1 ++ ((extCompiled { s with inbox := s.inbox.eraseIdx i } p a).2.commit a) :: l2, u⟩
  | reason (s l1 p l2 u clean) :
      Micro orderly calm ⟨s, l1 ++ p :: l2, u⟩ ⟨(anyReason clean s p).1, l1 ++ (anyReason clean s p).2 :: l2, u⟩
  | snapshot (s l1 p l2 u) :
      Micro orderly calm ⟨s, l1 ++ p :: l2, u⟩ ⟨s, l1 ++ { p with snap := some p.snapshot } :: l2, u⟩
  | remove (s l1 p l2 u) (ho : orderly = true → s.inFlight p.id = [] ∧ ∀ q ∈ l1 ++ l2, q.id ≠ p.id) :
      Micro orderly calm ⟨s, l1 ++ p :: l2, u⟩
        ⟨{ s with notifiedRev := set s.notifiedRev p.id 0, outs := s.outs ++ [.cleared p.id true] }, l1 ++ l2, u⟩
  | add (s ps u g ina shad) (ho : orderly = true → s.inFlight g = [] ∧ ∀ q ∈ ps, q.id ≠ g) :
      Micro orderly calm ⟨s, ps, u⟩
        ⟨s, ps ++ [{ newProj g u ina shad with reason := ⟨false, false, true⟩, stamp := 1 }], u + 1⟩
  | check (s ps u i a) (hi : s.jobs[i]? = some ⟨a, .running⟩) :
      Micro orderly calm ⟨s, ps, u⟩
        ⟨{ (s.statusCheck a.id a.snap.rev).1 with
            jobs := s.jobs.set i ⟨a, .checked (s.statusCheck a.id a.snap.rev).2⟩ }, ps, u⟩
  | send (s ps u i a pass) (hi : s.jobs[i]? = some ⟨a, .checked pass⟩) :
      Micro orderly calm ⟨s, ps, u⟩
        ⟨{ s with jobs := s.jobs.set i ⟨a, .sent⟩
                  outs := if pass then s.outs ++ [.status a.id a.snap.rev] else s.outs }, ps, u⟩
  | notify (s ps u i a) (hi : s.jobs[i]? = some ⟨a, .sent⟩) :
      Micro orderly calm ⟨s, ps, u⟩ ⟨{ (s.notify a false) with jobs := s.jobs.eraseIdx i }, ps, u⟩

inductive Micros (orderly calm : Bool) : View Path C → View Path C → Prop
  | refl (v) : Micros orderly calm v v
  | tail {v w x} (h : Micros orderly calm v w) (h' : Micro orderly calm w x) : Micros orderly calm v x

theorem Micros.one {o c : Bool} {v w : View Path C} (h : Micro o c v w) : Micros o c v w := .tail (.refl _) h

theorem Micros.trans {o c : Bool} {v w x : View Path C} (h : Micros o c v w) (h' : Micros o c w x) : Micros o c v x := by
  induction h' with
  | refl => exact h
  | tail _ m ih => exact .tail ih m

theorem Micros.inv {o c : Bool} {I : View Path C → Prop} (hs : ∀ v w, I v → Micro o c v w → I w) {v w : View Path C}
    (h : Micros o c v w) (h0 : I v) : I w := by
  induction h with
  | refl => exact h0
  | tail _ m ih => exact hs _ _ ih m

/-- Doing the same to all projects, one after another. -/
theorem micros_map {o c : Bool} (s : Shared) (u : Nat) (f : Proj Path C → Proj Path C)
    (hf : ∀ l1 p l2, Micros o c ⟨s, l1 ++ p :: l2, u⟩ ⟨s, l1 ++ f p :: l2, u⟩) (l1 l : List (Proj Path C)) :
    Micros o c ⟨s, l1 ++ l, u⟩ ⟨s, l1 ++ l.map f, u⟩ := by
  induction l generalizing l1 with
  | nil => exact .refl _
  | cons p l ih =>
    refine (hf l1 p l).trans ?_
    have := ih (l1 ++ [f p])
    simpa using this

theorem micros_each {o c : Bool} (u : Nat) (f : Shared → Proj Path C → Shared × Proj Path C)
    (hf : ∀ s l1 p l2, Micros o c ⟨s, l1 ++ p :: l2, u⟩ ⟨(f s p).1, l1 ++ (f s p).2 :: l2, u⟩) (s : Shared)
    (l1 l : List (Proj Path C)) : Micros o c ⟨s, l1 ++ l, u⟩ ⟨(eachProj f s l).1, l1 ++ (eachProj f s l).2, u⟩ := by
  induction l generalizing s l1 with
  | nil => exact .refl _
  | cons p l ih =>
    refine (hf s l1 p l).trans ?_
    have := ih (f s p).1 (l1 ++ [(f s p).2])
    simpa [eachProj] using this

theorem micros_onAny {o c : Bool} (clean : String → Bool) (m : Machine Path C) : Micros o c m.view (onAny clean m).view := by
  have := micros_each (o := o) (c := c) m.nextUid (fun s p => anyReason (clean p.id) s p)
    (fun s l1 p l2 => .one (.reason s l1 p l2 _ _)) m.sh [] m.projects
  exact this

theorem micros_remove {o c : Bool} (m : Machine Path C) (id : String)
    (ho : o = true → m.sh.inFlight id = [] ∧ id ∉ (m.projects.map (·.id)).erase id) :
    Micros o c m.view (removeDedicates m id).view ∧
      (o = true → ∀ q ∈ (removeDedicates m id).dedicates, q.id ≠ id) := by
  rcases remove_cases m id with ⟨h, hd⟩ | ⟨l1, p, l2, h1, hp, h2, h3⟩
  · rw [h]; exact ⟨.refl _, fun _ => hd⟩
  · rw [h3]
    have hq : o = true → (∀ q ∈ l1 ++ l2, q.id ≠ id) ∧ m.primary.id ≠ id := by
      intro ho'
      have hn := (ho ho').2
      have hm : m.primary.id ≠ id := by
        intro e
        apply hn
        unfold Machine.projects
        rw [List.map_cons, e, List.erase_cons_head, h1]
        simp [hp]
      refine ⟨?_, hm⟩
      intro q hq e
      apply hn
      unfold Machine.projects
      rw [h1, List.map_cons, List.erase_cons_tail (by simpa using hm), List.map_append, List.map_cons,
        List.erase_append_right _ (by
          intro hm'
          obtain ⟨q', a, b⟩ := List.mem_map.mp hm'
          exact h2 q' a b), hp, List.erase_cons_head]
      refine List.mem_cons_of_mem _ ?_
      rw [← List.map_append, ← e]
      exact List.mem_map_of_mem hq
    refine ⟨?_, fun ho' => (hq ho').1⟩
    subst hp
    have hm := Micro.remove (orderly := o) (calm := c) m.sh (m.primary :: l1) p l2 m.nextUid (fun ho' =>
        ⟨(ho ho').1, fun q hq' => by
          rw [List.cons_append] at hq'
          rcases List.mem_cons.mp hq' with rfl | hq'
          · exact (hq ho').2
          · exact (hq ho').1 q hq'⟩)
    have e : m.view = ⟨m.sh, (m.primary :: l1) ++ p :: l2, m.nextUid⟩ := by
      unfold Machine.view Machine.projects
      rw [h1]; rfl
    rw [e]
    exact .one hm

theorem erase_nodup {l : List String} (h : l.Nodup) (a : String) : a ∉ l.erase a := by
  rw [List.Nodup.mem_erase_iff h]
  simp

theorem micros_step {o c : Bool} {clean : String → Bool} {m m' : Machine Path C} {op : Op Path C}
    (h : step clean m op = some m') (ho : o = true → op.Orderly m ∧ (m.projects.map (·.id)).Nodup)
    (hc : c = true → op.Calm m) : Micros o c m.view m'.view := by
  obtain ⟨m1, b, h1, rfl⟩ := step_eq h
  have hm : ∀ m1 : Machine Path C, Micros o c m.view m1.view → Micros o c m.view (if b = true then onAny clean m1 else m1).view := by
    intro m1 hm1
    split
    · exact hm1.trans (micros_onAny clean m1)
    · exact hm1
  apply hm
  clear hm h
  cases op with
  | compile id =>
    simp only [interrupt] at h1
    obtain ⟨x, a, e⟩ := Option.map_eq_some_iff.mp h1
    cases e
    obtain ⟨l1, p, l2, h1, -, -, h2, h3, -, -, -, h4, -⟩ := onProject_some a
    unfold Machine.view
    rw [h1, h2, h3, h4]
    exact .one (.touch _ _ _ _ _ ⟨false, false, true⟩ _ _ rfl)
  | settle id =>
    simp only [interrupt] at h1
    cases h1
    exact (micros_remove m id (fun ho' => ⟨(ho ho').1, erase_nodup (ho ho').2 _⟩)).1
  | compiled i =>
    simp only [interrupt] at h1
    split at h1
    · cases h1; exact .refl _
    · rename_i a hi
      obtain ⟨x, a', e⟩ := Option.map_eq_some_iff.mp h1
      cases e
      obtain ⟨l1, p, l2, h1, hp, hl, h2, h3, -, -, -, h4, -⟩ := onProject_some a'
      unfold Machine.view
      rw [h1, h2, h3, h4]
      exact .one (.deliver _ _ _ _ _ i a hi hp hl)
  | changeTask id inputs entry =>
    simp only [interrupt] at h1
    obtain ⟨x, a, e⟩ := Option.map_eq_some_iff.mp h1
    cases e
    obtain ⟨l1, p, l2, h1, hp, -, h2, h3, -, -, -, h4, -⟩ := onProject_some a
    have e1 : m.view = ⟨m.sh, l1 ++ p :: l2, m.nextUid⟩ := by unfold Machine.view; rw [h1]
    have e2 : m1.view = ⟨m1.sh, m1.projects, m.nextUid⟩ := by unfold Machine.view; rw [h4]
    rw [e1, e2, h2, h3]
    clear h1 h2 h3 h4 e1 e2 a
    by_cases hb : (inputs || entry.isSome) = true
    · refine (Micros.one (.touch _ _ _ _ _ ⟨false, false, true⟩ (entry.getD p.inactive) p.shadow rfl)).trans ?_
      simp only [hb, if_true]
      split
      · rename_i he
        subst he
        exact .one (.suspend _ _ _ _ _ (fun hc' => hc hc'))
      · exact .refl _
    · have hn : entry = none := by
        cases entry with
        | none => rfl
        | some x => simp at hb
      subst hn
      simp only [hb]
      refine Micros.one (.retouch _ _ _ _ _ ⟨false, false, true⟩ rfl ?_)
      cases o with
      | false => rfl
      | true =>
        rcases (ho rfl).1.2 with h | h
        · simp [h] at hb
        · simp at h
  | font changed =>
    simp only [interrupt] at h1
    cases h1
    split
    · exact micros_map m.sh m.nextUid (fun p => { p.bump with reason := p.reason.see ⟨false, false, true⟩ })
        (fun l1 p l2 => .one (.touch _ _ _ _ _ ⟨false, false, true⟩ p.inactive p.shadow rfl)) [] m.projects
    · exact .refl _
  | memory e r =>
    simp only [interrupt] at h1
    split at h1
    · cases h1
      refine micros_map m.sh m.nextUid (fun p => Proj.memory (r p.id) e p) (fun l1 p l2 => ?_) [] m.projects
      unfold Proj.memory
      simp only
      split
      · exact .one (.touch _ _ _ _ _ ⟨true, false, false⟩ _ _ rfl)
      · exact .one (.shade _ _ _ _ _ _)
    · cases h1; exact .refl _
  | fs ack changes =>
    have hf : ∀ (d : Option (MemEvent Path C)) (ch : Bool) l1 p l2, Micros o c ⟨m.sh, l1 ++ p :: l2, m.nextUid⟩ ⟨m.sh, l1 ++ Proj.fsEvent d ch p :: l2, m.nextUid⟩ := by
      intro d ch l1 p l2
      cases d with
      | none =>
        simp only [Proj.fsEvent]
        split
        · exact .one (.touch _ _ _ _ _ ⟨false, true, false⟩ _ _ rfl)
        · exact .refl _
      | some e =>
        simp only [Proj.fsEvent]
        split
        · exact .one (.touch _ _ _ _ _ ⟨false, true, false⟩ _ _ rfl)
        · exact .one (.shade _ _ _ _ _ _)
    simp only [interrupt] at h1
    split at h1
    · cases h1; exact .refl _
    · rename_i t e rest hu
      cases h1
      exact micros_map m.sh m.nextUid (fun p => p.fsEvent (some e) (changes p.id)) (fun l1 p l2 => hf _ _ l1 p l2) [] m.projects
    · cases h1
      exact micros_map m.sh m.nextUid (fun p => p.fsEvent none (changes p.id)) (fun l1 p l2 => hf _ _ l1 p l2) [] m.projects
  | snapshot =>
    simp only [interrupt] at h1
    cases h1
    exact .one (.snapshot m.sh [] m.primary m.dedicates m.nextUid)
  | restart group inactive =>
    simp only [interrupt] at h1
    cases h1
    obtain ⟨hm, hd⟩ := micros_remove (o := o) (c := c) m group (fun ho' => ⟨(ho ho').1.2, erase_nodup (ho ho').2 _⟩)
    refine hm.trans ?_
    have hu : (removeDedicates m group).nextUid = m.nextUid ∧ (removeDedicates m group).primary = m.primary ∧
        (removeDedicates m group).sh.inFlight group = m.sh.inFlight group := by
      rcases remove_cases m group with ⟨h, -⟩ | ⟨_, _, _, -, -, -, h⟩ <;> rw [h] <;> exact ⟨rfl, rfl, rfl⟩
    have := Micro.add (orderly := o) (calm := c) (removeDedicates m group).sh (removeDedicates m group).projects
      (removeDedicates m group).nextUid group inactive m.primary.shadow (fun ho' => ⟨by rw [hu.2.2]; exact (ho ho').1.2,
        fun q hq => by
          rcases List.mem_cons.mp hq with rfl | hq
          · rw [hu.2.1]; exact fun e => (ho ho').1.1 e.symm
          · exact hd ho' q hq⟩)
    rw [hu.1] at this
    have e : (restart m group inactive).view = ⟨(removeDedicates m group).sh, (removeDedicates m group).projects ++
        [{ newProj group m.nextUid inactive m.primary.shadow with reason := ⟨false, false, true⟩, stamp := 1 }], m.nextUid + 1⟩ := by
      unfold restart Machine.view Machine.projects
      simp only [hu.1]
      rfl
    rw [e]
    refine .one ?_
    unfold Machine.view
    rw [hu.1]
    exact this
  | jobCheck i =>
    simp only [interrupt] at h1
    split at h1
    · rename_i a hi
      cases h1
      have e : (m.sh.statusCheck a.id a.snap.rev).1.jobs = m.sh.jobs := by
        unfold Shared.statusCheck; split <;> rfl
      have := Micro.check (orderly := o) (calm := c) m.sh m.projects m.nextUid i a hi
      rw [← e] at this
      exact .one this
    · cases h1; exact .refl _
  | jobSend i =>
    simp only [interrupt] at h1
    split at h1
    · rename_i a p hi
      cases h1
      exact .one (.send m.sh m.projects m.nextUid i a p hi)
    · cases h1; exact .refl _
  | jobNotify i =>
    simp only [interrupt] at h1
    split at h1
    · rename_i a hi
      cases h1
      exact .one (.notify m.sh m.projects m.nextUid i a hi)
    · cases h1; exact .refl _

theorem ids_onProject {m m' : Machine Path C} {id : String} {f : Proj Path C → Shared × Proj Path C × List String}
    (h : m.onProject id f = some m') (hf : ∀ p, (f p).2.1.id = p.id) : m'.projects.map (·.id) = m.projects.map (·.id) := by
  obtain ⟨l1, p, l2, h1, -, -, h2, -⟩ := onProject_some h
  rw [h1, h2]
  simp [hf]

theorem ids_mapAll (m : Machine Path C) (f : Proj Path C → Proj Path C) (hf : ∀ p, (f p).id = p.id) :
    (m.mapAll f).projects.map (·.id) = m.projects.map (·.id) := by
  rw [mapAll_projects, List.map_map]
  exact List.map_congr_left fun p _ => hf p

theorem fsEvent_id (d : Option (MemEvent Path C)) (ch : Bool) (p : Proj Path C) : (p.fsEvent d ch).id = p.id := by
  cases d <;> simp only [Proj.fsEvent] <;> split <;> rfl

theorem memory_id (r : Bool) (e : MemEvent Path C) (p : Proj Path C) : (p.memory r e).id = p.id := by
  unfold Proj.memory
  simp only
  split <;> rfl

/-- The ids of the projects only change where a project is removed or restarted. -/
theorem ids_interrupt {m m1 : Machine Path C} {op : Op Path C} {b : Bool} (h : interrupt m op = some (m1, b)) :
    m1.projects.map (·.id) = m.projects.map (·.id) ∨ (∃ id, op = .settle id ∧ m1 = removeDedicates m id) ∨
    ∃ g i, op = .restart g i ∧ m1 = restart m g i := by
  cases op with
  | compile id =>
    simp only [interrupt] at h
    obtain ⟨x, a, e⟩ := Option.map_eq_some_iff.mp h
    cases e
    exact Or.inl (ids_onProject a fun p => rfl)
  | settle id =>
    simp only [interrupt] at h
    cases h
    exact Or.inr (Or.inl ⟨id, rfl, rfl⟩)
  | compiled i =>
    simp only [interrupt] at h
    split at h
    · cases h; exact Or.inl rfl
    · obtain ⟨x, a, e⟩ := Option.map_eq_some_iff.mp h
      cases e
      exact Or.inl (ids_onProject a fun p => (commit_keeps _ _).2.1.trans (extCompiled_keeps _ _ _).2.1)
  | changeTask id inputs entry =>
    simp only [interrupt] at h
    obtain ⟨x, a, e⟩ := Option.map_eq_some_iff.mp h
    cases e
    refine Or.inl (ids_onProject a fun p => ?_)
    simp only
    split <;> rfl
  | font changed =>
    simp only [interrupt] at h
    cases h
    left
    split
    · exact ids_mapAll _ _ fun p => rfl
    · rfl
  | memory e r =>
    simp only [interrupt] at h
    left
    split at h
    · cases h
      exact ids_mapAll _ _ fun p => memory_id _ _ p
    · cases h; rfl
  | fs ack changes =>
    simp only [interrupt] at h
    left
    split at h
    · cases h; rfl
    · cases h
      exact ids_mapAll _ _ fun p => fsEvent_id _ _ p
    · cases h
      exact ids_mapAll _ _ fun p => fsEvent_id _ _ p
  | snapshot =>
    simp only [interrupt] at h
    cases h
    exact Or.inl rfl
  | restart group inactive =>
    simp only [interrupt] at h
    cases h
    exact Or.inr (Or.inr ⟨group, inactive, rfl, rfl⟩)
  | jobCheck i =>
    simp only [interrupt] at h
    split at h <;> cases h <;> exact Or.inl rfl
  | jobSend i =>
    simp only [interrupt] at h
    split at h <;> cases h <;> exact Or.inl rfl
  | jobNotify i =>
    simp only [interrupt] at h
    split at h <;> cases h <;> exact Or.inl rfl

theorem primary_of_ids {m m' : Machine Path C} (h : m'.projects.map (·.id) = m.projects.map (·.id)) :
    m'.primary.id = m.primary.id := by
  unfold Machine.projects at h
  rw [List.map_cons, List.map_cons] at h
  injection h

theorem remove_primary (m : Machine Path C) (id : String) : (removeDedicates m id).primary = m.primary := by
  rcases remove_cases m id with ⟨h, -⟩ | ⟨_, _, _, -, -, -, h⟩ <;> rw [h]

theorem remove_ids (m : Machine Path C) (id : String) :
    ((removeDedicates m id).projects.map (·.id)).Sublist (m.projects.map (·.id)) := by
  rcases remove_cases m id with ⟨h, -⟩ | ⟨l1, p, l2, h1, -, -, h⟩
  · rw [h]; exact List.Sublist.refl _
  · rw [h]
    unfold Machine.projects
    rw [h1]
    simp

theorem primary_id_step {clean : String → Bool} {m m' : Machine Path C} {op : Op Path C} (h : step clean m op = some m') :
    m'.primary.id = m.primary.id := by
  obtain ⟨m1, b, h1, rfl⟩ := step_eq h
  have : (if b = true then onAny clean m1 else m1).primary.id = m1.primary.id := by
    split
    · exact primary_of_ids (onAny_ids clean m1)
    · rfl
  rw [this]
  rcases ids_interrupt h1 with h | ⟨id, -, rfl⟩ | ⟨g, i, -, rfl⟩
  · exact primary_of_ids h
  · rw [remove_primary]
  · unfold restart; rw [remove_primary]

theorem primary_id {inactive : Bool} {h : History Path C} {m : Machine Path C} (hr : run (init inactive) h = some m) :
    m.primary.id = "primary" :=
  run_inv (I := fun m _ => m.primary.id = "primary") rfl (fun m _ _ _ _ _ ih hs => (primary_id_step hs).trans ih) hr

theorem nodup_step {clean : String → Bool} {m m' : Machine Path C} {op : Op Path C} (h : step clean m op = some m')
    (hn : (m.projects.map (·.id)).Nodup) (hg : ∀ g i, op = .restart g i → g ≠ m.primary.id) :
    (m'.projects.map (·.id)).Nodup := by
  obtain ⟨m1, b, h1, rfl⟩ := step_eq h
  have : (if b = true then onAny clean m1 else m1).projects.map (·.id) = m1.projects.map (·.id) := by
    split
    · exact onAny_ids clean m1
    · rfl
  rw [this]
  rcases ids_interrupt h1 with h | ⟨id, -, rfl⟩ | ⟨g, i, hop, rfl⟩
  · rw [h]; exact hn
  · exact hn.sublist (remove_ids m id)
  · have hs := hn.sublist (remove_ids m g)
    have e : (restart m g i).projects.map (·.id) = (removeDedicates m g).projects.map (·.id) ++ [g] := by
      unfold restart Machine.projects
      simp
      rfl
    rw [e, List.nodup_append]
    refine ⟨hs, by simp, ?_⟩
    intro a ha b hb
    rw [List.mem_singleton.mp hb]
    rintro rfl
    unfold Machine.projects at ha
    rw [List.map_cons, remove_primary] at ha
    rcases List.mem_cons.mp ha with ha | ha
    · exact hg _ _ hop ha
    · rcases remove_cases m a with ⟨h, hd⟩ | ⟨l1, p, l2, h1, hp, h2, h⟩
      · rw [h] at ha
        obtain ⟨q, hq, hq'⟩ := List.mem_map.mp ha
        exact hd q hq hq'
      · rw [h] at ha
        have := erase_nodup hn a
        apply this
        unfold Machine.projects
        rw [List.map_cons, List.erase_cons_tail (by simpa using fun e => (hg _ _ hop) e.symm), h1, List.map_append, List.map_cons,
          List.erase_append_right _ (by
            intro hm'
            obtain ⟨q', a, b⟩ := List.mem_map.mp hm'
            exact h2 q' a b), hp, List.erase_cons_head]
        refine List.mem_cons_of_mem _ ?_
        rw [← List.map_append]
        exact ha

theorem orderly_pre {inactive : Bool} {h : History Path C} {x : Op Path C × (String → Bool)}
    (ho : Orderly inactive (h ++ [x])) : Orderly inactive h := by
  intro pre op clean post m hh
  exact ho pre op clean (post ++ [x]) m (by rw [hh]; simp)

theorem orderly_restart {m : Machine Path C} {op : Op Path C} (ho : op.Orderly m) (g : String) (i : Bool)
    (h : op = .restart g i) : g ≠ m.primary.id := by
  subst h; exact ho.1

theorem orderly_nodup {inactive : Bool} {h : History Path C} {m : Machine Path C} (hr : run (init inactive) h = some m)
    (ho : Orderly inactive h) : (m.projects.map (·.id)).Nodup := by
  refine run_inv (I := fun m h => Orderly inactive h → (m.projects.map (·.id)).Nodup) ?_ ?_ hr ho
  · intro _; simp [init, Machine.projects]
  · intro m h op clean m' hm ih hs ho
    refine nodup_step hs (ih (orderly_pre ho)) ?_
    exact orderly_restart (ho h op clean [] m rfl hm)

theorem calm_pre {inactive : Bool} {h : History Path C} {x : Op Path C × (String → Bool)}
    (ho : Calm inactive (h ++ [x])) : Calm inactive h := by
  intro pre op clean post m hh
  exact ho pre op clean (post ++ [x]) m (by rw [hh]; simp)

theorem micros_run {o c inactive : Bool} {h : History Path C} {m : Machine Path C} (hr : run (init inactive) h = some m)
    (ho : o = true → Orderly inactive h) (hc : c = true → Calm inactive h) :
    Micros o c (init (Path := Path) (C := C) inactive).view m.view := by
  refine run_inv (I := fun m h => (o = true → Orderly inactive h) → (c = true → Calm inactive h) →
    Micros o c (init (Path := Path) (C := C) inactive).view m.view) (fun _ _ => .refl _) ?_ hr ho hc
  intro m h op clean m' hm ih hs ho hc
  refine (ih (fun e => orderly_pre (ho e)) (fun e => calm_pre (hc e))).trans (micros_step hs ?_ ?_)
  · intro e
    exact ⟨ho e h op clean [] m rfl hm, orderly_nodup hm (orderly_pre (ho e))⟩
  · intro e
    exact hc e h op clean [] m rfl hm

end Tinymist.Project
