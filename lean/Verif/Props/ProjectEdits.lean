import Verif.Props.Project
/-! C09, continued: which changes start a compilation, and which do not; what the delivery of a result leaves behind. -/
namespace Tinymist.Project
variable {Path C : Type} [DecidableEq Path]

/-- A project that has to be compiled, is idle and active is compiled, unless the check succeeds. -/
theorem eachProj_issues (clean : String → Bool) {q : Proj Path C} (hc : q.isCompiling = false) (ha : q.inactive = false)
    (hany : q.reason.any = true) (hcl : clean q.id = false) (l : List (Proj Path C)) (hq : q ∈ l) (s : Shared) :
    (⟨q.id, q.uid, q.snapshot⟩ : Art) ∈ (eachProj (fun s p => anyReason (clean p.id) s p) s l).1.issued := by
  induction l generalizing s with
  | nil => cases hq
  | cons x l ih =>
    simp only [eachProj]
    rcases List.mem_cons.mp hq with rfl | hq
    · apply eachProj_issued
      rcases anyReason_cases (clean q.id) s q with ⟨e, -⟩ | ⟨-, -, -, e, -, -⟩ | ⟨-, e, -⟩ | ⟨-, -, -, e⟩
      · rw [hc] at e; cases e
      · rw [hcl] at e; cases e
      · rcases e with e | e
        · rw [hany] at e; cases e
        · rw [ha] at e; cases e
      · rw [e]
        exact List.mem_append_right _ (List.mem_singleton.mpr rfl)
    · exact ih hq _

/-- Only such projects are. -/
theorem anyReason_issued (clean : Bool) (s : Shared) (q : Proj Path C) {a : Art} (h : a ∈ (anyReason clean s q).1.issued) :
    a ∈ s.issued ∨ a.uid = q.uid ∧ q.isCompiling = false ∧ q.reason.any = true ∧ q.inactive = false ∧
      ¬ (q.last.isSome = true ∧ q.reason.entry = false ∧ clean = true) := by
  rcases anyReason_cases clean s q with ⟨-, e⟩ | ⟨-, -, -, -, -, e⟩ | ⟨-, -, e⟩ | ⟨h1, h2, h3, e⟩
  · rw [e] at h; exact Or.inl h
  · rw [e] at h
    left
    rcases emitPending_shared { s with verdicts := s.verdicts ++ [(q.uid, q.stamp)] }
      { q with pending := q.pending.see q.reason, reason := .none } with e | ⟨b, e⟩
    · rw [e] at h; exact h
    · rw [e, (notify_keeps ..).2.2.1] at h; exact h
  · rw [e] at h; exact Or.inl h
  · by_cases hx : q.last.isSome = true ∧ q.reason.entry = false ∧ clean = true
    · left
      obtain ⟨x1, x2, x3⟩ := hx
      have hv : (q.reason.any && !(q.reason.exclude ⟨true, true, false⟩).any) = true := by
        have h2' := h2
        simp only [Reasons.any, x2, Bool.or_false] at h2'
        simp [Reasons.exclude, Reasons.any, x2, h2']
      unfold anyReason at h
      rw [if_neg (by simp [h1])] at h
      simp only [hv, x1, x3, Bool.and_self, if_true] at h
      rcases emitPending_shared { s with verdicts := s.verdicts ++ [(q.uid, q.stamp)] }
        { q with pending := q.pending.see q.reason, reason := .none } with e | ⟨b, e⟩
      · rw [e] at h; exact h
      · rw [e, (notify_keeps ..).2.2.1] at h; exact h
    · rw [e] at h
      rcases List.mem_append.mp h with h | h
      · exact Or.inl h
      · rw [List.mem_singleton.mp h]
        exact Or.inr ⟨rfl, h1, h2, h3, hx⟩

theorem eachProj_issues_only (clean : String → Bool) (l : List (Proj Path C)) (s : Shared) {a : Art}
    (h : a ∈ (eachProj (fun s p => anyReason (clean p.id) s p) s l).1.issued) :
    a ∈ s.issued ∨ ∃ q ∈ l, a.uid = q.uid ∧ q.isCompiling = false ∧ q.reason.any = true ∧ q.inactive = false ∧
      ¬ (q.last.isSome = true ∧ q.reason.entry = false ∧ clean q.id = true) := by
  induction l generalizing s with
  | nil => exact Or.inl h
  | cons x l ih =>
    simp only [eachProj] at h
    rcases ih _ h with h | ⟨q, hq, r⟩
    · rcases anyReason_issued _ _ _ h with h | r
      · exact Or.inl h
      · exact Or.inr ⟨x, by simp, r⟩
    · exact Or.inr ⟨q, List.mem_cons_of_mem _ hq, r⟩

/-- The snapshot of a project whose revision was just raised is new. -/
theorem snapshot_bump {inactive : Bool} {h : History Path C} {m : Machine Path C} (hr : run (init inactive) h = some m)
    {p : Proj Path C} (hp : p ∈ m.projects) (shad : Path → Option C) (r : Reasons) :
    ({ p with rev := p.rev + 1, stamp := p.stamp + 1, shadow := shad, reason := r } : Proj Path C).snapshot =
      ⟨p.rev + 1, r, p.stamp + 1⟩ := by
  have hk := covOk_run hr
  unfold Proj.snapshot
  split
  · rename_i sn hsn
    have := (hk.snap p hp sn hsn).1
    rw [if_neg]
    simp only; omega
  · rfl

/-- Editor changes are never delayed once there is none that is. -/
theorem none_waiting {inactive : Bool} {h : History Path C} {m : Machine Path C} (hr : run (init inactive) h = some m) :
    m.tick = 1 ∧ (∀ x ∈ m.upstream, x.1 = 1) ∧ (m.dirty = 0 ∨ m.dirty = 1 ∧ m.upstream ≠ []) := by
  refine run_inv (I := fun m _ => m.tick = 1 ∧ (∀ x ∈ m.upstream, x.1 = 1) ∧ (m.dirty = 0 ∨ m.dirty = 1 ∧ m.upstream ≠ []))
    ⟨rfl, fun x hx => (by cases hx), Or.inl rfl⟩ ?_ hr
  intro m h op clean m' _ ih hs
  obtain ⟨m1, b, h1, rfl⟩ := step_eq hs
  have key : m1.tick = 1 ∧ (∀ x ∈ m1.upstream, x.1 = 1) ∧ (m1.dirty = 0 ∨ m1.dirty = 1 ∧ m1.upstream ≠ []) := by
    cases op with
    | compile id =>
      simp only [interrupt, Option.map_eq_some_iff] at h1
      obtain ⟨m2, h2, h3⟩ := h1
      cases h3
      obtain ⟨l1, p, l2, -, -, -, -, -, -, e1, e2, -, e3, -⟩ := onProject_some h2
      rw [e1, e2, e3]; exact ih
    | changeTask id i e =>
      simp only [interrupt, Option.map_eq_some_iff] at h1
      obtain ⟨m2, h2, h3⟩ := h1
      cases h3
      obtain ⟨l1, p, l2, -, -, -, -, -, -, e1, e2, -, e3, -⟩ := onProject_some h2
      rw [e1, e2, e3]; exact ih
    | compiled i =>
      simp only [interrupt] at h1
      split at h1
      · cases h1; exact ih
      · simp only [Option.map_eq_some_iff] at h1
        obtain ⟨m2, h2, h3⟩ := h1
        cases h3
        obtain ⟨l1, p, l2, -, -, -, -, -, -, e1, e2, -, e3, -⟩ := onProject_some h2
        rw [e1, e2, e3]; exact ih
    | settle id =>
      simp only [interrupt] at h1
      cases h1
      unfold removeDedicates
      split <;> exact ih
    | restart g i =>
      simp only [interrupt] at h1
      cases h1
      unfold restart removeDedicates
      simp only
      split <;> exact ih
    | font c =>
      simp only [interrupt] at h1
      cases h1
      cases c <;> exact ih
    | memory e r =>
      simp only [interrupt] at h1
      split at h1
      · cases h1; exact ih
      · cases h1
        refine ⟨ih.1, ?_, Or.inr ⟨ih.1, by simp⟩⟩
        intro x hx
        rcases List.mem_append.mp hx with hx | hx
        · exact ih.2.1 x hx
        · rw [List.mem_singleton.mp hx]; exact ih.1
    | fs ack ch =>
      simp only [interrupt] at h1
      split at h1
      · cases h1; exact ih
      · rename_i t e rest hu
        cases h1
        have ht : t = 1 := ih.2.1 (t, e) (by rw [hu]; simp)
        refine ⟨ih.1, fun x hx => ih.2.1 x (by rw [hu]; exact List.mem_cons_of_mem _ hx), Or.inl ?_⟩
        show (if t = m.dirty then 0 else m.dirty) = 0
        rcases ih.2.2 with h | ⟨h, -⟩
        · simp [h]
        · simp [h, ht]
      · cases h1; exact ih
    | snapshot => simp only [interrupt] at h1; cases h1; exact ih
    | jobCheck i => simp only [interrupt] at h1; split at h1 <;> (cases h1; exact ih)
    | jobSend i => simp only [interrupt] at h1; split at h1 <;> (cases h1; exact ih)
    | jobNotify i => simp only [interrupt] at h1; split at h1 <;> (cases h1; exact ih)
  cases b
  · exact key
  · exact key

/-- C09: typing. An editor change that writes into open files and closes none, when no earlier change is delayed, at once
starts a compilation of an idle active project that has the change and is marked as caused by the editor, unless the
check finds that the project does not depend on it. -/
theorem typing_compiles {inactive : Bool} {h : History Path C} {m m' : Machine Path C} {clean r : String → Bool}
    {e : MemEvent Path C} (hr : run (init inactive) h = some m) (hs : step clean m (.memory e r) = some m')
    (hsync : e.sync = false) (hrem : e.removes = []) (hins : e.inserts ≠ []) (hup : m.upstream = [])
    {p : Proj Path C} (hp : p ∈ m.projects) (hc : p.isCompiling = false) (ha : p.inactive = false) (hcl : clean p.id = false) :
    ∃ a ∈ m'.sh.issued, a.uid = p.uid ∧ a.id = p.id ∧ a.snap.stamp = p.stamp + 1 ∧ a.snap.rev = p.rev + 1 ∧
      a.snap.signal.mem = true := by
  have hd : m.dirty = 0 := by
    rcases (none_waiting hr).2.2 with h | ⟨-, h⟩
    · exact h
    · exact absurd hup h
  obtain ⟨m1, b, h1, rfl⟩ := step_eq hs
  have hi : e.invalidates m.estimated = [] := by simp [MemEvent.invalidates, hsync, hrem]
  simp only [interrupt, hi, hd, List.isEmpty_nil, beq_self_eq_true, Bool.and_self, if_true] at h1
  cases h1
  rw [if_pos rfl, (onAny_eq clean _).2.1, mapAll_projects]
  have hins' : e.inserts.isEmpty = false := by cases hx : e.inserts with
    | nil => exact absurd hx hins
    | cons => rfl
  have hq : p.memory (r p.id) e = { p with rev := p.rev + 1, stamp := p.stamp + 1, shadow := e.apply p.shadow, reason := p.reason.see ⟨true, false, false⟩ } := by
    simp [Proj.memory, hins', Proj.bump]
  have hmem : p.memory (r p.id) e ∈ List.map (fun p : Proj Path C => p.memory (r p.id) e) m.projects :=
    List.mem_map_of_mem (f := fun p : Proj Path C => p.memory (r p.id) e) hp
  have hsn := snapshot_bump hr hp (e.apply p.shadow) (p.reason.see ⟨true, false, false⟩)
  rw [hq] at hmem
  refine ⟨_, eachProj_issues clean (q := { p with rev := p.rev + 1, stamp := p.stamp + 1, shadow := e.apply p.shadow, reason := p.reason.see ⟨true, false, false⟩ })
    hc ha ?_ hcl _ hmem _, rfl, rfl, ?_, ?_, ?_⟩
  · rw [Reasons.see_any]; simp [Reasons.any]
  · rw [hsn]
  · rw [hsn]
  · rw [hsn]; simp [Reasons.see]

/-- C09: closing a file. The watcher's report on a delayed editor change at once starts a compilation of an idle active
project that has the change, marked as caused by the file system, unless the check finds that the project does not
depend on it. The editor change need not change a file on disk. -/
theorem delayed_change_compiles {inactive : Bool} {h : History Path C} {m m' : Machine Path C} {clean changes : String → Bool}
    {e : MemEvent Path C} {t : Nat} {rest : List (Nat × MemEvent Path C)} (hr : run (init inactive) h = some m)
    (hs : step clean m (.fs true changes) = some m') (hup : m.upstream = (t, e) :: rest)
    {p : Proj Path C} (hp : p ∈ m.projects) (hch : e.removes ≠ [] ∨ e.inserts ≠ [] ∨ changes p.id = true)
    (hc : p.isCompiling = false) (ha : p.inactive = false) (hcl : clean p.id = false) :
    ∃ a ∈ m'.sh.issued, a.uid = p.uid ∧ a.id = p.id ∧ a.snap.stamp = p.stamp + 1 ∧ a.snap.rev = p.rev + 1 ∧
      a.snap.signal.fs = true := by
  obtain ⟨m1, b, h1, rfl⟩ := step_eq hs
  simp only [interrupt, hup] at h1
  cases h1
  rw [if_pos rfl, (onAny_eq clean _).2.1, mapAll_projects]
  have hins' : (changes p.id || (!e.removes.isEmpty || !e.inserts.isEmpty)) = true := by
    cases hx : e.inserts <;> cases hy : e.removes <;> simp_all
  have hq : p.fsEvent (some e) (changes p.id) = { p with rev := p.rev + 1, stamp := p.stamp + 1, shadow := e.apply p.shadow, reason := p.reason.see ⟨false, true, false⟩ } := by
    simp only [Proj.fsEvent, hins', Proj.bump, if_true]
  have hmem : p.fsEvent (some e) (changes p.id) ∈ List.map (fun p : Proj Path C => p.fsEvent (some e) (changes p.id)) m.projects :=
    List.mem_map_of_mem (f := fun p : Proj Path C => p.fsEvent (some e) (changes p.id)) hp
  have hsn := snapshot_bump hr hp (e.apply p.shadow) (p.reason.see ⟨false, true, false⟩)
  rw [hq] at hmem
  refine ⟨_, eachProj_issues clean (q := { p with rev := p.rev + 1, stamp := p.stamp + 1, shadow := e.apply p.shadow, reason := p.reason.see ⟨false, true, false⟩ })
    hc ha ?_ hcl _ hmem _, rfl, rfl, ?_, ?_, ?_⟩
  · rw [Reasons.see_any]; simp [Reasons.any]
  · rw [hsn]
  · rw [hsn]
  · rw [hsn]; simp [Reasons.see]

/-- A project nothing is to be done about is left alone. -/
theorem eachProj_leaves (clean : String → Bool) {q : Proj Path C} (hq : q.reason.any = false) (l : List (Proj Path C)) (h : q ∈ l)
    (s : Shared) : ∃ q' ∈ (eachProj (fun s p => anyReason (clean p.id) s p) s l).2,
      q'.uid = q.uid ∧ q'.rev = q.rev ∧ q'.stamp = q.stamp ∧ q'.isCompiling = q.isCompiling ∧ q'.reason.any = false := by
  induction l generalizing s with
  | nil => cases h
  | cons x l ih =>
    simp only [eachProj]
    rcases List.mem_cons.mp h with rfl | h
    · refine ⟨_, List.mem_cons_self, ?_⟩
      rcases anyReason_cases (clean q.id) s q with ⟨-, e⟩ | ⟨-, -, h, -, -, e⟩ | ⟨-, -, e⟩ | ⟨-, h, -, e⟩
      · rw [e]; exact ⟨rfl, rfl, rfl, rfl, hq⟩
      · rw [hq] at h; cases h
      · rw [e]; exact ⟨rfl, rfl, rfl, rfl, hq⟩
      · rw [hq] at h; cases h
    · obtain ⟨q', h1, h2⟩ := ih h (anyReason (clean x.id) s x).1
      exact ⟨q', List.mem_cons_of_mem _ h1, h2⟩

/-- An instance is determined by its number. -/
theorem same_uid {inactive : Bool} {h : History Path C} {m : Machine Path C} (hr : run (init inactive) h = some m)
    {p q : Proj Path C} (hp : p ∈ m.projects) (hq : q ∈ m.projects) (e : p.uid = q.uid) : p = q :=
  Util.eq_of_nodup_map (instances_distinct hr).1 hp hq e

/-- What the editor, the watcher and a font change do to the projects, before it is decided what to compile. -/
theorem mapped {m m1 : Machine Path C} {op : Op Path C} {b : Bool} (h1 : interrupt m op = some (m1, b)) {p : Proj Path C}
    (hk : op.Quiet m p ∨ op.OfFiles) :
    m1.sh = m.sh ∧ ∃ f : Proj Path C → Proj Path C, m1.projects = m.projects.map f ∧
      (∀ q, (f q).uid = q.uid ∧ (f q).id = q.id ∧ (f q).last = q.last ∧ (f q).isCompiling = q.isCompiling) ∧
      (op.Quiet m p → (f p).reason = p.reason ∧ (f p).rev = p.rev ∧ (f p).stamp = p.stamp) ∧
      (op.OfFiles → ∀ q, (f q).reason.entry = q.reason.entry) := by
  have keep : ∀ (m1 : Machine Path C), m1.projects = m.projects → m1.sh = m.sh → 
      m1.sh = m.sh ∧ ∃ f : Proj Path C → Proj Path C, m1.projects = m.projects.map f ∧
      (∀ q, (f q).uid = q.uid ∧ (f q).id = q.id ∧ (f q).last = q.last ∧ (f q).isCompiling = q.isCompiling) ∧
      (op.Quiet m p → (f p).reason = p.reason ∧ (f p).rev = p.rev ∧ (f p).stamp = p.stamp) ∧
      (op.OfFiles → ∀ q, (f q).reason.entry = q.reason.entry) := fun m1 e1 e2 =>
    ⟨e2, id, by simp [e1], fun _ => ⟨rfl, rfl, rfl, rfl⟩, fun _ => ⟨rfl, rfl, rfl⟩, fun _ _ => rfl⟩
  cases op with
  | memory e r =>
    simp only [interrupt] at h1
    split at h1
    · cases h1
      refine ⟨rfl, fun p => p.memory (r p.id) e, mapAll_projects _ _, ?_, ?_, ?_⟩
      · intro q; unfold Proj.memory; simp only; split <;> exact ⟨rfl, rfl, rfl, rfl⟩
      · rintro ⟨q1, q2, q3⟩
        have : (!e.removes.isEmpty || !e.inserts.isEmpty || (e.sync && r p.id)) = false := by
          rw [q1, q2]
          cases hs : e.sync
          · rfl
          · simp [q3 hs]
        simp [Proj.memory, this]
      · intro _ q; unfold Proj.memory; simp only; split
        · simp [Reasons.see]
        · rfl
    · cases h1
      exact keep _ rfl rfl
  | fs ack ch =>
    simp only [interrupt] at h1
    split at h1
    · cases h1; exact keep _ rfl rfl
    · rename_i t e rest hu
      cases h1
      refine ⟨rfl, fun p => p.fsEvent (some e) (ch p.id), mapAll_projects _ _, ?_, ?_, ?_⟩
      · intro q; unfold Proj.fsEvent; simp only; split <;> exact ⟨rfl, rfl, rfl, rfl⟩
      · rintro ⟨q1, q2⟩
        obtain ⟨q2, q3⟩ := q2 rfl (t, e) (by rw [hu]; rfl)
        simp only at q2 q3
        simp [Proj.fsEvent, q1, q2, q3]
      · intro _ q; unfold Proj.fsEvent; simp only; split
        · simp [Reasons.see]
        · rfl
    · cases h1
      refine ⟨rfl, fun p => p.fsEvent none (ch p.id), mapAll_projects _ _, ?_, ?_, ?_⟩
      · intro q; unfold Proj.fsEvent; simp only; split <;> exact ⟨rfl, rfl, rfl, rfl⟩
      · rintro ⟨q1, -⟩
        simp [Proj.fsEvent, q1]
      · intro _ q; unfold Proj.fsEvent; simp only; split
        · simp [Reasons.see]
        · rfl
  | font c =>
    simp only [interrupt] at h1
    rcases hk with hk | hk
    · have : c = false := hk
      subst this
      cases h1
      exact keep _ rfl rfl
    · exact absurd hk (by simp [Op.OfFiles])
  | _ => rcases hk with hk | hk <;> exact absurd hk (by simp [Op.Quiet, Op.OfFiles])

/-- C09: no change, no compilation. A message of the editor or of the watcher that brings a project nothing new, and a font
scan that finds nothing, leave its revision alone and start no compilation of it. -/
theorem no_change_no_compile {inactive : Bool} {h : History Path C} {m m' : Machine Path C} {clean : String → Bool} {op : Op Path C}
    (hr : run (init inactive) h = some m) (hs : step clean m op = some m') {p : Proj Path C} (hp : p ∈ m.projects)
    (hq : op.Quiet m p) (hn : p.reason.any = false) :
    (∀ a ∈ m'.sh.issued, a.uid = p.uid → a ∈ m.sh.issued) ∧
    ∃ p' ∈ m'.projects, p'.uid = p.uid ∧ p'.rev = p.rev ∧ p'.stamp = p.stamp ∧ p'.isCompiling = p.isCompiling := by
  obtain ⟨m1, b, h1, rfl⟩ := step_eq hs
  obtain ⟨e1, f, e2, e3, e4, -⟩ := mapped h1 (Or.inl hq)
  obtain ⟨e4, e5, e6⟩ := e4 hq
  have hf : f p ∈ m1.projects := by rw [e2]; exact List.mem_map_of_mem hp
  have hr' : (f p).reason.any = false := by rw [e4]; exact hn
  cases b
  · exact ⟨fun a ha _ => by rw [← e1]; exact ha, f p, hf, (e3 p).1, e5, e6, (e3 p).2.2.2⟩
  · rw [if_pos rfl]
    constructor
    · intro a ha hu
      rw [(onAny_eq clean _).2.1] at ha
      rcases eachProj_issues_only clean _ _ ha with ha | ⟨q, hq, g1, -, g3, -⟩
      · rw [← e1]; exact ha
      · rw [e2] at hq
        obtain ⟨x, hx, rfl⟩ := List.mem_map.mp hq
        have : x = p := same_uid hr hx hp (by rw [← (e3 x).1, ← g1, hu])
        rw [this, hr'] at g3
        cases g3
    · rw [(onAny_eq clean _).1]
      obtain ⟨q', k1, k2, k3, k4, k5, -⟩ := eachProj_leaves clean hr' _ hf m1.sh
      exact ⟨q', k1, k2.trans (e3 p).1, k3.trans e5, k4.trans e6, k5.trans (e3 p).2.2.2⟩

/-- C09: if the check finds that the files that changed do not concern what the project last compiled, and only files
changed, no compilation of it starts. -/
theorem clean_not_compiled {inactive : Bool} {h : History Path C} {m m' : Machine Path C} {clean : String → Bool} {op : Op Path C}
    (hr : run (init inactive) h = some m) (hs : step clean m op = some m') {p : Proj Path C} (hp : p ∈ m.projects)
    (hop : op.OfFiles) (hn : p.reason.entry = false) (hl : p.last.isSome = true) (hcl : clean p.id = true) :
    ∀ a ∈ m'.sh.issued, a.uid = p.uid → a ∈ m.sh.issued := by
  obtain ⟨m1, b, h1, rfl⟩ := step_eq hs
  obtain ⟨e1, f, e2, e3, -, e4⟩ := mapped (p := p) h1 (Or.inr hop)
  cases b
  · exact fun a ha _ => by rw [← e1]; exact ha
  · rw [if_pos rfl]
    intro a ha hu
    rw [(onAny_eq clean _).2.1] at ha
    rcases eachProj_issues_only clean _ _ ha with ha | ⟨q, hq, g1, -, -, -, g⟩
    · rw [← e1]; exact ha
    · rw [e2] at hq
      obtain ⟨x, hx, rfl⟩ := List.mem_map.mp hq
      have : x = p := same_uid hr hx hp (by rw [← (e3 x).1, ← g1, hu])
      subst this
      exact absurd ⟨by rw [(e3 x).2.2.1]; exact hl, by rw [e4 hop]; exact hn, by rw [(e3 x).2.1]; exact hcl⟩ g

/-! Delivered results -/

/-- What has been committed has been delivered. -/
theorem committed_le {inactive : Bool} {h : History Path C} {m : Machine Path C} (hr : run (init inactive) h = some m) :
    ∀ p ∈ m.projects, p.committed ≤ p.notified := by
  have hm := micros_run (o := false) (c := false) hr (by simp) (by simp)
  have := Micros.inv (I := fun v : View Path C => ∀ p ∈ v.ps, p.committed ≤ p.notified) ?_ hm ?_
  · exact this
  · intro v w hv hw
    have one : ∀ (l1 l2 : List (Proj Path C)) (p q : Proj Path C), (∀ x ∈ l1 ++ p :: l2, x.committed ≤ x.notified) →
        (p.committed ≤ p.notified → q.committed ≤ q.notified) → ∀ x ∈ l1 ++ q :: l2, x.committed ≤ x.notified := by
      intro l1 l2 p q hall hpq x hx
      rcases mem_replace (p := p) hx with rfl | h
      · exact hpq (hall p (mem_mid _ _ _))
      · exact hall x h
    cases hw with
    | touch | retouch | shade | snapshot => exact one _ _ _ _ hv (fun h => h)
    | deliver s l1 p l2 u i a hi hp h1 =>
      refine one _ _ _ _ hv fun h => ?_
      unfold extCompiled
      split
      · rename_i hn
        unfold Proj.commit
        split
        · exact h
        · exact hn
      · have hk := emitPending_keeps { s with inbox := s.inbox.eraseIdx i } { p with notified := a.snap.rev, isCompiling := false, last := some a }
        have e1 := hk.2.2.2.2.2.2.1
        have e2 := hk.2.2.2.2.2.2.2.2.2.2.1
        simp only at e1 e2
        unfold Proj.commit
        split
        · rw [e1, e2]; omega
        · rw [e2]; exact Nat.le_refl _
    | reason s l1 p l2 u clean =>
      refine one _ _ _ _ hv fun h => ?_
      have hk := anyReason_keeps clean s p
      rw [hk.2.2.2.2.2.2.1, hk.2.2.2.2.2.2.2.1]
      exact h
    | remove s l1 p l2 u _ =>
      intro x hx
      refine hv x ?_
      simp only [List.mem_append, List.mem_cons] at hx ⊢
      grind
    | add s ps u g ina shad _ =>
      intro x hx
      rcases List.mem_append.mp hx with h | h
      · exact hv x h
      · rw [List.mem_singleton.mp h]; exact Nat.le_refl _
    | suspend | check | send | notify => exact hv
  · intro p hp
    have : p = newProj "primary" 0 inactive (fun _ => none) := by simpa [Machine.view, Machine.projects, init] using hp
    rw [this]; exact Nat.le_refl _

/-- C09: in an orderly history every result that is delivered is committed and becomes the last result of its project, and
the files it read are watched. -/
theorem delivered_committed {inactive : Bool} {h : History Path C} {m m' : Machine Path C} {i : Nat} {a : Art} {clean : String → Bool}
    (hr : run (init inactive) h = some m) (ho : Orderly inactive h) (hs : step clean m (.compiled i) = some m')
    (ha : m.sh.inbox[i]? = some a) :
    a.id ∈ m'.deps ∧ ∃ p' ∈ m'.projects, p'.uid = a.uid ∧ p'.id = a.id ∧ p'.committed = a.snap.rev ∧ p'.last = some a := by
  have hord := ordOk_run hr ho
  obtain ⟨m1, b, h1, rfl⟩ := step_eq hs
  simp only [interrupt, ha, Option.map_eq_some_iff] at h1
  obtain ⟨m2, h2, h3⟩ := h1
  cases h3
  obtain ⟨l1, p, l2, e1, e2, -, e3, e4, e5, -⟩ := onProject_some h2
  have hp : p ∈ m.projects := by rw [e1]; exact mem_mid _ _ _
  have hbox : a ∈ boxOf m.sh p.id := by
    unfold boxOf
    exact List.mem_filter.mpr ⟨List.mem_of_getElem? ha, by simp [e2]⟩
  have hst : a.uid = p.uid ∧ p.notified < a.snap.rev := by
    have hst := hord.stage p hp
    simp only [Machine.view] at hst
    cases hst with
    | idle hc hj hb => rw [hb] at hbox; cases hbox
    | running j hc hj hb => rw [hb] at hbox; cases hbox
    | done c hc hj hb hu hn hn' =>
      rw [hb] at hbox
      rw [List.mem_singleton.mp hbox]
      exact ⟨hu, hn'⟩
  have hcom := committed_le hr p hp
  have hx : extCompiled { m.sh with inbox := m.sh.inbox.eraseIdx i } p a =
      emitPending { m.sh with inbox := m.sh.inbox.eraseIdx i } { p with notified := a.snap.rev, isCompiling := false, last := some a } := by
    unfold extCompiled
    rw [if_neg (by omega)]
  have hk := emitPending_keeps { m.sh with inbox := m.sh.inbox.eraseIdx i } { p with notified := a.snap.rev, isCompiling := false, last := some a }
  rw [← hx] at hk
  simp only at e3 e5
  generalize hq : (extCompiled { m.sh with inbox := m.sh.inbox.eraseIdx i } p a).2 = q at hk e3 e5
  have k1 := hk.2.1
  have k2 := hk.2.2.1
  have k3 := hk.2.2.2.2.2.2.1
  have k4 := hk.2.2.2.2.2.2.2.2.2.2.2
  simp only at k1 k2 k3 k4
  have hlt : ¬ q.committed ≥ a.snap.rev := by omega
  rw [if_neg hlt] at e5
  have hcm : q.commit a = { q with committed := a.snap.rev } := by
    unfold Proj.commit; rw [if_neg hlt]
  rw [hcm] at e3
  rw [if_pos rfl]
  refine ⟨by rw [(onAny_eq clean _).2.2.2.2.2.2, e5]; simp, ?_⟩
  rw [(onAny_eq clean _).1, e3]
  have happ : ∀ (l1 : List (Proj Path C)) (x : Proj Path C) (s : Shared), ∃ s',
      (anyReason (clean x.id) s' x).2 ∈ (eachProj (fun s p => anyReason (clean p.id) s p) s (l1 ++ x :: l2)).2 := by
    intro l1 x
    induction l1 with
    | nil => intro s; exact ⟨s, by simp [eachProj]⟩
    | cons y l1 ih =>
      intro s
      obtain ⟨s', h⟩ := ih (anyReason (clean y.id) s y).1
      exact ⟨s', by simp only [List.cons_append, eachProj]; exact List.mem_cons_of_mem _ h⟩
  obtain ⟨s', hmem⟩ := happ l1 { q with committed := a.snap.rev } m1.sh
  have hkeep := anyReason_keeps (clean q.id) s' { q with committed := a.snap.rev }
  refine ⟨_, hmem, ?_, ?_, ?_, ?_⟩
  · rw [hkeep.2.2.1]; exact k2.trans hst.1.symm
  · rw [hkeep.2.1]; exact k1.trans e2
  · rw [hkeep.2.2.2.2.2.2.1]
  · rw [hkeep.2.2.2.2.2.2.2.2]; exact k4

/-- A result is delivered in an orderly history. -/
example : Orderly false ([edit 0 10] ++ finish.take 3) ∧ ends ([edit 0 10] ++ finish.take 3) (fun m => m.sh.inbox.length == 1) = true := by
  exact ⟨orderly_of_check (by decide +kernel), by decide +kernel⟩

/-! Closing files -/

theorem onAny_estimated (clean : String → Bool) (m : Machine Path C) : (onAny clean m).estimated = m.estimated := rfl

theorem removeDedicates_estimated (m : Machine Path C) (id : String) : (removeDedicates m id).estimated = m.estimated := by
  unfold removeDedicates; split <;> rfl

/-- The server knows which files the client has open. -/
theorem knows_open {inactive : Bool} {h : History Path C} {m : Machine Path C} (hr : run (init inactive) h = some m) (q : Path) :
    q ∈ m.estimated ↔ clientBuffer h q ≠ none := by
  refine run_inv (I := fun m h => q ∈ m.estimated ↔ clientBuffer h q ≠ none) ?_ ?_ hr
  · simp [init, clientBuffer]
  intro m h op clean m' _ ih hs
  obtain ⟨m1, b, h1, rfl⟩ := step_eq hs
  have hh : clientBuffer (h ++ [(op, clean)]) q = (match (generalizing := false) op with | .memory e _ => e.buffer q (clientBuffer h q) | _ => clientBuffer h q) := by
    unfold clientBuffer; rw [List.foldl_append]; rfl
  have key : q ∈ m1.estimated ↔ clientBuffer (h ++ [(op, clean)]) q ≠ none := by
    rw [hh]
    cases op with
    | compile id =>
      simp only [interrupt, Option.map_eq_some_iff] at h1
      obtain ⟨m2, h2, h3⟩ := h1
      cases h3
      obtain ⟨l1, p, l2, -, -, -, -, -, -, -, -, -, -, e, -⟩ := onProject_some h2
      rw [e]; exact ih
    | changeTask id i e =>
      simp only [interrupt, Option.map_eq_some_iff] at h1
      obtain ⟨m2, h2, h3⟩ := h1
      cases h3
      obtain ⟨l1, p, l2, -, -, -, -, -, -, -, -, -, -, e, -⟩ := onProject_some h2
      rw [e]; exact ih
    | compiled i =>
      simp only [interrupt] at h1
      split at h1
      · cases h1; exact ih
      · simp only [Option.map_eq_some_iff] at h1
        obtain ⟨m2, h2, h3⟩ := h1
        cases h3
        obtain ⟨l1, p, l2, -, -, -, -, -, -, -, -, -, -, e, -⟩ := onProject_some h2
        rw [e]; exact ih
    | settle id =>
      simp only [interrupt] at h1
      cases h1
      rw [removeDedicates_estimated]; exact ih
    | restart g i =>
      simp only [interrupt] at h1
      cases h1
      show q ∈ (removeDedicates m g).estimated ↔ _
      rw [removeDedicates_estimated]; exact ih
    | font c =>
      simp only [interrupt] at h1
      cases h1
      cases c <;> exact ih
    | memory e r =>
      have he : m1.estimated = e.estimate m.estimated := by
        simp only [interrupt] at h1
        split at h1 <;> (cases h1; rfl)
      rw [he]
      simp only [MemEvent.estimate, MemEvent.buffer, List.mem_append, List.mem_filter, decide_eq_true_eq]
      cases hx : e.inserts.reverse.find? (fun x => decide (x.1 = q)) with
      | some x =>
        have h1 := List.mem_of_find?_eq_some hx
        have h2 : x.1 = q := by simpa using List.find?_some hx
        simp only [ne_eq, reduceCtorEq, not_false_iff, iff_true]
        exact Or.inr (List.mem_map.mpr ⟨x, List.mem_reverse.mp h1, h2⟩)
      | none =>
        have hni : q ∉ e.inserts.map (·.1) := by
          intro hm
          obtain ⟨x, hx', e'⟩ := List.mem_map.mp hm
          have := List.find?_eq_none.mp hx x (List.mem_reverse.mpr hx')
          simp [e'] at this
        cases hsy : e.sync <;> by_cases hre : q ∈ e.removes <;> simp [hre, hni, ih]
    | fs ack ch =>
      simp only [interrupt] at h1
      split at h1 <;> (cases h1; exact ih)
    | snapshot => simp only [interrupt] at h1; cases h1; exact ih
    | jobCheck i => simp only [interrupt] at h1; split at h1 <;> (cases h1; exact ih)
    | jobSend i => simp only [interrupt] at h1; split at h1 <;> (cases h1; exact ih)
    | jobNotify i => simp only [interrupt] at h1; split at h1 <;> (cases h1; exact ih)
  cases b
  · exact key
  · rw [if_pos rfl, onAny_estimated]; exact key

/-- C08: a message that closes an open file changes no project before the watcher has looked at the file on disk: it waits
behind the messages that wait already. -/
theorem closing_waits {inactive : Bool} {h : History Path C} {m m' : Machine Path C} {clean r : String → Bool}
    {e : MemEvent Path C} (hr : run (init inactive) h = some m) (hs : step clean m (.memory e r) = some m')
    {q : Path} (hopen : clientBuffer h q ≠ none) (hclose : e.buffer q (clientBuffer h q) = none) :
    m'.upstream = m.upstream ++ [(1, e)] ∧ m'.projects.map (·.shadow) = m.projects.map (·.shadow) ∧
      m'.projects.map (·.rev) = m.projects.map (·.rev) := by
  have hm := (knows_open hr q).mpr hopen
  have hni : q ∉ e.inserts.map (·.1) := by
    intro hx
    obtain ⟨x, hx', e'⟩ := List.mem_map.mp hx
    unfold MemEvent.buffer at hclose
    split at hclose
    · cases hclose
    · rename_i hf
      have := List.find?_eq_none.mp hf x (List.mem_reverse.mpr hx')
      simp [e'] at this
  have hin : q ∈ e.invalidates m.estimated := by
    unfold MemEvent.buffer at hclose
    split at hclose
    · cases hclose
    · split at hclose
      · rename_i hor
        simp only [MemEvent.invalidates, List.mem_filter, decide_eq_true_eq, List.mem_append]
        refine ⟨?_, hni⟩
        rcases hor with h | h
        · left; simp [h, hm]
        · exact Or.inr h
      · exact absurd hclose hopen
  have hne : (e.invalidates m.estimated).isEmpty = false := by
    cases hx : e.invalidates m.estimated with
    | nil => rw [hx] at hin; cases hin
    | cons => rfl
  obtain ⟨m1, b, h1, rfl⟩ := step_eq hs
  simp only [interrupt, hne, Bool.false_and, Bool.false_eq_true, if_false] at h1
  cases h1
  rw [if_pos rfl]
  obtain ⟨e1, -, e3, -⟩ := onAny_eq clean { m with estimated := e.estimate m.estimated, dirty := m.tick, upstream := m.upstream ++ [(m.tick, e)] }
  rw [e1, e3]
  refine ⟨by rw [(none_waiting hr).1], ?_, ?_⟩
  · exact eachProj_map _ _ (fun s p => (anyReason_keeps ..).1) _ _
  · exact eachProj_map _ _ (fun s p => (anyReason_keeps ..).2.2.2.2.1) _ _

/-- A message that closes no file, when none waits, is applied to every project at once. -/
theorem applied_at_once {inactive : Bool} {h : History Path C} {m m' : Machine Path C} {clean r : String → Bool}
    {e : MemEvent Path C} (hr : run (init inactive) h = some m) (hs : step clean m (.memory e r) = some m')
    (hup : m.upstream = []) (hrem : ∀ q ∈ e.removes, q ∈ e.inserts.map (·.1))
    (hkeep : ∀ q, clientBuffer h q ≠ none → e.buffer q (clientBuffer h q) ≠ none) :
    m'.upstream = [] ∧ m'.projects.map (·.shadow) = m.projects.map (fun p => e.apply p.shadow) := by
  have hd : m.dirty = 0 := by
    rcases (none_waiting hr).2.2 with h | ⟨-, h⟩
    · exact h
    · exact absurd hup h
  have hi : e.invalidates m.estimated = [] := by
    unfold MemEvent.invalidates
    rw [List.filter_eq_nil_iff]
    intro q hq
    simp only [decide_eq_true_eq, Classical.not_not]
    rcases List.mem_append.mp hq with hq | hq
    · cases hsy : e.sync
      · rw [hsy] at hq; cases hq
      · rw [hsy, if_pos rfl] at hq
        have := hkeep q ((knows_open hr q).mp hq)
        unfold MemEvent.buffer at this
        split at this
        · rename_i x hx
          have h2 : x.1 = q := by simpa using List.find?_some hx
          exact List.mem_map.mpr ⟨x, List.mem_reverse.mp (List.mem_of_find?_eq_some hx), h2⟩
        · simp [hsy] at this
    · exact hrem q hq
  obtain ⟨m1, b, h1, rfl⟩ := step_eq hs
  simp only [interrupt, hi, hd, List.isEmpty_nil, beq_self_eq_true, Bool.and_self, if_true] at h1
  cases h1
  rw [if_pos rfl]
  obtain ⟨e1, -, e3, -⟩ := onAny_eq clean
    (({ m with dirty := 0, estimated := e.estimate m.estimated } : Machine Path C).mapAll fun p => p.memory (r p.id) e)
  rw [e1, e3]
  refine ⟨hup, ?_⟩
  refine (eachProj_map (·.shadow) _ (fun s p => (anyReason_keeps ..).1) _ _).trans ?_
  rw [mapAll_projects, List.map_map]
  refine List.map_congr_left fun p _ => ?_
  simp only [Function.comp]
  unfold Proj.memory
  simp only
  split <;> rfl

/-- C08: a message that closes no file, when none waits, also if it lists all open files anew, at once does to the contents
every project sees what it did to the client's buffers. -/
theorem kept_open_at_once {inactive : Bool} {h : History Path C} {m m' : Machine Path C} {clean r : String → Bool}
    {e : MemEvent Path C} (hr : run (init inactive) h = some m) (hs : step clean m (.memory e r) = some m')
    (hup : m.upstream = []) (hrem : ∀ q ∈ e.removes, q ∈ e.inserts.map (·.1))
    (hkeep : ∀ q, clientBuffer h q ≠ none → e.buffer q (clientBuffer h q) ≠ none) (q : Path) :
    m'.projects.map (fun p => p.shadow q) = m.projects.map (fun p => e.buffer q (p.shadow q)) := by
  have h1 := (applied_at_once hr hs hup hrem hkeep).2
  have h2 := congrArg (List.map (fun f : Path → Option C => f q)) h1
  simpa [List.map_map, Function.comp_def, apply_at] using h2

/-- A file is opened, the client lists all its open files anew, and closes it. -/
example : clientBuffer [edit 0 10] 0 = some 10 ∧
    (⟨true, [], [(0, 11)]⟩ : MemEvent Nat Nat).buffer 0 (some 10) = some 11 ∧
    (⟨true, [], [(1, 11)]⟩ : MemEvent Nat Nat).buffer 0 (some 10) = none ∧
    ends [edit 0 10] (fun m => m.upstream.isEmpty) = true := by decide +kernel

/-- The hypotheses are met after the first compilation, and the second history shows the check at work. -/
example : ends ([edit 0 10] ++ finish) (fun m => m.upstream.isEmpty && !m.primary.isCompiling && !m.primary.inactive &&
      m.primary.last.isSome && !m.primary.reason.any && m.sh.issued.length == 1 &&
      ((step (fun _ => true) m (edit 0 11).1).map fun m => m.sh.issued.length) == some 1 &&
      ((step (fun _ => false) m (edit 0 11).1).map fun m => m.sh.issued.length) == some 2 &&
      ((step (fun _ => false) m (.fs false (fun _ => false))).map fun m => m.sh.issued.length) == some 1) = true := by
  decide +kernel

/-- A file is closed; the watcher reports that nothing changed on disk; the project is compiled. -/
example : ends ([edit 0 10] ++ finish ++ [op (.memory ⟨false, [0], []⟩ (fun _ => false))]) (fun m =>
      m.upstream.length == 1 && !m.primary.isCompiling && m.sh.issued.length == 1 &&
      ((step (fun _ => false) m (.fs true (fun _ => false))).map fun m => m.sh.issued.length) == some 2) = true := by
  decide +kernel

end Tinymist.Project
