import Verif.Lemmas.ProjectBuffers
import Verif.Lemmas.ProjectStatus
/-!
# Projects

C08 (editor edits are not overtaken), C09 (no change is forgotten), C10 (dedicated projects), C31 (a save
without changes), C50 (results and statuses are reported in order).
-/
namespace Tinymist.Project
variable {Path C : Type} [DecidableEq Path]

/-! ## A concrete history -/

/-- Checks a condition on every step of a history. -/
def along (P : Machine Path C → Op Path C → Bool) (m : Machine Path C) : History Path C → Bool
  | [] => true
  | (op, clean) :: h => P m op && match step clean m op with | none => true | some m' => along P m' h

theorem along_spec {P : Machine Path C → Op Path C → Bool} {m0 : Machine Path C} {h : History Path C} (ha : along P m0 h = true)
    (pre : History Path C) (op : Op Path C) (clean : String → Bool) (post : History Path C) (m : Machine Path C)
    (hh : h = pre ++ (op, clean) :: post) (hm : run m0 pre = some m) : P m op = true := by
  induction pre generalizing m0 h with
  | nil =>
    cases hm
    subst hh
    simp only [List.nil_append, along, Bool.and_eq_true] at ha
    exact ha.1
  | cons x pre ih =>
    obtain ⟨op', clean'⟩ := x
    subst hh
    simp only [List.cons_append, along, Bool.and_eq_true] at ha
    simp only [run] at hm
    cases hs : step clean' m0 op' with
    | none => rw [hs] at hm; cases hm
    | some m1 =>
      rw [hs] at hm ha
      exact ih ha.2 rfl hm

instance (m : Machine Path C) (op : Op Path C) : Decidable (op.Orderly m) := by
  cases op <;> unfold Op.Orderly <;> infer_instance

theorem orderly_of_check {inactive : Bool} {h : History Path C}
    (hc : along (fun m op => decide (op.Orderly m)) (init inactive) h = true) : Orderly inactive h :=
  fun pre op clean post m hh hm => of_decide_eq_true (along_spec hc pre op clean post m hh hm)

/-- The state at the end of a history. -/
def ends (h : History Path C) (P : Machine Path C → Bool) : Bool :=
  match run (init false) h with
  | some m => P m
  | none => false

theorem ends_spec {h : History Path C} {P : Machine Path C → Bool} (he : ends h P = true) :
    ∃ m, run (init false) h = some m ∧ P m = true := by
  unfold ends at he
  split at he
  · rename_i m hm; exact ⟨m, hm, he⟩
  · cases he

def edit (q c : Nat) : Op Nat Nat × (String → Bool) := (.memory ⟨false, [], [(q, c)]⟩ (fun _ => true), fun _ => false)
def close (q : Nat) : Op Nat Nat × (String → Bool) := (.memory ⟨false, [q], []⟩ (fun _ => true), fun _ => false)
def ack : Op Nat Nat × (String → Bool) := (.fs true (fun _ => true), fun _ => false)
def op (o : Op Nat Nat) : Op Nat Nat × (String → Bool) := (o, fun _ => false)
/-- A compilation runs to its end and its result is delivered. -/
def finish : History Nat Nat := [op (.jobCheck 0), op (.jobSend 0), op (.jobNotify 0), op (.compiled 0)]

/-- Two edits, the second during the compilation of the first; a preview of another document; a file is closed. -/
def sample : History Nat Nat :=
  [edit 0 10, op (.jobCheck 0), edit 0 11, op (.jobSend 0), op (.jobNotify 0), op (.compiled 0)] ++ finish ++
  [op (.restart "preview" false), edit 1 5, op (.jobCheck 1), op (.jobCheck 0), op (.jobSend 0), op (.jobSend 1),
    op (.jobNotify 1), op (.compiled 0), op (.jobNotify 0), op (.compiled 0), close 1, ack] ++ finish ++ finish ++
  [op (.settle "preview")]

theorem sample_orderly : Orderly false sample := orderly_of_check (by decide +kernel)

theorem sample_runs : ends sample (fun m => m.sh.jobs == [] && m.sh.inbox == [] && m.projects.map (·.id) == ["primary"] &&
    m.upstream.length == 0 && resultRevs m.sh.outs "primary" == [2, 3, 4, 5] && resultRevs m.sh.outs "preview" == [] &&
    m.projects.map (·.shadow 0) == [some 11] && clientBuffer sample 0 == some 11) = true := by decide +kernel

/-! ## C08: what the compiler sees of the buffers -/

/-- C08 fails: after a close is acknowledged, a later edit is applied at once and an earlier one, still waiting for
the watcher, then overwrites it. When everything has been processed the compiler has the older text. -/
theorem older_edit_wins : ∃ h : History Nat Nat, ∃ m, run (init false) h = some m ∧ m.upstream = [] ∧
    m.sh.jobs = [] ∧ m.sh.inbox = [] ∧ clientBuffer h 1 = some 12 ∧ m.primary.shadow 1 = some 11 := by
  refine ⟨[edit 0 10, close 0, edit 1 11, ack, edit 1 12, ack] ++ finish ++ finish, ?_⟩
  obtain ⟨m, h1, h2⟩ := ends_spec (h := [edit 0 10, close 0, edit 1 11, ack, edit 1 12, ack] ++ finish ++ finish)
    (P := fun m => m.upstream.isEmpty && m.sh.jobs.isEmpty && m.sh.inbox.isEmpty && m.primary.shadow 1 == some 11) (by decide +kernel)
  simp only [Bool.and_eq_true, List.isEmpty_iff, beq_iff_eq] at h2
  exact ⟨m, h1, h2.1.1.1, h2.1.1.2, h2.1.2, by decide +kernel, h2.2⟩

/-- The same with a file that is open in the editor: the compiler ends up without the buffer. -/
theorem open_buffer_lost : ∃ h : History Nat Nat, ∃ m, run (init false) h = some m ∧ m.upstream = [] ∧
    clientBuffer h 1 = some 12 ∧ m.primary.shadow 1 = none := by
  refine ⟨[edit 0 10, edit 1 11, close 0, close 1, ack, edit 1 12, ack], ?_⟩
  obtain ⟨m, h1, h2⟩ := ends_spec (h := [edit 0 10, edit 1 11, close 0, close 1, ack, edit 1 12, ack])
    (P := fun m => m.upstream.isEmpty && m.primary.shadow 1 == none) (by decide +kernel)
  simp only [Bool.and_eq_true, List.isEmpty_iff, beq_iff_eq] at h2
  exact ⟨m, h1, h2.1, by decide +kernel, h2.2⟩

/-- C08, partial: if no message about a buffer is applied while an earlier one about it is still waiting for the
watcher, then once all have been acknowledged, every project sees the client's last content. Missing: histories in
which such a message is applied at once (`older_edit_wins`). -/
theorem buffers_up_to_date_partial {inactive : Bool} {h : History Path C} {m : Machine Path C}
    (hr : run (init inactive) h = some m) (q : Path) (hn : NotOvertaking q inactive h) (hu : m.upstream = []) :
    ∀ p ∈ m.projects, p.shadow q = clientBuffer h q := by
  obtain ⟨S, hs, hb⟩ := buffer_inv hr q hn
  intro p hp
  rw [hs p hp, hb, hu]
  rfl

/-- It holds if every message is acknowledged before the client sends the next. -/
theorem buffers_up_to_date_lockstep {inactive : Bool} {h : History Path C} {m : Machine Path C}
    (hr : run (init inactive) h = some m)
    (hn : ∀ pre e r clean post m', h = pre ++ (.memory e r, clean) :: post → run (init inactive) pre = some m' → m'.upstream = [])
    (hu : m.upstream = []) (q : Path) : ∀ p ∈ m.projects, p.shadow q = clientBuffer h q := by
  refine buffers_up_to_date_partial hr q ?_ hu
  intro pre e r clean post m' hh hm _
  right
  rw [hn pre e r clean post m' hh hm]
  intro x hx
  cases hx

/-- It holds at every moment while the client closes nothing. -/
theorem buffers_up_to_date_no_close {inactive : Bool} {h : History Path C} {m : Machine Path C}
    (hr : run (init inactive) h = some m)
    (hn : ∀ e r clean, (Op.memory e r, clean) ∈ h → e.sync = false ∧ e.removes = []) (q : Path) :
    ∀ p ∈ m.projects, p.shadow q = clientBuffer h q := by
  have key : ∀ (h : History Path C) (m : Machine Path C), run (init inactive) h = some m →
      (∀ e r clean, (Op.memory e r, clean) ∈ h → e.sync = false ∧ e.removes = []) → m.upstream = [] ∧ m.dirty = 0 := by
    intro h m hr hn
    refine run_inv (I := fun m h => (∀ e r clean, (Op.memory e r, clean) ∈ h → e.sync = false ∧ e.removes = []) →
      m.upstream = [] ∧ m.dirty = 0) (fun _ => ⟨rfl, rfl⟩) ?_ hr hn
    intro m h op clean m' hm ih hs hn
    obtain ⟨h1, h2⟩ := ih (fun e r c hc => hn e r c (List.mem_append_left _ hc))
    obtain ⟨S, hS⟩ := projects_agree hm q
    rcases sees_step hs hS with ⟨e, r, rfl, ⟨-, -, -, hu, hd⟩ | ⟨ho, -⟩⟩ | ⟨c, t, e, rest, -, hu, -⟩ | ⟨-, -, hu, hd⟩
    · exact ⟨hu.trans h1, hd⟩
    · obtain ⟨g1, g2⟩ := hn e r clean (List.mem_append_right _ (List.mem_singleton.mpr rfl))
      rcases ho with ho | ho
      · exfalso
        apply ho
        unfold MemEvent.invalidates
        rw [g1, g2]
        rfl
      · exact absurd h2 ho
    · rw [h1] at hu; cases hu
    · exact ⟨hu.trans h1, hd.trans h2⟩
  refine buffers_up_to_date_partial hr q ?_ (key h m hr hn).1
  intro pre e r clean post m' hh hm _
  right
  have := (key pre m' hm (fun e r c hc => hn e r c (by rw [hh]; exact List.mem_append_left _ hc))).1
  rw [this]
  intro x hx
  cases hx

/-- All projects see the same buffers, in every history. -/
theorem projects_see_the_same {inactive : Bool} {h : History Path C} {m : Machine Path C}
    (hr : run (init inactive) h = some m) : ∀ p ∈ m.projects, ∀ p' ∈ m.projects, ∀ q, p.shadow q = p'.shadow q := by
  intro p hp p' hp' q
  obtain ⟨S, hS⟩ := projects_agree hr q
  rw [hS p hp, hS p' hp']

/-- `sample` meets the hypothesis of `buffers_up_to_date_lockstep`, with a deferred change. -/
example : along (fun m op => match op with | .memory _ _ => m.upstream.isEmpty | _ => true) (init false) sample = true ∧
    ends (sample.take 21) (fun m => m.upstream.length == 1) = true := by decide +kernel

/-! ## C09: no change is forgotten -/

/-- C09: a change that reached a project is in a compilation that was issued for it or was found not to concern what it
last compiled, or the project still has a reason to compile. -/
theorem no_change_forgotten {inactive : Bool} {h : History Path C} {m : Machine Path C}
    (hr : run (init inactive) h = some m) : ∀ p ∈ m.projects, p.reason.any = true ∨ Covered m.sh p :=
  (covOk_run hr).cov

/-- Project instances are told apart: a compilation belongs to at most one of them, and to none that comes later. -/
theorem instances_distinct {inactive : Bool} {h : History Path C} {m : Machine Path C}
    (hr : run (init inactive) h = some m) : (m.projects.map (·.uid)).Nodup ∧ (∀ p ∈ m.projects, p.uid < m.nextUid) ∧
      (∀ a ∈ m.sh.issued, a.uid < m.nextUid) := by
  have := (covOk_run hr).uid
  exact ⟨this.2.2.2, this.1, this.2.1⟩

/-- After such a step the server does look. -/
theorem handled_interrupt {m m1 : Machine Path C} {op : Op Path C} {b : Bool} (ho : op.Handled m)
    (h : interrupt m op = some (m1, b)) : b = true := by
  cases op with
  | compile | changeTask =>
    simp only [interrupt, Option.map_eq_some_iff] at h
    obtain ⟨_, -, h⟩ := h
    cases h; rfl
  | settle | font => simp only [interrupt] at h; cases h; rfl
  | memory => simp only [interrupt] at h; split at h <;> (cases h; rfl)
  | fs ack ch =>
    simp only [interrupt] at h
    split at h
    · rename_i hu; exact absurd hu (ho rfl)
    · cases h; rfl
    · cases h; rfl
  | compiled i =>
    have hi : i < m.sh.inbox.length := ho
    simp only [interrupt, List.getElem?_eq_getElem hi, Option.map_eq_some_iff] at h
    obtain ⟨_, -, h⟩ := h
    cases h; rfl
  | _ => exact absurd ho (by simp [Op.Handled])

/-- When the main thread is done with an interrupt, a project is compiling, suspended, or up to date. -/
theorem compiling_or_covered {inactive : Bool} {h : History Path C} {m m' : Machine Path C} {op : Op Path C}
    {clean : String → Bool} (hr : run (init inactive) h = some m) (hi : op.Handled m)
    (hs : step clean m op = some m') : ∀ p ∈ m'.projects, p.isCompiling = true ∨ p.inactive = true ∨ Covered m'.sh p := by
  intro p hp
  have hr' : run (init inactive) (h ++ [(op, clean)]) = some m' := by
    rw [run_append, hr]
    simp only [Option.bind_some, run, hs]
  have hc := no_change_forgotten hr' p hp
  obtain ⟨m1, b, h1, rfl⟩ := step_eq hs
  have hb := handled_interrupt hi h1
  subst hb
  have hd := eachProj_done clean m1.sh m1.projects p hp
  rcases hd with hd | hd | hd
  · exact Or.inl hd
  · exact Or.inr (Or.inl hd)
  · rw [hd] at hc
    rcases hc with hc | hc
    · cases hc
    · exact Or.inr (Or.inr hc)

/-- Results are committed in increasing order. -/
theorem committed_increases {inactive : Bool} {h : History Path C} {m m' : Machine Path C} {op : Op Path C}
    {clean : String → Bool} (hr : run (init inactive) h = some m) (hs : step clean m op = some m') :
    ∀ p ∈ m.projects, ∀ p' ∈ m'.projects, p'.uid = p.uid → p.committed ≤ p'.committed := by
  intro p hp p' hp' hu
  have hk := covOk_run hr
  have hm := (micros_committed (micros_step (o := false) (c := false) hs (by simp) (by simp))).2 p' hp'
  rcases hm with ⟨q, hq, e, hc⟩ | hm
  · have : q = p := Util.eq_of_nodup_map hk.uid.2.2.2 hq hp (e.trans hu)
    subst this
    exact hc
  · have h1 := hk.uid.1 p hp
    omega

/-- What is being compiled: in an orderly history a project is marked as compiling exactly while one compilation of it
is on its way. -/
theorem compiling_iff_in_flight {inactive : Bool} {h : History Path C} {m : Machine Path C}
    (hr : run (init inactive) h = some m) (ho : Orderly inactive h) :
    ∀ p ∈ m.projects, (p.isCompiling = false ∧ m.sh.inFlight p.id = []) ∨
      (p.isCompiling = true ∧ ∃ a, m.sh.inFlight p.id = [a] ∧ a.uid = p.uid) := by
  intro p hp
  have hs := (ordOk_run hr ho).stage p hp
  cases hs with
  | idle hc hj hb => left; refine ⟨hc, ?_⟩; rw [inFlight_eq]; simp only [Machine.view] at hj hb; rw [hj, hb]; rfl
  | running j hc hj hb hu =>
    right; refine ⟨hc, j.art, ?_, hu⟩; rw [inFlight_eq]; simp only [Machine.view] at hj hb; rw [hj, hb]; rfl
  | done a hc hj hb hu =>
    right; refine ⟨hc, a, ?_, hu⟩; rw [inFlight_eq]; simp only [Machine.view] at hj hb; rw [hj, hb]; rfl

/-- C09 to the end, partial: in an orderly history, when the main thread has handled an interrupt and nothing is on its
way, every project that is not suspended is up to date. Missing: histories in which a project is removed or restarted
while it compiles (`restarted_project_stuck`). -/
theorem up_to_date_when_idle_partial {inactive : Bool} {h : History Path C} {m m' : Machine Path C} {op : Op Path C}
    {clean : String → Bool} (hr : run (init inactive) h = some m) (ho : Orderly inactive (h ++ [(op, clean)]))
    (hi : op.Handled m) (hs : step clean m op = some m') (hj : m'.sh.jobs = []) (hb : m'.sh.inbox = []) :
    ∀ p ∈ m'.projects, p.inactive = true ∨ Covered m'.sh p := by
  intro p hp
  have hr' : run (init inactive) (h ++ [(op, clean)]) = some m' := by
    rw [run_append, hr]
    simp only [Option.bind_some, run, hs]
  rcases compiling_or_covered hr hi hs p hp with hc | hc
  · rcases compiling_iff_in_flight hr' ho p hp with ⟨h1, -⟩ | ⟨-, a, h1, -⟩
    · rw [hc] at h1; cases h1
    · unfold Shared.inFlight at h1
      rw [hj, hb] at h1
      cases h1
  · exact hc

/-- C09 to the end fails in general: a project restarted while its former instance compiles waits for ever for a result
that was dropped, and later changes are not compiled although nothing is on its way. -/
theorem restarted_project_stuck : ∃ h : History Nat Nat, ∃ m, run (init false) h = some m ∧ m.sh.jobs = [] ∧ m.sh.inbox = [] ∧
    ∃ p ∈ m.projects, p.isCompiling = true ∧ p.inactive = false ∧ p.reason.any = true ∧
      (m.sh.issued.filter (fun a => a.uid = p.uid ∧ a.snap.stamp = p.stamp)) = [] := by
  have he : ends ([op (.restart "preview" false), op (.font false), op (.jobCheck 0), op (.jobSend 0), op (.restart "preview" false),
      op (.jobNotify 0), op (.compiled 0), op (.jobCheck 0), op (.jobSend 0), op (.jobNotify 0), edit 0 1] ++ finish)
    (fun m => m.sh.jobs.isEmpty && m.sh.inbox.isEmpty &&
      m.projects.any (fun p => p.isCompiling && !p.inactive && p.reason.any &&
        (m.sh.issued.filter (fun a => a.uid = p.uid ∧ a.snap.stamp = p.stamp)).isEmpty)) = true := by decide +kernel
  obtain ⟨m, h1, h2⟩ := ends_spec he
  simp only [Bool.and_eq_true, List.isEmpty_iff, List.any_eq_true, Bool.not_eq_true'] at h2
  obtain ⟨⟨h2, h3⟩, p, hp, ⟨⟨h4, h5⟩, h6⟩, h7⟩ := h2
  exact ⟨_, m, h1, h2, h3, p, hp, h4, h5, h6, h7⟩

/-- No message makes the server panic in an orderly history. -/
theorem orderly_no_panic {inactive : Bool} (h : History Path C) (ho : Orderly inactive h) : ∃ m, run (init inactive) h = some m := by
  induction h using Util.reverseInd with
  | nil => exact ⟨_, rfl⟩
  | append_singleton h x ih =>
    obtain ⟨m, hm⟩ := ih (orderly_pre ho)
    have hk := ordOk_run hm (orderly_pre ho)
    have hop := ho h x.1 x.2 [] m rfl hm
    rw [run_append, hm]
    obtain ⟨op, clean⟩ := x
    simp only [Option.bind_some, run]
    have : ∃ r, interrupt m op = some r := by
      cases hi : interrupt m op with
      | some r => exact ⟨r, rfl⟩
      | none =>
        exfalso
        cases op with
        | compile id =>
          simp only [interrupt, Option.map_eq_none_iff] at hi
          exact onProject_none hi hop
        | changeTask id inputs entry =>
          simp only [interrupt, Option.map_eq_none_iff] at hi
          exact onProject_none hi hop.1
        | compiled i =>
          simp only [interrupt] at hi
          split at hi
          · cases hi
          · rename_i a ha
            rw [Option.map_eq_none_iff] at hi
            obtain ⟨p, hp, e⟩ := hk.known.2 a (List.mem_of_getElem? ha)
            apply onProject_none hi
            rw [← e]
            exact List.mem_map_of_mem hp
        | fs ack changes =>
          simp only [interrupt] at hi
          split at hi <;> cases hi
        | memory e r =>
          simp only [interrupt] at hi
          split at hi <;> cases hi
        | jobCheck i =>
          simp only [interrupt] at hi
          split at hi <;> cases hi
        | jobSend i =>
          simp only [interrupt] at hi
          split at hi <;> cases hi
        | jobNotify i =>
          simp only [interrupt] at hi
          split at hi <;> cases hi
        | settle | font | snapshot | restart => simp [interrupt] at hi
    obtain ⟨r, hr⟩ := this
    have hst : step clean m op = some (if r.2 then onAny clean r.1 else r.1) := by
      unfold step
      rw [hr]
      rfl
    rw [hst]
    exact ⟨_, rfl⟩

/-! ## C10: dedicated projects -/

theorem filter_others {m : Machine Path C} {l1 l2 : List (Proj Path C)} {p : Proj Path C} {g : String}
    (hn : (m.projects.map (·.id)).Nodup) (h1 : m.dedicates = l1 ++ p :: l2) (hp : p.id = g) (h2 : ∀ q ∈ l1, q.id ≠ g) :
    m.dedicates.filter (fun q => q.id ≠ g) = l1 ++ l2 := by
  have hn' := hn
  unfold Machine.projects at hn'
  rw [h1, List.map_cons, List.nodup_cons, List.map_append, List.map_cons, List.nodup_append, List.nodup_cons] at hn'
  obtain ⟨-, -, ⟨h3, -⟩, -⟩ := hn'
  rw [h1, List.filter_append, List.filter_cons_of_neg (by simp [hp])]
  congr 1
  · rw [List.filter_eq_self]
    intro q hq
    simpa using h2 q hq
  · rw [List.filter_eq_self]
    intro q hq
    simp only [decide_eq_true_eq]
    intro e
    apply h3
    rw [hp, ← e]
    exact List.mem_map_of_mem hq

/-- Restarting a dedicated project leaves the primary and the other dedicated projects exactly as they were. -/
theorem restart_leaves_others {m m' : Machine Path C} {g : String} {ina : Bool} {clean : String → Bool}
    (hn : (m.projects.map (·.id)).Nodup) (hs : step clean m (.restart g ina) = some m') :
    m'.primary = m.primary ∧ ∃ p, m'.dedicates = m.dedicates.filter (fun q => q.id ≠ g) ++ [p] ∧ p.id = g ∧ p.uid = m.nextUid ∧
      p.inactive = ina ∧ p.last = none ∧ p.reason.any = true ∧ p.shadow = m.primary.shadow := by
  cases hs
  simp only [Bool.false_eq_true, if_false]
  refine ⟨by unfold restart; rw [remove_primary], { newProj g m.nextUid ina m.primary.shadow with reason := ⟨false, false, true⟩, stamp := 1 },
    ?_, rfl, rfl, rfl, rfl, rfl, rfl⟩
  have hf : (removeDedicates m g).dedicates = m.dedicates.filter (fun q => q.id ≠ g) := by
    rcases remove_cases m g with ⟨h, hd⟩ | ⟨l1, p, l2, h1, hp, h2, h⟩
    · rw [h, List.filter_eq_self.mpr]
      intro q hq
      simpa using hd q hq
    · rw [h, filter_others hn h1 hp h2]
  unfold restart
  simp only
  rw [hf]
  rfl

/-- Removing a dedicated project leaves the others as they were, but for compilations that are due; its diagnostics are
withdrawn and its dependencies forgotten. -/
theorem settle_leaves_others {m m' : Machine Path C} {id : String} {clean : String → Bool}
    (hn : (m.projects.map (·.id)).Nodup) (hs : step clean m (.settle id) = some m') (hid : id ≠ m.primary.id)
    (hd : id ∈ m.dedicates.map (·.id)) :
    m'.projects.map (fun p => (p.id, p.uid, p.rev, p.stamp, p.committed, p.last)) =
      (m.projects.filter (fun q => q.id ≠ id)).map (fun p => (p.id, p.uid, p.rev, p.stamp, p.committed, p.last)) ∧
    m'.projects.map (·.shadow) = (m.projects.filter (fun q => q.id ≠ id)).map (·.shadow) ∧
    id ∉ m'.deps ∧ (m.sh.outs ++ [.cleared id true]) <+: m'.sh.outs := by
  obtain ⟨p0, hp0, e0⟩ := List.mem_map.mp hd
  rcases remove_cases m id with ⟨-, hd⟩ | ⟨l1, p, l2, h1, hp, h2, h⟩
  · exact absurd e0 (hd p0 hp0)
  · have hf : (removeDedicates m id).projects = m.projects.filter (fun q => q.id ≠ id) := by
      unfold Machine.projects
      rw [h, List.filter_cons_of_pos (by simpa using fun e => hid e.symm), filter_others hn h1 hp h2]
    have hs' : m' = onAny clean (removeDedicates m id) := by
      simp only [step, interrupt, Option.map_some, if_true] at hs
      injection hs with hs
      exact hs.symm
    have hpre : ∀ (l : List (Proj Path C)) (s : Shared),
        s.outs <+: (eachProj (fun s p => anyReason (clean p.id) s p) s l).1.outs := by
      intro l
      induction l with
      | nil => intro s; exact List.prefix_refl _
      | cons q l ih =>
        intro s
        simp only [eachProj]
        refine List.IsPrefix.trans ?_ (ih _)
        have hnot : ∀ (s : Shared) (a : Art) (b : Bool), s.outs <+: (s.notify a b).outs := by
          intro s a b
          unfold Shared.notify
          split
          · exact List.prefix_refl _
          · exact List.prefix_append _ _
        rcases anyReason_cases (clean q.id) s q with ⟨-, e⟩ | ⟨-, -, -, -, -, e⟩ | ⟨-, -, e⟩ | ⟨-, -, -, e⟩
        · rw [e]; exact List.prefix_refl _
        · rw [e]
          rcases emitPending_shared { s with verdicts := s.verdicts ++ [(q.uid, q.stamp)] }
            { q with pending := q.pending.see q.reason, reason := .none } with e | ⟨b, e⟩
          · rw [e]; exact List.prefix_refl _
          · rw [e]
            exact hnot { s with verdicts := s.verdicts ++ [(q.uid, q.stamp)] } _ _
        · rw [e]; exact List.prefix_refl _
        · rw [e]
          simp only [Shared.status]
          split
          · have : (s.statusCheck q.id q.snapshot.rev).1.outs = s.outs := (statusCheck_keeps ..).2.2.2.2.2
            simp only
            rw [this]
            exact List.prefix_append _ _
          · have : (s.statusCheck q.id q.snapshot.rev).1.outs = s.outs := (statusCheck_keeps ..).2.2.2.2.2
            rw [this]
            exact List.prefix_refl _
    subst hs'
    refine ⟨?_, ?_, ?_, ?_⟩
    · rw [(onAny_eq clean _).1, ← hf]
      refine eachProj_map _ _ (fun s p => ?_) _ _
      obtain ⟨-, k2, k3, k4, k5, -, k7, -, k9⟩ := anyReason_keeps (clean p.id) s p
      rw [k2, k3, k4, k5, k7, k9]
    · rw [onAny_shadow, ← hf]
    · rw [(onAny_eq clean _).2.2.2.2.2.2, h]
      simp
    · have := hpre (removeDedicates m id).projects (removeDedicates m id).sh
      rw [← (onAny_eq clean _).2.1] at this
      rw [h] at this ⊢
      exact this

/-- Ids of live projects are distinct, unless a dedicated project takes the id of the primary one. -/
theorem ids_distinct_partial {inactive : Bool} {h : History Path C} {m : Machine Path C} (hr : run (init inactive) h = some m)
    (hg : ∀ g i clean, (Op.restart g i, clean) ∈ h → g ≠ "primary") : (m.projects.map (·.id)).Nodup := by
  refine run_inv (I := fun m h => (∀ g i clean, (Op.restart g i, clean) ∈ h → g ≠ "primary") → (m.projects.map (·.id)).Nodup)
    ?_ ?_ hr hg
  · intro _; simp [init, Machine.projects]
  · intro m h op clean m' hm ih hs hg
    refine nodup_step hs (ih fun g i c hc => hg g i c (List.mem_append_left _ hc)) ?_
    rintro g i rfl
    rw [primary_id hm]
    exact hg g i clean (List.mem_append_right _ (List.mem_singleton.mpr rfl))

/-- C10 fails for a dedicated project named like the primary one. -/
theorem ids_not_distinct : ∃ h : History Nat Nat, (run (init false) h).map (fun m => m.projects.map (·.id)) =
    some ["primary", "primary"] := ⟨[op (.restart "primary" false)], by decide +kernel⟩

theorem deps_interrupt {m m1 : Machine Path C} {op : Op Path C} {b : Bool} (h1 : interrupt m op = some (m1, b)) :
    m1.deps = m.deps ∨ (∃ p ∈ m.projects, m1.deps = p.id :: m.deps) ∨ (∃ id, op = .settle id) ∨ ∃ g i, op = .restart g i := by
  have hon : ∀ {id : String} {f : Proj Path C → Shared × Proj Path C × List String},
      (m.onProject id f).map (·, true) = some (m1, b) → (∀ p, (f p).2.2 = m.deps) → m1.deps = m.deps := by
    intro id f he hf
    obtain ⟨x, a, e⟩ := Option.map_eq_some_iff.mp he
    cases e
    obtain ⟨l1, p, l2, -, -, -, -, -, h3, -⟩ := onProject_some a
    rw [h3, hf]
  cases op with
  | compile id => exact Or.inl (hon h1 fun _ => rfl)
  | changeTask id inputs entry => exact Or.inl (hon h1 fun _ => rfl)
  | compiled i =>
    simp only [interrupt] at h1
    split at h1
    · cases h1; exact Or.inl rfl
    · obtain ⟨x, a, e⟩ := Option.map_eq_some_iff.mp h1
      cases e
      obtain ⟨l1, p, l2, g1, g2, -, -, -, h3, -⟩ := onProject_some a
      rw [h3]
      simp only
      split
      · exact Or.inl rfl
      · exact Or.inr (Or.inl ⟨p, by rw [g1]; exact mem_mid _ _ _, by rw [g2]⟩)
  | fs ack changes =>
    simp only [interrupt] at h1
    split at h1 <;> cases h1 <;> exact Or.inl rfl
  | memory e r =>
    simp only [interrupt] at h1
    split at h1 <;> cases h1 <;> exact Or.inl rfl
  | jobCheck i =>
    simp only [interrupt] at h1
    split at h1 <;> cases h1 <;> exact Or.inl rfl
  | jobSend i =>
    simp only [interrupt] at h1
    split at h1 <;> cases h1 <;> exact Or.inl rfl
  | jobNotify i =>
    simp only [interrupt] at h1
    split at h1 <;> cases h1 <;> exact Or.inl rfl
  | font changed =>
    simp only [interrupt] at h1
    cases h1
    left
    split <;> rfl
  | snapshot => simp only [interrupt] at h1; cases h1; exact Or.inl rfl
  | settle id => exact Or.inr (Or.inr (Or.inl ⟨id, rfl⟩))
  | restart g i => exact Or.inr (Or.inr (Or.inr ⟨g, i, rfl⟩))

theorem deps_remove {m : Machine Path C} (h : ∀ id ∈ m.deps, id ∈ m.projects.map (·.id)) (g : String) :
    ∀ id ∈ (removeDedicates m g).deps, id ∈ (removeDedicates m g).projects.map (·.id) := by
  rcases remove_cases m g with ⟨e, -⟩ | ⟨l1, p, l2, g1, hp, -, e⟩
  · rw [e]; exact h
  · rw [e]
    intro id hid
    simp only [List.mem_filter, decide_eq_true_eq] at hid
    have := h id hid.1
    unfold Machine.projects at this ⊢
    rw [g1] at this
    simp only [List.map_cons, List.map_append, List.mem_cons, List.mem_append, hp] at this ⊢
    rcases this with h | h | h | h
    · exact Or.inl h
    · exact Or.inr (Or.inl h)
    · exact absurd h hid.2
    · exact Or.inr (Or.inr h)

/-- Only existing projects have file dependencies. -/
theorem deps_of_projects {inactive : Bool} {h : History Path C} {m : Machine Path C} (hr : run (init inactive) h = some m) :
    ∀ id ∈ m.deps, id ∈ m.projects.map (·.id) := by
  refine run_inv (I := fun m _ => ∀ id ∈ m.deps, id ∈ m.projects.map (·.id)) (fun id hid => (by cases hid)) ?_ hr
  intro m h op clean m' hm ih hs
  obtain ⟨m1, b, h1, rfl⟩ := step_eq hs
  have hany : ∀ m1 : Machine Path C, (∀ id ∈ m1.deps, id ∈ m1.projects.map (·.id)) →
      ∀ id ∈ (if b = true then onAny clean m1 else m1).deps, id ∈ (if b = true then onAny clean m1 else m1).projects.map (·.id) := by
    intro m1 hm1
    split
    · rw [onAny_ids]; exact hm1
    · exact hm1
  apply hany
  have hsame : m1.deps = m.deps ∨ (∃ p ∈ m.projects, m1.deps = p.id :: m.deps) → m1.projects.map (·.id) = m.projects.map (·.id) →
      ∀ id ∈ m1.deps, id ∈ m1.projects.map (·.id) := by
    intro hd hids id hid
    rw [hids]
    rcases hd with hd | ⟨p, hp, hd⟩
    · rw [hd] at hid; exact ih id hid
    · rw [hd] at hid
      rcases List.mem_cons.mp hid with rfl | hid
      · exact List.mem_map_of_mem hp
      · exact ih id hid
  rcases deps_interrupt h1 with hd | hd | ⟨id, rfl⟩ | ⟨g, i, rfl⟩
  · rcases ids_interrupt h1 with hids | ⟨id, rfl, rfl⟩ | ⟨g, i, rfl, rfl⟩
    · exact hsame (Or.inl hd) hids
    · exact deps_remove ih id
    · intro id hid
      have := deps_remove ih g id hid
      unfold restart Machine.projects
      simp only [List.map_cons, List.map_append, List.mem_cons, List.mem_append]
      unfold Machine.projects at this
      simp only [List.map_cons, List.mem_cons] at this
      rcases this with h | h
      · exact Or.inl h
      · exact Or.inr (Or.inl h)
  · rcases ids_interrupt h1 with hids | ⟨id, rfl, rfl⟩ | ⟨g, i, rfl, rfl⟩
    · exact hsame (Or.inr hd) hids
    · exact deps_remove ih id
    · intro id hid
      have := deps_remove ih g id hid
      unfold restart Machine.projects
      simp only [List.map_cons, List.map_append, List.mem_cons, List.mem_append]
      unfold Machine.projects at this
      simp only [List.map_cons, List.mem_cons] at this
      rcases this with h | h
      · exact Or.inl h
      · exact Or.inr (Or.inl h)
  · simp only [interrupt] at h1
    cases h1
    exact deps_remove ih id
  · simp only [interrupt] at h1
    cases h1
    intro id hid
    have := deps_remove ih g id hid
    unfold restart Machine.projects
    simp only [List.map_cons, List.map_append, List.mem_cons, List.mem_append]
    unfold Machine.projects at this
    simp only [List.map_cons, List.mem_cons] at this
    rcases this with h | h
    · exact Or.inl h
    · exact Or.inr (Or.inl h)

/-- In an orderly history nothing is left of a removed project: no results since it was withdrawn, no dependencies, no
compilation. -/
theorem nothing_left_partial {inactive : Bool} {h : History Path C} {m : Machine Path C} (hr : run (init inactive) h = some m)
    (ho : Orderly inactive h) {id : String} (hid : id ∉ m.projects.map (·.id)) :
    resultRevs m.sh.outs id = [] ∧ id ∉ m.deps ∧ m.sh.inFlight id = [] := by
  have hk := ordOk_run hr ho
  refine ⟨?_, fun h => hid (deps_of_projects hr id h), ?_⟩
  · have hz : m.sh.notifiedRev id = 0 := hk.fresh id hid
    have := (revsOk_run hr id).2
    rw [hz] at this
    cases hl : resultRevs m.sh.outs id with
    | nil => rfl
    | cons r l =>
      have := this r (by rw [hl]; exact List.mem_cons_self ..)
      omega
  · unfold Shared.inFlight
    rw [List.filter_eq_nil_iff]
    intro a ha
    simp only [decide_eq_true_eq]
    rintro rfl
    apply hid
    rcases List.mem_append.mp ha with ha | ha
    · obtain ⟨j, hj, rfl⟩ := List.mem_map.mp ha
      obtain ⟨p, hp, e⟩ := hk.known.1 j hj
      rw [← e]; exact List.mem_map_of_mem hp
    · obtain ⟨p, hp, e⟩ := hk.known.2 a ha
      rw [← e]; exact List.mem_map_of_mem hp

/-- C10 fails if a project is removed while it compiles: its results are published after its diagnostics were
withdrawn, and delivering them brings the server down. -/
theorem removed_while_compiling : ∃ h : History Nat Nat, ∃ m, run (init false) h = some m ∧
    "preview" ∉ m.projects.map (·.id) ∧ resultRevs m.sh.outs "preview" ≠ [] ∧
    run (init false) (h ++ [op (.compiled 0)]) = none := by
  have he : ends [op (.restart "preview" false), op (.font false), op (.jobCheck 0), op (.jobSend 0), op (.settle "preview"),
      op (.jobNotify 0)]
    (fun m => decide ("preview" ∉ m.projects.map (·.id)) && decide (resultRevs m.sh.outs "preview" ≠ [])) = true := by decide +kernel
  obtain ⟨m, h1, h2⟩ := ends_spec he
  simp only [Bool.and_eq_true, decide_eq_true_eq] at h2
  refine ⟨_, m, h1, h2.1, h2.2, ?_⟩
  have hn : (run (init false) ([op (.restart "preview" false), op (.font false), op (.jobCheck 0), op (.jobSend 0), op (.settle "preview"),
      op (.jobNotify 0)] ++ [op (.compiled 0)])).isNone = true := by decide +kernel
  exact Option.isNone_iff_eq_none.mp hn

/-! ## C31: a save without changes -/

/-- C31 fails: in an orderly history, the last compilation is never notified again. -/
theorem never_notified_again {inactive : Bool} {h : History Path C} {m : Machine Path C} (hr : run (init inactive) h = some m)
    (ho : Orderly inactive h) (id : String) (rev : Nat) (signal : Reasons) : Out.result id rev signal true ∉ m.sh.outs :=
  fun hm => (ordOk_run hr ho).again _ hm id rev signal rfl

/-- A concrete case: the file that was edited is saved as it is; the check succeeds, nothing is sent, and the reason is gone. -/
theorem save_not_notified : ∃ h : History Nat Nat, ∃ m m', run (init false) h = some m ∧ Orderly false h ∧
    step (fun _ => true) m (.fs false (fun _ => true)) = some m' ∧ m.sh.jobs = [] ∧ m.sh.inbox = [] ∧
    m'.sh.outs = m.sh.outs ∧ m'.sh.jobs = [] ∧ m'.sh.inbox = [] ∧ m'.primary.reason = .none := by
  have he : ends ([edit 0 10] ++ finish) (fun m => m.sh.jobs.isEmpty && m.sh.inbox.isEmpty &&
      match step (fun _ => true) m (.fs false (fun _ => true)) with
      | none => false
      | some m' => decide (m'.sh.outs = m.sh.outs) && m'.sh.jobs.isEmpty && m'.sh.inbox.isEmpty && decide (m'.primary.reason = .none)) =
      true := by decide +kernel
  obtain ⟨m, h1, h2⟩ := ends_spec he
  simp only [Bool.and_eq_true, List.isEmpty_iff] at h2
  obtain ⟨⟨h2, h3⟩, h4⟩ := h2
  split at h4
  · cases h4
  · rename_i m' hm'
    simp only [Bool.and_eq_true, List.isEmpty_iff, decide_eq_true_eq] at h4
    exact ⟨_, m, m', h1, orderly_of_check (by decide +kernel), hm', h2, h3, h4.1.1.1, h4.1.1.2, h4.1.2, h4.2⟩

theorem eachProj_issued (clean : String → Bool) (l : List (Proj Path C)) (s : Shared) :
    ∀ a ∈ s.issued, a ∈ (eachProj (fun s p => anyReason (clean p.id) s p) s l).1.issued := by
  induction l generalizing s with
  | nil => intro a ha; exact ha
  | cons q l ih =>
    intro a ha
    simp only [eachProj]
    apply ih
    rcases anyReason_cases (clean q.id) s q with ⟨-, e⟩ | ⟨-, -, -, -, -, e⟩ | ⟨-, -, e⟩ | ⟨-, -, -, e⟩
    · rw [e]; exact ha
    · rw [e]
      rcases emitPending_shared { s with verdicts := s.verdicts ++ [(q.uid, q.stamp)] }
        { q with pending := q.pending.see q.reason, reason := .none } with e | ⟨b, e⟩
      · rw [e]; exact ha
      · rw [e, (notify_keeps ..).2.2.1]; exact ha
    · rw [e]; exact ha
    · rw [e]; exact List.mem_append_left _ ha

/-- C31, partial: a file system event that changes what an idle active project has read starts a compilation whose result is
marked as caused by the file system (this is what onSave tasks look for), unless the check succeeds. Missing: the case
that the check succeeds (`never_notified_again`). -/
theorem save_compiles_partial {inactive : Bool} {h : History Path C} {m m' : Machine Path C} {clean changes : String → Bool}
    (hr : run (init inactive) h = some m) (hs : step clean m (.fs false changes) = some m') {p : Proj Path C} (hp : p ∈ m.projects)
    (hc : p.isCompiling = false) (ha : p.inactive = false) (hch : changes p.id = true) (hcl : clean p.id = false) :
    ∃ a ∈ m'.sh.issued, a.uid = p.uid ∧ a.id = p.id ∧ a.snap.stamp = p.stamp + 1 ∧ a.snap.signal.fs = true := by
  have hk := covOk_run hr
  obtain ⟨m1, b, h1, rfl⟩ := step_eq hs
  simp only [interrupt] at h1
  cases h1
  rw [if_pos rfl, (onAny_eq clean _).2.1]
  have hp' : p.fsEvent none (changes p.id) ∈ (m.mapAll fun p => p.fsEvent none (changes p.id)).projects := by
    rw [mapAll_projects]; exact List.mem_map_of_mem (f := fun p => p.fsEvent none (changes p.id)) hp
  generalize hq : p.fsEvent none (changes p.id) = q at hp'
  have hq : q = { p.bump with reason := p.reason.see ⟨false, true, false⟩ } := by
    rw [← hq, hch]
    rfl
  obtain ⟨l1, l2, hl⟩ := List.append_of_mem hp'
  rw [hl]
  have happ : ∀ (l1 : List (Proj Path C)) (s : Shared), ∃ s', (eachProj (fun s p => anyReason (clean p.id) s p) s (l1 ++ q :: l2)).1 =
      (eachProj (fun s p => anyReason (clean p.id) s p) (anyReason (clean q.id) s' q).1 l2).1 := by
    intro l1
    induction l1 with
    | nil => intro s; exact ⟨s, rfl⟩
    | cons x l1 ih =>
      intro s
      simp only [List.cons_append, eachProj]
      exact ih _
  obtain ⟨s', hs'⟩ := happ l1 (m.mapAll fun p => p.fsEvent none (changes p.id)).sh
  rw [hs']
  have hsnap : q.snapshot = ⟨p.rev + 1, p.reason.see ⟨false, true, false⟩, p.stamp + 1⟩ := by
    subst hq
    unfold Proj.snapshot
    split
    · rename_i sn hsn
      have := (hk.snap p hp sn hsn).1
      rw [if_neg]
      · rfl
      · simp only [Proj.bump]; omega
    · rfl
  refine ⟨⟨q.id, q.uid, q.snapshot⟩, eachProj_issued clean l2 _ _ ?_, ?_, ?_, ?_, ?_⟩
  · have hany : q.reason.any = true := by
      subst hq
      simp only
      rw [Reasons.see_any]
      simp [Reasons.any]
    have hcl' : clean q.id = false := by subst hq; exact hcl
    rcases anyReason_cases (clean q.id) s' q with ⟨e, -⟩ | ⟨-, -, -, e, -, -⟩ | ⟨-, e, -⟩ | ⟨-, -, -, e⟩
    · have e' : p.isCompiling = true := by subst hq; exact e
      rw [hc] at e'; cases e'
    · rw [hcl'] at e; cases e
    · rcases e with e | e
      · rw [hany] at e; cases e
      · have e' : p.inactive = true := by subst hq; exact e
        rw [ha] at e'; cases e'
    · rw [e]
      exact List.mem_append_right _ (List.mem_singleton.mpr rfl)
  · subst hq; rfl
  · subst hq; rfl
  · rw [hsnap]
  · rw [hsnap]
    simp [Reasons.see]

/-- The hypotheses are met after the first compilation. -/
example : ends ([edit 0 10] ++ finish) (fun m => !m.primary.isCompiling && !m.primary.inactive && m.primary.last.isSome) = true := by
  decide +kernel

/-! ## C50: results and statuses come in order -/

/-- C50 for results: in every history, the revisions reported for a project are strictly increasing. -/
theorem results_in_order {inactive : Bool} {h : History Path C} {m : Machine Path C} (hr : run (init inactive) h = some m)
    (id : String) : Increasing (resultRevs m.sh.outs id) := (revsOk_run hr id).1

/-- C50 for statuses, partial: if projects are not removed while they compile, and not suspended while a compilation is
about to send its status. Missing: suspensions at that moment (`status_out_of_order`). -/
theorem statuses_in_order_partial {inactive : Bool} {h : History Path C} {m : Machine Path C} (hr : run (init inactive) h = some m)
    (ho : Orderly inactive h) (hc : Calm inactive h) (id : String) : NonDecreasing (statusRevs m.sh.outs id) :=
  ((stOk_run hr ho hc).sent id).1

/-- C50 for statuses fails: a compilation that has just ended records its status; before it is sent, the project is
suspended at a later revision. The older status is sent last. -/
theorem status_out_of_order : ∃ h : History Nat Nat, Orderly false h ∧ ∃ m, run (init false) h = some m ∧
    statusRevs m.sh.outs "primary" = [2, 3, 2] := by
  have he : ends [edit 0 10, op (.jobCheck 0), op (.changeTask "primary" false (some true)), op (.jobSend 0)]
    (fun m => statusRevs m.sh.outs "primary" == [2, 3, 2]) = true := by decide +kernel
  obtain ⟨m, h1, h2⟩ := ends_spec he
  exact ⟨_, orderly_of_check (by decide +kernel), m, h1, by simpa using h2⟩

/-- The statuses of a restarted project are held back until it reaches the revision of its former instance. -/
theorem restarted_statuses_dropped : ∃ h : History Nat Nat, Orderly false h ∧ ∃ m, run (init false) h = some m ∧
    m.sh.issued.map (fun a => (a.uid, a.snap.rev)) = [(1, 1), (1, 2), (2, 1)] ∧ statusRevs m.sh.outs "preview" = [1, 1, 2, 2] := by
  have he : ends ([op (.restart "preview" false), op (.font false)] ++ finish ++ [op (.compile "preview")] ++ finish ++
      [op (.restart "preview" false), op (.font false)] ++ finish)
    (fun m => decide (m.sh.issued.map (fun a => (a.uid, a.snap.rev)) = [(1, 1), (1, 2), (2, 1)]) &&
      statusRevs m.sh.outs "preview" == [1, 1, 2, 2]) = true := by decide +kernel
  obtain ⟨m, h1, h2⟩ := ends_spec he
  simp only [Bool.and_eq_true, decide_eq_true_eq, beq_iff_eq] at h2
  exact ⟨_, orderly_of_check (by decide +kernel), m, h1, h2.1, h2.2⟩

/-- `sample` meets the hypotheses of `statuses_in_order_partial`: it suspends nothing. -/
theorem sample_calm : Calm false sample := by
  have hno : along (fun _ op => match op with | .changeTask _ _ (some true) => false | _ => true) (init false) sample = true := by
    decide +kernel
  intro pre op clean post m hh hm
  have := along_spec hno pre op clean post m hh hm
  cases op with
  | changeTask id inputs entry =>
    cases entry with
    | none => trivial
    | some b =>
      cases b with
      | false => trivial
      | true => cases this
  | _ => trivial

end Tinymist.Project
