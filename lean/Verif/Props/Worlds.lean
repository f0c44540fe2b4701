import Verif.Spec.Universe
import Verif.Lemmas.SourceDb
/-!
# C122: a world made for a task is what was asked for and disturbs no other
-/
namespace Tinymist.Universe
variable {V : Type}

/-- Reads in world `w`, one after another, with their answers. -/
def State.reads (s : State V) (w : Nat) : List (SourceDb.Kind × Nat) → State V × List (Option V)
  | [] => (s, [])
  | (k, f) :: rest =>
    let a := s.read w k f
    let b := a.1.reads w rest
    (b.1, a.2 :: b.2)

/-! ## The shape of a step -/

theorem today_cases (s : State V) (w : Nat) :
    (s.today w).1 = s ∨ ∃ x, s.worlds[w]? = some x ∧ x.now = none ∧
      (s.today w).1 = s.setWorld w { x with now := some s.clock } := by
  unfold State.today
  cases h : s.worlds[w]? with
  | none => exact .inl rfl
  | some x =>
    dsimp only
    cases h' : x.now with
    | none => exact .inr ⟨x, rfl, h', rfl⟩
    | some t => exact .inl rfl

theorem today_at (s : State V) (w : Nat) (x : World V) (h : s.worlds[w]? = some x) :
    (s.today w).1.worlds[w]? = some { x with now := some (x.now.getD s.clock) } ∧
      (s.today w).2 = some (x.now.getD s.clock) := by
  have lt : w < s.worlds.length := (List.getElem?_eq_some_iff.1 h).1
  unfold State.today
  rw [h]
  dsimp only
  cases h' : x.now with
  | some t => exact ⟨by rw [h]; cases x; simp_all, rfl⟩
  | none =>
    refine ⟨?_, rfl⟩
    show (s.worlds.set w _)[w]? = _
    rw [List.getElem?_set_self lt]; rfl

theorem today_length (s : State V) (w : Nat) : (s.today w).1.worlds.length = s.worlds.length := by
  rcases today_cases s w with e | ⟨x, _, _, e⟩ <;> rw [e]
  exact List.length_set

theorem today_dbs (s : State V) (w : Nat) : (s.today w).1.dbs = s.dbs := by
  rcases today_cases s w with e | ⟨x, _, _, e⟩ <;> rw [e]
  rfl

theorem today_other (s : State V) (w v : Nat) (ne : w ≠ v) : (s.today w).1.worlds[v]? = s.worlds[v]? := by
  rcases today_cases s w with e | ⟨x, _, _, e⟩ <;> rw [e]
  exact List.getElem?_set_ne ne

theorem task_eq (s : State V) (w : Nat) (x : World V) (h : s.worlds[w]? = some x) (e : Option Entry)
    (i : Option Nat) :
    s.task w e i = { (s.today w).1 with worlds := (s.today w).1.worlds ++
      [({ x with now := some (x.now.getD s.clock) } : World V).forked e i] } := by
  unfold State.task
  dsimp only
  rw [(today_at s w x h).1]

theorem task_none (s : State V) (w : Nat) (h : s.worlds[w]? = none) (e : Option Entry) (i : Option Nat) :
    s.task w e i = s := by
  unfold State.task State.today
  simp only [h]

theorem task_last (s : State V) (w : Nat) (x : World V) (h : s.worlds[w]? = some x) (e : Option Entry)
    (i : Option Nat) :
    (s.task w e i).worlds[s.worlds.length]? =
      some (({ x with now := some (x.now.getD s.clock) } : World V).forked e i) := by
  rw [task_eq s w x h]
  show (_ ++ _)[_]? = _
  rw [List.getElem?_append_right (by rw [today_length]; exact Nat.le_refl _), today_length, Nat.sub_self]
  rfl

theorem task_at (s : State V) (w : Nat) (x : World V) (h : s.worlds[w]? = some x) (e : Option Entry)
    (i : Option Nat) :
    (s.task w e i).worlds[w]? = some { x with now := some (x.now.getD s.clock) } := by
  have lt : w < s.worlds.length := (List.getElem?_eq_some_iff.1 h).1
  rw [task_eq s w x h]
  show (_ ++ _)[_]? = _
  rw [List.getElem?_append_left (by rw [today_length]; exact lt), (today_at s w x h).1]

theorem task_other (s : State V) (w v : Nat) (e : Option Entry) (i : Option Nat) (ne : w ≠ v)
    (lt : v < s.worlds.length) : (s.task w e i).worlds[v]? = s.worlds[v]? := by
  cases h : s.worlds[w]? with
  | none => rw [task_none s w h]
  | some x =>
    rw [task_eq s w x h]
    show (_ ++ _)[_]? = _
    rw [List.getElem?_append_left (by rw [today_length]; exact lt), today_other s w v ne]

theorem task_dbs (s : State V) (w : Nat) (e : Option Entry) (i : Option Nat) : (s.task w e i).dbs = s.dbs := by
  cases h : s.worlds[w]? with
  | none => rw [task_none s w h]
  | some x => rw [task_eq s w x h]; exact today_dbs s w

theorem task_length (s : State V) (w : Nat) (x : World V) (h : s.worlds[w]? = some x) (e : Option Entry)
    (i : Option Nat) : (s.task w e i).worlds.length = s.worlds.length + 1 := by
  rw [task_eq s w x h]
  show List.length (_ ++ _) = _
  rw [List.length_append, today_length]; rfl

/-! ## Invariants -/

/-- The tables exist, and the library of a world is made with its inputs. -/
def Good (d : Nat) (x : World V) : Prop :=
  x.db < d ∧ x.library.1 = x.inputs ∧ (x.library.2 = x.html ∨ x.library.2 = true)

def WF (s : State V) : Prop := ∀ x ∈ s.worlds, Good s.dbs.length x

theorem good_mono {d d' : Nat} {x : World V} (le : d ≤ d') (h : Good d x) : Good d' x :=
  ⟨Nat.lt_of_lt_of_le h.1 le, h.2⟩

theorem wf_set {s : State V} {w : Nat} {y : World V} (h : WF s) (g : Good s.dbs.length y) : WF (s.setWorld w y) := by
  intro x m
  rcases List.mem_or_eq_of_mem_set m with m | e
  · exact h x m
  · exact e ▸ g

theorem wf_today {s : State V} (w : Nat) (h : WF s) : WF (s.today w).1 := by
  rcases today_cases s w with e | ⟨x, hx, _, e⟩ <;> rw [e]
  · exact h
  · exact wf_set h (h x (List.mem_of_getElem? hx))

theorem wf_task {s : State V} (w : Nat) (e : Option Entry) (i : Option Nat) (h : WF s) : WF (s.task w e i) := by
  cases hx : s.worlds[w]? with
  | none => rw [task_none s w hx]; exact h
  | some x =>
    rw [task_eq s w x hx]
    intro y m
    have g := h x (List.mem_of_getElem? hx)
    rcases List.mem_append.1 m with m | m
    · exact wf_today w h y m
    · rw [List.mem_singleton.1 m]
      show Good (s.today w).1.dbs.length _
      rw [today_dbs]
      cases i with
      | none => exact g
      | some i => exact ⟨g.1, rfl, .inl rfl⟩

theorem wf_html {s : State V} (w : Nat) (h : WF s) : WF (s.htmlTask w).1 := by
  unfold State.htmlTask
  cases hx : s.worlds[w]? with
  | none => exact h
  | some x =>
    dsimp only
    split
    · exact h
    · have g := wf_task w none none h
      cases hy : (s.task w none none).worlds[s.worlds.length]? with
      | none => exact g
      | some y => exact wf_set g ⟨(g y (List.mem_of_getElem? hy)).1, rfl, .inr rfl⟩

theorem wf_paged {s : State V} (w : Nat) (h : WF s) : WF (s.pagedTask w).1 := by
  unfold State.pagedTask
  cases hx : s.worlds[w]? with
  | none => exact h
  | some x =>
    dsimp only
    split
    · exact h
    · have g := wf_task w none none h
      cases hy : (s.task w none none).worlds[s.worlds.length]? with
      | none => exact g
      | some y => exact wf_set g ⟨(g y (List.mem_of_getElem? hy)).1, rfl, .inl rfl⟩

theorem wf_step {s : State V} (op : Op V) (h : WF s) : WF (s.step op) := by
  cases op with
  | snapshot u files =>
    intro x m
    rcases List.mem_append.1 m with m | m
    · exact good_mono (by show _ ≤ (s.dbs ++ [[]]).length; simp) (h x m)
    · rw [List.mem_singleton.1 m]
      exact ⟨by show s.dbs.length < (s.dbs ++ [[]]).length; simp, rfl, .inl rfl⟩
  | task w e i => exact wf_task w e i h
  | takeDb w =>
    simp only [State.step, State.takeDb]
    cases hx : s.worlds[w]? with
    | none => exact h
    | some x =>
      intro y m
      have g := h x (List.mem_of_getElem? hx)
      rcases List.mem_or_eq_of_mem_set m with m | e
      · exact good_mono (by simp) (h y m)
      · exact e ▸ ⟨by simp, g.2⟩
  | shadow w f v =>
    simp only [State.step, State.shadow]
    cases hx : s.worlds[w]? with
    | none => exact h
    | some x => exact wf_set h (h x (List.mem_of_getElem? hx))
  | read w k f =>
    simp only [State.step, State.read]
    cases hx : s.worlds[w]? with
    | none => exact h
    | some x =>
      dsimp only
      cases hd : s.dbs[x.db]? with
      | none => exact h
      | some db =>
        intro y m
        have := h y m
        simpa [Good] using this
  | today w => exact wf_today w h
  | html w => exact wf_html w h
  | paged w => exact wf_paged w h
  | compiling w b =>
    simp only [State.step]
    cases hx : s.worlds[w]? with
    | none => exact h
    | some x => exact wf_set h (h x (List.mem_of_getElem? hx))
  | tick n => exact h

theorem wf_run (ops : List (Op V)) : WF ((State.empty : State V).run ops) := by
  have : ∀ (ops : List (Op V)) (s : State V), WF s → WF (s.run ops) := by
    intro ops
    induction ops with
    | nil => exact fun _ h => h
    | cons op ops ih => exact fun s h => ih _ (wf_step op h)
  exact this ops _ (fun x m => by cases m)

/-! ## What a task is -/

/-- C122, what is asked for. A task of a world has the entry and the inputs asked for, a library made with
these inputs, and otherwise all that the world has; its date is that of the world. -/
theorem task_world (ops : List (Op V)) (w : Nat) (x : World V)
    (h : ((State.empty : State V).run ops).worlds[w]? = some x) (e : Option Entry) (i : Option Nat) :
    let s := (State.empty : State V).run ops
    ∃ y, (s.task w e i).worlds[s.worlds.length]? = some y ∧ y.entry = e.getD x.entry ∧
      y.inputs = i.getD x.inputs ∧ y.library.1 = y.inputs ∧ (i ≠ none → y.library.2 = y.html) ∧
      (i = none → y.library = x.library) ∧ SameOtherwise x y ∧ y.files = x.files := by
  intro s
  refine ⟨_, task_last s w x h e i, rfl, rfl, ?_, ?_, ?_, ⟨rfl, rfl, rfl, rfl⟩, rfl⟩
  · exact (wf_task w e i (wf_run ops) _ (List.mem_of_getElem? (task_last s w x h e i))).2.1
  · cases i with
    | none => exact fun n => absurd rfl n
    | some i => exact fun _ => rfl
  · rintro rfl; rfl

/-- The world in which HTML is made has a library for HTML, the one for pages has it only if it is asked for;
they agree with the world in everything else. -/
theorem export_worlds (ops : List (Op V)) (w : Nat) (x : World V)
    (h : ((State.empty : State V).run ops).worlds[w]? = some x) :
    let s := (State.empty : State V).run ops
    (∃ y, (s.htmlTask w).1.worlds[(s.htmlTask w).2]? = some y ∧ y.library = (x.inputs, true) ∧
      y.entry = x.entry ∧ y.inputs = x.inputs ∧ SameOtherwise x y ∧ y.files = x.files ∧ y.db = x.db) ∧
    (∃ y, (s.pagedTask w).1.worlds[(s.pagedTask w).2]? = some y ∧ y.library = (x.inputs, x.html) ∧
      y.entry = x.entry ∧ y.inputs = x.inputs ∧ SameOtherwise x y ∧ y.files = x.files ∧ y.db = x.db) := by
  intro s
  have hx : s.worlds[w]? = some x := h
  have g := wf_run ops x (List.mem_of_getElem? h)
  have last := task_last s w x h none none
  have len : s.worlds.length < (s.task w none none).worlds.length := by
    rw [task_length s w x h]; exact Nat.lt_succ_self _
  refine ⟨?_, ?_⟩
  · unfold State.htmlTask
    rw [hx]
    dsimp only
    cases hl : x.library.2 with
    | true => exact ⟨x, hx, by rw [← g.2.1, ← hl], rfl, rfl, ⟨rfl, rfl, rfl, rfl⟩, rfl, rfl⟩
    | false =>
      rw [if_neg (by simp), last]
      refine ⟨_, List.getElem?_set_self len, rfl, rfl, rfl, ⟨rfl, rfl, rfl, rfl⟩, rfl, rfl⟩
  · unfold State.pagedTask
    rw [hx]
    dsimp only
    cases hc : !x.library.2 || x.html with
    | true =>
      refine ⟨x, hx, ?_, rfl, rfl, ⟨rfl, rfl, rfl, rfl⟩, rfl, rfl⟩
      have : x.library.2 = x.html := by
        rcases g.2.2 with e | e
        · exact e
        · rw [e] at hc ⊢; simpa using hc.symm
      rw [← g.2.1, ← this]
    | false =>
      rw [if_neg (by simp), last]
      refine ⟨_, List.getElem?_set_self len, rfl, rfl, rfl, ⟨rfl, rfl, rfl, rfl⟩, rfl, rfl⟩

/-! ## The date -/

theorem now_set {s : State V} {w v t : Nat} {x y : World V} (h : s.worlds[w]? = some x) (n : x.now = some t)
    (hv : s.worlds[v]? = some y) (z : World V) (hz : y.now = some t → z.now = some t) :
    ∃ z', (s.setWorld v z).worlds[w]? = some z' ∧ z'.now = some t := by
  by_cases e : v = w
  · subst e
    rw [hv] at h
    cases h
    exact ⟨z, List.getElem?_set_self (List.getElem?_eq_some_iff.1 hv).1, hz n⟩
  · exact ⟨x, (List.getElem?_set_ne e).trans h, n⟩

theorem now_task {s : State V} {w t : Nat} {x : World V} (h : s.worlds[w]? = some x) (n : x.now = some t)
    (v : Nat) (e : Option Entry) (i : Option Nat) :
    ∃ z, (s.task v e i).worlds[w]? = some z ∧ z.now = some t := by
  by_cases ev : v = w
  · subst ev
    exact ⟨_, task_at s v x h e i, by rw [n]; rfl⟩
  · exact ⟨x, (task_other s v w e i ev (List.getElem?_eq_some_iff.1 h).1).trans h, n⟩

theorem now_step {s : State V} {w t : Nat} {x : World V} (h : s.worlds[w]? = some x) (n : x.now = some t)
    (op : Op V) : ∃ y, (s.step op).worlds[w]? = some y ∧ y.now = some t := by
  have lt := (List.getElem?_eq_some_iff.1 h).1
  cases op with
  | snapshot u files => exact ⟨x, (List.getElem?_append_left lt).trans h, n⟩
  | task v e i => exact now_task h n v e i
  | takeDb v =>
    simp only [State.step, State.takeDb]
    cases hv : s.worlds[v]? with
    | none => exact ⟨x, h, n⟩
    | some y => exact now_set h n hv { y with db := s.dbs.length } id
  | shadow v f c =>
    simp only [State.step, State.shadow]
    cases hv : s.worlds[v]? with
    | none => exact ⟨x, h, n⟩
    | some y => exact now_set h n hv { y with files := fun g => if g = f then c else y.files g } id
  | read v k f =>
    simp only [State.step, State.read]
    cases hv : s.worlds[v]? with
    | none => exact ⟨x, h, n⟩
    | some y =>
      dsimp only
      cases s.dbs[y.db]? with
      | none => exact ⟨x, h, n⟩
      | some db => exact ⟨x, h, n⟩
  | today v =>
    rcases today_cases s v with e | ⟨y, hy, hn, e⟩ <;> simp only [State.step] <;> rw [e]
    · exact ⟨x, h, n⟩
    · exact now_set h n hy { y with now := some s.clock } fun e => by rw [hn] at e; cases e
  | html v =>
    simp only [State.step, State.htmlTask]
    cases hv : s.worlds[v]? with
    | none => exact ⟨x, h, n⟩
    | some y =>
      dsimp only
      split
      · exact ⟨x, h, n⟩
      · obtain ⟨z, hz, nz⟩ := now_task h n v none none
        cases hq : (s.task v none none).worlds[s.worlds.length]? with
        | none => exact ⟨z, hz, nz⟩
        | some q => exact now_set hz nz hq { q with library := (q.inputs, true) } id
  | paged v =>
    simp only [State.step, State.pagedTask]
    cases hv : s.worlds[v]? with
    | none => exact ⟨x, h, n⟩
    | some y =>
      dsimp only
      split
      · exact ⟨x, h, n⟩
      · obtain ⟨z, hz, nz⟩ := now_task h n v none none
        cases hq : (s.task v none none).worlds[s.worlds.length]? with
        | none => exact ⟨z, hz, nz⟩
        | some q => exact now_set hz nz hq { q with library := (q.inputs, q.html) } id
  | compiling v b =>
    simp only [State.step]
    cases hv : s.worlds[v]? with
    | none => exact ⟨x, h, n⟩
    | some y => exact now_set h n hv { y with compiling := b } id
  | tick k => exact ⟨x, h, n⟩

theorem now_run (ops : List (Op V)) {s : State V} {w t : Nat} {x : World V} (h : s.worlds[w]? = some x)
    (n : x.now = some t) : ((s.run ops).today w).2 = some t := by
  induction ops generalizing s x with
  | nil =>
    show (s.today w).2 = _
    rw [(today_at s w x h).2, n]; rfl
  | cons op ops ih =>
    obtain ⟨y, hy, ny⟩ := now_step h n op
    exact ih hy ny

/-- C122, the date. However long a compilation takes and whatever else happens, a world and the tasks made of
it always report the same date. -/
theorem same_day (s : State V) (w : Nat) (x : World V) (h : s.worlds[w]? = some x) (e : Option Entry)
    (i : Option Nat) (later later' : List (Op V)) :
    (((s.task w e i).run later).today w).2 = (((s.task w e i).run later').today s.worlds.length).2 ∧
      (((s.task w e i).run later).today w).2 ≠ none := by
  have a := now_run later (task_at s w x h e i) (t := x.now.getD s.clock) rfl
  have b := now_run later' (task_last s w x h e i) (t := x.now.getD s.clock) rfl
  rw [a, b]
  exact ⟨rfl, nofun⟩

/-! ## Texts that are only tried -/

/-- The old worlds are as they were, and the new ones use other tables than the old ones. -/
structure Apart (s t : State V) : Prop where
  len : s.worlds.length ≤ t.worlds.length
  dbs : s.dbs.length ≤ t.dbs.length
  same : ∀ d < s.dbs.length, t.dbs[d]? = s.dbs[d]?
  old : ∀ w < s.worlds.length, t.worlds[w]? = s.worlds[w]?
  new : ∀ w y, s.worlds.length ≤ w → t.worlds[w]? = some y → s.dbs.length ≤ y.db

theorem apart_set {s t : State V} (h : Apart s t) {w : Nat} (le : s.worlds.length ≤ w) (y : World V)
    (d : s.dbs.length ≤ y.db) : Apart s (t.setWorld w y) where
  len := by show _ ≤ (t.worlds.set w y).length; rw [List.length_set]; exact h.len
  dbs := h.dbs
  same := h.same
  old := fun v lt => by
    show (t.worlds.set w y)[v]? = _
    rw [List.getElem?_set_ne (by omega)]; exact h.old v lt
  new := fun v z le' hz => by
    by_cases e : w = v
    · subst e
      have : z = y := by
        have lt : w < t.worlds.length := by
          have := (List.getElem?_eq_some_iff.1 hz).1
          simpa [State.setWorld] using this
        simp only [State.setWorld, List.getElem?_set_self lt] at hz
        exact (Option.some.inj hz).symm
      rw [this]; exact d
    · exact h.new v z le' (by
        simp only [State.setWorld, List.getElem?_set_ne e] at hz
        exact hz)

theorem apart_push {s t : State V} (h : Apart s t) (y : World V) (d : s.dbs.length ≤ y.db) :
    Apart s { t with worlds := t.worlds ++ [y] } where
  len := by simp only [List.length_append]; exact Nat.le_add_right_of_le h.len
  dbs := h.dbs
  same := h.same
  old := fun v lt => (List.getElem?_append_left (Nat.lt_of_lt_of_le lt h.len)).trans (h.old v lt)
  new := fun v z le hz => by
    rcases List.mem_append.1 (List.mem_of_getElem? hz) with _ | m
    · by_cases lt : v < t.worlds.length
      · exact h.new v z le (by rw [List.getElem?_append_left lt] at hz; exact hz)
      · rw [List.getElem?_append_right (by omega)] at hz
        have := List.mem_of_getElem? hz
        rw [List.mem_singleton.1 this]; exact d
    · rw [List.mem_singleton.1 m]; exact d

theorem apart_dbs {s t : State V} (h : Apart s t) (e : SourceDb.Slots Nat V) :
    Apart s { t with dbs := t.dbs ++ [e] } where
  len := h.len
  dbs := by simp only [List.length_append]; exact Nat.le_add_right_of_le h.dbs
  same := fun d lt => (List.getElem?_append_left (Nat.lt_of_lt_of_le lt h.dbs)).trans (h.same d lt)
  old := h.old
  new := h.new

theorem apart_today {s t : State V} (h : Apart s t) {w : Nat} (le : s.worlds.length ≤ w) :
    Apart s (t.today w).1 := by
  rcases today_cases t w with e | ⟨x, hx, _, e⟩ <;> rw [e]
  · exact h
  · exact apart_set h le _ (h.new w x le hx)

theorem apart_task {s t : State V} (h : Apart s t) {w : Nat} (le : s.worlds.length ≤ w) (e : Option Entry)
    (i : Option Nat) : Apart s (t.task w e i) := by
  cases hx : t.worlds[w]? with
  | none => rw [task_none t w hx]; exact h
  | some x =>
    rw [task_eq t w x hx]
    exact apart_push (apart_today h le) _ (h.new w x le hx)

theorem apart_step {s t : State V} (h : Apart s t) (op : Op V) (f : op.From s.worlds.length) :
    Apart s (t.step op) := by
  cases op with
  | snapshot u files => exact apart_dbs (apart_push h _ h.dbs) []
  | task w e i => exact apart_task h f e i
  | takeDb w =>
    simp only [State.step, State.takeDb]
    cases hx : t.worlds[w]? with
    | none => exact h
    | some x => exact apart_dbs (apart_set h f { x with db := t.dbs.length } h.dbs) []
  | shadow w g v =>
    simp only [State.step, State.shadow]
    cases hx : t.worlds[w]? with
    | none => exact h
    | some x => exact apart_set h f _ (h.new w x f hx)
  | read w k g =>
    simp only [State.step, State.read]
    cases hx : t.worlds[w]? with
    | none => exact h
    | some x =>
      dsimp only
      cases hd : t.dbs[x.db]? with
      | none => exact h
      | some db =>
        have d := h.new w x f hx
        exact ⟨h.len, by simp only [List.length_set]; exact h.dbs,
          fun c lt => (List.getElem?_set_ne (by omega)).trans (h.same c lt), h.old, h.new⟩
  | today w => exact apart_today h f
  | html w =>
    simp only [State.step, State.htmlTask]
    cases hx : t.worlds[w]? with
    | none => exact h
    | some x =>
      dsimp only
      split
      · exact h
      · have g := apart_task h f none none
        cases hy : (t.task w none none).worlds[t.worlds.length]? with
        | none => exact g
        | some y => exact apart_set g h.len _ (g.new _ y h.len hy)
  | paged w =>
    simp only [State.step, State.pagedTask]
    cases hx : t.worlds[w]? with
    | none => exact h
    | some x =>
      dsimp only
      split
      · exact h
      · have g := apart_task h f none none
        cases hy : (t.task w none none).worlds[t.worlds.length]? with
        | none => exact g
        | some y => exact apart_set g h.len _ (g.new _ y h.len hy)
  | compiling w b =>
    simp only [State.step]
    cases hx : t.worlds[w]? with
    | none => exact h
    | some x => exact apart_set h f _ (h.new w x f hx)
  | tick n => exact ⟨h.len, h.dbs, h.same, h.old, h.new⟩

theorem apart_run {s : State V} (ops : List (Op V)) (f : ∀ op ∈ ops, op.From s.worlds.length) :
    ∀ t, Apart s t → Apart s (t.run ops) := by
  induction ops with
  | nil => exact fun _ h => h
  | cons op ops ih =>
    exact fun t h => ih (fun o m => f o (List.mem_cons_of_mem _ m)) _ (apart_step h op (f op List.mem_cons_self))

theorem last_eq {s : State V} {w : Nat} {x : World V} (h : s.worlds[w]? = some x) (e : Option Entry)
    (i : Option Nat) (k : Nat) (y : World V) (hy : (s.task w e i).worlds[k]? = some y)
    (le : s.worlds.length ≤ k) : k = s.worlds.length := by
  have := (List.getElem?_eq_some_iff.1 hy).1
  rw [task_length s w x h] at this
  omega

/-- Any world that got a table of its own and whose files differ in one, and any state with it last. -/
theorem tried_facts {s t : State V} {w n : Nat} (hn : n = s.worlds.length)
    (x : World V) (h : s.worlds[w]? = some x) (f : Nat) (text : V)
    (len : t.worlds.length = n + 1) (dbs : t.dbs = s.dbs ++ [[]])
    (old : ∀ v < n, t.worlds[v]? = (s.today w).1.worlds[v]?) (y : World V) (hy : t.worlds[n]? = some y)
    (db : y.db = s.dbs.length) (files : y.files = fun g => if g = f then text else x.files g) :
    (∀ reads, (t.reads n reads).2 = contents (fun g => if g = f then text else x.files g) reads) ∧
      ∀ later, (∀ op ∈ later, op.From n) → ∀ v z, s.worlds[v]? = some z → z.db < s.dbs.length →
        Undisturbed s (t.run later) v := by
  subst hn
  constructor
  · intro reads
    rw [← files]
    have : ∀ (reads : List (SourceDb.Kind × Nat)) (t : State V) (table : SourceDb.Slots Nat V),
        t.worlds[s.worlds.length]? = some y → t.dbs[y.db]? = some table →
        (∀ g k v, SourceDb.cellOf table g k = some v → v = y.files g) →
        (t.reads s.worlds.length reads).2 = contents y.files reads := by
      intro reads
      induction reads with
      | nil => exact fun _ _ _ _ _ => rfl
      | cons r reads ih =>
        obtain ⟨k, g⟩ := r
        intro t table hy ht inv
        have e : t.read s.worlds.length k g =
            ({ t with dbs := t.dbs.set y.db (SourceDb.read table y.compiling k g (y.files g)).1 },
              some (y.files g)) := by
          unfold State.read
          rw [hy]
          dsimp only
          rw [ht]
          dsimp only
          rw [SourceDb.read_answer]
          cases hc : SourceDb.cellOf table g k with
          | none => rfl
          | some v => rw [inv g k v hc]; rfl
        simp only [State.reads, e]
        have lt : y.db < t.dbs.length := (List.getElem?_eq_some_iff.1 ht).1
        rw [ih { t with dbs := t.dbs.set y.db (SourceDb.read table y.compiling k g (y.files g)).1 }
          (SourceDb.read table y.compiling k g (y.files g)).1 hy (List.getElem?_set_self lt)]
        · rfl
        · intro g' k' v hv
          rw [SourceDb.read_cell] at hv
          split at hv
          · rename_i he
            obtain ⟨rfl, rfl⟩ := he
            cases hc : SourceDb.cellOf table g k with
            | none => rw [hc] at hv; exact (Option.some.inj hv).symm
            | some u => rw [hc] at hv; rw [← inv g k u hc]; exact (Option.some.inj hv).symm
          · exact inv g' k' v hv
    refine this reads t [] hy ?_ (fun g k v e => by cases e)
    rw [dbs, db, List.getElem?_append_right (Nat.le_refl _), Nat.sub_self]
    rfl
  · intro later fr v z hz zdb
    have lt : v < s.worlds.length := (List.getElem?_eq_some_iff.1 hz).1
    let s' : State V := { (s.today w).1 with clock := s.clock }
    have sl : s'.worlds.length = s.worlds.length := today_length s w
    have sd : s'.dbs = s.dbs := today_dbs s w
    have ap : Apart s' t := by
      refine ⟨by rw [sl, len]; omega, by rw [sd, dbs]; simp, ?_, ?_, ?_⟩
      · intro d ld
        rw [sd] at ld ⊢
        rw [dbs]; exact List.getElem?_append_left ld
      · intro v lv
        rw [sl] at lv
        exact old v lv
      · intro k q le hq
        rw [sl] at le
        have := (List.getElem?_eq_some_iff.1 hq).1
        rw [len] at this
        have : k = s.worlds.length := by omega
        rw [this, hy] at hq
        cases hq
        rw [sd, db]
        exact Nat.le_refl _
    have r := apart_run later (fun op m => by rw [sl]; exact fr op m) t ap
    have same : (t.run later).dbs[z.db]? = s.dbs[z.db]? := by
      have := r.same z.db (by rw [sd]; exact zdb)
      rw [this, sd]
    have at_ : (t.run later).worlds[v]? = (s.today w).1.worlds[v]? := r.old v (by rw [sl]; exact lt)
    by_cases e : w = v
    · subst e
      rw [h] at hz
      cases hz
      refine ⟨x, _, h, at_.trans (today_at s w x h).1, rfl, ?_, same.symm⟩
      intro n hn
      rw [hn]; rfl
    · refine ⟨z, z, hz, at_.trans ((today_other s w v e).trans hz), rfl, fun _ h => h, same.symm⟩

theorem task_old {s : State V} {w : Nat} {x : World V} (h : s.worlds[w]? = some x) (e : Option Entry)
    (i : Option Nat) (v : Nat) (lt : v < s.worlds.length) :
    (s.task w e i).worlds[v]? = (s.today w).1.worlds[v]? := by
  rw [task_eq s w x h]
  exact List.getElem?_append_left (by rw [today_length]; exact lt)

/-- A task whose file `f` is given, with a table of its own, taken before or after the file is given. -/
theorem tried (s : State V) (w : Nat) (x : World V) (h : s.worlds[w]? = some x) (e : Option Entry)
    (i : Option Nat) (f : Nat) (text : V) (t : State V)
    (ht : t = ((s.task w e i).shadow s.worlds.length f text).takeDb s.worlds.length ∨
      t = ((s.task w e i).takeDb s.worlds.length).shadow s.worlds.length f text) :
    (∀ reads, (t.reads s.worlds.length reads).2 = contents (fun g => if g = f then text else x.files g) reads) ∧
      ∀ later, (∀ op ∈ later, op.From s.worlds.length) → ∀ v z, s.worlds[v]? = some z →
        z.db < s.dbs.length → Undisturbed s (t.run later) v := by
  have last := task_last s w x h e i
  have len := task_length s w x h e i
  have dbs := task_dbs s w e i
  have lt : s.worlds.length < (s.task w e i).worlds.length := by omega
  rcases ht with ht | ht
  · have e1 : t = { (s.task w e i) with
        worlds := ((s.task w e i).worlds.set s.worlds.length
          { (({ x with now := some (x.now.getD s.clock) } : World V).forked e i) with
            files := fun g => if g = f then text else x.files g }).set s.worlds.length
          { (({ x with now := some (x.now.getD s.clock) } : World V).forked e i) with
            files := fun g => if g = f then text else x.files g, db := s.dbs.length },
        dbs := s.dbs ++ [[]] } := by
      rw [ht]
      unfold State.shadow
      rw [last]
      dsimp only
      unfold State.takeDb
      simp only [State.setWorld, List.getElem?_set_self lt, dbs]
      rfl
    refine tried_facts rfl x h f text ?_ ?_ ?_
      { (({ x with now := some (x.now.getD s.clock) } : World V).forked e i) with
            files := fun g => if g = f then text else x.files g, db := s.dbs.length } ?_ ?_ ?_
    · rw [e1]; simp only [List.length_set]; exact len
    · rw [e1]
    · intro v lv
      rw [e1]
      show ((List.set _ _ _).set _ _)[v]? = _
      rw [List.getElem?_set_ne (by omega), List.getElem?_set_ne (by omega)]
      exact task_old h e i v lv
    · rw [e1]
      exact List.getElem?_set_self (by rw [List.length_set]; exact lt)
    · rfl
    · rfl
  · have e1 : t = { (s.task w e i) with
        worlds := ((s.task w e i).worlds.set s.worlds.length
          { (({ x with now := some (x.now.getD s.clock) } : World V).forked e i) with
            db := s.dbs.length }).set s.worlds.length
          { (({ x with now := some (x.now.getD s.clock) } : World V).forked e i) with
            files := fun g => if g = f then text else x.files g, db := s.dbs.length },
        dbs := s.dbs ++ [[]] } := by
      rw [ht]
      unfold State.takeDb
      rw [last]
      dsimp only
      unfold State.shadow
      simp only [State.setWorld, List.getElem?_set_self lt, dbs]
      rfl
    refine tried_facts rfl x h f text ?_ ?_ ?_
      { (({ x with now := some (x.now.getD s.clock) } : World V).forked e i) with
            files := fun g => if g = f then text else x.files g, db := s.dbs.length } ?_ ?_ ?_
    · rw [e1]; simp only [List.length_set]; exact len
    · rw [e1]
    · intro v lv
      rw [e1]
      show ((List.set _ _ _).set _ _)[v]? = _
      rw [List.getElem?_set_ne (by omega), List.getElem?_set_ne (by omega)]
      exact task_old h e i v lv
    · rw [e1]
      exact List.getElem?_set_self (by rw [List.length_set]; exact lt)
    · rfl
    · rfl

/-- C122, texts that are only tried. When documentation is converted, a piece rendered or the style at a
position asked for, the world made for this has the given text in the file and all other files as they are,
however often and in whichever form they are read; and whatever is done with it and with the worlds made of
it, all other worlds answer as before and have the same dependencies.
Missing: the view of symbols, whose texts are seen by others. -/
theorem tried_texts_private_partial (ops : List (Op V)) (w : Nat) (x : World V)
    (h : ((State.empty : State V).run ops).worlds[w]? = some x) (e : Entry) (i : Option Nat) (f : Nat) (text : V)
    (t : State V) (ht : let s := (State.empty : State V).run ops
      t = s.convertDocs w e f text ∨ t = s.render w e i f text ∨ t = s.styleAt w f text) :
    let s := (State.empty : State V).run ops
    let n := s.worlds.length
    (∀ reads, (t.reads n reads).2 = contents (fun g => if g = f then text else x.files g) reads) ∧
      ∀ later, (∀ op ∈ later, op.From n) → ∀ v < n, Undisturbed s (t.run later) v ∧
        s.dependencies v = (t.run later).dependencies v := by
  intro s n
  have main : (∀ reads, (t.reads n reads).2 = contents (fun g => if g = f then text else x.files g) reads) ∧
      ∀ later, (∀ op ∈ later, op.From n) → ∀ v z, s.worlds[v]? = some z →
        z.db < s.dbs.length → Undisturbed s (t.run later) v := by
    rcases ht with ht | ht | ht
    · exact tried s w x h (some e) none f text t (.inl ht)
    · exact tried s w x h (some e) i f text t (.inr ht)
    · exact tried s w x h none none f text t (.inl ht)
  refine ⟨main.1, fun later fr v lt => ?_⟩
  have hz : s.worlds[v]? = some s.worlds[v] := List.getElem?_eq_getElem lt
  have u := main.2 later fr v _ hz (wf_run ops _ (List.getElem_mem lt)).1
  refine ⟨u, ?_⟩
  obtain ⟨a, b, ha, hb, e1, _, e2⟩ := u
  have : a.db = b.db := by rw [e1]
  unfold State.dependencies
  rw [ha, hb]
  dsimp only
  rw [← this, ← e2]

/-- A world of a project with a file and a world made for a rendering. -/
theorem example_tried :
    let u : Universe := ⟨⟨some 0, some 1⟩, 0, false, ⟨0, none⟩, ⟨0, none⟩, 1, 1⟩
    let s := (State.empty : State Nat).run [.snapshot u fun _ => 7, .read 0 .source 1]
    let t := s.render 0 ⟨some 0, some 2⟩ none 1 8
    (t.reads 1 [(.source, 1), (.source, 3), (.buffer, 1)]).2 = [some 8, some 7, some 8] ∧
      ((t.reads 1 [(.source, 1), (.source, 3)]).1.reads 0 [(.source, 1)]).2 = [some 7] ∧
      (t.reads 1 [(.source, 1), (.source, 3)]).1.dependencies 0 = [1] := by decide

/-- C122 fails for the view of symbols, whose world shares the table of the project's world: its text becomes
a dependency of the project, and a second view with another text would be that of the first. -/
theorem symbols_disturb :
    let u : Universe := ⟨⟨some 0, some 1⟩, 0, false, ⟨0, none⟩, ⟨0, none⟩, 1, 1⟩
    let s := (State.empty : State Nat).run [.snapshot u fun _ => 7, .read 0 .source 1]
    let t := ((s.symbols 0 ⟨none, some 2⟩ 2 8).reads 1 [(.source, 2)]).1
    s.dependencies 0 = [1] ∧ t.dependencies 0 = [1, 2] ∧
      ((t.symbols 0 ⟨none, some 2⟩ 2 9).reads 2 [(.source, 2)]).2 = [some 8] := by decide

end Tinymist.Universe
