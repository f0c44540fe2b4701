import Verif.Spec.Routes

/-!
# The nearest lock file that leads to a file decides (C35)
-/

namespace Tinymist.Routes

/-- What a loaded state says. -/
def PathState.known (ps : PathState) : Known :=
  ⟨ps.lock, fun id => (ps.materials.lookup id).map (·.files)⟩

/-- What the server goes by: what it has loaded, else what is on disk. -/
def view (disk : Path → OnDisk) (s : State) (dir : Path) : Known :=
  match s.lookup dir with
  | some ps => ps.known
  | none => (disk dir).known

/-- Every loaded state has the routes of its lock file and materials. -/
def Good (s : State) : Prop :=
  ∀ dir ps, s.lookup dir = some ps → ps.routes = calculateRoutes ps.lock ps.materials

theorem lookup_files (fs : List Path) (id : Id) (acc : List (Path × Id)) (leaf : Path) :
    (fs.foldl (fun routes f => (f, id) :: routes) acc).lookup leaf =
      if leaf ∈ fs then some id else acc.lookup leaf := by
  induction fs generalizing acc with
  | nil => simp
  | cons f fs ih =>
    rw [List.foldl_cons, ih]
    by_cases h : leaf ∈ fs
    · simp [h]
    · by_cases h' : leaf = f
      · subst h'; simp [h]
      · have : (leaf == f) = false := by simpa using h'
        simp [h, h', List.lookup_cons, this]

/-- The table of routes answers with the last route leading to the file. -/
theorem calculate_lookup (raw : List Route) (ms : List (Id × Material)) (leaf : Path) (id : Id) :
    (calculateRoutes raw ms).lookup leaf = some id ↔
      Known.Routes ⟨raw, fun id => (ms.lookup id).map (·.files)⟩ leaf id := by
  have hl : ∀ raw id, Known.Leads ⟨raw, fun id => (ms.lookup id).map (·.files)⟩ leaf id ↔
      (∃ r ∈ raw, r.id = id) ∧ ∃ m, ms.lookup id = some m ∧ leaf ∈ m.files := by
    intro raw id
    constructor
    · rintro ⟨h, fs, hfs, hm⟩
      simp only [Option.map_eq_some_iff] at hfs
      obtain ⟨m, hm', rfl⟩ := hfs
      exact ⟨h, m, hm', hm⟩
    · rintro ⟨h, m, hm', hm⟩
      exact ⟨h, m.files, by simp [hm'], hm⟩
  unfold calculateRoutes
  induction h : raw.length generalizing raw id with
  | zero =>
    have : raw = [] := List.eq_nil_of_length_eq_zero h
    subst this
    simp [Known.Routes]
  | succ n ih =>
    rcases List.eq_nil_or_concat raw with rfl | ⟨init, r, rfl⟩
    · simp at h
    rw [List.concat_eq_append] at h ⊢
    have hlen : init.length = n := by simpa using h
    have ih := fun id => ih init id hlen
    rw [List.foldl_append]
    simp only [List.foldl_cons, List.foldl_nil]
    -- whether the last route leads to the file
    by_cases hr : ∃ m, ms.lookup r.id = some m ∧ leaf ∈ m.files
    · obtain ⟨m, hm, hmem⟩ := hr
      rw [show addRoute ms (init.foldl (addRoute ms) []) r = m.files.foldl (fun routes f => (f, r.id) :: routes)
        (init.foldl (addRoute ms) []) by simp [addRoute, hm]]
      simp only [lookup_files, hmem, if_true]
      constructor
      · intro e; injection e with e; subst e
        exact ⟨init, r, [], rfl, rfl, (hl _ _).mpr ⟨⟨r, by simp, rfl⟩, m, hm, hmem⟩, by simp⟩
      · rintro ⟨before, r', after, e, hid, hlead, hafter⟩
        rcases List.eq_nil_or_concat after with rfl | ⟨after', x, rfl⟩
        · have := List.append_inj' e (by simp)
          have : r = r' := by simpa using this.2
          rw [this, hid]
        · rw [List.concat_eq_append] at e hafter
          have e' : init ++ [r] = (before ++ r' :: after') ++ [x] := by simpa using e
          have := List.append_inj' e' (by simp)
          have hx : r = x := by simpa using this.2
          subst hx
          exact absurd ((hl _ _).mpr ⟨⟨r, by simp, rfl⟩, m, hm, hmem⟩) (hafter r (by simp))
    · have hskip : (addRoute ms (init.foldl (addRoute ms) []) r).lookup leaf =
          (init.foldl (addRoute ms) []).lookup leaf := by
        cases hm : ms.lookup r.id with
        | none => simp [addRoute, hm]
        | some m =>
          have : leaf ∉ m.files := fun hh => hr ⟨m, hm, hh⟩
          simp only [addRoute, hm, lookup_files, this, if_false]
      rw [hskip]
      refine (ih id).trans ?_
      constructor
      · rintro ⟨before, r', after, e, hid, hlead, hafter⟩
        simp only at e
        subst e
        refine ⟨before, r', after ++ [r], by simp, hid, ?_, ?_⟩
        · have := (hl _ _).mp hlead
          exact (hl _ _).mpr ⟨⟨r', by simp, hid⟩, this.2⟩
        · intro x hx hxl
          have hxl := (hl _ _).mp hxl
          rcases List.mem_append.mp hx with hx | hx
          · exact hafter x hx ((hl _ _).mpr ⟨⟨x, by simp [hx], rfl⟩, hxl.2⟩)
          · have : x = r := by simpa using hx
            subst this; exact hr hxl.2
      · rintro ⟨before, r', after, e, hid, hlead, hafter⟩
        simp only at e
        have hlead := (hl _ _).mp hlead
        rcases List.eq_nil_or_concat after with rfl | ⟨after', x, rfl⟩
        · have := List.append_inj' e (by simp)
          have hrr : r = r' := by simpa using this.2
          subst hrr; subst hid
          exact absurd hlead.2 hr
        · rw [List.concat_eq_append] at e hafter
          have e' : init ++ [r] = (before ++ r' :: after') ++ [x] := by simpa using e
          have := List.append_inj' e' (by simp)
          refine ⟨before, r', after', this.1, hid, (hl _ _).mpr ⟨⟨r', by rw [this.1]; simp, hid⟩, hlead.2⟩, ?_⟩
          intro y hy hyl
          have hyl := (hl _ _).mp hyl
          refine hafter y (by simp [hy]) ((hl _ _).mpr ⟨⟨y, ?_, rfl⟩, hyl.2⟩)
          rw [e]; simp [hy]

theorem materials_lookup (l : List Material) (id : Id) :
    (l.foldl (fun ms m => (m.id, m) :: ms) []).lookup id = l.reverse.find? (·.id == id) := by
  suffices ∀ acc : List (Id × Material),
      (l.foldl (fun ms m => (m.id, m) :: ms) acc).lookup id =
        (l.reverse.find? (·.id == id)).or (acc.lookup id) by
    simpa using this []
  induction l with
  | nil => simp
  | cons m l ih =>
    intro acc
    rw [List.foldl_cons, ih, List.reverse_cons, List.find?_append, List.lookup_cons]
    by_cases h : m.id = id
    · subst h; simp
    · have h1 : (id == m.id) = false := by simpa using fun e => h e.symm
      have h2 : (m.id == id) = false := by simpa using h
      simp [h1, h2]

theorem load_known (d : OnDisk) : (load d).known = d.known := by
  obtain ⟨lock, ms⟩ := d
  cases lock with
  | none => rfl
  | some lock =>
    simp only [load, OnDisk.known, PathState.known, Known.mk.injEq, true_and]
    funext id
    rw [materials_lookup]

theorem load_routes (d : OnDisk) : (load d).routes = calculateRoutes (load d).lock (load d).materials := by
  unfold load; split <;> rfl

theorem state_lookup {ps : PathState} (h : ps.routes = calculateRoutes ps.lock ps.materials) (leaf : Path)
    (id : Id) : ps.routes.lookup leaf = some id ↔ ps.known.Routes leaf id := by
  rw [h]; exact calculate_lookup _ _ _ _

theorem resolveAt_spec (disk : Path → OnDisk) (s : State) (hs : Good s) (dir leaf : Path) :
    Good (resolveAt disk s dir leaf).1 ∧ (view disk (resolveAt disk s dir leaf).1 = view disk s) ∧
      (∀ d id, (resolveAt disk s dir leaf).2 = some (d, id) ↔ d = dir ∧ (view disk s dir).Routes leaf id) := by
  unfold resolveAt
  split
  · rename_i ps hps
    refine ⟨hs, rfl, fun d id => ?_⟩
    have : view disk s dir = ps.known := by simp [view, hps]
    rw [this, ← state_lookup (hs dir ps hps)]
    cases ps.routes.lookup leaf with
    | none => simp
    | some x => simp; grind
  · rename_i hps
    have hv : view disk s dir = (load (disk dir)).known := by simp [view, hps, load_known]
    have hr := fun id => state_lookup (load_routes (disk dir)) leaf id
    simp only
    split
    · rename_i x hx
      refine ⟨?_, ?_, fun d id => ?_⟩
      · intro dir' ps' h
        rw [List.lookup_cons] at h
        split at h
        · injection h with h; subst h; exact load_routes _
        · exact hs dir' ps' h
      · funext dir'
        unfold view
        rw [List.lookup_cons]
        split
        · rename_i h
          split at h
          · rename_i e
            injection h with h; subst h
            have e : dir' = dir := by simpa using e
            subst e
            rw [hps]; exact load_known _
          · rw [h]
        · rename_i h
          split at h
          · cases h
          · rw [h]
      · rw [hv, ← hr, hx]; simp; grind
    · rename_i hx
      refine ⟨hs, rfl, fun d id => ?_⟩
      rw [hv, ← hr, hx]; simp

theorem resolveIn_spec (disk : Path → OnDisk) (leaf : Path) (dirs : List Path) (s : State) (hs : Good s) :
    Good (resolveIn disk s leaf dirs).1 ∧ view disk (resolveIn disk s leaf dirs).1 = view disk s ∧
      (∀ d id, (resolveIn disk s leaf dirs).2 = some (d, id) ↔
        ∃ before after, dirs = before ++ d :: after ∧ (view disk s d).Routes leaf id ∧
          ∀ d' ∈ before, ∀ id', ¬ (view disk s d').Routes leaf id') := by
  induction dirs generalizing s with
  | nil => refine ⟨hs, rfl, fun d id => ?_⟩; simp [resolveIn]
  | cons dir dirs ih =>
    have hat := resolveAt_spec disk s hs dir leaf
    unfold resolveIn
    split
    · rename_i s' r hr
      rw [hr] at hat
      obtain ⟨rd, rid⟩ := r
      have hrr := (hat.2.2 rd rid).mp rfl
      refine ⟨hat.1, hat.2.1, fun d id => ?_⟩
      rw [hat.2.2 d id]
      constructor
      · rintro ⟨rfl, h⟩
        exact ⟨[], dirs, rfl, h, by simp⟩
      · rintro ⟨before, after, e, h, hno⟩
        cases before with
        | nil =>
          have : d = dir := by simp at e; exact e.1.symm
          subst this; exact ⟨rfl, h⟩
        | cons b before =>
          have : dir = b := by simp at e; exact e.1
          subst this
          exact absurd hrr.2 (hno dir (by simp) rid)
    · rename_i s' hr
      rw [hr] at hat
      have ih := ih s' hat.1
      refine ⟨ih.1, ih.2.1.trans hat.2.1, fun d id => ?_⟩
      rw [ih.2.2 d id]
      have hnone : ∀ id', ¬ (view disk s dir).Routes leaf id' := by
        intro id' h
        have := (hat.2.2 dir id').mpr ⟨rfl, h⟩
        cases this
      have hv : view disk s' = view disk s := hat.2.1
      rw [hv]
      constructor
      · rintro ⟨before, after, rfl, h, hno⟩
        refine ⟨dir :: before, after, rfl, h, ?_⟩
        intro d' hd'
        rcases List.mem_cons.mp hd' with rfl | hd'
        · exact hnone
        · exact hno d' hd'
      · rintro ⟨before, after, e, h, hno⟩
        cases before with
        | nil =>
          have : d = dir := by simp at e; exact e.1.symm
          subst this; exact absurd h (hnone id)
        | cons b before =>
          have e' : dirs = before ++ d :: after := by simp at e; exact e.2
          exact ⟨before, after, e', h, fun d' hd' => hno d' (by simp [hd'])⟩

theorem mem_upward (leaf d : Path) : d ∈ upward leaf ↔ d <+: leaf := by
  unfold upward
  simp only [List.mem_map, List.mem_range]
  constructor
  · rintro ⟨n, _, rfl⟩; exact List.take_prefix _ _
  · intro h
    have hle := h.length_le
    refine ⟨leaf.length - d.length, by omega, ?_⟩
    rw [show leaf.length - (leaf.length - d.length) = d.length by omega]
    exact (List.prefix_iff_eq_take.mp h).symm

theorem upward_sorted (leaf : Path) (before after : List Path) (d : Path)
    (h : upward leaf = before ++ d :: after) (d' : Path) :
    (d' <+: leaf ∧ d.length < d'.length) ↔ d' ∈ before := by
  have hget : ∀ n, n < leaf.length + 1 → (upward leaf)[n]? = some (leaf.take (leaf.length - n)) := by
    intro n hn
    simp [upward, hn]
  have hlen : (upward leaf).length = leaf.length + 1 := by simp [upward]
  have hbl : before.length < leaf.length + 1 := by rw [← hlen, h]; simp
  have hd : d = leaf.take (leaf.length - before.length) := by
    have := hget before.length hbl
    rw [h] at this
    simpa using this
  have hdl : d.length = leaf.length - before.length := by
    rw [hd, List.length_take]; omega
  have hbefore : ∀ n, n < before.length → before[n]? = some (leaf.take (leaf.length - n)) := by
    intro n hn
    have := hget n (by omega)
    rw [h, List.getElem?_append_left hn] at this
    exact this
  constructor
  · rintro ⟨hp, hl⟩
    have hle := hp.length_le
    have : leaf.length - d'.length < before.length := by omega
    have := hbefore _ this
    rw [show leaf.length - (leaf.length - d'.length) = d'.length by omega,
      ← List.prefix_iff_eq_take.mp hp] at this
    exact List.mem_of_getElem? this
  · intro hm
    obtain ⟨n, hn⟩ := List.getElem?_of_mem hm
    have hnl : n < before.length := by
      rcases Nat.lt_or_ge n before.length with h | h
      · exact h
      · rw [List.getElem?_eq_none h] at hn; cases hn
    have := hbefore n hnl
    rw [hn] at this
    injection this with this
    subst this
    refine ⟨List.take_prefix _ _, ?_⟩
    rw [hdl, List.length_take]; omega

/-- The answer of the server, given what it goes by. -/
theorem resolve_view (disk : Path → OnDisk) (s : State) (hs : Good s) (leaf dir : Path) (id : Id) :
    (resolve disk s leaf).2 = some (dir, id) ↔ Nearest (view disk s) leaf dir id := by
  unfold resolve Nearest
  rw [(resolveIn_spec disk leaf (upward leaf) s hs).2.2]
  constructor
  · rintro ⟨before, after, e, h, hno⟩
    refine ⟨(mem_upward leaf dir).mp (by rw [e]; simp), h, ?_⟩
    intro d' hp hl
    exact hno d' ((upward_sorted leaf before after dir e d').mp ⟨hp, hl⟩)
  · rintro ⟨hp, h, hno⟩
    obtain ⟨before, after, e⟩ := List.append_of_mem ((mem_upward leaf dir).mpr hp)
    refine ⟨before, after, e, h, ?_⟩
    intro d' hd'
    have := (upward_sorted leaf before after dir e d').mpr hd'
    exact hno d' this.1 this.2

theorem good_update (s : State) (hs : Good s) (dir : Path) (ps : PathState)
    (h : ps.routes = calculateRoutes ps.lock ps.materials) : Good ((dir, ps) :: s) := by
  intro dir' ps' h'
  rw [List.lookup_cons] at h'
  split at h'
  · injection h' with h'; subst h'; exact h
  · exact hs dir' ps' h'

theorem good_run (ops : List ((Path → OnDisk) × Op)) : Good (run ops) := by
  suffices ∀ s, Good s → Good (ops.foldl step s) from this [] (fun dir ps h => by simp at h)
  induction ops with
  | nil => exact fun _ h => h
  | cons o ops ih =>
    intro s hs
    refine ih _ ?_
    obtain ⟨disk, o⟩ := o
    cases o with
    | resolve leaf => exact (resolveIn_spec disk leaf _ s hs).1
    | updateLock dir lock =>
      simp only [step, updateLock]
      split
      · exact hs
      · split
        · exact hs
        · exact good_update s hs dir _ rfl
    | updateMaterial dir m =>
      simp only [step, updateMaterial]
      split
      · exact hs
      · split
        · exact hs
        · split
          · exact hs
          · exact good_update s hs dir _ rfl

/-- **C35, fresh server.** The project found for a file is the one the nearest lock file leading to it says: the answer is given iff there is one,
and it is the route added last in that lock file. -/
theorem resolve_fresh (disk : Path → OnDisk) (leaf dir : Path) (id : Id) :
    (resolve disk [] leaf).2 = some (dir, id) ↔ Nearest (fun d => (disk d).known) leaf dir id :=
  resolve_view disk [] (fun dir ps h => by simp at h) leaf dir id

/-- **C35, any history, disk unchanged.** After any number of resolutions the answers are still those of
the disk, so keeping what was loaded changes no answer. -/
theorem resolve_cached_partial (disk : Path → OnDisk) (leaves : List Path) (leaf dir : Path) (id : Id) :
    (resolve disk (run (leaves.map fun l => (disk, .resolve l))) leaf).2 = some (dir, id) ↔
      Nearest (fun d => (disk d).known) leaf dir id := by
  rw [resolve_view disk _ (good_run _)]
  have : view disk (run (leaves.map fun l => (disk, .resolve l))) = fun d => (disk d).known := by
    suffices ∀ s, Good s → view disk ((leaves.map fun l => (disk, Op.resolve l)).foldl step s) =
        view disk s from this [] (fun dir ps h => by simp at h)
    induction leaves with
    | nil => exact fun _ _ => rfl
    | cons l leaves ih =>
      intro s hs
      have := resolveIn_spec disk l (upward l) s hs
      exact (ih _ this.1).trans this.2.1
  rw [this]

/-- **C35, any history.** In any history of resolutions and updates, over any changes of the disk, the answer
is that of the lock files as the server knows them. -/
theorem resolve_any (ops : List ((Path → OnDisk) × Op)) (disk : Path → OnDisk) (leaf dir : Path)
    (id : Id) :
    (resolve disk (run ops) leaf).2 = some (dir, id) ↔ Nearest (view disk (run ops)) leaf dir id :=
  resolve_view disk _ (good_run ops) leaf dir id

/-- **C35.** The update of a lock file that was loaded is what the server goes by from then on, and changes nothing else. -/
theorem lock_update_known (s : State) (disk : Path → OnDisk) (dir : Path) (lock : List Route) :
    view disk (updateLock s dir lock) = fun d =>
      if d = dir ∧ (s.lookup dir).isSome then ⟨lock, (view disk s dir).files⟩ else view disk s d := by
  funext d
  unfold updateLock
  split
  · rename_i h; simp [h]
  · rename_i ps h
    split
    · rename_i e
      by_cases hd : d = dir
      · subst hd; subst e; simp [view, h, PathState.known]
      · simp [hd]
    · by_cases hd : d = dir
      · subst hd; simp [view, h, PathState.known]
      · have : (d == dir) = false := by simpa using hd
        simp [view, List.lookup_cons, hd, this]

/-- **C35.** The update of the files of a project that was loaded is what the server goes by from then on, and changes
nothing else. -/
theorem material_update_known (s : State) (disk : Path → OnDisk) (dir : Path) (m : Material) :
    view disk (updateMaterial s dir m) = fun d =>
      if d = dir ∧ (s.lookup dir).isSome ∧ ((view disk s dir).files m.id).isSome then
        ⟨(view disk s dir).routes, fun id => if id = m.id then some m.files else (view disk s dir).files id⟩
      else view disk s d := by
  funext d
  unfold updateMaterial
  split
  · rename_i h; simp [h]
  · rename_i ps h
    split
    · rename_i hm; simp [view, h, PathState.known, hm]
    · rename_i old hm
      have hf : ∀ id, (if id = m.id then some m.files else (ps.materials.lookup id).map (·.files)) =
          (((m.id, m) :: ps.materials).lookup id).map (·.files) := by
        intro id
        by_cases hi : id = m.id
        · subst hi; simp
        · have : (id == m.id) = false := by simpa using hi
          simp [List.lookup_cons, hi, this]
      split
      · rename_i e
        by_cases hd : d = dir
        · subst hd; subst e
          simp only [view, h, PathState.known, Option.isSome_some, hm, Option.map_some, and_self, if_true, Known.mk.injEq,
            true_and]
          funext id
          rw [hf id, List.lookup_cons]
          split
          · rename_i hi
            have : id = old.id := by simpa using hi
            rw [this, hm]
          · rfl
        · simp [hd]
      · by_cases hd : d = dir
        · subst hd
          simp [view, h, PathState.known, hm, hf]
        · have : (d == dir) = false := by simpa using hd
          simp [view, List.lookup_cons, hd, this]

/-- At most one answer fits. -/
theorem nearest_unique (known : Path → Known) (leaf d d' : Path) (id id' : Id)
    (h : Nearest known leaf d id) (h' : Nearest known leaf d' id') : d = d' := by
  have hlen : d.length = d'.length := by
    rcases Nat.lt_trichotomy d.length d'.length with hl | hl | hl
    · exact absurd h'.2.1 (h.2.2 d' h'.1 hl id')
    · exact hl
    · exact absurd h.2.1 (h'.2.2 d h.1 hl id)
  rw [List.prefix_iff_eq_take.mp h.1, List.prefix_iff_eq_take.mp h'.1, hlen]

/-- A file moves to another project when the lock file that was loaded is updated. -/
example :
    let disk : Path → OnDisk := fun d => if d = ["h"] then ⟨some [⟨"a", 0⟩], [⟨"a", [["h", "m"]]⟩, ⟨"b", [["h", "m"]]⟩]⟩ else ⟨none, []⟩
    (resolve disk (run [(disk, .resolve ["h", "m"])]) ["h", "m"]).2 = some (["h"], "a") ∧
      (resolve disk (run [(disk, .resolve ["h", "m"]), (disk, .updateLock ["h"] [⟨"b", 0⟩])]) ["h", "m"]).2 = some (["h"], "b") := by
  decide +kernel

def exampleDisk (routes : List Route) : Path → OnDisk := fun d =>
  if d = ["home"] then ⟨some routes, [⟨"a", [["home", "p", "m.typ"]]⟩, ⟨"b", [["home", "p", "m.typ"]]⟩]⟩
  else if d = ["home", "p"] then ⟨some [⟨"c", 0⟩], [⟨"c", [["home", "p", "x.typ"]]⟩]⟩
  else ⟨none, []⟩

/-- A nearer lock file that does not lead to the file is passed over; the last route wins. -/
example : (resolve (exampleDisk [⟨"a", 1⟩, ⟨"b", 1⟩]) [] ["home", "p", "m.typ"]).2 = some (["home"], "b") ∧
    (resolve (exampleDisk []) [] ["home", "p", "x.typ"]).2 = some (["home", "p"], "c") := by
  decide +kernel

/-- **The documented priorities are ignored.** A lower number should win
(`crates/tinymist-project/src/model.rs` 141); the later route does. -/
theorem priority_ignored :
    (resolve (exampleDisk [⟨"a", 0⟩, ⟨"b", 100⟩]) [] ["home", "p", "m.typ"]).2 = some (["home"], "b") := by
  decide +kernel

/-- **C35 fails when the lock file changes.** A file was resolved once; then a route is added to the lock
file, as the server's own export command does. No request refreshes what was loaded, and the old project
keeps being found. -/
theorem stale_lock :
    let before := exampleDisk [⟨"a", 1⟩]
    let after := exampleDisk [⟨"a", 1⟩, ⟨"b", 1⟩]
    (resolve after (run [(before, .resolve ["home", "p", "m.typ"])]) ["home", "p", "m.typ"]).2 =
        some (["home"], "a") ∧
      Nearest (fun d => (after d).known) ["home", "p", "m.typ"] ["home"] "b" := by
  refine ⟨by decide +kernel, ?_⟩
  rw [← resolve_fresh]
  decide +kernel

end Tinymist.Routes
