import Verif.Lemmas.WatchRepeat

/-! What the watcher does with one path. -/
namespace Tinymist.Watch
variable {Path : Type} [DecidableEq Path]

theorem look_at (s : Actor Path) (ins : List (Path × Snap)) (q : Path) (f : Snap) (p : Path) :
    (look s ins q f).1.entries p =
      if q = p then (s.entries p).map (fun e => (observe s.tick e f).1) else s.entries p := by
  unfold look
  by_cases hq : q = p
  · subst hq
    rw [if_pos rfl]
    split
    · rename_i h; rw [h]; rfl
    · rename_i e h; rw [h]; simp only [set_eq, Option.map_some]
  · rw [if_neg hq]
    split
    · rfl
    · simp only [set_ne _ _ (Ne.symm hq)]

/-- The entry of a dependency when it is listed for the first time in an update, before it is
looked at. -/
def baseEntry (life : Nat) : Option Entry → Entry
  | some e => { e with lifetime := life, seen := true }
  | none => ⟨life, false, true, .stable, none⟩

/-- Is the operating system asked to watch it? -/
def firstAsks (life : Nat) (o : Option Entry) (d : Dep Path) : Bool :=
  asks (baseEntry life o) o.isSome d

/-- And the entry after that. -/
def firstEntry (w : Bool) (tick life : Nat) (o : Option Entry) (d : Dep Path) : Entry :=
  if w then
    (observe tick { baseEntry life o with
      watching := if firstAsks life o d then d.watchOk else (baseEntry life o).watching } d.file).1
  else baseEntry life o

theorem syncOne_rest (s : Actor Path) (ins : List (Path × Snap)) (d : Dep Path) :
    (syncOne s ins d).1.hasWatcher = s.hasWatcher ∧ (syncOne s ins d).1.lifetime = s.lifetime ∧
      (syncOne s ins d).1.tick = s.tick := by
  unfold syncOne
  simp only
  split
  · exact ⟨rfl, rfl, rfl⟩
  · split
    · refine ⟨?_, ?_, ?_⟩
      · exact (look_rest _ _ _ _).1
      · exact (look_rest _ _ _ _).2.2.1
      · exact (look_rest _ _ _ _).2.2.2.2
    · exact ⟨rfl, rfl, rfl⟩

theorem syncOne_other (s : Actor Path) (ins : List (Path × Snap)) (d : Dep Path) (p : Path)
    (h : d.path ≠ p) :
    (syncOne s ins d).1.entries p = s.entries p ∧
      (syncOne s ins d).1.osWatched p = s.osWatched p := by
  unfold syncOne
  simp only
  split
  · exact ⟨set_ne _ _ (Ne.symm h), rfl⟩
  · split
    · rw [look_at, if_neg h, (look_rest _ _ _ _).2.1]
      simp only [set_ne _ _ (Ne.symm h)]
      exact ⟨trivial, trivial⟩
    · simp only [set_ne _ _ (Ne.symm h)]
      exact ⟨trivial, trivial⟩

theorem syncOne_seen (s : Actor Path) (ins : List (Path × Snap)) (d : Dep Path) (e : Entry)
    (he : s.entries d.path = some e) (hs : e.seen = true) :
    (syncOne s ins d).1.entries d.path = some { e with lifetime := s.lifetime } ∧
      (syncOne s ins d).1.osWatched d.path = s.osWatched d.path := by
  have hd : depEntry s d.path = { e with lifetime := s.lifetime } := depEntry_some he
  unfold syncOne
  simp only
  rw [hd]
  simp only [hs, if_true, set_eq]
  exact ⟨trivial, trivial⟩

theorem syncOne_first (s : Actor Path) (ins : List (Path × Snap)) (d : Dep Path)
    (hs : ∀ e, s.entries d.path = some e → e.seen = false) :
    (syncOne s ins d).1.entries d.path =
        some (firstEntry s.hasWatcher s.tick s.lifetime (s.entries d.path) d) ∧
      (syncOne s ins d).1.osWatched d.path =
        if s.hasWatcher && firstAsks s.lifetime (s.entries d.path) d then d.watchOk
        else s.osWatched d.path := by
  have hd : (depEntry s d.path).seen = false := by
    unfold depEntry
    split
    · rename_i e he; exact hs e he
    · rfl
  have he : ∀ w : Bool, ({ depEntry s d.path with seen := true, watching := w } : Entry) =
      { baseEntry s.lifetime (s.entries d.path) with watching := w } := by
    intro w
    unfold depEntry
    cases s.entries d.path <;> rfl
  have he' : ({ depEntry s d.path with seen := true } : Entry) =
      baseEntry s.lifetime (s.entries d.path) := by
    unfold depEntry
    cases s.entries d.path <;> rfl
  have hw' : (depEntry s d.path).watching = (baseEntry s.lifetime (s.entries d.path)).watching := by
    unfold depEntry
    cases s.entries d.path <;> rfl
  unfold syncOne
  simp only
  rw [if_neg (by rw [hd]; exact Bool.false_ne_true)]
  cases hw : s.hasWatcher with
  | true =>
    simp only [if_true, Bool.true_and]
    rw [look_at, if_pos rfl, (look_rest _ _ _ _).2.1]
    simp only [set_eq, Option.map_some]
    rw [he, he', hw']
    exact ⟨rfl, rfl⟩
  | false =>
    simp only [Bool.false_eq_true, if_false, Bool.false_and, set_eq, firstEntry]
    rw [he']
    exact ⟨rfl, trivial⟩

theorem syncAll_cons (s : Actor Path) (ins : List (Path × Snap)) (d : Dep Path) (ds : List (Dep Path)) :
    syncAll s ins (d :: ds) = syncAll (syncOne s ins d).1 (syncOne s ins d).2 ds := rfl

theorem syncAll_rest (ds : List (Dep Path)) : ∀ (s : Actor Path) (ins : List (Path × Snap)),
    (syncAll s ins ds).1.hasWatcher = s.hasWatcher ∧ (syncAll s ins ds).1.lifetime = s.lifetime ∧
      (syncAll s ins ds).1.tick = s.tick := by
  induction ds with
  | nil => intro s ins; exact ⟨rfl, rfl, rfl⟩
  | cons d ds ih =>
    intro s ins
    rw [syncAll_cons]
    obtain ⟨a, b, c⟩ := ih (syncOne s ins d).1 (syncOne s ins d).2
    obtain ⟨a', b', c'⟩ := syncOne_rest s ins d
    exact ⟨a.trans a', b.trans b', c.trans c'⟩

theorem syncAll_seen (ds : List (Dep Path)) : ∀ (s : Actor Path) (ins : List (Path × Snap)) (p : Path)
    (e : Entry), s.entries p = some e → e.seen = true → e.lifetime = s.lifetime →
    (syncAll s ins ds).1.entries p = some e ∧ (syncAll s ins ds).1.osWatched p = s.osWatched p := by
  induction ds with
  | nil => intro s ins p e he _ _; exact ⟨he, rfl⟩
  | cons d ds ih =>
    intro s ins p e he hs hl
    rw [syncAll_cons]
    by_cases hp : d.path = p
    · subst hp
      obtain ⟨a, b⟩ := syncOne_seen s ins d e he hs
      have hb := (syncOne_rest s ins d).2.1
      rw [show ({ e with lifetime := s.lifetime } : Entry) = e by rw [← hl]] at a
      obtain ⟨c, c'⟩ := ih (syncOne s ins d).1 (syncOne s ins d).2 d.path e a hs (hl.trans hb.symm)
      exact ⟨c, c'.trans b⟩
    · obtain ⟨a, b⟩ := syncOne_other s ins d p hp
      have hb := (syncOne_rest s ins d).2.1
      obtain ⟨c, c'⟩ := ih (syncOne s ins d).1 (syncOne s ins d).2 p e (a.trans he) hs
        (hl.trans hb.symm)
      exact ⟨c, c'.trans b⟩

theorem firstEntry_rest (w : Bool) (tick life : Nat) (o : Option Entry) (d : Dep Path) :
    (firstEntry w tick life o d).seen = true ∧ (firstEntry w tick life o d).lifetime = life := by
  have hb : (baseEntry life o).seen = true ∧ (baseEntry life o).lifetime = life := by
    cases o <;> exact ⟨rfl, rfl⟩
  unfold firstEntry
  cases w with
  | true =>
    rw [if_pos rfl]
    obtain ⟨_, b, c⟩ := observe_rest tick { baseEntry life o with
      watching := if firstAsks life o d then d.watchOk else (baseEntry life o).watching } d.file
    rw [b, c]
    exact hb
  | false => exact hb

/-- What an update does with the entry of a path. -/
theorem syncAll_at (ds : List (Dep Path)) : ∀ (s : Actor Path) (ins : List (Path × Snap)) (p : Path),
    (∀ e, s.entries p = some e → e.seen = false) →
    (syncAll s ins ds).1.entries p = (match ds.find? (fun d => d.path = p) with
      | none => s.entries p
      | some d => some (firstEntry s.hasWatcher s.tick s.lifetime (s.entries p) d)) ∧
    (syncAll s ins ds).1.osWatched p = (match ds.find? (fun d => d.path = p) with
      | none => s.osWatched p
      | some d => if s.hasWatcher && firstAsks s.lifetime (s.entries p) d then d.watchOk
        else s.osWatched p) := by
  induction ds with
  | nil => intro s ins p _; exact ⟨rfl, rfl⟩
  | cons d ds ih =>
    intro s ins p hs
    rw [syncAll_cons]
    by_cases hp : d.path = p
    · subst hp
      rw [List.find?_cons_of_pos (by simp)]
      obtain ⟨a, b⟩ := syncOne_first s ins d hs
      obtain ⟨f1, f2⟩ := firstEntry_rest s.hasWatcher s.tick s.lifetime (s.entries d.path) d
      obtain ⟨c, c'⟩ := syncAll_seen ds _ (syncOne s ins d).2 d.path _ a f1
        (f2.trans (syncOne_rest s ins d).2.1.symm)
      exact ⟨c, c'.trans b⟩
    · rw [List.find?_cons_of_neg (by simpa using hp)]
      obtain ⟨a, b⟩ := syncOne_other s ins d p hp
      obtain ⟨r1, r2, r3⟩ := syncOne_rest s ins d
      have := ih (syncOne s ins d).1 (syncOne s ins d).2 p (by rw [a]; exact hs)
      rw [r1, r2, r3, a, b] at this
      exact this

/-- The entry in front of the loop over the dependencies. -/
def unseen (o : Option Entry) : Option Entry := o.map fun e => { e with seen := false }

/-- What an update leaves of the entry of a path. -/
def updated (w : Bool) (tick life : Nat) (o : Option Entry) (od : Option (Dep Path)) : Option Entry :=
  match od with
  | none => unseen o
  | some d => some (firstEntry w tick life (unseen o) d)

theorem update_at (s : Actor Path) (ds : List (Dep Path)) (p : Path) :
    (updateWatches s ds).1.entries p =
      ((updated s.hasWatcher s.tick (s.lifetime + 1) (s.entries p) (ds.find? (fun d => d.path = p))).map
        (unwatch s.hasWatcher)).filter (fresh (s.lifetime + 1)) ∧
    (updateWatches s ds).1.osWatched p =
      (match updated s.hasWatcher s.tick (s.lifetime + 1) (s.entries p) (ds.find? (fun d => d.path = p)) with
      | some e => if !e.seen && e.watching && s.hasWatcher then false else
        (match ds.find? (fun d => d.path = p) with
          | none => s.osWatched p
          | some d => if s.hasWatcher && firstAsks (s.lifetime + 1) (unseen (s.entries p)) d then d.watchOk
            else s.osWatched p)
      | none => s.osWatched p) := by
  obtain ⟨a, b⟩ := syncAll_at ds { s with
    lifetime := s.lifetime + 1
    entries := fun p => (s.entries p).map fun e => { e with seen := false } } [] p (by
      intro e he
      obtain ⟨e0, _, rfl⟩ := Option.map_eq_some_iff.mp he
      rfl)
  obtain ⟨r1, r2, r3⟩ := syncAll_rest ds { s with
    lifetime := s.lifetime + 1
    entries := fun p => (s.entries p).map fun e => { e with seen := false } } []
  simp only at a b r1 r2 r3
  unfold updateWatches
  simp only
  rw [r1, r2, a, b]
  unfold updated unseen
  cases ds.find? (fun d => d.path = p) with
  | none =>
    refine ⟨rfl, ?_⟩
    cases s.entries p <;> rfl
  | some d => exact ⟨rfl, rfl⟩

theorem syncAll_keys (ds : List (Dep Path)) : ∀ (s : Actor Path) (ins : List (Path × Snap)),
    (∀ q, q ∈ s.keys ↔ (s.entries q).isSome = true) →
    ∀ q, q ∈ (syncAll s ins ds).1.keys ↔ ((syncAll s ins ds).1.entries q).isSome = true := by
  induction ds with
  | nil => intro s ins h; exact h
  | cons d ds ih =>
    intro s ins h
    rw [syncAll_cons]
    apply ih
    intro q
    have hkk : (syncOne s ins d).1.keys =
        if (s.entries d.path).isSome then s.keys else s.keys ++ [d.path] := by
      unfold syncOne
      simp only
      split
      · rfl
      · split
        · exact (look_rest _ _ _ _).2.2.2.1
        · rfl
    have hself : ((syncOne s ins d).1.entries d.path).isSome = true := by
      unfold syncOne
      simp only
      split
      · simp only [set_eq]; rfl
      · split
        · rw [look_keeps]; simp only [set_eq]; rfl
        · simp only [set_eq]; rfl
    rw [hkk]
    by_cases hq : d.path = q
    · subst hq
      rw [hself]
      split
      · rename_i hs
        simp [h d.path, hs]
      · simp
    · rw [(syncOne_other s ins d q hq).1]
      split
      · exact h q
      · simp only [List.mem_append, List.mem_singleton, h q, Ne.symm hq, or_false]

/-- Which paths an update reports as removed. -/
theorem update_removes (s : Actor Path) (ds : List (Dep Path)) (p : Path)
    (hk : ∀ q, q ∈ s.keys ↔ (s.entries q).isSome = true) :
    p ∈ (updateWatches s ds).2.removes ↔
      (∃ e, updated s.hasWatcher s.tick (s.lifetime + 1) (s.entries p)
        (ds.find? (fun d => d.path = p)) = some e ∧ fresh (s.lifetime + 1) e = false) := by
  let s0 : Actor Path := { s with
    lifetime := s.lifetime + 1
    entries := fun p => (s.entries p).map fun e => { e with seen := false } }
  obtain ⟨a, -⟩ := syncAll_at ds s0 [] p (by
      intro e he
      obtain ⟨e0, _, rfl⟩ := Option.map_eq_some_iff.mp he
      rfl)
  obtain ⟨r1, r2, r3⟩ := syncAll_rest ds s0 []
  have hk0 : ∀ q, q ∈ s0.keys ↔ (s0.entries q).isSome = true := by
    intro q
    simp only [s0, Option.isSome_map]
    exact hk q
  have hkd := syncAll_keys ds s0 [] hk0 p
  have hup : (syncAll s0 [] ds).1.entries p = updated s.hasWatcher s.tick (s.lifetime + 1)
      (s.entries p) (ds.find? (fun d => d.path = p)) := by
    rw [a]
    unfold updated
    rfl
  show p ∈ (syncAll s0 [] ds).1.keys.filter (fun q => !(match (syncAll s0 [] ds).1.entries q with
    | some e => fresh (syncAll s0 [] ds).1.lifetime e
    | none => true)) ↔ _
  rw [List.mem_filter, hkd, r2, ← hup]
  cases (syncAll s0 [] ds).1.entries p with
  | none => simp
  | some e =>
    simp only [Option.isSome_some, true_and, Option.some.injEq]
    simp [s0]

theorem update_keys (s : Actor Path) (ds : List (Dep Path))
    (hk : ∀ q, q ∈ s.keys ↔ (s.entries q).isSome = true) :
    ∀ q, q ∈ (updateWatches s ds).1.keys ↔ ((updateWatches s ds).1.entries q).isSome = true := by
  intro p
  let s0 : Actor Path := { s with
    lifetime := s.lifetime + 1
    entries := fun p => (s.entries p).map fun e => { e with seen := false } }
  have hk0 : ∀ q, q ∈ s0.keys ↔ (s0.entries q).isSome = true := by
    intro q
    simp only [s0, Option.isSome_map]
    exact hk q
  have hkd := syncAll_keys ds s0 [] hk0 p
  show p ∈ (syncAll s0 [] ds).1.keys.filter (fun q => match (syncAll s0 [] ds).1.entries q with
    | some e => fresh (syncAll s0 [] ds).1.lifetime e
    | none => true) ↔ ((((syncAll s0 [] ds).1.entries p).map
      (unwatch (syncAll s0 [] ds).1.hasWatcher)).filter (fresh (syncAll s0 [] ds).1.lifetime)).isSome = true
  rw [List.mem_filter, hkd]
  cases (syncAll s0 [] ds).1.entries p with
  | none => simp
  | some e =>
    have hf : fresh (syncAll s0 [] ds).1.lifetime (unwatch (syncAll s0 [] ds).1.hasWatcher e) =
        fresh (syncAll s0 [] ds).1.lifetime e := by
      unfold unwatch fresh
      split <;> rfl
    simp only [Option.isSome_some, true_and, Option.map_some, Option.filter_some, hf]
    cases fresh (syncAll s0 [] ds).1.lifetime e <;> simp

/-! ## Nothing but an update changes when an entry was used -/

theorem lookAll_life (ps : List (Path × Snap)) : ∀ (s : Actor Path) (ins : List (Path × Snap)),
    (∀ p, ((lookAll s ins ps).1.entries p).map (·.lifetime) = (s.entries p).map (·.lifetime)) ∧
      (lookAll s ins ps).1.lifetime = s.lifetime ∧ (lookAll s ins ps).1.keys = s.keys ∧
      (lookAll s ins ps).1.hasWatcher = s.hasWatcher := by
  induction ps with
  | nil => intro s ins; exact ⟨fun _ => rfl, rfl, rfl, rfl⟩
  | cons x ps ih =>
    intro s ins
    obtain ⟨a, b, c, d⟩ := ih (look s ins x.1 x.2).1 (look s ins x.1 x.2).2
    obtain ⟨r1, _, r2, r3, _⟩ := look_rest s x.1 ins x.2
    show (∀ p, ((lookAll (look s ins x.1 x.2).1 (look s ins x.1 x.2).2 ps).1.entries p).map _ = _) ∧ _
    refine ⟨fun p => (a p).trans ?_, b.trans r2, c.trans r3, d.trans r1⟩
    rw [look_at]
    split
    · cases s.entries p with
      | none => rfl
      | some e => simp only [Option.map_some, (observe_rest s.tick e x.2).2.2]
    · rfl

theorem drop_life (ps : List Path) : ∀ (s : Actor Path),
    (∀ p, ((ps.foldl dropWatch s).entries p).map (·.lifetime) = (s.entries p).map (·.lifetime)) ∧
      (ps.foldl dropWatch s).lifetime = s.lifetime ∧ (ps.foldl dropWatch s).keys = s.keys ∧
      (ps.foldl dropWatch s).hasWatcher = s.hasWatcher := by
  induction ps with
  | nil => intro s; exact ⟨fun _ => rfl, rfl, rfl, rfl⟩
  | cons x ps ih =>
    intro s
    obtain ⟨a, b, c, d⟩ := ih (dropWatch s x)
    rw [List.foldl_cons]
    have h : (∀ p, ((dropWatch s x).entries p).map (·.lifetime) = (s.entries p).map (·.lifetime)) ∧
      (dropWatch s x).lifetime = s.lifetime ∧ (dropWatch s x).keys = s.keys ∧
      (dropWatch s x).hasWatcher = s.hasWatcher := by
      unfold dropWatch
      split
      · exact ⟨fun _ => rfl, rfl, rfl, rfl⟩
      · rename_i e he
        split
        · refine ⟨fun p => ?_, rfl, rfl, rfl⟩
          by_cases hp : p = x
          · subst hp; simp only [set_eq, he, Option.map_some]
          · simp only [set_ne _ _ hp]
        · exact ⟨fun _ => rfl, rfl, rfl, rfl⟩
    exact ⟨fun p => (a p).trans (h.1 p), b.trans h.2.1, c.trans h.2.2.1, d.trans h.2.2.2⟩

theorem event_life (s : Actor Path) (ps : List (Path × Snap)) (removal : Bool) :
    (∀ p, ((notifyEvent s ps removal).1.entries p).map (·.lifetime) = (s.entries p).map (·.lifetime)) ∧
      (notifyEvent s ps removal).1.lifetime = s.lifetime ∧
      (notifyEvent s ps removal).1.keys = s.keys ∧
      (notifyEvent s ps removal).1.hasWatcher = s.hasWatcher ∧
      (notifyEvent s ps removal).2.removes = [] := by
  obtain ⟨a, b, c, d⟩ := lookAll_life ps s []
  unfold notifyEvent
  simp only
  cases removal with
  | false => exact ⟨a, b, c, d, trivial⟩
  | true =>
    obtain ⟨a', b', c', d'⟩ := drop_life (ps.map (·.1)) (lookAll s [] ps).1
    exact ⟨fun p => (a' p).trans (a p), b'.trans b, c'.trans c, d'.trans d, trivial⟩

theorem recheck_life (s : Actor Path) (i : Nat) (early : Bool) :
    (∀ p, ((recheck s i early).1.entries p).map (·.lifetime) = (s.entries p).map (·.lifetime)) ∧
      (recheck s i early).1.lifetime = s.lifetime ∧
      (recheck s i early).1.keys = s.keys ∧
      (recheck s i early).1.hasWatcher = s.hasWatcher ∧
      (recheck s i early).2.removes = [] := by
  unfold recheck
  split
  · exact ⟨fun _ => rfl, rfl, rfl, rfl, rfl⟩
  split
  · exact ⟨fun _ => rfl, rfl, rfl, rfl, rfl⟩
  rename_i tick q _
  simp only
  split
  · exact ⟨fun _ => rfl, rfl, rfl, rfl, rfl⟩
  rename_i e he
  have key : ∀ p, ((set s.entries q (some { e with state := State.stable })) p).map (·.lifetime) =
      (s.entries p).map (·.lifetime) := by
    intro p
    by_cases hp : p = q
    · subst hp; simp only [set_eq, he, Option.map_some]
    · simp only [set_ne _ _ hp]
  split
  · exact ⟨key, rfl, rfl, rfl, rfl⟩
  · split
    · split
      · exact ⟨key, rfl, rfl, rfl, rfl⟩
      · exact ⟨key, rfl, rfl, rfl, rfl⟩
    · exact ⟨key, rfl, rfl, rfl, rfl⟩

end Tinymist.Watch
