import Verif.Lemmas.WatchRun
/-! Consecutive reports about a path differ. -/
namespace Tinymist.Watch
variable {Path : Type} [DecidableEq Path]

theorem noRepeat_snoc {A : Type} (l : List A) (a : A) (h : NoRepeat l) (hl : l.getLast? ≠ some a) : NoRepeat (l ++ [a]) := by
  induction l with
  | nil => exact trivial
  | cons x l ih =>
    cases l with
    | nil => exact ⟨fun e => hl (by rw [e]; rfl), trivial⟩
    | cons y l =>
      refine ⟨h.1, ih h.2 ?_⟩
      rw [List.getLast?_cons_cons] at hl
      exact hl

/-- What inserts say about `p`. -/
def says (ins : List (Path × Snap)) (p : Path) : List (Option Snap) := (ins.filter (·.1 = p)).map (fun x => some x.2)

theorem says_snoc (ins : List (Path × Snap)) (q : Path) (f : Snap) (p : Path) :
    says (ins ++ [(q, f)]) p = says ins p ++ (if q = p then [some f] else []) := by
  unfold says
  rw [List.filter_append, List.map_append]
  by_cases h : q = p <;> simp [h]

theorem reports_snoc (cs : List (Change Path)) (c : Change Path) (p : Path) :
    reports (cs ++ [c]) p = reports cs p ++ ((c.removes.filter (· = p)).map (fun _ => none) ++ says c.inserts p) := by
  unfold reports says
  rw [List.flatMap_append]
  simp

theorem observe_steady (tick : Nat) (e : Entry) (f : Snap) (hs : e.state = .stable) (hf : f.Steady) :
    (observe tick e f = ({ e with state := .stable, prev := some f }, .report) ∧ e.prev ≠ some f) ∨
    (observe tick e f = (e, .silent) ∧ e.prev = some f) := by
  rcases observe_cases tick e f with ⟨o, h⟩ | ⟨o, h1, h2, h3⟩ | ⟨o, h1⟩ | ⟨n, pl, h3, o, h1, h2⟩
  · exact Or.inl ⟨o, h⟩
  · exfalso
    cases f with
    | ok c => exact h2 hf
    | err x =>
      unfold observe at o
      have hx : x.transient = false := by cases x <;> first | rfl | exact absurd hf id
      cases hp : e.prev with
      | none => exact h1 hp
      | some it =>
        rw [hp] at o
        cases it <;> simp only [hs, hx, Bool.false_eq_true, if_false] at o <;> split at o <;> exact absurd (congrArg Prod.snd o) (by simp)
  · by_cases hp : e.prev = some f
    · exact Or.inr ⟨o, hp⟩
    · obtain ⟨h1', h2⟩ := h1.resolve_left hp
      exfalso
      cases f with
      | ok c => exact h2 hf
      | err x =>
        unfold observe at o
        have hx : x.transient = false := by cases x <;> first | rfl | exact absurd hf id
        cases hp' : e.prev with
        | none => exact h1' hp'
        | some it =>
          rw [hp'] at o hp
          have hne : ¬ it = .err x := fun e => hp (by rw [e])
          cases it with
          | ok c => simp only [hs, hx, Bool.false_eq_true, if_false, hne] at o; exact absurd (congrArg Prod.snd o) (by simp)
          | err y => simp only [hs, hx, Bool.false_eq_true, if_false] at o; rw [if_neg hne] at o; exact absurd (congrArg Prod.snd o) (by simp)
  · rw [hs] at h3; cases h3

/-- The entry of `p` remembers the last thing said about it. -/
structure Seq (s : Actor Path) (rs : List (Option Snap)) (p : Path) : Prop where
  nr : NoRepeat rs
  ent : ∀ e, s.entries p = some e → e.state = .stable ∧ ∃ x, e.prev = some x ∧ rs.getLast? = some (some x)
  noEnt : s.entries p = none → rs.getLast? = none ∨ rs.getLast? = some none

theorem seq_look {s : Actor Path} {rs : List (Option Snap)} {p : Path} (ins : List (Path × Snap)) (q : Path) (f : Snap)
    (hf : q = p → f.Steady) (hnr : NoRepeat (rs ++ says ins p))
    (h : ∀ e, s.entries p = some e → e.state = .stable ∧
      ((e.prev = none ∧ ((rs ++ says ins p).getLast? = none ∨ (rs ++ says ins p).getLast? = some none) ∧ q = p) ∨
        ∃ x, e.prev = some x ∧ (rs ++ says ins p).getLast? = some (some x)))
    (hn : s.entries p = none → (rs ++ says ins p).getLast? = none ∨ (rs ++ says ins p).getLast? = some none) :
    Seq (look s ins q f).1 (rs ++ says (look s ins q f).2 p) p := by
  by_cases hqp : q = p
  · subst hqp
    cases he : s.entries q with
    | none =>
      have : look s ins q f = (s, ins) := by unfold look; rw [he]
      rw [this]
      exact ⟨hnr, fun e h => (by rw [he] at h; cases h), fun _ => hn he⟩
    | some e =>
      obtain ⟨f1, f2⟩ := look_some he ins f
      obtain ⟨hs, hp⟩ := h e he
      refine ⟨?_, fun e' h' => ?_, fun h' => (by rw [f1, set_eq] at h'; cases h')⟩
      · rw [f2]
        rcases observe_steady s.tick e f hs (hf rfl) with ⟨o, hne⟩ | ⟨o, heq⟩
        · simp only [o, if_true]
          rw [says_snoc, if_pos rfl, ← List.append_assoc]
          refine noRepeat_snoc _ _ hnr ?_
          rcases hp with ⟨-, a | a, -⟩ | ⟨x, a, b⟩
          · rw [a]; intro h; cases h
          · rw [a]; intro h; cases h
          · rw [b]; intro h
            injection h with h
            exact hne (a.trans h)
        · simp only [o, reduceCtorEq, if_false]; exact hnr
      · rw [f1, set_eq] at h'
        injection h' with h'
        subst h'
        rw [f2]
        rcases observe_steady s.tick e f hs (hf rfl) with ⟨o, hne⟩ | ⟨o, heq⟩
        · simp only [o, if_true]
          refine ⟨trivial, f, rfl, ?_⟩
          rw [says_snoc, if_pos rfl, ← List.append_assoc, List.getLast?_append]
          rfl
        · simp only [o, reduceCtorEq, if_false]
          refine ⟨hs, f, heq, ?_⟩
          rcases hp with ⟨a, -⟩ | ⟨x, a, b⟩
          · rw [heq] at a; cases a
          · rw [heq] at a; injection a with a; rw [a]; exact b
  · have hsay : says (look s ins q f).2 p = says ins p := by
      unfold look
      split
      · rfl
      · simp only
        split
        · rw [says_snoc, if_neg hqp, List.append_nil]
        · rfl
    have hent : (look s ins q f).1.entries p = s.entries p := by
      unfold look
      split
      · rfl
      · exact set_ne _ _ (fun e => hqp e.symm)
    rw [hsay]
    refine ⟨hnr, fun e he => ?_, fun he => hn (by rw [← hent]; exact he)⟩
    rw [hent] at he
    obtain ⟨a, b⟩ := h e he
    exact ⟨a, b.resolve_left (fun h => hqp h.2.2)⟩

theorem Seq.look {s : Actor Path} {rs : List (Option Snap)} {p : Path} (ins : List (Path × Snap)) (q : Path) (f : Snap)
    (h : Seq s (rs ++ says ins p) p) (hf : q = p → f.Steady) : Seq (look s ins q f).1 (rs ++ says (look s ins q f).2 p) p :=
  seq_look ins q f hf h.nr (fun e he => ⟨(h.ent e he).1, Or.inr (h.ent e he).2⟩) h.noEnt

/-- The table's keys. -/
structure Keys (s : Actor Path) : Prop where
  nodup : s.keys.Nodup
  iff : ∀ q, q ∈ s.keys ↔ (s.entries q).isSome = true

theorem keys_of {s s' : Actor Path} (h : Keys s) (h1 : s'.keys = s.keys)
    (h2 : ∀ q, (s'.entries q).isSome = (s.entries q).isSome) : Keys s' :=
  ⟨by rw [h1]; exact h.nodup, fun q => by rw [h1, h2]; exact h.iff q⟩

theorem look_keys (s : Actor Path) (ins : List (Path × Snap)) (p : Path) (f : Snap) : (look s ins p f).1.keys = s.keys := by
  unfold look; split <;> rfl

/-- The invariant in the middle of an update. -/
structure SeqMid (s : Actor Path) (rs : List (Option Snap)) (ins : List (Path × Snap)) (p : Path) : Prop where
  seq : Seq s (rs ++ says ins p) p
  keys : Keys s
  life : says ins p ≠ [] → ∃ e, s.entries p = some e ∧ e.lifetime = s.lifetime
  w : s.hasWatcher = true

theorem depEntry_some {s : Actor Path} {p : Path} {e : Entry} (h : s.entries p = some e) :
    depEntry s p = { e with lifetime := s.lifetime } := by unfold depEntry; rw [h]

theorem depEntry_none {s : Actor Path} {p : Path} (h : s.entries p = none) :
    depEntry s p = ⟨s.lifetime, false, false, .stable, none⟩ := by unfold depEntry; rw [h]

theorem depEntry_life (s : Actor Path) (p : Path) : (depEntry s p).lifetime = s.lifetime := by
  unfold depEntry; split <;> rfl

theorem keys_add {s : Actor Path} (h : Keys s) (q : Path) (e : Entry) (s' : Actor Path)
    (h1 : s'.keys = if (s.entries q).isSome then s.keys else s.keys ++ [q])
    (h2 : s'.entries = set s.entries q (some e)) : Keys s' := by
  cases hc : (s.entries q).isSome with
  | true =>
    rw [hc] at h1
    refine keys_of h h1 fun x => ?_
    rw [h2]
    by_cases hx : x = q
    · subst hx; rw [set_eq, hc]; rfl
    · rw [set_ne _ _ hx]
  | false =>
    rw [hc] at h1
    have hn : q ∉ s.keys := by rw [h.iff, hc]; simp
    refine ⟨?_, fun x => ?_⟩
    · rw [h1]
      simp only [Bool.false_eq_true, if_false]
      exact List.nodup_append.mpr ⟨h.nodup, by simp, by
        intro a ha b hb
        rw [List.mem_singleton.mp hb]
        rintro rfl
        exact hn ha⟩
    · rw [h1, h2]
      by_cases hx : x = q
      · subst hx; rw [set_eq]; simp
      · rw [set_ne _ _ hx, ← h.iff x]; simp [hx]

theorem seqMid_one {s : Actor Path} {rs : List (Option Snap)} {ins : List (Path × Snap)} {p : Path} (d : Dep Path)
    (h : SeqMid s rs ins p) (hd : d.path = p → d.file.Steady) :
    SeqMid (syncOne s ins d).1 rs (syncOne s ins d).2 p ∧ (syncOne s ins d).1.lifetime = s.lifetime := by
  unfold syncOne
  simp only
  by_cases hseen : (depEntry s d.path).seen = true
  · rw [if_pos hseen]
    obtain ⟨e0, he0⟩ : ∃ e0, s.entries d.path = some e0 := by
      cases he : s.entries d.path with
      | some e => exact ⟨e, rfl⟩
      | none => rw [depEntry_none he] at hseen; cases hseen
    refine ⟨⟨⟨h.seq.nr, fun e he => ?_, fun he => ?_⟩, ?_, fun hs => ?_, h.w⟩, rfl⟩
    · by_cases hp : p = d.path
      · subst hp
        simp only [set_eq] at he
        injection he with he
        subst he
        rw [depEntry_some he0]
        exact h.seq.ent e0 he0
      · simp only [set_ne _ _ hp] at he; exact h.seq.ent e he
    · by_cases hp : p = d.path
      · subst hp; simp only [set_eq] at he; cases he
      · simp only [set_ne _ _ hp] at he; exact h.seq.noEnt he
    · exact keys_add h.keys d.path _ _ rfl rfl
    · by_cases hp : p = d.path
      · subst hp; simp only [set_eq]; exact ⟨_, rfl, depEntry_life s _⟩
      · simp only [set_ne _ _ hp]; exact h.life hs
  · rw [if_neg hseen]
    have hset : ∀ (a b : Option Entry), set (set s.entries d.path a) d.path b = set s.entries d.path b := by
      intro a b; funext q; unfold set; split <;> rfl
    rw [if_pos h.w, hset]
    generalize hwat : (if asks { depEntry s d.path with seen := true } (s.entries d.path).isSome d = true then d.watchOk
      else (depEntry s d.path).watching) = wat
    generalize hos : (if asks { depEntry s d.path with seen := true } (s.entries d.path).isSome d = true then d.watchOk
      else s.osWatched d.path) = osd
    generalize hs1 : ({ s with
          entries := set s.entries d.path (some { depEntry s d.path with seen := true, watching := wat })
          keys := if (s.entries d.path).isSome = true then s.keys else s.keys ++ [d.path]
          osWatched := set s.osWatched d.path osd } : Actor Path) = s1
    have e1 : s1.entries = set s.entries d.path (some { depEntry s d.path with seen := true, watching := wat }) := by
      rw [← hs1]
    have e2 : s1.keys = if (s.entries d.path).isSome = true then s.keys else s.keys ++ [d.path] := by rw [← hs1]
    have e3 : s1.hasWatcher = true := by rw [← hs1]; exact h.w
    have e4 : s1.lifetime = s.lifetime := by rw [← hs1]
    obtain ⟨g1, g2, g3, g4, g5⟩ := look_rest s1 d.path ins d.file
    have hx : s1.entries d.path = some { depEntry s d.path with seen := true, watching := wat } := by rw [e1, set_eq]
    obtain ⟨f1, f2⟩ := look_some hx ins d.file
    obtain ⟨o1, o2, o3⟩ := observe_rest s1.tick { depEntry s d.path with seen := true, watching := wat } d.file
    refine ⟨⟨?_, ?_, ?_, g1.trans e3⟩, g3.trans e4⟩
    · refine seq_look ins d.path d.file hd h.seq.nr ?_ ?_
      · intro e he
        rw [e1] at he
        by_cases hp : p = d.path
        · subst hp
          rw [set_eq] at he
          injection he with he
          subst he
          cases he0 : s.entries d.path with
          | none =>
            rw [depEntry_none he0]
            exact ⟨rfl, Or.inl ⟨rfl, h.seq.noEnt he0, rfl⟩⟩
          | some e0 =>
            rw [depEntry_some he0]
            exact ⟨(h.seq.ent e0 he0).1, Or.inr (h.seq.ent e0 he0).2⟩
        · rw [set_ne _ _ hp] at he
          exact ⟨(h.seq.ent e he).1, Or.inr (h.seq.ent e he).2⟩
      · intro he
        rw [e1] at he
        by_cases hp : p = d.path
        · subst hp; rw [set_eq] at he; cases he
        · rw [set_ne _ _ hp] at he; exact h.seq.noEnt he
    · exact keys_of (keys_add h.keys d.path _ s1 e2 e1) (look_keys s1 ins d.path d.file)
        (look_keeps s1 ins d.path d.file)
    · intro hs
      rw [g3, e4, f1]
      by_cases hp : p = d.path
      · subst hp
        rw [set_eq]
        exact ⟨_, rfl, by rw [o3]; exact depEntry_life s _⟩
      · rw [set_ne _ _ hp, e1, set_ne _ _ hp]
        refine h.life ?_
        rw [f2] at hs
        split at hs
        · rw [says_snoc, if_neg (fun e => hp e.symm), List.append_nil] at hs; exact hs
        · exact hs

theorem seqMid_all (ds : List (Dep Path)) : ∀ {s : Actor Path} {rs : List (Option Snap)} {ins : List (Path × Snap)} {p : Path},
    SeqMid s rs ins p → (∀ d ∈ ds, d.path = p → d.file.Steady) →
    SeqMid (syncAll s ins ds).1 rs (syncAll s ins ds).2 p := by
  induction ds with
  | nil => intro s rs ins p h _; exact h
  | cons d ds ih =>
    intro s rs ins p h hd
    have h1 := (seqMid_one d h (hd d (List.mem_cons_self ..))).1
    exact ih h1 (fun x hx => hd x (List.mem_cons_of_mem _ hx))

theorem seq_update {s : Actor Path} {rs : List (Option Snap)} {p : Path} (h : Seq s rs p) (hk : Keys s)
    (hw : s.hasWatcher = true) (ds : List (Dep Path)) (hd : ∀ d ∈ ds, d.path = p → d.file.Steady) :
    let r := updateWatches s ds
    Seq r.1 (rs ++ ((r.2.removes.filter (· = p)).map (fun _ => none) ++ says r.2.inserts p)) p ∧ Keys r.1 := by
  intro r
  let s0 : Actor Path := { s with
    lifetime := s.lifetime + 1
    entries := fun p => (s.entries p).map fun e => { e with seen := false } }
  have h0 : SeqMid s0 rs [] p := by
    have hsay : rs ++ says [] p = rs := by simp [says]
    refine ⟨?_, ?_, fun h => absurd rfl h, hw⟩
    · rw [hsay]
      refine ⟨h.nr, fun e he => ?_, fun he => h.noEnt (Option.map_eq_none_iff.mp he)⟩
      obtain ⟨e0, a, b⟩ := Option.map_eq_some_iff.mp he
      subst b
      exact h.ent e0 a
    · refine keys_of hk rfl fun q => ?_
      simp only [s0, Option.isSome_map]
  have h1 := seqMid_all ds h0 hd
  have hr : r = updateWatches s ds := rfl
  unfold updateWatches at hr
  simp only at hr
  change r = (let s1 := syncAll s0 [] ds; _) at hr
  simp only at hr
  generalize syncAll s0 [] ds = m at *
  have hent : ∀ q, r.1.entries q = ((m.1.entries q).map (unwatch m.1.hasWatcher)).filter (fresh m.1.lifetime) := by
    intro q; rw [hr]
  have hins : r.2.inserts = m.2 := by rw [hr]
  let isFresh : Path → Bool := fun p => match m.1.entries p with | some e => fresh m.1.lifetime e | none => true
  have hrem : r.2.removes = m.1.keys.filter (fun p => !isFresh p) := by rw [hr]; rfl
  have hkeys : r.1.keys = m.1.keys.filter isFresh := by rw [hr]; rfl
  have hff : ∀ q e, m.1.entries q = some e → isFresh q = fresh m.1.lifetime e := by
    intro q e he; simp only [isFresh, he]
  clear_value r isFresh
  clear hr
  have hun : ∀ e, fresh m.1.lifetime (unwatch m.1.hasWatcher e) = fresh m.1.lifetime e := by
    intro e; unfold unwatch; split <;> rfl
  have hsame : ∀ e0, (unwatch m.1.hasWatcher e0).prev = e0.prev ∧ (unwatch m.1.hasWatcher e0).state = e0.state := by
    intro e0; unfold unwatch; split <;> exact ⟨rfl, rfl⟩
  have hentSome : ∀ q e, m.1.entries q = some e → fresh m.1.lifetime e = true →
      r.1.entries q = some (unwatch m.1.hasWatcher e) := by
    intro q e he hf
    rw [hent, he]
    exact Option.filter_eq_some_iff.mpr ⟨rfl, by rw [hun]; exact hf⟩
  have hentNone : ∀ q e, m.1.entries q = some e → fresh m.1.lifetime e = false → r.1.entries q = none := by
    intro q e he hf
    rw [hent, he]
    refine Option.filter_eq_none_iff.mpr ?_
    intro x hx
    injection hx with hx
    subst hx
    rw [hun, hf]
    simp
  constructor
  · cases he : m.1.entries p with
    | none =>
      have hnk : p ∉ m.1.keys := by rw [h1.keys.iff, he]; simp
      have hrm : r.2.removes.filter (· = p) = [] := by
        rw [List.filter_eq_nil_iff]
        intro x hx
        rw [hrem] at hx
        have := (List.mem_filter.mp hx).1
        simp only [decide_eq_true_eq]
        rintro rfl
        exact hnk this
      rw [hrm, List.map_nil, List.nil_append, hins]
      have hn : r.1.entries p = none := by rw [hent, he]; rfl
      exact ⟨h1.seq.nr, fun e h => (by rw [hn] at h; cases h), fun _ => h1.seq.noEnt he⟩
    | some e =>
      obtain ⟨hst, x, hx1, hx2⟩ := h1.seq.ent e he
      cases hf : fresh m.1.lifetime e with
      | true =>
        have hrm : r.2.removes.filter (· = p) = [] := by
          rw [List.filter_eq_nil_iff]
          intro y hy
          rw [hrem] at hy
          have := (List.mem_filter.mp hy).2
          simp only [decide_eq_true_eq]
          rintro rfl
          rw [hff y e he, hf] at this
          cases this
        rw [hrm, List.map_nil, List.nil_append, hins]
        refine ⟨h1.seq.nr, fun e' h' => ?_, fun h' => (by rw [hentSome p e he hf] at h'; cases h')⟩
        rw [hentSome p e he hf] at h'
        injection h' with h'
        subst h'
        rw [(hsame e).1, (hsame e).2]
        exact ⟨hst, x, hx1, hx2⟩
      | false =>
        have hsay : says m.2 p = [] := by
          cases hs : says m.2 p with
          | nil => rfl
          | cons a l =>
            exfalso
            obtain ⟨e', a1, a2⟩ := h1.life (by rw [hs]; simp)
            rw [he] at a1
            injection a1 with a1
            subst a1
            unfold fresh at hf
            rw [a2] at hf
            simp at hf
        have hrm : r.2.removes.filter (· = p) = [p] := by
          rw [hrem, List.filter_filter]
          have hpk : p ∈ m.1.keys := by rw [h1.keys.iff, he]; rfl
          have : m.1.keys.filter (fun a => decide (a = p) && !isFresh a) = m.1.keys.filter (· == p) := by
            refine List.filter_congr fun a _ => ?_
            by_cases ha : a = p
            · subst ha; rw [hff a e he, hf]; simp
            · simp [ha]
          rw [this, List.filter_beq, Util.count_eq_one h1.keys.nodup hpk]
          rfl
        rw [hrm, hins, hsay, List.append_nil]
        rw [hsay, List.append_nil] at hx2
        have hnr := h1.seq.nr
        rw [hsay, List.append_nil] at hnr
        refine ⟨noRepeat_snoc _ _ hnr (by rw [hx2]; intro h; cases h), fun e' h' => ?_, fun _ => Or.inr ?_⟩
        · rw [hentNone p e he hf] at h'; cases h'
        · rw [List.map_cons, List.map_nil, List.getLast?_append]; rfl
  · refine ⟨by rw [hkeys]; exact h1.keys.nodup.filter _, fun q => ?_⟩
    rw [hkeys, List.mem_filter, h1.keys.iff]
    cases he : m.1.entries q with
    | none => rw [hent, he]; simp
    | some e =>
      rw [hff q e he]
      cases hf : fresh m.1.lifetime e with
      | true => rw [hentSome q e he hf]; simp
      | false => rw [hentNone q e he hf]; simp

theorem seq_lookAll (ps : List (Path × Snap)) : ∀ {s : Actor Path} {rs : List (Option Snap)} {ins : List (Path × Snap)}
    {p : Path}, Seq s (rs ++ says ins p) p → Keys s → (∀ x ∈ ps, x.1 = p → x.2.Steady) →
    Seq (lookAll s ins ps).1 (rs ++ says (lookAll s ins ps).2 p) p ∧ Keys (lookAll s ins ps).1 := by
  induction ps with
  | nil => intro s rs ins p h hk _; exact ⟨h, hk⟩
  | cons x ps ih =>
    intro s rs ins p h hk hd
    exact ih (Seq.look ins x.1 x.2 h (hd x (List.mem_cons_self ..)))
      (keys_of hk (look_keys s ins x.1 x.2) (look_keeps s ins x.1 x.2)) (fun y hy => hd y (List.mem_cons_of_mem _ hy))

theorem seq_drop {s : Actor Path} {rs : List (Option Snap)} {p : Path} (h : Seq s rs p) (hk : Keys s) (q : Path) :
    Seq (dropWatch s q) rs p ∧ Keys (dropWatch s q) := by
  unfold dropWatch
  split
  · exact ⟨h, hk⟩
  · rename_i e he
    split
    · refine ⟨⟨h.nr, fun e' h' => ?_, fun h' => ?_⟩, keys_of hk rfl fun x => ?_⟩
      · by_cases hp : p = q
        · subst hp
          simp only [set_eq] at h'
          injection h' with h'
          subst h'
          exact h.ent e he
        · simp only [set_ne _ _ hp] at h'; exact h.ent e' h'
      · by_cases hp : p = q
        · subst hp; simp only [set_eq] at h'; cases h'
        · simp only [set_ne _ _ hp] at h'; exact h.noEnt h'
      · by_cases hx : x = q
        · subst hx; simp only [set_eq, he, Option.isSome_some]
        · simp only [set_ne _ _ hx]
    · exact ⟨h, hk⟩

theorem seq_drops (ps : List Path) : ∀ {s : Actor Path} {rs : List (Option Snap)} {p : Path}, Seq s rs p → Keys s →
    Seq (ps.foldl dropWatch s) rs p ∧ Keys (ps.foldl dropWatch s) := by
  induction ps with
  | nil => intro s rs p h hk; exact ⟨h, hk⟩
  | cons q ps ih =>
    intro s rs p h hk
    obtain ⟨a, b⟩ := seq_drop h hk q
    exact ih a b

theorem seq_recheck {s : Actor Path} {rs : List (Option Snap)} {p : Path} (h : Seq s rs p) (hk : Keys s) (i : Nat)
    (early : Bool) :
    let r := recheck s i early
    Seq r.1 (rs ++ ((r.2.removes.filter (· = p)).map (fun _ => none) ++ says r.2.inserts p)) p ∧ Keys r.1 := by
  intro r
  have hr : r = recheck s i early := rfl
  clear_value r
  have nil : rs ++ (([].filter (· = p)).map (fun _ => (none : Option Snap)) ++ says [] p) = rs := by simp [says]
  unfold recheck at hr
  split at hr
  · rw [hr]; simp only; rw [nil]; exact ⟨h, hk⟩
  split at hr
  · rw [hr]; simp only; rw [nil]; exact ⟨h, hk⟩
  rename_i tick q _
  simp only at hr
  split at hr
  · rw [hr]; simp only; rw [nil]; exact ⟨⟨h.nr, h.ent, h.noEnt⟩, ⟨hk.nodup, hk.iff⟩⟩
  rename_i e he
  have keys : Keys { s with queue := s.queue.eraseIdx i, entries := set s.entries q (some { e with state := .stable }) } := by
    refine keys_of hk rfl fun x => ?_
    by_cases hx : x = q
    · subst hx; simp only [set_eq, he, Option.isSome_some]
    · simp only [set_ne _ _ hx]
  have seq : Seq { s with queue := s.queue.eraseIdx i, entries := set s.entries q (some { e with state := .stable }) } rs p := by
    refine ⟨h.nr, fun e' h' => ?_, fun h' => ?_⟩
    · by_cases hp : p = q
      · subst hp
        simp only [set_eq] at h'
        injection h' with h'
        subst h'
        exact ⟨rfl, (h.ent e he).2⟩
      · simp only [set_ne _ _ hp] at h'; exact h.ent e' h'
    · by_cases hp : p = q
      · subst hp; simp only [set_eq] at h'; cases h'
      · simp only [set_ne _ _ hp] at h'; exact h.noEnt h'
  cases hs : e.state with
  | stable => rw [hs] at hr; rw [hr]; simp only; rw [nil]; exact ⟨seq, keys⟩
  | emptyOrRemoval at_ pl =>
    rw [hs] at hr
    simp only at hr
    split at hr
    · split at hr
      · rw [hr]; simp only; rw [nil]; exact ⟨seq, keys⟩
      · rw [hr]
        have hq : q ≠ p := by
          rintro rfl
          have := (h.ent e he).1
          rw [hs] at this
          cases this
        have : says [(q, pl)] p = [] := by simp [says, hq]
        simp only [this, List.filter_nil, List.map_nil, List.append_nil]
        exact ⟨seq, keys⟩
    · rw [hr]; simp only; rw [nil]; exact ⟨seq, keys⟩

theorem seq_run (ops : List (Op Path)) (p : Path) (hsteady : ∀ op ∈ ops, ∀ x ∈ op.sights p, x.Steady) :
    Seq (run (init true) ops).1 (reports (run (init true) ops).2 p) p ∧ Keys (run (init true) ops).1 ∧
    (run (init (Path := Path) true) ops).1.hasWatcher = true := by
  induction ops using Util.reverseInd with
  | nil => exact ⟨⟨trivial, fun e h => (by cases h), fun _ => Or.inl rfl⟩, ⟨List.nodup_nil, fun q => by simp [run, init]⟩, rfl⟩
  | append_singleton ops op ih =>
    obtain ⟨h, hk, hw⟩ := ih (fun o ho => hsteady o (List.mem_append_left _ ho))
    have hst := hsteady op (by simp)
    rw [run_snoc, reports_snoc]
    generalize (run (init true) ops).1 = s at *
    generalize reports (run (init true) ops).2 p = rs at *
    have h' : Seq { s with tick := s.tick + 1 } rs p := ⟨h.nr, h.ent, h.noEnt⟩
    have hk' : Keys { s with tick := s.tick + 1 } := ⟨hk.nodup, hk.iff⟩
    cases op with
    | sync ds =>
      have hd : ∀ d ∈ ds, d.path = p → d.file.Steady := fun d hd hp =>
        hst d.file (List.mem_map.mpr ⟨d, List.mem_filter.mpr ⟨hd, by simp [hp]⟩, rfl⟩)
      obtain ⟨a, b⟩ := seq_update h' hk' hw ds hd
      refine ⟨a, b, ?_⟩
      have := seqMid_all (p := p) (rs := rs) ds (s := { s with
        tick := s.tick + 1
        lifetime := s.lifetime + 1
        entries := fun p => (s.entries p).map fun e => { e with seen := false } }) (ins := []) ⟨⟨by simpa [says] using h.nr,
          fun e he => by
            obtain ⟨e0, a, b⟩ := Option.map_eq_some_iff.mp he
            subst b
            simpa [says] using h.ent e0 a, fun he => by simpa [says] using h.noEnt (Option.map_eq_none_iff.mp he)⟩,
          keys_of hk rfl (fun q => by simp only [Option.isSome_map]), fun h => absurd rfl h, hw⟩ hd
      exact this.w
    | event ps removal =>
      have hd : ∀ x ∈ ps, x.1 = p → x.2.Steady := fun x hx hp =>
        hst x.2 (List.mem_map.mpr ⟨x, List.mem_filter.mpr ⟨hx, by simp [hp]⟩, rfl⟩)
      have hs : step s (.event ps removal) = notifyEvent { s with tick := s.tick + 1 } ps removal := by
        simp only [step, hw, if_true]
      rw [hs]
      have h0 : Seq { s with tick := s.tick + 1 } (rs ++ says [] p) p := by
        rw [show rs ++ says [] p = rs by simp [says]]; exact h'
      obtain ⟨a, b⟩ := seq_lookAll ps h0 hk' hd
      have hww : (lookAll { s with tick := s.tick + 1 } [] ps).1.hasWatcher = true := by
        clear a b h0 hs hst hd
        have : ∀ (ps : List (Path × Snap)) (s : Actor Path) (ins : List (Path × Snap)),
            (lookAll s ins ps).1.hasWatcher = s.hasWatcher := by
          intro ps
          induction ps with
          | nil => intro _ _; rfl
          | cons x ps ih => intro s ins; exact (ih _ _).trans (look_rest s x.1 ins x.2).1
        rw [this]; exact hw
      unfold notifyEvent
      simp only [List.filter_nil, List.map_nil, List.nil_append]
      cases removal with
      | false => exact ⟨a, b, hww⟩
      | true =>
        obtain ⟨a', b'⟩ := seq_drops (ps.map (·.1)) a b
        refine ⟨a', b', ?_⟩
        have : ∀ (ps : List Path) (s : Actor Path), (ps.foldl dropWatch s).hasWatcher = s.hasWatcher := by
          intro ps
          induction ps with
          | nil => intro _; rfl
          | cons x ps ih =>
            intro s
            refine (ih _).trans ?_
            unfold dropWatch
            split
            · rfl
            · split <;> rfl
        simp only [if_true]
        rw [this]; exact hww
    | recheck i early =>
      obtain ⟨a, b⟩ := seq_recheck h' hk' i early
      refine ⟨a, b, ?_⟩
      change (recheck { s with tick := s.tick + 1 } i early).1.hasWatcher = true
      unfold recheck
      split
      · exact hw
      split
      · exact hw
      simp only
      split
      · exact hw
      split
      · exact hw
      · split
        · split <;> exact hw
        · exact hw

end Tinymist.Watch
