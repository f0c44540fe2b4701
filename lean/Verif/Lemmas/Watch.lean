import Verif.Spec.Watch
namespace Tinymist.Watch
variable {Path : Type} [DecidableEq Path]

theorem set_eq {A : Type} (f : Path → A) (p : Path) (a : A) : set f p a p = a := by simp [set]
theorem set_ne {A : Type} (f : Path → A) {p q : Path} (a : A) (h : q ≠ p) : set f p a q = f q := by simp [set, h]

/-- What is known about `q` after the inserts. -/
def told (inserts : List (Path × Snap)) (old : Option Snap) (q : Path) : Option Snap :=
  (⟨[], inserts⟩ : Change Path).tell old q

theorem told_nil (old : Option Snap) (q : Path) : told [] old q = old := by
  simp [told, Change.tell]

theorem told_append (l : List (Path × Snap)) (p : Path) (x : Snap) (old : Option Snap) (q : Path) :
    told (l ++ [(p, x)]) old q = if p = q then some x else told l old q := by
  unfold told Change.tell
  rw [List.reverse_append]
  by_cases h : p = q
  · simp [h]
  · simp [h]

theorem tell_told (c : Change Path) (old : Option Snap) (q : Path) (h : q ∉ c.removes) :
    c.tell old q = told c.inserts old q := by
  unfold told Change.tell
  simp [h]

/-- An entry agrees with what was reported and found. -/
structure Good (hasWatcher : Bool) (e : Entry) (rep found : Option Snap) : Prop where
  told : rep ≠ none
  prev : ∀ x, e.prev = some x → x.Solid → rep = some x
  look : hasWatcher = true → ∀ x, found = some x → x.Solid → e.prev = some x
  noW : hasWatcher = false → found = rep ∧ e.prev = none ∧ e.state = .stable
  eor : ∀ a b, e.state = .emptyOrRemoval a b → ∀ x, e.prev = some x → ¬ x.Solid

theorem Good.congr {w : Bool} {e e' : Entry} {rep found : Option Snap} (h : Good w e rep found)
    (h1 : e'.prev = e.prev) (h2 : e'.state = e.state) : Good w e' rep found :=
  ⟨h.told, by rw [h1]; exact h.prev, by rw [h1]; exact h.look, by rw [h1, h2]; exact h.noW,
    by rw [h1, h2]; exact h.eor⟩

theorem Good.stable {w : Bool} {e : Entry} {rep found : Option Snap} (h : Good w e rep found) :
    Good w { e with state := .stable } rep found :=
  ⟨h.told, h.prev, h.look, fun hw => ⟨(h.noW hw).1, (h.noW hw).2.1, rfl⟩, fun _ _ e => (by cases e)⟩

theorem good_report (e : Entry) (file : Snap) :
    Good true { e with state := .stable, prev := some file } (some file) (some file) :=
  ⟨by simp, fun c h _ => h, fun _ c h _ => h, fun h => (by cases h), fun _ _ h => (by cases h)⟩

/-- What looking at a file can do. -/
theorem observe_cases (tick : Nat) (e : Entry) (f : Snap) :
    (observe tick e f = ({ e with state := .stable, prev := some f }, .report) ∧ e.prev ≠ some f) ∨
    (observe tick e f = ({ e with state := .emptyOrRemoval tick f, prev := some f }, .recheck) ∧ e.prev ≠ none ∧
      ¬ f.Solid ∧ e.state = .stable) ∨
    (observe tick e f = (e, .silent) ∧ (e.prev = some f ∨ e.prev ≠ none ∧ ¬ f.Solid)) ∨
    (∃ n pl, e.state = .emptyOrRemoval n pl ∧ observe tick e f = ({ e with state := .emptyOrRemoval n f }, .silent) ∧
      e.prev ≠ none ∧ ¬ f.Solid) := by
  unfold observe
  cases hp : e.prev with
  | none => left; simp
  | some it =>
    cases f with
    | ok b =>
      cases it with
      | err x => left; simp
      | ok a =>
        simp only
        by_cases hab : a = b
        · right; right; left; simp [hab]
        · rw [if_neg hab]
          cases hs : e.state with
          | stable =>
            simp only
            by_cases hb : b = []
            · rw [if_pos hb]; right; left; simp [hb, Snap.Solid]
            · rw [if_neg hb]; left; simp [hab]
          | emptyOrRemoval n pl =>
            simp only
            by_cases hb : b = []
            · rw [if_pos hb]; right; right; left; simp [hb, Snap.Solid]
            · rw [if_neg hb]; left; simp [hab]
    | err x =>
      cases it <;>
      · simp only
        cases hs : e.state with
        | stable =>
          simp only
          cases ht : x.transient with
          | true => right; left; simp [Snap.Solid]
          | false =>
            simp only [Bool.false_eq_true, if_false]
            split
            · rename_i hi; right; right; left; simp [hi, Snap.Solid]
            · rename_i hi; left; simp [hi]
        | emptyOrRemoval n pl => right; right; right; exact ⟨n, pl, rfl, rfl, by simp, by simp [Snap.Solid]⟩

/-- Looking at a file keeps the entry in agreement. -/
theorem observe_good (tick : Nat) (e : Entry) (file : Snap) (rep found : Option Snap)
    (h : e.prev = none ∨ Good true e rep found) :
    Good true (observe tick e file).1 (if (observe tick e file).2 = .report then some file else rep)
      (some file) := by
  rcases observe_cases tick e file with ⟨o, -⟩ | ⟨o, h1, h2, h3⟩ | ⟨o, h1⟩ | ⟨n, pl, h3, o, h1, h2⟩ <;> rw [o]
  · exact good_report e file
  · have h := h.resolve_left h1
    simp only [reduceCtorEq, if_false]
    refine ⟨h.told, ?_, fun _ x hx => ?_, fun hw => (by cases hw), ?_⟩
    · intro x hx hs; injection hx with hx; subst hx; exact absurd hs h2
    · intro hs; injection hx with hx; subst hx; exact absurd hs h2
    · intro _ _ _ x hx; injection hx with hx; subst hx; exact h2
  · have h := h.resolve_left (by rcases h1 with h1 | h1; · rw [h1]; intro h; cases h
                                 · exact h1.1)
    simp only [reduceCtorEq, if_false]
    refine ⟨h.told, h.prev, fun _ x hx hs => ?_, fun hw => (by cases hw), h.eor⟩
    injection hx with hx
    subst hx
    rcases h1 with h1 | ⟨-, h1⟩
    · exact h1
    · exact absurd hs h1
  · have h := h.resolve_left h1
    simp only [reduceCtorEq, if_false]
    refine ⟨h.told, h.prev, fun _ x hx hs => ?_, fun hw => (by cases hw), fun _ _ _ => h.eor n pl h3⟩
    injection hx with hx
    subst hx
    exact absurd hs h2

/-- The actor agrees with what was reported and found, path by path. -/
structure Inv (s : Actor Path) (rep found : Path → Option Snap) : Prop where
  good : ∀ p e, s.entries p = some e → Good s.hasWatcher e (rep p) (found p)
  os : ∀ p, s.osWatched p = true ↔ ∃ e, s.entries p = some e ∧ e.watching = true
  noOs : s.hasWatcher = false → ∀ p, s.osWatched p = false

theorem observe_rest (tick : Nat) (e : Entry) (file : Snap) :
    (observe tick e file).1.watching = e.watching ∧ (observe tick e file).1.seen = e.seen ∧
    (observe tick e file).1.lifetime = e.lifetime := by
  rcases observe_cases tick e file with ⟨o, -⟩ | ⟨o, -⟩ | ⟨o, -⟩ | ⟨n, pl, -, o, -⟩ <;> rw [o] <;>
    exact ⟨rfl, rfl, rfl⟩

theorem look_some {s : Actor Path} {p : Path} {e : Entry} (h : s.entries p = some e) (ins : List (Path × Snap))
    (file : Snap) :
    (look s ins p file).1.entries = set s.entries p (some (observe s.tick e file).1) ∧
    (look s ins p file).2 = (if (observe s.tick e file).2 = .report then ins ++ [(p, file)] else ins) := by
  unfold look
  rw [h]
  exact ⟨rfl, rfl⟩

theorem look_rest (s : Actor Path) (p : Path) (ins : List (Path × Snap)) (file : Snap) :
    (look s ins p file).1.hasWatcher = s.hasWatcher ∧ (look s ins p file).1.osWatched = s.osWatched ∧
    (look s ins p file).1.lifetime = s.lifetime ∧ (look s ins p file).1.keys = s.keys ∧
    (look s ins p file).1.tick = s.tick := by
  unfold look; split <;> exact ⟨rfl, rfl, rfl, rfl, rfl⟩


/-- Looking at a path that has an entry, or at one that has none. -/
theorem inv_look {s : Actor Path} {rep found : Path → Option Snap} (hw : s.hasWatcher = true)
    {p : Path} (ins : List (Path × Snap)) (file : Snap)
    (hgood : ∀ q e, s.entries q = some e → (q = p ∧ e.prev = none) ∨ Good true e (told ins (rep q) q) (found q))
    (hos : ∀ q, s.osWatched q = true ↔ ∃ e, s.entries q = some e ∧ e.watching = true) :
    let r := look s ins p file
    (∀ q e, r.1.entries q = some e → Good true e (told r.2 (rep q) q) (set found p (some file) q)) ∧
    (∀ q, r.1.osWatched q = true ↔ ∃ e, r.1.entries q = some e ∧ e.watching = true) := by
  intro r
  cases he : s.entries p with
  | none =>
    have hr : r = (s, ins) := by simp only [r, look, he]
    rw [hr]
    refine ⟨fun q e hq => ?_, hos⟩
    have hne : q ≠ p := by rintro rfl; rw [he] at hq; cases hq
    rw [set_ne _ _ hne]
    exact (hgood q e hq).resolve_left (fun h => hne h.1)
  | some e0 =>
    obtain ⟨h1, h2⟩ := look_some he ins file
    obtain ⟨-, h3, -⟩ := look_rest s p ins file
    change r.1.entries = _ at h1
    change r.2 = _ at h2
    change r.1.osWatched = _ at h3
    rw [h1, h2, h3]
    refine ⟨fun q e hq => ?_, fun q => ?_⟩
    · by_cases hqp : q = p
      · subst hqp
        rw [set_eq] at hq ⊢
        injection hq with hq
        subst hq
        have := observe_good s.tick e0 file (told ins (rep q) q) (found q) ((hgood q e0 he).imp And.right id)
        split
        · rename_i hrep
          rw [if_pos hrep] at this
          rw [told_append, if_pos rfl]
          exact this
        · rename_i hrep
          rw [if_neg hrep] at this
          exact this
      · rw [set_ne _ _ hqp] at hq ⊢
        have := (hgood q e hq).resolve_left (fun h => hqp h.1)
        split
        · rw [told_append, if_neg (fun e => hqp e.symm)]; exact this
        · exact this
    · rw [hos q]
      by_cases hqp : q = p
      · subst hqp
        rw [set_eq]
        have := (observe_rest s.tick e0 file).1
        constructor
        · rintro ⟨e, a, b⟩
          rw [he] at a; injection a with a; subst a
          exact ⟨_, rfl, by rw [this]; exact b⟩
        · rintro ⟨e, a, b⟩
          injection a with a; subst a
          exact ⟨e0, he, by rw [← this]; exact b⟩
      · rw [set_ne _ _ hqp]

/-- The state in the middle of an update, after the dependencies `done`. -/
structure Mid (s : Actor Path) (ins : List (Path × Snap)) (rep found : Path → Option Snap) (done : List (Dep Path)) :
    Prop where
  good : ∀ q e, s.entries q = some e →
    Good s.hasWatcher e (told ins (rep q) q) (((done.find? fun d => d.path = q).map (·.file)).or (found q))
  seen : ∀ q e, s.entries q = some e → (e.seen = true ↔ ∃ d ∈ done, d.path = q)
  has : ∀ d ∈ done, ∃ e, s.entries d.path = some e ∧ e.lifetime = s.lifetime
  watch : ∀ q, (done.find? fun d => d.path = q).any (fun d => d.regular && d.watchOk) = true →
    s.hasWatcher = true → s.osWatched q = true
  os : ∀ q, s.osWatched q = true ↔ ∃ e, s.entries q = some e ∧ e.watching = true
  noOs : s.hasWatcher = false → ∀ p, s.osWatched p = false

theorem find_done (done : List (Dep Path)) (d : Dep Path) (q : Path) :
    ((done ++ [d]).find? fun d => d.path = q) =
      (done.find? fun d => d.path = q).or (if d.path = q then some d else none) := by
  rw [List.find?_append]
  congr 1
  by_cases h : d.path = q <;> simp [h]

theorem mid_one {s : Actor Path} {ins : List (Path × Snap)} {rep found : Path → Option Snap} {done : List (Dep Path)}
    (h : Mid s ins rep found done) (d : Dep Path) :
    Mid (syncOne s ins d).1 (syncOne s ins d).2 rep found (done ++ [d]) ∧
    (syncOne s ins d).1.lifetime = s.lifetime ∧ (syncOne s ins d).1.hasWatcher = s.hasWatcher := by
  have hentry : ∀ e, s.entries d.path = some e → depEntry s d.path = { e with lifetime := s.lifetime } := by
    intro e he; unfold depEntry; rw [he]
  unfold syncOne
  simp only
  by_cases hseen : (depEntry s d.path).seen = true
  · -- listed before
    rw [if_pos hseen]
    obtain ⟨e0, he0⟩ : ∃ e0, s.entries d.path = some e0 := by
      cases he : s.entries d.path with
      | some e => exact ⟨e, rfl⟩
      | none => unfold depEntry at hseen; rw [he] at hseen; cases hseen
    have hd := hentry e0 he0
    have hs0 : e0.seen = true := by rw [hd] at hseen; exact hseen
    obtain ⟨d0, hd0, hp0⟩ := (h.seen _ _ he0).mp hs0
    have hfind : ∀ q, ((done ++ [d]).find? fun d => d.path = q) = done.find? fun d => d.path = q := by
      intro q
      rw [find_done]
      by_cases hq : d.path = q
      · cases hf : done.find? (fun d => d.path = q) with
        | some x => rfl
        | none => exact absurd (List.find?_eq_none.mp hf d0 hd0) (by simp [hp0, hq])
      · simp [hq]
    rw [hd]
    refine ⟨⟨?_, ?_, ?_, ?_, ?_, h.noOs⟩, rfl, rfl⟩
    · intro q e hq
      rw [hfind]
      by_cases hqp : q = d.path
      · subst hqp
        simp only [set_eq] at hq
        injection hq with hq
        subst hq
        exact (h.good _ e0 he0).congr rfl rfl
      · simp only [set_ne _ _ hqp] at hq
        exact h.good q e hq
    · intro q e hq
      by_cases hqp : q = d.path
      · subst hqp
        simp only [set_eq] at hq
        injection hq with hq
        subst hq
        exact ⟨fun _ => ⟨d, by simp, rfl⟩, fun _ => hs0⟩
      · simp only [set_ne _ _ hqp] at hq
        rw [h.seen q e hq]
        constructor
        · rintro ⟨x, hx, hxq⟩; exact ⟨x, List.mem_append_left _ hx, hxq⟩
        · rintro ⟨x, hx, hxq⟩
          rcases List.mem_append.mp hx with hx | hx
          · exact ⟨x, hx, hxq⟩
          · rw [List.mem_singleton.mp hx] at hxq; exact absurd hxq.symm hqp
    · intro x hx
      by_cases hxp : x.path = d.path
      · simp only [hxp, set_eq]; exact ⟨_, rfl, rfl⟩
      · simp only [set_ne _ _ hxp]
        rcases List.mem_append.mp hx with hx | hx
        · exact h.has x hx
        · rw [List.mem_singleton.mp hx] at hxp; exact absurd rfl hxp
    · intro q; rw [hfind]; exact h.watch q
    · intro q
      rw [h.os q]
      by_cases hqp : q = d.path
      · subst hqp
        simp only [set_eq]
        constructor
        · rintro ⟨e, a, b⟩; rw [he0] at a; injection a with a; subst a; exact ⟨_, rfl, b⟩
        · rintro ⟨e, a, b⟩; injection a with a; subst a; exact ⟨e0, he0, b⟩
      · simp only [set_ne _ _ hqp]
  · rw [if_neg hseen]
    -- first time in this update
    have hnew : ∀ x ∈ done, x.path ≠ d.path := by
      intro x hx e
      obtain ⟨ex, h1, -⟩ := h.has x hx
      rw [e] at h1
      have := (h.seen _ _ h1).mpr ⟨x, hx, e⟩
      rw [hentry ex h1] at hseen
      exact hseen this
    have hfindNew : (done.find? fun x => x.path = d.path) = none :=
      List.find?_eq_none.mpr fun x hx => by simp [hnew x hx]
    have hfind : ∀ q, ((done ++ [d]).find? fun x => x.path = q) =
        if q = d.path then some d else done.find? fun x => x.path = q := by
      intro q
      rw [find_done]
      by_cases hq : q = d.path
      · subst hq; rw [hfindNew]; simp
      · have : ¬ d.path = q := fun e => hq e.symm
        simp [hq, this]
    have hmem : ∀ q, q ≠ d.path → ((∃ x ∈ done ++ [d], x.path = q) ↔ ∃ x ∈ done, x.path = q) := by
      intro q hq
      constructor
      · rintro ⟨x, hx, hxq⟩
        rcases List.mem_append.mp hx with hx | hx
        · exact ⟨x, hx, hxq⟩
        · rw [List.mem_singleton.mp hx] at hxq; exact absurd hxq.symm hq
      · rintro ⟨x, hx, hxq⟩; exact ⟨x, List.mem_append_left _ hx, hxq⟩
    have hprev : (depEntry s d.path).prev = none ∨
        Good s.hasWatcher (depEntry s d.path) (told ins (rep d.path) d.path) (found d.path) := by
      cases he : s.entries d.path with
      | none => left; unfold depEntry; rw [he]
      | some e =>
        right
        have := h.good _ _ he
        rw [hfindNew] at this
        rw [hentry e he]
        exact this.congr rfl rfl
    have hlife : (depEntry s d.path).lifetime = s.lifetime := by
      unfold depEntry; split <;> rfl
    have hwatch : (s.entries d.path).isSome = true → (depEntry s d.path).watching = true →
        s.osWatched d.path = true := by
      intro h1 h2
      cases he : s.entries d.path with
      | none => rw [he] at h1; cases h1
      | some e => rw [hentry e he] at h2; exact (h.os _).mpr ⟨e, he, h2⟩
    have hwatch' : s.osWatched d.path = true → (depEntry s d.path).watching = true := by
      intro h1
      obtain ⟨e, h2, h3⟩ := (h.os _).mp h1
      rw [hentry e h2]; exact h3
    have hnotin : (s.entries d.path).isSome = false → (depEntry s d.path).watching = false := by
      intro h1
      cases he : s.entries d.path with
      | none => unfold depEntry; rw [he]
      | some e => rw [he] at h1; cases h1
    have hnw : s.hasWatcher = false → (depEntry s d.path).prev = none ∧ (depEntry s d.path).state = .stable := by
      intro hf
      cases he : s.entries d.path with
      | none => unfold depEntry; rw [he]; exact ⟨rfl, rfl⟩
      | some e => rw [hentry e he]; exact ((h.good _ _ he).noW hf).2
    generalize depEntry s d.path = e0 at *
    generalize hkeys : (if (s.entries d.path).isSome = true then s.keys else s.keys ++ [d.path]) = keys
    generalize hcont : (s.entries d.path).isSome = contained at *
    by_cases hw : s.hasWatcher = true
    · simp only [hw, if_true]
      have hset : ∀ (a b : Option Entry), set (set s.entries d.path a) d.path b = set s.entries d.path b := by
        intro a b; funext q; unfold set; split <;> rfl
      rw [hset]
      generalize hwat : (if asks { e0 with seen := true } contained d = true then d.watchOk else e0.watching) = wat
      generalize hosd : (if asks { e0 with seen := true } contained d = true then d.watchOk else s.osWatched d.path) = osd
      have hos : osd = wat := by
        rw [← hosd, ← hwat]
        split
        · rfl
        · cases h1 : s.osWatched d.path with
          | true => rw [hwatch' h1]
          | false =>
            cases h2 : e0.watching with
            | false => rfl
            | true =>
              cases h3 : contained with
              | true => rw [hwatch h3 h2] at h1; cases h1
              | false => rw [hnotin h3] at h2; cases h2
      subst hos
      generalize hs1 : ({ s with
          hasWatcher := true
          entries := set s.entries d.path (some { e0 with seen := true, watching := osd })
          keys := keys
          osWatched := set s.osWatched d.path osd } : Actor Path) = s1
      have e1 : s1.entries = set s.entries d.path (some { e0 with seen := true, watching := osd }) := by rw [← hs1]
      have e2 : s1.osWatched = set s.osWatched d.path osd := by rw [← hs1]
      have e3 : s1.hasWatcher = true := by rw [← hs1]
      have e4 : s1.lifetime = s.lifetime := by rw [← hs1]
      have hl := inv_look (s := s1) (rep := rep) (p := d.path)
        (found := fun q => ((done.find? fun d => d.path = q).map (·.file)).or (found q)) e3 ins d.file
        (by
          intro q e hq
          rw [e1] at hq
          by_cases hqp : q = d.path
          · subst hqp
            rw [set_eq] at hq
            injection hq with hq
            subst hq
            rcases hprev with hp | hp
            · exact Or.inl ⟨rfl, hp⟩
            · right
              rw [hfindNew]
              rw [hw] at hp
              exact hp.congr rfl rfl
          · rw [set_ne _ _ hqp] at hq
            right
            have := h.good q e hq
            rw [hw] at this
            exact this)
        (by
          intro q
          rw [e1, e2]
          by_cases hqp : q = d.path
          · subst hqp
            simp only [set_eq]
            constructor
            · intro hx; exact ⟨_, rfl, hx⟩
            · rintro ⟨e, a, b⟩; injection a with a; subst a; exact b
          · rw [set_ne _ _ hqp, set_ne _ _ hqp]; exact h.os q)
      obtain ⟨l1, l2⟩ := hl
      have hx : s1.entries d.path = some { e0 with seen := true, watching := osd } := by rw [e1, set_eq]
      obtain ⟨f1, f2⟩ := look_some hx ins d.file
      obtain ⟨g1, g2, g3, g4, g5⟩ := look_rest s1 d.path ins d.file
      obtain ⟨o1, o2, o3⟩ := observe_rest s1.tick { e0 with seen := true, watching := osd } d.file
      refine ⟨⟨?_, ?_, ?_, ?_, l2, fun hf => (by rw [g1, e3] at hf; cases hf)⟩, g3.trans e4, g1.trans e3⟩
      · intro q e hq
        have := l1 q e hq
        rw [g1, e3, hfind]
        by_cases hqp : q = d.path
        · subst hqp
          rw [set_eq] at this
          simp only [if_true]
          exact this
        · rw [set_ne _ _ hqp] at this
          rw [if_neg hqp]
          exact this
      · intro q e hq
        rw [f1] at hq
        by_cases hqp : q = d.path
        · subst hqp
          rw [set_eq] at hq
          injection hq with hq
          subst hq
          rw [o2]
          exact ⟨fun _ => ⟨d, by simp, rfl⟩, fun _ => rfl⟩
        · rw [set_ne _ _ hqp, e1, set_ne _ _ hqp] at hq
          rw [h.seen q e hq, hmem q hqp]
      · intro x hx
        rw [f1, g3, e4]
        by_cases hxp : x.path = d.path
        · rw [hxp, set_eq]
          exact ⟨_, rfl, by rw [o3]; exact hlife⟩
        · rw [set_ne _ _ hxp, e1, set_ne _ _ hxp]
          rcases List.mem_append.mp hx with hx | hx
          · exact h.has x hx
          · rw [List.mem_singleton.mp hx] at hxp; exact absurd rfl hxp
      · intro q hq _
        rw [g2, e2]
        rw [hfind] at hq
        by_cases hqp : q = d.path
        · subst hqp
          rw [set_eq]
          rw [if_pos rfl] at hq
          have hq : (d.regular && d.watchOk) = true := hq
          rw [Bool.and_eq_true] at hq
          rw [← hwat]
          unfold asks
          simp only [hq.1, Bool.true_and, hq.2]
          split
          · rfl
          · rename_i hn
            cases hwt : e0.watching with
            | true => rfl
            | false => rw [hwt] at hn; simp at hn
        · rw [set_ne _ _ hqp]
          rw [if_neg hqp] at hq
          exact h.watch q hq hw
    · have hw : s.hasWatcher = false := by simpa using hw
      simp only [hw, Bool.false_eq_true, if_false]
      have hset : ∀ (a b : Option Entry), set (set s.entries d.path a) d.path b = set s.entries d.path b := by
        intro a b; funext q; unfold set; split <;> rfl
      rw [hset]
      refine ⟨⟨?_, ?_, ?_, ?_, ?_, fun _ => h.noOs hw⟩, trivial, trivial⟩
      · intro q e hq
        simp only [hfind]
        by_cases hqp : q = d.path
        · subst hqp
          simp only [set_eq] at hq
          injection hq with hq
          subst hq
          rw [told_append, if_pos rfl, if_pos rfl]
          have hp := hnw hw
          exact ⟨by simp, fun x hx => (by rw [show _ = e0.prev from rfl, hp.1] at hx; cases hx),
            fun hf => (by cases hf), fun _ => ⟨rfl, hp.1, hp.2⟩, fun a b hs => (by
              rw [show _ = e0.state from rfl, hp.2] at hs; cases hs)⟩
        · simp only [set_ne _ _ hqp] at hq
          rw [told_append, if_neg (fun e => hqp e.symm), if_neg hqp]
          have := h.good q e hq
          rw [hw] at this
          exact this
      · intro q e hq
        by_cases hqp : q = d.path
        · subst hqp
          simp only [set_eq] at hq
          injection hq with hq
          subst hq
          exact ⟨fun _ => ⟨d, by simp, rfl⟩, fun _ => rfl⟩
        · simp only [set_ne _ _ hqp] at hq
          rw [h.seen q e hq, hmem q hqp]
      · intro x hx
        by_cases hxp : x.path = d.path
        · simp only [hxp, set_eq]
          exact ⟨_, rfl, hlife⟩
        · simp only [set_ne _ _ hxp]
          rcases List.mem_append.mp hx with hx | hx
          · exact h.has x hx
          · rw [List.mem_singleton.mp hx] at hxp; exact absurd rfl hxp
      · intro q _ hf
        cases hf
      · intro q
        by_cases hqp : q = d.path
        · subst hqp
          simp only [set_eq]
          constructor
          · intro hx; exact ⟨_, rfl, hwatch' hx⟩
          · rintro ⟨e, a, b⟩
            injection a with a
            subst a
            have b : e0.watching = true := b
            cases hc : contained with
            | true => exact hwatch hc b
            | false => rw [hnotin hc] at b; cases b
        · simp only [set_ne _ _ hqp]; exact h.os q


theorem mid_all (ds : List (Dep Path)) : ∀ (s : Actor Path) (ins : List (Path × Snap)) {rep found : Path → Option Snap}
    (done : List (Dep Path)), Mid s ins rep found done →
    Mid (syncAll s ins ds).1 (syncAll s ins ds).2 rep found (done ++ ds) ∧
    (syncAll s ins ds).1.lifetime = s.lifetime ∧ (syncAll s ins ds).1.hasWatcher = s.hasWatcher := by
  induction ds with
  | nil => intro s ins rep found done h; rw [List.append_nil]; exact ⟨h, rfl, rfl⟩
  | cons d ds ih =>
    intro s ins rep found done h
    obtain ⟨h1, h2, h3⟩ := mid_one h d
    have := ih (syncOne s ins d).1 (syncOne s ins d).2 (done ++ [d]) h1
    rw [List.append_assoc] at this
    exact ⟨this.1, this.2.1.trans h2, this.2.2.trans h3⟩

theorem isFresh_of {s : Actor Path} {p : Path} {e : Entry} (he : s.entries p = some e) :
    (match s.entries p with | some e => fresh s.lifetime e | none => true) = fresh s.lifetime e := by rw [he]

theorem find_any {A : Type} {x : Option A} {f : A → Bool} (h : x.any f = true) : ∃ d, x = some d ∧ f d = true := by
  cases x with
  | none => cases h
  | some d => exact ⟨d, rfl, h⟩

theorem update_inv {s : Actor Path} {rep found : Path → Option Snap} (h : Inv s rep found) (ds : List (Dep Path)) :
    let r := updateWatches s ds
    Inv r.1 (fun q => r.2.tell (rep q) q) (fun q => ((Op.sync ds).finds q).or (found q)) ∧
    (∀ d ∈ ds, ∃ e, r.1.entries d.path = some e) ∧
    (r.1.hasWatcher = true → ∀ q, r.1.osWatched q = true → ∃ d ∈ ds, d.path = q) ∧
    (r.1.hasWatcher = true → ∀ q, (ds.find? fun d => d.path = q).any (fun d => d.regular && d.watchOk) = true →
      r.1.osWatched q = true) ∧
    r.1.hasWatcher = s.hasWatcher := by
  intro r
  let s0 : Actor Path := { s with
    lifetime := s.lifetime + 1
    entries := fun p => (s.entries p).map fun e => { e with seen := false } }
  have h0 : Mid s0 [] rep found [] := by
    refine ⟨?_, ?_, fun _ hd => (by cases hd), fun _ hd => (by cases hd), ?_, h.noOs⟩
    · intro q e hq
      obtain ⟨e0, a, b⟩ := Option.map_eq_some_iff.mp hq
      subst b
      rw [told_nil]
      exact (h.good q e0 a).congr rfl rfl
    · intro q e hq
      obtain ⟨e0, a, b⟩ := Option.map_eq_some_iff.mp hq
      subst b
      simp
    · intro q
      rw [show s0.osWatched = s.osWatched from rfl, h.os q]
      constructor
      · rintro ⟨e, a, b⟩; exact ⟨{ e with seen := false }, by simp only [s0, a, Option.map_some], b⟩
      · rintro ⟨e, a, b⟩
        obtain ⟨e0, a0, b0⟩ := Option.map_eq_some_iff.mp a
        subst b0
        exact ⟨e0, a0, b⟩
  obtain ⟨h1, h2, h3⟩ := mid_all ds s0 [] [] h0
  rw [List.nil_append] at h1
  have hr : r = updateWatches s ds := rfl
  unfold updateWatches at hr
  simp only at hr
  change r = (let s1 := syncAll s0 [] ds; _) at hr
  simp only at hr
  generalize syncAll s0 [] ds = m at *
  have hent : ∀ q, r.1.entries q = ((m.1.entries q).map (unwatch m.1.hasWatcher)).filter (fresh m.1.lifetime) := by
    intro q; rw [hr]
  have hrem : ∀ q e, m.1.entries q = some e → fresh m.1.lifetime e = true → q ∉ r.2.removes := by
    intro q e hq hf hc
    rw [hr] at hc
    obtain ⟨-, hc⟩ := List.mem_filter.mp hc
    rw [hq] at hc
    simp only [hf] at hc
    cases hc
  have hins : r.2.inserts = m.2 := by rw [hr]
  have hos : ∀ q, r.1.osWatched q = match m.1.entries q with
      | some e => if (!e.seen && e.watching && m.1.hasWatcher) = true then false else m.1.osWatched q
      | none => m.1.osWatched q := by intro q; rw [hr]; rfl
  have hw : r.1.hasWatcher = m.1.hasWatcher := by rw [hr]
  have hback : ∀ q e, r.1.entries q = some e → ∃ e0, m.1.entries q = some e0 ∧ e = unwatch m.1.hasWatcher e0 ∧
      fresh m.1.lifetime e0 = true := by
    intro q e hq
    rw [hent] at hq
    obtain ⟨a, b⟩ := Option.filter_eq_some_iff.mp hq
    obtain ⟨e0, a0, b0⟩ := Option.map_eq_some_iff.mp a
    subst b0
    refine ⟨e0, a0, rfl, ?_⟩
    unfold unwatch at b
    split at b <;> exact b
  have hforth : ∀ q e0, m.1.entries q = some e0 → fresh m.1.lifetime e0 = true →
      r.1.entries q = some (unwatch m.1.hasWatcher e0) := by
    intro q e0 hq hf
    rw [hent, hq]
    refine Option.filter_eq_some_iff.mpr ⟨rfl, ?_⟩
    unfold unwatch
    split <;> exact hf
  have hnow : ∀ e0 : Entry, e0.lifetime = m.1.lifetime → fresh m.1.lifetime e0 = true := by
    intro e0 he; unfold fresh; rw [he]; simp
  clear_value r
  clear hr
  have hsame : ∀ e0, (unwatch m.1.hasWatcher e0).prev = e0.prev ∧ (unwatch m.1.hasWatcher e0).state = e0.state := by
    intro e0; unfold unwatch; split <;> exact ⟨rfl, rfl⟩
  have hfreshOs : ∀ q e, m.1.entries q = some e → m.1.hasWatcher = true → r.1.osWatched q = true → e.seen = true := by
    intro q e hq hww ho
    rw [hos, hq] at ho
    cases hs : e.seen with
    | true => rfl
    | false =>
      cases hwt : e.watching with
      | true => simp [hs, hwt, hww] at ho
      | false =>
        simp only [hs, hwt] at ho
        simp at ho
        obtain ⟨e', a, b⟩ := (h1.os q).mp ho
        rw [hq] at a; injection a with a; subst a; rw [hwt] at b; cases b
  have hsub : m.1.hasWatcher = true → ∀ q, r.1.osWatched q = true → ∃ d ∈ ds, d.path = q := by
    intro hww q ho
    cases hq : m.1.entries q with
    | none =>
      rw [hos, hq] at ho
      obtain ⟨e', a, b⟩ := (h1.os q).mp ho
      rw [hq] at a; cases a
    | some e => exact (h1.seen q e hq).mp (hfreshOs q e hq hww ho)
  have hno : m.1.hasWatcher = false → ∀ q, r.1.osWatched q = false := by
    intro hww q
    rw [hos]
    have := h1.noOs hww q
    split
    · split
      · rfl
      · exact this
    · exact this
  refine ⟨⟨?_, ?_, fun hf => hno (hw.symm.trans hf)⟩, ?_, ?_, ?_, hw.trans h3⟩
  · intro q e hq
    obtain ⟨e0, a, b, c⟩ := hback q e hq
    subst b
    rw [hw, tell_told _ _ _ (hrem q e0 a c), hins]
    exact (h1.good q e0 a).congr (hsame e0).1 (hsame e0).2
  · intro q
    cases hww : m.1.hasWatcher with
    | false =>
      rw [hno hww q]
      refine ⟨fun h => (by cases h), ?_⟩
      rintro ⟨e, a, b⟩
      obtain ⟨e0, a0, b0, -⟩ := hback q e a
      subst b0
      unfold unwatch at b
      split at b
      · cases b
      · have := (h1.os q).mpr ⟨e0, a0, b⟩
        rw [h1.noOs hww q] at this
        cases this
    | true =>
      constructor
      · intro ho
        obtain ⟨d, hd, hdq⟩ := hsub hww q ho
        obtain ⟨e0, a, b⟩ := h1.has d hd
        rw [hdq] at a
        have hs := hfreshOs q e0 a hww ho
        refine ⟨_, hforth q e0 a (hnow e0 b), ?_⟩
        rw [hos, a] at ho
        simp only [hs] at ho
        simp at ho
        obtain ⟨e', a', b'⟩ := (h1.os q).mp ho
        rw [a] at a'; injection a' with a'; subst a'
        unfold unwatch
        simp [hs, b']
      · rintro ⟨e, a, b⟩
        obtain ⟨e0, a0, b0, c⟩ := hback q e a
        subst b0
        rw [hos, a0]
        unfold unwatch at b
        split at b
        · cases b
        · rename_i hn
          simp only
          rw [hww] at hn ⊢
          rw [if_neg hn]
          exact (h1.os q).mpr ⟨e0, a0, b⟩
  · intro d hd
    obtain ⟨e0, a, b⟩ := h1.has d hd
    exact ⟨_, hforth _ e0 a (hnow e0 b)⟩
  · intro hww; rw [hw] at hww; exact hsub hww
  · intro hww q hq
    rw [hw] at hww
    have ho := h1.watch q hq hww
    obtain ⟨d, hd, -⟩ := find_any hq
    obtain ⟨e, a, b⟩ := (h1.os q).mp ho
    have hs := (h1.seen q e a).mpr ⟨d, List.mem_of_find?_eq_some hd, by simpa using List.find?_some hd⟩
    rw [hos, a]
    simp [hs, ho]


theorem look_inv {s : Actor Path} {rep found : Path → Option Snap} (hw : s.hasWatcher = true) (ins : List (Path × Snap))
    (h : Inv s (fun q => told ins (rep q) q) found) (p : Path) (f : Snap) :
    Inv (look s ins p f).1 (fun q => told (look s ins p f).2 (rep q) q) (set found p (some f)) := by
  obtain ⟨a, b⟩ := inv_look (rep := rep) (found := found) hw ins (p := p) f
    (fun q e hq => Or.inr (by have := h.good q e hq; rw [hw] at this; exact this)) h.os
  have hw' := (look_rest s p ins f).1.trans hw
  exact ⟨fun q e hq => (by rw [hw']; exact a q e hq), b, fun hf => (by rw [hw'] at hf; cases hf)⟩

theorem look_keeps (s : Actor Path) (ins : List (Path × Snap)) (p : Path) (f : Snap) (q : Path) :
    ((look s ins p f).1.entries q).isSome = (s.entries q).isSome := by
  unfold look
  split
  · rfl
  · rename_i e he
    by_cases hq : q = p
    · subst hq; simp [set, he]
    · simp [set, hq]

theorem lookAll_inv (ps : List (Path × Snap)) : ∀ (s : Actor Path) (ins : List (Path × Snap))
    {rep found : Path → Option Snap}, s.hasWatcher = true → Inv s (fun q => told ins (rep q) q) found →
    Inv (lookAll s ins ps).1 (fun q => told (lookAll s ins ps).2 (rep q) q)
      (fun q => ((ps.reverse.find? (fun x => x.1 = q)).map (·.2)).or (found q)) ∧
    (lookAll s ins ps).1.hasWatcher = true ∧ (lookAll s ins ps).1.osWatched = s.osWatched ∧
    (∀ q, ((lookAll s ins ps).1.entries q).isSome = (s.entries q).isSome) := by
  induction ps with
  | nil => intro s ins rep found hw h; exact ⟨h, hw, rfl, fun _ => rfl⟩
  | cons x ps ih =>
    intro s ins rep found hw h
    have h1 := look_inv hw ins h x.1 x.2
    obtain ⟨g1, g2, -⟩ := look_rest s x.1 ins x.2
    obtain ⟨a, b, c, d⟩ := ih (look s ins x.1 x.2).1 (look s ins x.1 x.2).2 (g1.trans hw) h1
    refine ⟨?_, b, c.trans g2, fun q => (d q).trans (look_keeps s ins x.1 x.2 q)⟩
    have : (fun q => (((x :: ps).reverse.find? (fun x => x.1 = q)).map (·.2)).or (found q)) =
        (fun q => ((ps.reverse.find? (fun x => x.1 = q)).map (·.2)).or (set found x.1 (some x.2) q)) := by
      funext q
      rw [List.reverse_cons, List.find?_append]
      cases ps.reverse.find? (fun x => decide (x.1 = q)) with
      | some y => rfl
      | none =>
        by_cases hq : q = x.1
        · subst hq; simp [set]
        · have : ¬ x.1 = q := fun e => hq e.symm
          simp [set, hq, this]
    rw [this]
    exact a

theorem drop_inv {s : Actor Path} {rep found : Path → Option Snap} (h : Inv s rep found) (p : Path) :
    Inv (dropWatch s p) rep found ∧ (dropWatch s p).hasWatcher = s.hasWatcher ∧
    (∀ q, ((dropWatch s p).entries q).isSome = (s.entries q).isSome) ∧
    (∀ q, (dropWatch s p).osWatched q = true → s.osWatched q = true) := by
  unfold dropWatch
  split
  · exact ⟨h, rfl, fun _ => rfl, fun _ h => h⟩
  · rename_i e he
    split
    · rename_i hwt
      refine ⟨⟨fun q e' hq => ?_, fun q => ?_, fun hf q => ?_⟩, rfl, fun q => ?_, fun q hq => ?_⟩
      · by_cases hqp : q = p
        · subst hqp
          simp only [set_eq] at hq
          injection hq with hq
          subst hq
          exact (h.good q e he).congr rfl rfl
        · simp only [set_ne _ _ hqp] at hq
          exact h.good q e' hq
      · by_cases hqp : q = p
        · subst hqp
          simp only [set_eq]
          constructor
          · intro hf; cases hf
          · rintro ⟨e', a, b⟩; injection a with a; subst a; cases b
        · simp only [set_ne _ _ hqp]; exact h.os q
      · by_cases hqp : q = p
        · subst hqp; simp only [set_eq]
        · simp only [set_ne _ _ hqp]; exact h.noOs hf q
      · by_cases hqp : q = p
        · subst hqp; simp only [set_eq, he, Option.isSome_some]
        · simp only [set_ne _ _ hqp]
      · by_cases hqp : q = p
        · subst hqp; simp only [set_eq] at hq; cases hq
        · simp only [set_ne _ _ hqp] at hq; exact hq
    · exact ⟨h, rfl, fun _ => rfl, fun _ h => h⟩

theorem drops_inv (ps : List Path) : ∀ {s : Actor Path} {rep found : Path → Option Snap}, Inv s rep found →
    Inv (ps.foldl dropWatch s) rep found ∧ (ps.foldl dropWatch s).hasWatcher = s.hasWatcher ∧
    (∀ q, ((ps.foldl dropWatch s).entries q).isSome = (s.entries q).isSome) ∧
    (∀ q, (ps.foldl dropWatch s).osWatched q = true → s.osWatched q = true) := by
  induction ps with
  | nil => intro s rep found h; exact ⟨h, rfl, fun _ => rfl, fun _ h => h⟩
  | cons p ps ih =>
    intro s rep found h
    obtain ⟨a, b, c, d⟩ := drop_inv h p
    obtain ⟨a', b', c', d'⟩ := ih a
    exact ⟨a', b'.trans b, fun q => (c' q).trans (c q), fun q hq => d q (d' q hq)⟩

theorem event_inv {s : Actor Path} {rep found : Path → Option Snap} (hw : s.hasWatcher = true) (h : Inv s rep found)
    (ps : List (Path × Snap)) (removal : Bool) :
    let r := notifyEvent s ps removal
    Inv r.1 (fun q => r.2.tell (rep q) q) (fun q => ((Op.event ps removal).finds q).or (found q)) ∧
    r.1.hasWatcher = s.hasWatcher ∧ (∀ q, (r.1.entries q).isSome = (s.entries q).isSome) ∧
    (∀ q, r.1.osWatched q = true → s.osWatched q = true) := by
  intro r
  have h0 : Inv s (fun q => told [] (rep q) q) found := by
    simp only [told_nil]; exact h
  obtain ⟨a, b, c, d⟩ := lookAll_inv ps s [] (rep := rep) hw h0
  have hr : r = notifyEvent s ps removal := rfl
  unfold notifyEvent at hr
  simp only at hr
  rw [hr]
  cases removal with
  | false => exact ⟨a, b.trans hw.symm, d, fun q hq => (by rw [← c]; exact hq)⟩
  | true =>
    obtain ⟨a', b', c', d'⟩ := drops_inv (ps.map (·.1)) a
    refine ⟨a', b'.trans (b.trans hw.symm), fun q => (c' q).trans (d q), fun q hq => ?_⟩
    rw [← c]
    exact d' q hq

theorem tell_none (old : Option Snap) (q : Path) : (⟨[], []⟩ : Change Path).tell old q = old := told_nil old q

theorem recheck_inv {s : Actor Path} {rep found : Path → Option Snap} (h : Inv s rep found) (i : Nat) (early : Bool) :
    let r := recheck s i early
    Inv r.1 (fun q => r.2.tell (rep q) q) found ∧ r.1.hasWatcher = s.hasWatcher ∧
    (∀ q, (r.1.entries q).isSome = (s.entries q).isSome) ∧ r.1.osWatched = s.osWatched := by
  intro r
  have hr : r = recheck s i early := rfl
  clear_value r
  unfold recheck at hr
  split at hr
  · rw [hr]; simp only [tell_none]; exact ⟨h, trivial, fun _ => trivial, trivial⟩
  split at hr
  · rw [hr]; simp only [tell_none]; exact ⟨h, trivial, fun _ => trivial, trivial⟩
  rename_i tick p _
  simp only at hr
  have hq : Inv { s with queue := s.queue.eraseIdx i } rep found := ⟨h.good, h.os, h.noOs⟩
  split at hr
  · rw [hr]; simp only [tell_none]; exact ⟨hq, trivial, fun _ => trivial, trivial⟩
  rename_i e he
  have keep : ∀ q, (set s.entries p (some { e with state := State.stable }) q).isSome = (s.entries q).isSome := by
    intro q
    by_cases hqp : q = p
    · subst hqp; rw [set_eq, he]; rfl
    · rw [set_ne _ _ hqp]
  have os : ∀ q, s.osWatched q = true ↔
      ∃ e', set s.entries p (some { e with state := State.stable }) q = some e' ∧ e'.watching = true := by
    intro q
    rw [h.os q]
    by_cases hqp : q = p
    · subst hqp
      rw [set_eq]
      constructor
      · rintro ⟨e', a, b⟩; rw [he] at a; injection a with a; subst a; exact ⟨_, rfl, b⟩
      · rintro ⟨e', a, b⟩; injection a with a; subst a; exact ⟨e, he, b⟩
    · rw [set_ne _ _ hqp]
  have quiet : r = ({ s with queue := s.queue.eraseIdx i, entries := set s.entries p (some { e with state := .stable }) },
        ⟨[], []⟩) →
      Inv r.1 (fun q => r.2.tell (rep q) q) found ∧ r.1.hasWatcher = s.hasWatcher ∧
      (∀ q, (r.1.entries q).isSome = (s.entries q).isSome) ∧ r.1.osWatched = s.osWatched := by
    intro hr
    rw [hr]
    simp only [tell_none]
    refine ⟨⟨fun q e' hq => ?_, os, h.noOs⟩, trivial, keep, trivial⟩
    by_cases hqp : q = p
    · subst hqp
      simp only [set_eq] at hq
      injection hq with hq
      subst hq
      exact (h.good q e he).stable
    · simp only [set_ne _ _ hqp] at hq
      exact h.good q e' hq
  cases hs : e.state with
  | stable => rw [hs] at hr; exact quiet hr
  | emptyOrRemoval at_ pl =>
    rw [hs] at hr
    simp only at hr
    split at hr
    · split at hr
      · exact quiet hr
      · rw [hr]
        refine ⟨⟨fun q e' hq => ?_, os, h.noOs⟩, rfl, keep, rfl⟩
        have ht : ∀ q, (⟨[], [(p, pl)]⟩ : Change Path).tell (rep q) q = if p = q then some pl else rep q := by
          intro q
          have := told_append [] p pl (rep q) q
          rw [told_nil] at this
          exact this
        simp only [ht]
        have hg := h.good p e he
        by_cases hqp : q = p
        · subst hqp
          simp only [set_eq] at hq
          injection hq with hq
          subst hq
          rw [if_pos rfl]
          have hn := hg.eor at_ pl hs
          refine ⟨by simp, fun x hx hsol => absurd hsol (hn x hx), fun hw x hx hsol => ?_, fun hw => ?_, fun _ _ e => (by cases e)⟩
          · exact absurd hsol (hn x (hg.look hw x hx hsol))
          · have := (hg.noW hw).2.2
            rw [hs] at this
            cases this
        · simp only [set_ne _ _ hqp] at hq
          rw [if_neg (fun e => hqp e.symm)]
          exact h.good q e' hq
    · exact quiet hr

end Tinymist.Watch
