import Verif.Spec.Vfs
/-! Lemmas about the layers and about one revision. -/
namespace Tinymist.Vfs
variable {Path Fid V : Type} [DecidableEq Path] [DecidableEq Fid]

theorem set_eq {K A : Type} [DecidableEq K] (f : K → A) (k : K) (a : A) : set f k a k = a := by simp [set]
theorem set_ne {K A : Type} [DecidableEq K] (f : K → A) {k x : K} (a : A) (h : x ≠ k) : set f k a x = f x := by
  simp [set, h]

theorem get_erase {K A : Type} [DecidableEq K] (l : List (K × A)) (k x : K) :
    get (erase l k) x = if x = k then none else get l x := by
  induction l with
  | nil => simp [erase, get]
  | cons a l ih =>
    obtain ⟨a, v⟩ := a
    unfold erase at ih ⊢
    rw [List.filter_cons]
    by_cases h : a = k
    · simp only [ne_eq, h, not_true, decide_false, Bool.false_eq_true, if_false]
      rw [ih, get]
      by_cases hx : x = k
      · simp [hx]
      · simp [hx, Ne.symm hx]
    · simp only [ne_eq, h, not_false_iff, decide_true, if_true]
      rw [get, ih, get]
      by_cases hx : a = x
      · simp [hx, hx ▸ h]
      · simp [hx]

theorem get_put {K A : Type} [DecidableEq K] (l : List (K × A)) (k x : K) (v : A) :
    get (put l k v) x = if x = k then some v else get l x := by
  unfold put
  rw [get, get_erase]
  by_cases h : x = k
  · simp [h]
  · simp [h, Ne.symm h]

theorem get_mem {K A : Type} [DecidableEq K] {l : List (K × A)} {k : K} {v : A} (h : get l k = some v) :
    k ∈ l.map (·.1) := by
  induction l with
  | nil => cases h
  | cons a l ih =>
    obtain ⟨a, w⟩ := a
    rw [get] at h
    split at h
    · rename_i e; simp [e]
    · exact List.mem_cons_of_mem _ (ih h)

theorem get_notifyFiles (l : List (Path × V)) (rs : List Path) (is : List (Path × V)) (p : Path) :
    get (notifyFiles l rs is) p = reported (get l p) rs is p := by
  have h1 : ∀ (rs : List Path) (l : List (Path × V)),
      get (rs.foldl erase l) p = if p ∈ rs then none else get l p := by
    intro rs
    induction rs with
    | nil => simp
    | cons r rs ih =>
      intro l
      rw [List.foldl_cons, ih, get_erase]
      by_cases h : p = r
      · simp [h]
      · simp [h]
  have h2 : ∀ (is : List (Path × V)) (l : List (Path × V)),
      get (is.foldl (fun l x => put l x.1 x.2) l) p =
        ((is.reverse.find? (fun x => x.1 = p)).map (·.2)).or (get l p) := by
    intro is
    induction is with
    | nil => simp
    | cons i is ih =>
      intro l
      rw [List.foldl_cons, ih, get_put, List.reverse_cons, List.find?_append]
      cases List.find? (fun x => decide (x.1 = p)) is.reverse with
      | some y => simp
      | none =>
        by_cases h : p = i.1
        · simp [h]
        · simp [h, Ne.symm h]
  unfold notifyFiles reported
  rw [h2, h1]
  cases List.find? (fun x => decide (x.1 = p)) is.reverse with
  | some y => simp
  | none => simp

theorem reported_other (old : Option V) (rs : List Path) (is : List (Path × V)) (p : Path)
    (h : p ∉ rs ++ is.map (·.1)) : reported old rs is p = old := by
  have h1 : p ∉ rs := fun hp => h (List.mem_append_left _ hp)
  have h2 : is.reverse.find? (fun x => x.1 = p) = none := by
    rw [List.find?_eq_none]
    intro x hx e
    have e := of_decide_eq_true e
    exact h (List.mem_append_right _ (List.mem_map.mpr ⟨x, List.mem_reverse.mp hx, e⟩))
  unfold reported
  rw [h2]
  simp [h1]

/-! ### Path maps -/

/-- What is known of a `PathMap`: it files every id under the path the id resolves to. -/
structure PathMap.Ok (resolve : Fid → Except V Path) (m : PathMap Path Fid) : Prop where
  ids : ∀ f p r, m.fileIds f = some (p, r) → resolve f = .ok p ∧ f ∈ m.paths p
  paths : ∀ f p, f ∈ m.paths p → resolve f = .ok p

theorem PathMap.ok_empty (resolve : Fid → Except V Path) : PathMap.Ok resolve (.empty : PathMap Path Fid) :=
  ⟨fun _ _ _ h => (by cases h), fun _ _ h => (by cases h)⟩

theorem PathMap.insert_ok {resolve : Fid → Except V Path} {m : PathMap Path Fid} (h : m.Ok resolve)
    {p : Path} {f : Fid} (hf : resolve f = .ok p) (r : Nat) :
    (m.insert p f r).Ok resolve ∧ f ∈ (m.insert p f r).paths p ∧
    ∀ g q, g ∈ m.paths q → g ∈ (m.insert p f r).paths q := by
  unfold PathMap.insert
  cases hm : m.fileIds f with
  | some pr =>
    obtain ⟨prev, r0⟩ := pr
    obtain ⟨h1, h2⟩ := h.ids f prev r0 hm
    have : prev = p := by rw [hf] at h1; injection h1 with h1; exact h1.symm
    subst this
    simp only [ne_eq, not_true, if_false]
    exact ⟨h, h2, fun _ _ h => h⟩
  | none =>
    simp only
    refine ⟨⟨?_, ?_⟩, ?_, ?_⟩
    · intro g q r' hg
      simp only [set] at hg ⊢
      by_cases e : g = f
      · subst e
        rw [if_pos rfl] at hg
        injection hg with hg
        injection hg with hg1 hg2
        subst hg1
        exact ⟨hf, by simp⟩
      · rw [if_neg e] at hg
        obtain ⟨h1, h2⟩ := h.ids g q r' hg
        refine ⟨h1, ?_⟩
        split
        · rename_i e'; subst e'; exact List.mem_append_left _ h2
        · exact h2
    · intro g q hg
      simp only [set] at hg
      split at hg
      · rename_i e
        subst e
        rcases List.mem_append.mp hg with hg | hg
        · exact h.paths g q hg
        · rw [List.mem_singleton.mp hg]; exact hf
      · exact h.paths g q hg
    · simp [set]
    · intro g q hg
      simp only [set]
      split
      · rename_i e; subst e; exact List.mem_append_left _ hg
      · exact hg

/-! ### One revision -/

/-- `r'` is `r` with the entries of the files in `T` replaced by fresh ones. -/
structure Touched (T : Fid → Prop) (r r' : Revising Path Fid V) : Prop where
  paths : r'.paths = r.paths
  am : r'.am = r.am
  goal : r'.goal = r.goal
  next : r.nextCell ≤ r'.nextCell
  fresh : ∀ f, T f → ∃ c, r'.managed f = some ⟨r.goal, c⟩ ∧ r.nextCell ≤ c ∧ c < r'.nextCell
  same : ∀ f, ¬ T f → r'.managed f = r.managed f
  inj : ∀ f f' e e', r'.managed f = some e → r'.managed f' = some e' → e.cell = e'.cell →
    r.nextCell ≤ e.cell → T f → T f' → f = f'
  changed : r.changed = true → r'.changed = true
  unchanged : r'.changed = false → ∀ f, ¬ T f

theorem Touched.refl (r : Revising Path Fid V) : Touched (fun _ => False) r r :=
  ⟨rfl, rfl, rfl, Nat.le_refl _, fun _ h => h.elim, fun _ _ => rfl, fun _ _ _ _ _ _ _ _ h => h.elim,
    fun h => h, fun _ _ h => h⟩

theorem Touched.congr {T T' : Fid → Prop} {r r' : Revising Path Fid V} (h : Touched T r r')
    (e : ∀ f, T f ↔ T' f) : Touched T' r r' := by
  have : T = T' := funext fun f => propext (e f)
  subst this
  exact h

theorem Touched.trans {T T' : Fid → Prop} {r r' r'' : Revising Path Fid V} (h : Touched T r r')
    (h' : Touched T' r' r'') : Touched (fun f => T f ∨ T' f) r r'' := by
  refine ⟨h'.paths.trans h.paths, h'.am.trans h.am, h'.goal.trans h.goal, Nat.le_trans h.next h'.next,
    ?_, ?_, ?_, fun hc => h'.changed (h.changed hc), ?_⟩
  · intro f hf
    by_cases hf' : T' f
    · obtain ⟨c, h1, h2, h3⟩ := h'.fresh f hf'
      exact ⟨c, by rw [h1, h.goal], Nat.le_trans h.next h2, h3⟩
    · obtain ⟨c, h1, h2, h3⟩ := h.fresh f (hf.resolve_right hf')
      exact ⟨c, by rw [h'.same f hf', h1], h2, Nat.lt_of_lt_of_le h3 h'.next⟩
  · intro f hf
    rw [h'.same f (fun x => hf (Or.inr x)), h.same f (fun x => hf (Or.inl x))]
  · intro f f' e e' he he' hc hn hf hf'
    by_cases a : T' f <;> by_cases b : T' f'
    · refine h'.inj f f' e e' he he' hc ?_ a b
      obtain ⟨c, h1, h2, h3⟩ := h'.fresh f a
      rw [h1] at he; injection he with he; rw [← he]; exact h2
    · obtain ⟨c, h1, h2, h3⟩ := h'.fresh f a
      obtain ⟨c', h1', h2', h3'⟩ := h.fresh f' (hf'.resolve_right b)
      rw [h1] at he; injection he with he
      rw [h'.same f' b, h1'] at he'; injection he' with he'
      rw [← he, ← he'] at hc
      simp only at hc
      omega
    · obtain ⟨c, h1, h2, h3⟩ := h'.fresh f' b
      obtain ⟨c', h1', h2', h3'⟩ := h.fresh f (hf.resolve_right a)
      rw [h1] at he'; injection he' with he'
      rw [h'.same f a, h1'] at he; injection he with he
      rw [← he, ← he'] at hc
      simp only at hc
      omega
    · rw [h'.same f a] at he
      rw [h'.same f' b] at he'
      exact h.inj f f' e e' he he' hc hn (hf.resolve_right a) (hf'.resolve_right b)
  · intro hc f hf
    have h1 := h'.unchanged hc f
    have hr' : r'.changed = false := by
      cases e : r'.changed with
      | false => rfl
      | true => rw [h'.changed e] at hc; cases hc
    exact hf.elim (h.unchanged hr' f) h1

theorem touched_id (r : Revising Path Fid V) (f : Fid) : Touched (fun g => g = f) r (r.invalidateId f) := by
  refine ⟨rfl, rfl, rfl, Nat.le_succ _, ?_, ?_, ?_, fun _ => rfl, fun h => by cases h⟩
  · intro g e
    subst e
    exact ⟨r.nextCell, by simp [Revising.invalidateId, set], Nat.le_refl _, by simp [Revising.invalidateId]⟩
  · intro g e
    simp [Revising.invalidateId, set, e]
  · intro a b _ _ _ _ _ _ ha hb
    rw [ha, hb]

theorem touched_ids (r : Revising Path Fid V) (fs : List Fid) :
    Touched (fun g => g ∈ fs) r (fs.foldl Revising.invalidateId r) := by
  induction fs generalizing r with
  | nil => exact (Touched.refl r).congr (by simp)
  | cons f fs ih => exact ((touched_id r f).trans (ih _)).congr (by simp)

theorem touched_path (r : Revising Path Fid V) (p : Path) :
    Touched (fun g => g ∈ r.paths.paths p) r (r.invalidatePath p) := touched_ids r _

theorem touched_paths (r : Revising Path Fid V) (ps : List Path) :
    Touched (fun g => ∃ p ∈ ps, g ∈ r.paths.paths p) r (ps.foldl Revising.invalidatePath r) := by
  induction ps generalizing r with
  | nil => exact (Touched.refl r).congr (by simp)
  | cons p ps ih =>
    have h1 := touched_path r p
    have h2 := ih (r.invalidatePath p)
    rw [h1.paths] at h2
    exact (h1.trans h2).congr (by simp)

/-- The file can be found from its path, or a buffer by id hides its path. -/
def Safe (resolve : Fid → Except V Path) (r : Revising Path Fid V) (f : Fid) : Prop :=
  ∀ p, resolve f = .ok p → get r.am.byId f ≠ none ∨ f ∈ r.paths.paths p

/-- The files an edit invalidates. -/
def Edit.touches (r : Revising Path Fid V) : Edit Path Fid V → Fid → Prop
  | .mapShadow p _, f | .unmapShadow p, f => f ∈ r.paths.paths p
  | .mapShadowById g _, f | .removeShadowById g, f => f = g
  | .notify rs is, f => ∃ p ∈ rs ++ is.map (·.1), f ∈ r.paths.paths p
  | .resetShadow, f => (∃ p ∈ r.am.byPath.map (·.1), f ∈ r.paths.paths p) ∨ f ∈ r.am.byId.map (·.1)
  | .resetCache, _ => False

/-- The layers after an edit. -/
def Edit.amAfter (am : Am Path Fid V) : Edit Path Fid V → Am Path Fid V
  | .mapShadow p v => { am with byPath := put am.byPath p v }
  | .unmapShadow p => { am with byPath := erase am.byPath p }
  | .mapShadowById f v => { am with byId := put am.byId f v }
  | .removeShadowById f => { am with byId := erase am.byId f }
  | .notify rs is => { am with notified := notifyFiles am.notified rs is }
  | .resetShadow => { am with byId := [], byPath := [] }
  | .resetCache => am

/-- An edit other than `resetCache` replaces the entries of the files it touches and edits the layers. -/
theorem edit_touched (r : Revising Path Fid V) (e : Edit Path Fid V) (hne : e ≠ .resetCache) :
    (e.apply r).am = e.amAfter r.am ∧
    Touched (e.touches r) r { e.apply r with am := r.am } := by
  cases e with
  | mapShadow p v =>
    have h := touched_path { r with changed := true } p
    refine ⟨by simp only [Edit.apply, Edit.amAfter]; rw [h.am], ?_⟩
    exact ⟨h.paths, rfl, h.goal, h.next, h.fresh, h.same, h.inj, fun _ => h.changed rfl,
      fun hc f => h.unchanged hc f⟩
  | unmapShadow p =>
    have h := touched_path { r with changed := true } p
    refine ⟨by simp only [Edit.apply, Edit.amAfter]; rw [h.am], ?_⟩
    exact ⟨h.paths, rfl, h.goal, h.next, h.fresh, h.same, h.inj, fun _ => h.changed rfl,
      fun hc f => h.unchanged hc f⟩
  | mapShadowById f v => exact ⟨rfl, touched_id r f⟩
  | removeShadowById f => exact ⟨rfl, touched_id r f⟩
  | notify rs is =>
    have h := touched_paths r (rs ++ is.map (·.1))
    refine ⟨by simp only [Edit.apply, Edit.amAfter]; rw [h.am], ?_⟩
    exact ⟨h.paths, rfl, h.goal, h.next, h.fresh, h.same, h.inj, h.changed, h.unchanged⟩
  | resetShadow =>
    have h1 := touched_paths r (r.am.byPath.map (·.1))
    have h2 := touched_ids ((r.am.byPath.map (·.1)).foldl Revising.invalidatePath r) (r.am.byId.map (·.1))
    have h := h1.trans h2
    simp only [Edit.apply, Edit.amAfter]
    rw [h1.am]
    refine ⟨by rw [h.am], ?_⟩
    exact ⟨h.paths, rfl, h.goal, h.next, h.fresh, h.same, h.inj, h.changed, h.unchanged⟩
  | resetCache => exact absurd rfl hne

/-- An edit that does not touch `f` does not change where its content comes from. -/
theorem origin_untouched {resolve : Fid → Except V Path} {r : Revising Path Fid V} {e : Edit Path Fid V} {f : Fid}
    (hs : Safe resolve r f) (ht : ¬ e.touches r f) :
    origin resolve (e.amAfter r.am) f = origin resolve r.am f ∧
    (get (e.amAfter r.am).byId f = none ↔ get r.am.byId f = none) := by
  unfold Safe at hs
  cases e with
  | mapShadow p v =>
    refine ⟨?_, Iff.rfl⟩
    simp only [Edit.amAfter, origin]
    cases hid : get r.am.byId f with
    | some v => rfl
    | none =>
      cases hr : resolve f with
      | error e => rfl
      | ok q =>
        have := (hs q hr).resolve_left (by simp [hid])
        have hne : q ≠ p := fun e => ht (by subst e; exact this)
        simp only [get_put, hne, if_false]
  | unmapShadow p =>
    refine ⟨?_, Iff.rfl⟩
    simp only [Edit.amAfter, origin]
    cases hid : get r.am.byId f with
    | some v => rfl
    | none =>
      cases hr : resolve f with
      | error e => rfl
      | ok q =>
        have := (hs q hr).resolve_left (by simp [hid])
        have hne : q ≠ p := fun e => ht (by subst e; exact this)
        simp only [get_erase, hne, if_false]
  | mapShadowById g v =>
    have hne : f ≠ g := ht
    simp only [Edit.amAfter, origin, get_put, hne, if_false]
    exact ⟨trivial, trivial⟩
  | removeShadowById g =>
    have hne : f ≠ g := ht
    simp only [Edit.amAfter, origin, get_erase, hne, if_false]
    exact ⟨trivial, trivial⟩
  | notify rs is =>
    refine ⟨?_, Iff.rfl⟩
    simp only [Edit.amAfter, origin]
    cases hid : get r.am.byId f with
    | some v => rfl
    | none =>
      cases hr : resolve f with
      | error e => rfl
      | ok q =>
        have := (hs q hr).resolve_left (by simp [hid])
        have hne : q ∉ rs ++ is.map (·.1) := fun e => ht ⟨q, e, this⟩
        simp only [get_notifyFiles, reported_other _ _ _ _ hne]
  | resetShadow =>
    have h1 : get r.am.byId f = none := by
      cases h : get r.am.byId f with
      | none => rfl
      | some v => exact absurd (Or.inr (get_mem h)) ht
    simp only [Edit.amAfter, origin, h1, get]
    refine ⟨?_, trivial⟩
    cases hr : resolve f with
    | error e => rfl
    | ok q =>
      have := (hs q hr).resolve_left (by simp [h1])
      have h2 : get r.am.byPath q = none := by
        cases h : get r.am.byPath q with
        | none => rfl
        | some v => exact absurd (Or.inl ⟨q, get_mem h, this⟩) ht
      simp only [h2]
  | resetCache => exact ⟨rfl, Iff.rfl⟩

/-- The files with entries after an edit: fresh, or as before with the same origin. -/
theorem edit_entry {resolve : Fid → Except V Path} {r : Revising Path Fid V} {e : Edit Path Fid V} {f : Fid}
    {x : Entry} (h : (e.apply r).managed f = some x) :
    (r.nextCell ≤ x.cell ∧ x.cell < (e.apply r).nextCell ∧ x.changedAt = r.goal) ∨
    (r.managed f = some x ∧ (Safe resolve r f →
      origin resolve (e.apply r).am f = origin resolve r.am f ∧ Safe resolve (e.apply r) f)) := by
  by_cases hne : e = .resetCache
  · subst hne; cases h
  · obtain ⟨ham, ht⟩ := edit_touched r e hne
    by_cases htf : e.touches r f
    · obtain ⟨c, h1, h2, h3⟩ := ht.fresh f htf
      have h1 : (e.apply r).managed f = some ⟨r.goal, c⟩ := h1
      rw [h1] at h
      injection h with h
      subst h
      exact Or.inl ⟨h2, h3, rfl⟩
    · have h1 : (e.apply r).managed f = r.managed f := ht.same f htf
      right
      refine ⟨by rw [← h1, h], fun hs => ?_⟩
      obtain ⟨h2, h3⟩ := origin_untouched hs htf
      refine ⟨by rw [ham, h2], ?_⟩
      intro p hp
      have hpp : (e.apply r).paths = r.paths := ht.paths
      rw [ham, hpp]
      rcases hs p hp with h | h
      · exact Or.inl fun e => h (h3.mp e)
      · exact Or.inr h

theorem edit_goal (r : Revising Path Fid V) (e : Edit Path Fid V) : (e.apply r).goal = r.goal := by
  by_cases hne : e = .resetCache
  · subst hne; rfl
  · exact (edit_touched r e hne).2.goal

theorem edit_next (r : Revising Path Fid V) (e : Edit Path Fid V) : r.nextCell ≤ (e.apply r).nextCell := by
  by_cases hne : e = .resetCache
  · subst hne; exact Nat.le_refl _
  · exact (edit_touched r e hne).2.next

theorem edit_am (r : Revising Path Fid V) (e : Edit Path Fid V) : (e.apply r).am = e.amAfter r.am := by
  by_cases hne : e = .resetCache
  · subst hne; rfl
  · exact (edit_touched r e hne).1

theorem edit_pathsOk {resolve : Fid → Except V Path} {r : Revising Path Fid V} (h : r.paths.Ok resolve)
    (e : Edit Path Fid V) : (e.apply r).paths.Ok resolve := by
  by_cases hne : e = .resetCache
  · subst hne; exact PathMap.ok_empty _
  · have : (e.apply r).paths = r.paths := (edit_touched r e hne).2.paths
    rw [this]; exact h

theorem edits_goal (r : Revising Path Fid V) (es : List (Edit Path Fid V)) :
    (es.foldl Edit.apply r).goal = r.goal := by
  induction es generalizing r with
  | nil => rfl
  | cons e es ih => rw [List.foldl_cons, ih, edit_goal]

theorem edits_next (r : Revising Path Fid V) (es : List (Edit Path Fid V)) :
    r.nextCell ≤ (es.foldl Edit.apply r).nextCell := by
  induction es generalizing r with
  | nil => exact Nat.le_refl _
  | cons e es ih => exact Nat.le_trans (edit_next r e) (ih _)

theorem edits_pathsOk {resolve : Fid → Except V Path} {r : Revising Path Fid V} (h : r.paths.Ok resolve)
    (es : List (Edit Path Fid V)) : (es.foldl Edit.apply r).paths.Ok resolve := by
  induction es generalizing r with
  | nil => exact h
  | cons e es ih => exact ih (edit_pathsOk h e)

/-- After a whole revision an entry is fresh, or as before with the same origin. -/
theorem edits_entry {resolve : Fid → Except V Path} {r : Revising Path Fid V} {es : List (Edit Path Fid V)}
    {f : Fid} {x : Entry} (h : (es.foldl Edit.apply r).managed f = some x) :
    (r.nextCell ≤ x.cell ∧ x.cell < (es.foldl Edit.apply r).nextCell ∧ x.changedAt = r.goal) ∨
    (r.managed f = some x ∧ (Safe resolve r f →
      origin resolve (es.foldl Edit.apply r).am f = origin resolve r.am f ∧
      Safe resolve (es.foldl Edit.apply r) f)) := by
  induction es generalizing r with
  | nil => exact Or.inr ⟨h, fun hs => ⟨rfl, hs⟩⟩
  | cons e es ih =>
    rw [List.foldl_cons] at h ⊢
    rcases ih h with ⟨h1, h2, h3⟩ | ⟨h1, h2⟩
    · exact Or.inl ⟨Nat.le_trans (edit_next r e) h1, h2, by rw [h3, edit_goal]⟩
    · rcases edit_entry (resolve := resolve) h1 with ⟨h3, h4, h5⟩ | ⟨h3, h4⟩
      · exact Or.inl ⟨h3, Nat.lt_of_lt_of_le h4 (edits_next _ _), h5⟩
      · refine Or.inr ⟨h3, fun hs => ?_⟩
        obtain ⟨h5, h6⟩ := h4 hs
        obtain ⟨h7, h8⟩ := h2 h6
        exact ⟨by rw [h7, h5], h8⟩

/-- The layers after the edits, as lookups. -/
theorem edits_lookup (es0 es : List (Edit Path Fid V)) (r : Revising Path Fid V)
    (h : (∀ p, get r.am.byPath p = bufferAfter es0 p) ∧ (∀ f, get r.am.byId f = idBufferAfter es0 f) ∧
      ∀ p, get r.am.notified p = notifiedAfter es0 p) :
    (∀ p, get (es.foldl Edit.apply r).am.byPath p = bufferAfter (es0 ++ es) p) ∧
    (∀ f, get (es.foldl Edit.apply r).am.byId f = idBufferAfter (es0 ++ es) f) ∧
    ∀ p, get (es.foldl Edit.apply r).am.notified p = notifiedAfter (es0 ++ es) p := by
  induction es generalizing r es0 with
  | nil => simpa using h
  | cons e es ih =>
    rw [List.foldl_cons]
    have := ih (es0 ++ [e]) (e.apply r) ?_
    · simpa using this
    · obtain ⟨h1, h2, h3⟩ := h
      rw [edit_am]
      unfold bufferAfter idBufferAfter notifiedAfter at *
      simp only [List.foldl_append, List.foldl_cons, List.foldl_nil]
      cases e with
      | mapShadow p v => exact ⟨fun q => by simp only [Edit.amAfter, get_put, set, h1], h2, h3⟩
      | unmapShadow p => exact ⟨fun q => by simp only [Edit.amAfter, get_erase, set, h1], h2, h3⟩
      | mapShadowById f v => exact ⟨h1, fun q => by simp only [Edit.amAfter, get_put, set, h2], h3⟩
      | removeShadowById f => exact ⟨h1, fun q => by simp only [Edit.amAfter, get_erase, set, h2], h3⟩
      | notify rs is => exact ⟨h1, h2, fun q => by simp only [Edit.amAfter, get_notifyFiles, h3]⟩
      | resetShadow => exact ⟨fun q => rfl, fun q => rfl, h3⟩
      | resetCache => exact ⟨h1, h2, h3⟩

/-- What is read is what the origin gives. -/
theorem content_gives {resolve : Fid → Except V Path} {P : Path → V → Prop} {disk : Path → V}
    (hP : ∀ p, P p (disk p)) (am : Am Path Fid V) (f : Fid) :
    (origin resolve am f).Gives P (am.content resolve disk f).2 := by
  unfold origin Am.content Am.pathContent
  cases get am.byId f with
  | some v => exact rfl
  | none =>
    cases resolve f with
    | error e => exact rfl
    | ok p =>
      cases h1 : get am.byPath p with
      | some v => simp only [h1]; exact rfl
      | none =>
        cases h2 : get am.notified p with
        | some v => simp only [h1, h2]; exact rfl
        | none => simp only [h1, h2]; exact hP p

theorem content_path {resolve : Fid → Except V Path} {disk : Path → V} (am : Am Path Fid V) (f : Fid) (p : Path)
    (h : (am.content resolve disk f).1 = some p) : resolve f = .ok p := by
  unfold Am.content at h
  split at h
  · cases h
  · split at h
    · rename_i q e
      injection h with h
      rw [e, h]
    · cases h

theorem content_path' {resolve : Fid → Except V Path} {disk : Path → V} (am : Am Path Fid V) (f : Fid) (p : Path)
    (h : resolve f = .ok p) (hid : get am.byId f = none) : (am.content resolve disk f).1 = some p := by
  unfold Am.content
  simp only [hid, h]

end Tinymist.Vfs
