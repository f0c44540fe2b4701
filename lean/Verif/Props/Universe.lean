import Verif.Spec.Universe
/-!
# C121: a revision number stands for one state of a project
-/
namespace Tinymist.Universe

variable {select : Entry → Nat → Option Entry}

/-- What is known in the middle of a revision that began with `u`. -/
structure Inv (u : Universe) (F P : List Provider) (r : Revising) : Prop where
  filesRev : r.filesRev = u.filesRev
  fontRev : r.fontRev = u.fonts.rev
  packagesRev : r.packagesRev = u.packages.rev
  revision : r.inner.revision = u.revision
  files : u.filesRev ≤ r.inner.filesRev
  html : r.inner.html = u.html
  view : r.viewChanged = false → r.inner.entry = u.entry ∧ r.inner.inputs = u.inputs
  fonts : r.inner.fonts ∈ F ∧ (r.fontChanged = false → r.inner.fonts = u.fonts)
  packages : r.inner.packages ∈ P ∧ (r.packagesChanged = false → r.inner.packages = u.packages)

theorem setEntryFile_keeps (u : Universe) (p : Nat) :
    (u.setEntryFile select p).revision = u.revision ∧ (u.setEntryFile select p).filesRev = u.filesRev ∧
    (u.setEntryFile select p).html = u.html ∧ (u.setEntryFile select p).fonts = u.fonts ∧
    (u.setEntryFile select p).packages = u.packages ∧ (u.setEntryFile select p).inputs = u.inputs := by
  unfold Universe.setEntryFile
  cases select u.entry p <;> simp

theorem inv_apply {u F P r} (c : Change) (h : Inv u F P r) (hf : ∀ p, c = .fonts p → p ∈ F)
    (hp : ∀ p, c = .packages p → p ∈ P) : Inv u F P (c.apply select r) := by
  obtain ⟨h1, h2, h3, h4, h5, h6, h7, h8, h9⟩ := h
  cases c with
  | fonts p => exact ⟨h1, h2, h3, h4, h5, h6, h7, ⟨hf p rfl, fun e => by cases e⟩, h9⟩
  | packages p => exact ⟨h1, h2, h3, h4, h5, h6, h7, h8, ⟨hp p rfl, fun e => by cases e⟩⟩
  | inputs i => exact ⟨h1, h2, h3, h4, h5, h6, (fun e => by cases e), h8, h9⟩
  | entryFile p =>
    obtain ⟨a, b, c, d, e, f⟩ := setEntryFile_keeps (select := select) r.inner p
    refine ⟨h1, h2, h3, a.trans h4, ?_, c.trans h6, (fun e => by cases e), ?_, ?_⟩
    · show _ ≤ (r.inner.setEntryFile select p).filesRev; rw [b]; exact h5
    · show (r.inner.setEntryFile select p).fonts ∈ F ∧ (_ → (r.inner.setEntryFile select p).fonts = _)
      rw [d]; exact h8
    · show (r.inner.setEntryFile select p).packages ∈ P ∧ (_ → (r.inner.setEntryFile select p).packages = _)
      rw [e]; exact h9
  | entry e =>
    unfold Change.apply
    by_cases hr : r.inner.entry.root ≠ e.root
    · simp only [hr, if_true, not_false_eq_true, ne_eq]
      exact ⟨h1, h2, h3, h4, Nat.le_succ_of_le h5, h6, (fun e => by cases e), h8, h9⟩
    · simp only [hr, if_false]
      exact ⟨h1, h2, h3, h4, h5, h6, (fun e => by cases e), h8, h9⟩
  | flush => exact ⟨h1, h2, h3, h4, h5, h6, (fun e => by cases e), h8, h9⟩
  | files b =>
    cases b with
    | false => exact ⟨h1, h2, h3, h4, h5, h6, h7, h8, h9⟩
    | true => exact ⟨h1, h2, h3, h4, Nat.le_succ_of_le h5, h6, h7, h8, h9⟩

theorem inv_foldl {u F P} (cs : List Change) (hf : ∀ p, .fonts p ∈ cs → p ∈ F)
    (hp : ∀ p, .packages p ∈ cs → p ∈ P) : ∀ r, Inv u F P r → Inv u F P (cs.foldl (Change.apply select) r) := by
  induction cs with
  | nil => exact fun _ h => h
  | cons c cs ih =>
    intro r h
    exact ih (fun p m => hf p (List.mem_cons_of_mem _ m)) (fun p m => hp p (List.mem_cons_of_mem _ m)) _
      (inv_apply c h (fun p e => hf p (e ▸ List.mem_cons_self)) (fun p e => hp p (e ▸ List.mem_cons_self)))

theorem not_changed {a b : Option Nat} (h : isRevisionChanged a b = false) : a = b ∧ a ≠ none := by
  unfold isRevisionChanged at h
  cases a <;> cases b <;> simp_all

/-- One revision: either the number grows by one, or everything is as it was. -/
theorem revise_step (u : Universe) (cs : List Change) (F P : List Provider) (hF : Honest F) (hP : Honest P)
    (uf : u.fonts ∈ F) (up : u.packages ∈ P) (hf : ∀ p, .fonts p ∈ cs → p ∈ F)
    (hp : ∀ p, .packages p ∈ cs → p ∈ P) :
    let v := u.step select (.revise cs)
    (v.revision = u.revision + 1 ∨ (v.revision = u.revision ∧ view v = view u)) ∧
      v.fonts ∈ F ∧ v.packages ∈ P := by
  intro v
  have h : Inv u F P (cs.foldl (Change.apply select) u.revise) :=
    inv_foldl cs hf hp _ ⟨rfl, rfl, rfl, rfl, Nat.le_refl _, rfl, fun _ => ⟨rfl, rfl⟩, ⟨uf, fun _ => rfl⟩,
      ⟨up, fun _ => rfl⟩⟩
  have hv : v = (cs.foldl (Change.apply select) u.revise).drop := rfl
  generalize cs.foldl (Change.apply select) u.revise = r at h hv
  obtain ⟨h1, h2, h3, h4, h5, h6, h7, h8, h9⟩ := h
  rw [hv]
  unfold Revising.drop
  dsimp only
  cases pc : r.packagesChanged && isRevisionChanged r.packagesRev r.inner.packages.rev with
  | true =>
    simp only [if_true, Bool.or_true, Bool.true_or]
    exact ⟨.inl (congrArg (· + 1) h4), h8.1, h9.1⟩
  | false =>
    simp only [if_false, Bool.or_false, Bool.false_eq_true]
    cases c : r.viewChanged || r.fontChanged && isRevisionChanged r.fontRev r.inner.fonts.rev ||
      r.filesRev != r.inner.filesRev with
    | true =>
      simp only [if_true]
      exact ⟨.inl (congrArg (· + 1) h4), h8.1, h9.1⟩
    | false =>
      simp only [if_false, Bool.false_eq_true]
      refine ⟨.inr ⟨h4, ?_⟩, h8.1, h9.1⟩
      simp only [Bool.or_eq_false_iff, bne_eq_false_iff_eq] at c
      obtain ⟨⟨c1, c2⟩, c3⟩ := c
      have ef : r.inner.fonts.content = u.fonts.content := by
        cases fc : r.fontChanged with
        | false => rw [h8.2 fc]
        | true =>
          rw [fc, Bool.true_and] at c2
          obtain ⟨a, b⟩ := not_changed c2
          rw [h2] at a b
          exact (hF _ uf _ h8.1 a b).symm
      have ep : r.inner.packages.content = u.packages.content := by
        cases fc : r.packagesChanged with
        | false => rw [h9.2 fc]
        | true =>
          rw [fc, Bool.true_and] at pc
          obtain ⟨a, b⟩ := not_changed pc
          rw [h3] at a b
          exact (hP _ up _ h9.1 a b).symm
      obtain ⟨e1, e2⟩ := h7 c1
      simp only [view, e1, e2, h6, ef, ep, ← c3, h1]

theorem history_revisions (F P : List Provider) (hF : Honest F) (hP : Honest P) (steps : List (List Change))
    (u : Universe) (uf : u.fonts ∈ F) (up : u.packages ∈ P) (hf : ∀ p, .fonts p ∈ steps.flatten → p ∈ F)
    (hp : ∀ p, .packages p ∈ steps.flatten → p ∈ P) :
    ∀ v ∈ history select u (steps.map .revise), u.revision < v.revision ∨ (v.revision = u.revision ∧ view v = view u) := by
  induction steps generalizing u with
  | nil =>
    intro v m
    rw [show v = u from List.mem_singleton.1 m]
    exact .inr ⟨rfl, rfl⟩
  | cons cs rest ih =>
    intro v m
    rcases List.mem_cons.1 m with e | m
    · rw [e]; exact .inr ⟨rfl, rfl⟩
    · obtain ⟨a, b, c⟩ := revise_step (select := select) u cs F P hF hP uf up
        (fun p q => hf p (List.mem_append_left _ q)) (fun p q => hp p (List.mem_append_left _ q))
      rcases ih _ b c (fun p q => hf p (List.mem_append_right _ q)) (fun p q => hp p (List.mem_append_right _ q)) v m
        with h | ⟨h, e⟩ <;> rcases a with a | ⟨a, e'⟩
      · exact .inl (by omega)
      · exact .inl (by omega)
      · exact .inl (by omega)
      · exact .inr ⟨by omega, e.trans e'⟩

/-- C121. In a project whose changes are made in revisions, the revision number never goes back, and any two
moments with the same number have the same entry, inputs, features, fonts, packages and files. -/
theorem revision_identifies_partial (u : Universe) (steps : List (List Change))
    (hF : Honest (fontsUsed u steps)) (hP : Honest (packagesUsed u steps)) (i j : Nat) (v w : Universe)
    (hi : (history select u (steps.map .revise))[i]? = some v)
    (hj : (history select u (steps.map .revise))[j]? = some w) (le : i ≤ j) :
    v.revision ≤ w.revision ∧ (v.revision = w.revision → view v = view w) := by
  suffices H : ∀ (F P : List Provider), Honest F → Honest P → ∀ (steps : List (List Change)) (u : Universe),
      u.fonts ∈ F → u.packages ∈ P → (∀ p, .fonts p ∈ steps.flatten → p ∈ F) →
      (∀ p, .packages p ∈ steps.flatten → p ∈ P) → ∀ i j v w,
      (history select u (steps.map .revise))[i]? = some v → (history select u (steps.map .revise))[j]? = some w →
      i ≤ j → v.revision ≤ w.revision ∧ (v.revision = w.revision → view v = view w) by
    refine H _ _ hF hP steps u List.mem_cons_self List.mem_cons_self ?_ ?_ i j v w hi hj le
    · intro p m
      exact List.mem_cons_of_mem _ (List.mem_filterMap.2 ⟨_, m, rfl⟩)
    · intro p m
      exact List.mem_cons_of_mem _ (List.mem_filterMap.2 ⟨_, m, rfl⟩)
  clear hi hj hF hP le
  intro F P hF hP steps
  induction steps with
  | nil =>
    intro u _ _ _ _ i j v w hi hj le
    cases i with
    | zero =>
      cases j with
      | zero => cases hi; cases hj; exact ⟨Nat.le_refl _, fun _ => rfl⟩
      | succ j => cases hj
    | succ i => cases hi
  | cons cs rest ih =>
    intro u uf up hf hp i j v w hi hj le
    cases i with
    | zero =>
      cases hi
      have m := List.mem_of_getElem? hj
      rcases history_revisions F P hF hP (cs :: rest) u uf up hf hp w m with h | ⟨h, e⟩
      · exact ⟨Nat.le_of_lt h, fun e => by omega⟩
      · exact ⟨Nat.le_of_eq h.symm, fun _ => e.symm⟩
    | succ i =>
      cases j with
      | zero => omega
      | succ j =>
        obtain ⟨_, b, c⟩ := revise_step (select := select) u cs F P hF hP uf up
          (fun p q => hf p (List.mem_append_left _ q)) (fun p q => hp p (List.mem_append_left _ q))
        exact ih _ b c (fun p q => hf p (List.mem_append_right _ q))
          (fun p q => hp p (List.mem_append_right _ q)) i j v w hi hj (by omega)

/-- A change of the entry, the inputs or the files, and fonts or packages without a revision number, always
lead to a new revision number. -/
theorem change_counts (u : Universe) (cs : List Change)
    (h : .flush ∈ cs ∨ (∃ i, .inputs i ∈ cs) ∨ (∃ e, .entry e ∈ cs) ∨ (∃ p, .entryFile p ∈ cs) ∨
      .files true ∈ cs ∨ (u.fonts.rev = none ∧ ∃ p, .fonts p ∈ cs) ∨
      (u.packages.rev = none ∧ ∃ p, .packages p ∈ cs)) :
    (u.step select (.revise cs)).revision = u.revision + 1 := by
  let Q (r : Revising) : Prop := r.viewChanged = true ∨ r.filesRev < r.inner.filesRev ∨
    (r.fontChanged = true ∧ u.fonts.rev = none) ∨ (r.packagesChanged = true ∧ u.packages.rev = none)
  let B (r : Revising) : Prop := r.filesRev = u.filesRev ∧ r.fontRev = u.fonts.rev ∧
    r.packagesRev = u.packages.rev ∧ r.inner.revision = u.revision ∧ u.filesRev ≤ r.inner.filesRev
  have sB : ∀ c r, B r → B (Change.apply select r c) := by
    intro c r ⟨h1, h2, h3, h4, h5⟩
    cases c with
    | entryFile p =>
      obtain ⟨a, b, _⟩ := setEntryFile_keeps (select := select) r.inner p
      exact ⟨h1, h2, h3, a.trans h4, by show _ ≤ (r.inner.setEntryFile select p).filesRev; rw [b]; exact h5⟩
    | entry e =>
      simp only [B, Change.apply]
      by_cases hr : r.inner.entry.root ≠ e.root
      · simp only [hr, if_true, not_false_eq_true, ne_eq]
        exact ⟨h1, h2, h3, h4, Nat.le_succ_of_le h5⟩
      · simp only [hr, if_false]
        exact ⟨h1, h2, h3, h4, h5⟩
    | files b =>
      cases b with
      | false => exact ⟨h1, h2, h3, h4, h5⟩
      | true => exact ⟨h1, h2, h3, h4, Nat.le_succ_of_le h5⟩
    | fonts p => exact ⟨h1, h2, h3, h4, h5⟩
    | packages p => exact ⟨h1, h2, h3, h4, h5⟩
    | inputs i => exact ⟨h1, h2, h3, h4, h5⟩
    | flush => exact ⟨h1, h2, h3, h4, h5⟩
  have sQ : ∀ c r, Q r → Q (Change.apply select r c) := by
    intro c r h
    cases c with
    | entryFile p => exact .inl rfl
    | entry e => exact .inl rfl
    | inputs i => exact .inl rfl
    | flush => exact .inl rfl
    | files b =>
      cases b with
      | false => exact h
      | true =>
        rcases h with h | h | h
        · exact .inl h
        · exact .inr (.inl (Nat.lt_succ_of_lt h))
        · exact .inr (.inr h)
    | fonts p =>
      rcases h with h | h | h | h
      · exact .inl h
      · exact .inr (.inl h)
      · exact .inr (.inr (.inl ⟨rfl, h.2⟩))
      · exact .inr (.inr (.inr h))
    | packages p =>
      rcases h with h | h | h | h
      · exact .inl h
      · exact .inr (.inl h)
      · exact .inr (.inr (.inl h))
      · exact .inr (.inr (.inr ⟨rfl, h.2⟩))
  have enter : ∀ c ∈ cs, (∀ r, B r → Q (Change.apply select r c)) →
      Q (cs.foldl (Change.apply select) u.revise) ∧ B (cs.foldl (Change.apply select) u.revise) := by
    intro c m q
    obtain ⟨l, l', e⟩ := List.append_of_mem m
    have b0 : B u.revise := ⟨rfl, rfl, rfl, rfl, Nat.le_refl _⟩
    have fB : ∀ (l : List Change) r, B r → B (l.foldl (Change.apply select) r) := by
      intro l
      induction l with
      | nil => exact fun _ h => h
      | cons c l ih => exact fun r h => ih _ (sB c r h)
    have fQ : ∀ (l : List Change) r, Q r → Q (l.foldl (Change.apply select) r) := by
      intro l
      induction l with
      | nil => exact fun _ h => h
      | cons c l ih => exact fun r h => ih _ (sQ c r h)
    rw [e, List.foldl_append, List.foldl_cons]
    exact ⟨fQ _ _ (q _ (fB _ _ b0)), fB _ _ (sB _ _ (fB _ _ b0))⟩
  have fin : Q (cs.foldl (Change.apply select) u.revise) ∧ B (cs.foldl (Change.apply select) u.revise) := by
    rcases h with h | ⟨i, h⟩ | ⟨e, h⟩ | ⟨p, h⟩ | h | ⟨n, p, h⟩ | ⟨n, p, h⟩
    · exact enter _ h fun r _ => .inl rfl
    · exact enter _ h fun r _ => .inl rfl
    · exact enter _ h fun r _ => .inl rfl
    · exact enter _ h fun r _ => .inl rfl
    · exact enter _ h fun r b => .inr (.inl (by
        show r.filesRev < r.inner.filesRev + 1
        rw [b.1]; exact Nat.lt_succ_of_le b.2.2.2.2))
    · exact enter _ h fun r _ => .inr (.inr (.inl ⟨rfl, n⟩))
    · exact enter _ h fun r _ => .inr (.inr (.inr ⟨rfl, n⟩))
  show (Revising.drop _).revision = _
  generalize cs.foldl (Change.apply select) u.revise = r at fin
  obtain ⟨q, b1, b2, b3, b4, b5⟩ := fin
  unfold Revising.drop
  dsimp only
  cases pc : r.packagesChanged && isRevisionChanged r.packagesRev r.inner.packages.rev with
  | true => simp only [if_true, Bool.or_true, Bool.true_or]; exact congrArg (· + 1) b4
  | false =>
    simp only [if_false, Bool.or_false, Bool.false_eq_true]
    rw [if_pos, b4]
    rcases q with q | q | ⟨q, n⟩ | ⟨q, n⟩
    · simp [q]
    · simp [Nat.ne_of_lt q]
    · simp [q, b2, n, isRevisionChanged]
    · rw [q, b3, n] at pc; simp [isRevisionChanged] at pc

/-- If nothing is changed in a revision, the number stays. -/
theorem nothing_counts (u : Universe) (cs : List Change) (h : ∀ c ∈ cs, c = .files false) :
    u.step select (.revise cs) = u := by
  have : ∀ (cs : List Change), (∀ c ∈ cs, c = .files false) → ∀ r, cs.foldl (Change.apply select) r = r := by
    intro cs
    induction cs with
    | nil => exact fun _ _ => rfl
    | cons c cs ih =>
      intro h r
      rw [List.foldl_cons, h c List.mem_cons_self]
      exact ih (fun c m => h c (List.mem_cons_of_mem _ m)) r
  show (Revising.drop _) = u
  rw [this cs h]
  simp [Revising.drop, Universe.revise]

/-- A project with two files. -/
def project : Universe := ⟨⟨some 0, some 1⟩, 0, false, ⟨0, none⟩, ⟨0, none⟩, 1, 1⟩

/-- Providers without revision numbers, as those of the server are, are honest. -/
theorem example_honest : Honest (fontsUsed project [[.fonts ⟨5, none⟩, .inputs 3], [.files true]]) ∧
    Honest (packagesUsed project [[.fonts ⟨5, none⟩, .inputs 3], [.files true]]) := by
  constructor
  · intro p hp q hq e n
    simp [fontsUsed, project] at hp
    rcases hp with e | e <;> rw [e] at n <;> exact absurd rfl n
  · intro p hp q hq e n
    simp [packagesUsed, project] at hp
    rw [hp] at n
    exact absurd rfl n

theorem example_history :
    (history (fun _ _ => none) project ([[.fonts ⟨5, none⟩, .inputs 3], [.files true]].map .revise)).map
      (·.revision) = [1, 2, 3] := by decide

/-- C121 fails for a project whose entry is set by `mutate_entry` of the universe: the number stays. -/
theorem mutate_entry_silent :
    let v := project.step (fun _ _ => none) (.mutateEntry ⟨some 0, some 2⟩)
    v.revision = project.revision ∧ view v ≠ view project := by decide

/-- C121 fails for `with_entry_file`: the number stays. -/
theorem with_entry_file_silent :
    let v := project.step (fun e p => some { e with main := some p }) (.withEntryFile 2)
    v.revision = project.revision ∧ view v ≠ view project := by decide

/-! ## What a revision sets -/

theorem drop_keeps (r : Revising) : r.drop.entry = r.inner.entry ∧ r.drop.inputs = r.inner.inputs ∧
    r.drop.fonts = r.inner.fonts ∧ r.drop.packages = r.inner.packages := by
  unfold Revising.drop
  dsimp only
  repeat' split
  all_goals simp [Universe.editFiles]

theorem foldl_keeps {α : Type} (f : Universe → α) (cs : List Change) (r : Revising)
    (h : ∀ c ∈ cs, ∀ r : Revising, f (c.apply select r).inner = f r.inner) :
    f (cs.foldl (Change.apply select) r).inner = f r.inner := by
  induction cs generalizing r with
  | nil => rfl
  | cons c cs ih =>
    rw [List.foldl_cons, ih _ fun c' m => h c' (List.mem_cons_of_mem _ m), h c List.mem_cons_self]

/-- **C121**: the entry that a revision sets last is the entry after it. -/
theorem entry_set (u : Universe) (before after : List Change) (e : Entry)
    (h : ∀ c ∈ after, (∀ e', c ≠ .entry e') ∧ ∀ p, c ≠ .entryFile p) :
    (u.step select (.revise (before ++ .entry e :: after))).entry = e := by
  simp only [Universe.step]
  rw [(drop_keeps _).1, List.foldl_append, List.foldl_cons, foldl_keeps (·.entry)]
  · rfl
  · intro c m r
    have := h c m
    cases c with
    | entry e' => exact absurd rfl (this.1 e')
    | entryFile p => exact absurd rfl (this.2 p)
    | files b => cases b <;> rfl
    | _ => rfl

/-- **C121**: so are the inputs. -/
theorem inputs_set (u : Universe) (before after : List Change) (i : Nat) (h : ∀ c ∈ after, ∀ j, c ≠ .inputs j) :
    (u.step select (.revise (before ++ .inputs i :: after))).inputs = i := by
  simp only [Universe.step]
  rw [(drop_keeps _).2.1, List.foldl_append, List.foldl_cons, foldl_keeps (·.inputs)]
  · rfl
  · intro c m r
    have := h c m
    cases c with
    | inputs j => exact absurd rfl (this j)
    | entryFile p => exact (setEntryFile_keeps (select := select) r.inner p).2.2.2.2.2
    | entry e => simp only [Change.apply]; split <;> rfl
    | files b => cases b <;> rfl
    | _ => rfl

/-- **C121**: so are the fonts. -/
theorem fonts_set (u : Universe) (before after : List Change) (f : Provider) (h : ∀ c ∈ after, ∀ g, c ≠ .fonts g) :
    (u.step select (.revise (before ++ .fonts f :: after))).fonts = f := by
  simp only [Universe.step]
  rw [(drop_keeps _).2.2.1, List.foldl_append, List.foldl_cons, foldl_keeps (·.fonts)]
  · rfl
  · intro c m r
    have := h c m
    cases c with
    | fonts j => exact absurd rfl (this j)
    | entryFile p => exact (setEntryFile_keeps (select := select) r.inner p).2.2.2.1
    | entry e => simp only [Change.apply]; split <;> rfl
    | files b => cases b <;> rfl
    | _ => rfl

/-- **C121**: so are the packages. -/
theorem packages_set (u : Universe) (before after : List Change) (f : Provider) (h : ∀ c ∈ after, ∀ g, c ≠ .packages g) :
    (u.step select (.revise (before ++ .packages f :: after))).packages = f := by
  simp only [Universe.step]
  rw [(drop_keeps _).2.2.2, List.foldl_append, List.foldl_cons, foldl_keeps (·.packages)]
  · rfl
  · intro c m r
    have := h c m
    cases c with
    | packages j => exact absurd rfl (this j)
    | entryFile p => exact (setEntryFile_keeps (select := select) r.inner p).2.2.2.2.1
    | entry e => simp only [Change.apply]; split <;> rfl
    | files b => cases b <;> rfl
    | _ => rfl

/-- **C121**: fonts and packages that say they are the same as before are no change, however often they are set. -/
theorem same_providers_silent (u : Universe) (cs : List Change) (hf : u.fonts.rev ≠ none) (hp : u.packages.rev ≠ none)
    (h : ∀ c ∈ cs, (∃ p, c = .fonts p ∧ p.rev = u.fonts.rev) ∨ ∃ p, c = .packages p ∧ p.rev = u.packages.rev) :
    (u.step select (.revise cs)).revision = u.revision ∧ (u.step select (.revise cs)).filesRev = u.filesRev := by
  have key : ∀ (cs : List Change) (r : Revising),
      (∀ c ∈ cs, (∃ p, c = .fonts p ∧ p.rev = u.fonts.rev) ∨ ∃ p, c = .packages p ∧ p.rev = u.packages.rev) →
      (r.viewChanged = false ∧ r.filesRev = u.filesRev ∧ r.fontRev = u.fonts.rev ∧ r.packagesRev = u.packages.rev ∧
        r.inner.fonts.rev = u.fonts.rev ∧ r.inner.packages.rev = u.packages.rev ∧ r.inner.filesRev = u.filesRev ∧
        r.inner.revision = u.revision) →
      (cs.foldl (Change.apply select) r).drop.revision = u.revision ∧
        (cs.foldl (Change.apply select) r).drop.filesRev = u.filesRev := by
    intro cs
    induction cs with
    | nil =>
      rintro r _ ⟨h1, h2, h3, h4, h5, h6, h7, h8⟩
      have a : isRevisionChanged u.fonts.rev u.fonts.rev = false := by
        unfold isRevisionChanged; cases hx : u.fonts.rev <;> simp_all
      have b : isRevisionChanged u.packages.rev u.packages.rev = false := by
        unfold isRevisionChanged; cases hx : u.packages.rev <;> simp_all
      simp [Revising.drop, h1, h2, h3, h4, h5, h6, h7, h8, a, b]
    | cons c cs ih =>
      rintro r hc ⟨h1, h2, h3, h4, h5, h6, h7, h8⟩
      rw [List.foldl_cons]
      refine ih _ (fun c' m => hc c' (List.mem_cons_of_mem _ m)) ?_
      rcases hc c List.mem_cons_self with ⟨p, rfl, hr⟩ | ⟨p, rfl, hr⟩
      · exact ⟨h1, h2, h3, h4, hr, h6, h7, h8⟩
      · exact ⟨h1, h2, h3, h4, h5, hr, h7, h8⟩
  exact key cs u.revise h ⟨rfl, rfl, rfl, rfl, rfl, rfl, rfl, rfl⟩

/-- A provider with the same revision, and one after it. -/
example : (Universe.step (fun e _ => some e) ⟨⟨none, none⟩, 0, false, ⟨1, some 4⟩, ⟨2, some 5⟩, 7, 8⟩ (.revise [.fonts ⟨9, some 4⟩])).revision = 8 ∧
    (Universe.step (fun e _ => some e) ⟨⟨none, none⟩, 0, false, ⟨1, some 4⟩, ⟨2, some 5⟩, 7, 8⟩ (.revise [.fonts ⟨9, some 5⟩])).revision = 9 := by
  decide

end Tinymist.Universe
