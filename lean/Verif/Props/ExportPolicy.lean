import Verif.Spec.ExportPolicy

/-!
# Exports and lints run exactly when their policy says so (C30)
-/

namespace Tinymist.ExportPolicy

/-- **C30.** Given a document, the generic decision is the documented one. -/
theorem shouldRun_iff (s : Signal) (w : When) (titled : Bool) :
    shouldRun s w (some titled) = some true ↔ Due s w titled := by
  obtain ⟨m, f, e⟩ := s
  cases w <;> cases m <;> cases f <;> cases e <;> cases titled <;> simp [shouldRun, Due]

/-- Given a document there is always a decision. -/
theorem shouldRun_decides (s : Signal) (w : When) (titled : Bool) :
    shouldRun s w (some titled) = some true ∨ shouldRun s w (some titled) = some false := by
  obtain ⟨m, f, e⟩ := s
  cases w <;> cases m <;> cases f <;> cases e <;> cases titled <;> simp [shouldRun]

/-- **C30.** The language server exports exactly when the compilation produced a document and the task is
due; a task without a policy is never due. -/
theorem signalExport_iff (s : Signal) (w : Option When) (titled : Option Bool) :
    signalExport s w titled = true ↔ ∃ w' t, w = some w' ∧ titled = some t ∧ Due s w' t := by
  obtain ⟨m, f, e⟩ := s
  cases titled with
  | none => simp [signalExport]
  | some t =>
    cases w with
    | none => simp [signalExport]
    | some w => cases w <;> cases m <;> cases f <;> cases e <;> cases t <;> simp [signalExport, Due]

/-- **C30.** The same for the exporter of the compute graph. -/
theorem exportBytes_iff (s : Signal) (w : Option When) (titled : Option Bool) :
    exportBytes s w titled = true ↔ ∃ w' t, w = some w' ∧ titled = some t ∧ Due s w' t := by
  obtain ⟨m, f, e⟩ := s
  cases titled with
  | none => simp [exportBytes]
  | some t =>
    cases w with
    | none => simp [exportBytes, needsRun, shouldRun]
    | some w =>
      cases w <;> cases m <;> cases f <;> cases e <;> cases t <;>
        simp [exportBytes, needsRun, shouldRun, Due]

/-- **C30.** The server's export path and the compute graph's agree on every policy, signal and
document. -/
theorem exports_agree (s : Signal) (w : Option When) (titled : Option Bool) :
    signalExport s w titled = exportBytes s w titled := by
  rw [Bool.eq_iff_iff, signalExport_iff, exportBytes_iff]

/-- **C30.** Lints run exactly when due. Without a document they run when they would be due even for an
untitled one. -/
theorem shouldLint_iff (s : Signal) (w : When) (titled : Option Bool) :
    shouldLint s w titled = true ↔ Due s w (titled.getD false) := by
  obtain ⟨m, f, e⟩ := s
  cases titled with
  | none => cases w <;> cases m <;> cases f <;> cases e <;> simp [shouldLint, shouldRun, Due]
  | some t =>
    cases w <;> cases m <;> cases f <;> cases e <;> cases t <;> simp [shouldLint, shouldRun, Due]

/-- **C30.** Merging signals loses no trigger and adds none. -/
theorem due_merge (a b : Signal) (w : When) (t : Bool) :
    Due (merge a b) w t ↔ Due a w t ∨ Due b w t := by
  obtain ⟨m, f, e⟩ := a
  obtain ⟨m', f', e'⟩ := b
  simp only [Due, merge, Bool.or_eq_true]
  constructor
  · rintro ⟨h, h' | ⟨h1, h2⟩ | ⟨h1, h2⟩ | ⟨h1, h2, h3⟩⟩
    · rcases h' with h' | h' <;> simp [h, h']
    · rcases h2 with h2 | h2 <;> simp [h1, h2]
    · rcases h2 with h2 | h2 <;> simp [h1, h2]
    · rcases h2 with h2 | h2 <;> simp [h1, h2, h3]
  · rintro (⟨h, h' | ⟨h1, h2⟩ | ⟨h1, h2⟩ | ⟨h1, h2, h3⟩⟩ | ⟨h, h' | ⟨h1, h2⟩ | ⟨h1, h2⟩ | ⟨h1, h2, h3⟩⟩)
    <;> simp [*]

/-- **C30.** Over a whole history of signals, merged one after another: the task is due iff it was due for
one of them. -/
theorem due_merges (l : List Signal) (a : Signal) (w : When) (t : Bool) :
    Due (l.foldl merge a) w t ↔ ∃ s ∈ a :: l, Due s w t := by
  induction l generalizing a with
  | nil => simp
  | cons b l ih =>
    rw [List.foldl_cons, ih]
    simp only [List.mem_cons, exists_eq_or_imp, due_merge]
    grind

theorem check_iff (s : Signal) (w : Option When) :
    check s w = true ↔ ∃ w' t, w = some w' ∧ Due s w' t := by
  obtain ⟨m, f, e⟩ := s
  cases w with
  | none => simp [check, needsRun, shouldRun]
  | some w =>
    cases w <;> cases m <;> cases f <;> cases e <;> simp [check, needsRun, shouldRun, Due]

/-- **C30.** A document is compiled for every export that is due: whatever is exported afterwards, the
flag of the compilation it needs was set. -/
theorem preconfig_covers (s : Signal) (t : Timings) (titled : Option Bool) :
    ((exportBytes s t.pdf titled || exportBytes s t.svg titled || exportBytes s t.png titled ||
        exportBytes s t.text titled || exportBytes s t.md titled) = true → (preconfig s t).1 = true) ∧
      (exportBytes s t.html titled = true → (preconfig s t).2 = true) := by
  have key : ∀ w, exportBytes s w titled = true → check s w = true := by
    intro w h
    obtain ⟨w', t', hw, _, hd⟩ := (exportBytes_iff s w titled).mp h
    exact (check_iff s w).mpr ⟨w', t', hw, hd⟩
  constructor
  · intro h
    simp only [Bool.or_eq_true] at h
    simp only [preconfig, List.any_cons, Bool.or_eq_true]
    rcases h with (((h | h) | h) | h) | h <;> simp [key _ h]
  · intro h
    simp [preconfig, key _ h]

/-- **C30.** And only then: a document is not compiled to HTML unless an HTML export could be due, nor paged
unless there was an edit, an entry change, or an export that could be due. -/
theorem preconfig_only (s : Signal) (t : Timings) :
    ((preconfig s t).2 = true → ∃ w d, t.html = some w ∧ Due s w d) ∧
      ((preconfig s t).1 = true → s.byMem = true ∨ s.byEntry = true ∨
        ∃ w d, some w ∈ [t.pdf, t.svg, t.png, t.text, t.md] ∧ Due s w d) := by
  constructor
  · intro h
    simp only [preconfig, List.any_cons, List.any_nil, Bool.or_false, Bool.or_eq_true] at h
    rcases h with h | h
    · obtain ⟨w, d, hw, hd⟩ := (check_iff s _).mp h
      injection hw with hw; subst hw; exact absurd rfl hd.1
    · exact (check_iff s _).mp h
  · intro h
    simp only [preconfig, List.any_cons, List.any_nil, Bool.or_false, Bool.or_eq_true] at h
    rcases h with h | h
    · obtain ⟨w, d, hw, hd⟩ := (check_iff s _).mp h
      injection hw with hw; subst hw
      rcases hd.2 with h | ⟨_, h⟩ | ⟨h, _⟩ | ⟨h, _⟩
      · exact .inr (.inl h)
      · exact .inl h
      · cases h
      · cases h
    · refine .inr (.inr ?_)
      rcases h with h | h | h | h | h <;>
      · obtain ⟨w, d, hw, hd⟩ := (check_iff s _).mp h
        exact ⟨w, d, by simp [hw], hd⟩

/-- Cases on both sides. -/
example : Due ⟨false, true, false⟩ .onDocumentHasTitle true ∧
    ¬ Due ⟨false, true, false⟩ .onDocumentHasTitle false ∧ ¬ Due ⟨true, true, true⟩ .never true ∧
    signalExport ⟨false, true, false⟩ (some .onDocumentHasTitle) (some true) = true ∧
    signalExport ⟨false, true, false⟩ (some .onSave) none = false ∧
    shouldLint ⟨true, false, false⟩ .onSave (some true) = false := by
  simp [Due]; decide

end Tinymist.ExportPolicy
