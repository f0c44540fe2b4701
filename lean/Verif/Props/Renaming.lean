import Verif.Lemmas.Renaming
import Verif.Model.Scoping

/-!
# C150, C151: what can be renamed is told beforehand; going to a definition
-/

namespace Tinymist.Renaming

open Paths

/-! ## C150 -/

/-- **C150, what is offered**: a place is offered for renaming exactly if it is not a field access and means a variable or a
function of the user's own files, which is shown by its name, or is the string of a path to a file of the user's own, which
is shown by the path. The range is that of the place. -/
theorem prepared_iff (s : Spot) (k : Finds) (r : Range) (t : Text) :
    prepare s k = some (r, t) ↔ s.node ≠ .fieldAccess ∧ r = s.range ∧
      ∃ d, definition s k = some d ∧ ((OwnName d ∧ t = d.name) ∨ OwnPath s.node d t) := by
  rw [prepare]
  by_cases hn : s.node = .fieldAccess
  · simp [hn]
  · rw [if_neg hn]
    cases hd : definition s k with
    | none => simp
    | some d =>
      simp only [Option.map_eq_some_iff, prepareRenaming_iff, Prod.mk.injEq, Option.some.injEq]
      constructor
      · rintro ⟨a, h1, h2, rfl⟩
        exact ⟨hn, h2.symm, d, rfl, h1⟩
      · rintro ⟨_, h2, _, rfl, h1⟩
        exact ⟨t, h1, h2.symm, rfl⟩

theorem rename_of_name {s : Spot} (hs : IsName s.cls) {k : Finds} {d : Def} (hd : definition s k = some d)
    (ho : OwnName d) (r : Search) (new : Text) : rename s k r new = some (.edits (editsOf new (r.idents d))) := by
  have hf : d.file.isSome = true := by obtain ⟨⟨p, hp, _⟩, _⟩ := ho; rw [hp]; rfl
  rw [rename]
  simp only [hd]
  rw [(prepareRenaming_iff s.node d d.name).mpr (Or.inl ⟨ho, rfl⟩)]
  rcases hs with e | e
  · simp [renameAs, findReferences, e, hd, identRoot, hf]
  · simp [renameAs, findReferences, e, hd, identRoot, hf]

theorem name_not_path {s : Spot} (hs : IsName s.cls) {k : Finds} {d : Def} (hd : definition s k = some d) (t : Text) :
    ¬ OwnPath s.node d t := by
  rintro ⟨_, _, e⟩
  rcases hs with h | h <;> (rw [definition, h] at hd; simp [identDef, e] at hd)

/-- **C150, names**: when a name was offered for renaming, renaming it gives the new name, whatever it is, to every place
that the search for references finds: every file is there once, with one edit for each of its places, in their order. -/
theorem offered_name_renamed (s : Spot) (hs : IsName s.cls) (k : Finds) (r : Search) (new : Text) (p : Range × Text)
    (h : prepare s k = some p) :
    ∃ d es, definition s k = some d ∧ p.2 = d.name ∧ rename s k r new = some (.edits es) ∧ (es.map (·.1)).Nodup ∧
      findReferences s k r = some (r.idents d) ∧
      ∀ f, editsIn f es = ((r.idents d).filter (·.1 = f)).map fun x => ⟨x.2, new⟩ := by
  obtain ⟨_, _, d, hd, h | h⟩ := (prepared_iff s k p.1 p.2).mp h
  · refine ⟨d, editsOf new (r.idents d), hd, h.2, rename_of_name hs hd h.1 r new, ?_, ?_, ?_⟩
    · exact (editsOf_from new (r.idents d) [] List.nodup_nil 0).1
    · have hf : d.file.isSome = true := by obtain ⟨⟨⟨p, hp, _⟩, _⟩, _⟩ := h; rw [hp]; rfl
      rcases hs with e | e <;> simp [findReferences, e, hd, identRoot, hf]
    · intro f
      have := (editsOf_from new (r.idents d) [] List.nodup_nil f).2
      rw [editsIn_nil, List.nil_append] at this
      exact this
  · exact (name_not_path hs hd _ h).elim

/-- **C150, what is searched for**: for a name that is defined in a file, where this name is used; for a label or a reference to
one, where the label is used; for the path of an import or an include, nothing. -/
theorem references_found (s : Spot) (k : Finds) (r : Search) :
    (IsName s.cls → ∀ d, definition s k = some d → d.file ≠ none → findReferences s k r = some (r.idents d)) ∧
      (s.cls = .ref ∨ s.cls = .label false → ∀ d, definition s k = some d → findReferences s k r = r.labels d) ∧
      (s.cls = .importPath ∨ s.cls = .includePath → findReferences s k r = none) := by
  refine ⟨fun hs d hd hf => ?_, fun hs d hd => ?_, fun hs => ?_⟩
  · have hf : d.file.isSome = true := by cases h : d.file with
      | none => exact (hf h).elim
      | some _ => rfl
    rcases hs with e | e <;> simp [findReferences, e, hd, identRoot, hf]
  · rcases hs with e | e <;> simp [findReferences, e, hd]
  · rcases hs with e | e <;> simp [findReferences, e]

/-- A place in `main.typ` naming the function `f` of `lib.typ`. -/
def lib : Place := ⟨1, false, some "/w/lib.typ".toList, true⟩
def fDef : Def := ⟨.func, ['f'], some lib, some (5, 6), none, some (.func (.withArgs .closure))⟩
def call : Spot := ⟨.callee, .ident, (20, 21), ['f']⟩
def known (d : Def) : Finds := ⟨some d, none, true, none, none⟩

example : IsName call.cls ∧ prepare call (known fDef) = some ((20, 21), ['f']) ∧
    rename call (known fDef) ⟨fun _ => [(1, (5, 6)), (0, (20, 21)), (1, (30, 31))], fun _ => none⟩ ['g'] =
      some (.edits [(1, [⟨(5, 6), ['g']⟩, ⟨(30, 31), ['g']⟩]), (0, [⟨(20, 21), ['g']⟩])]) := by
  exact ⟨Or.inr rfl, by decide, by decide⟩

example : definition ⟨.ref, .ident, (3, 9), ['@', 'a']⟩ ⟨none, none, true, some ⟨['a'], lib, (0, 1), (0, 9)⟩, none⟩ =
    some (bibDef ⟨['a'], lib, (0, 1), (0, 9)⟩) := rfl

/-- **C150, nothing unasked**: what is renamed was offered, unless it is a field access. -/
theorem renamed_offered_partial (s : Spot) (hs : s.node ≠ .fieldAccess) (k : Finds) (r : Search) (new : Text) (c : Change)
    (h : rename s k r new = some c) : ∃ p, prepare s k = some p := by
  rw [rename] at h
  cases hd : definition s k with
  | none => rw [hd] at h; cases h
  | some d =>
    simp only [hd] at h
    cases hp : prepareRenaming s.node d with
    | none => rw [hp] at h; cases h
    | some t => exact ⟨(s.range, t), (prepared_iff s k _ _).mpr ⟨hs, rfl, d, hd, (prepareRenaming_iff _ _ _).mp hp⟩⟩

/-- **C150 fails** for fields of modules: `lib.f` is not offered for renaming, but asked to rename it the server does. -/
theorem field_renamed_unoffered (k : Finds) (d : Def) (hk : k.field = some d) (hd : OwnName d) (range : Range) (t : Text)
    (r : Search) (new : Text) :
    prepare ⟨.varAccess, .fieldAccess, range, t⟩ k = none ∧
      rename ⟨.varAccess, .fieldAccess, range, t⟩ k r new = some (.edits (editsOf new (r.idents d))) :=
  ⟨if_pos rfl, rename_of_name (s := ⟨.varAccess, .fieldAccess, range, t⟩) (Or.inl rfl) hk hd r new⟩

example : OwnName fDef := ⟨⟨lib, rfl, rfl⟩, Or.inr ⟨Or.inl rfl, Or.inr ⟨_, rfl, .withArgs .closure⟩⟩⟩

/-- **C150, the user's own**: what is offered, and what is renamed even if it was not offered, is defined in a file, and the
file is not one of a package. -/
theorem own_files_only (s : Spot) (k : Finds) (r : Search) (new : Text) :
    (prepare s k ≠ none ∨ rename s k r new ≠ none) →
      ∃ d p, definition s k = some d ∧ d.file = some p ∧ p.package = false := by
  have key : ∀ d t, prepareRenaming s.node d = some t → ∃ p, d.file = some p ∧ p.package = false := by
    intro d t ht
    rcases (prepareRenaming_iff s.node d t).mp ht with h | h
    · exact h.1.1
    · exact h.1
  rintro (h | h)
  · obtain ⟨p, hp⟩ := Option.ne_none_iff_exists'.mp h
    obtain ⟨_, _, d, hd, ht⟩ := (prepared_iff s k p.1 p.2).mp hp
    obtain ⟨q, hq⟩ := key d p.2 ((prepareRenaming_iff _ _ _).mpr ht)
    exact ⟨d, q, hd, hq⟩
  · rw [rename] at h
    cases hd : definition s k with
    | none => rw [hd] at h; exact (h rfl).elim
    | some d =>
      simp only [hd] at h
      cases hp : prepareRenaming s.node d with
      | none => rw [hp] at h; exact (h rfl).elim
      | some t =>
        obtain ⟨q, hq⟩ := key d t hp
        exact ⟨d, q, rfl, hq⟩

theorem refused {s : Spot} {k : Finds} (h : ∀ d, definition s k = some d → ∀ t, prepareRenaming s.node d ≠ some t)
    (r : Search) (new : Text) : prepare s k = none ∧ rename s k r new = none := by
  rw [prepare, rename]
  cases hd : definition s k with
  | none => simp
  | some d =>
    have hp : prepareRenaming s.node d = none := by
      cases hp : prepareRenaming s.node d with
      | none => rfl
      | some t => exact (h d hd t hp).elim
    simp [hp]

theorem not_written {f : Fn} (hf : f = .native ∨ f = .element) (n : Nat) :
    ¬ Written (Nat.rec f (fun _ => Fn.withArgs) n : Fn) := by
  induction n with
  | zero => rcases hf with rfl | rfl <;> exact fun h => (nomatch h)
  | succ n ih => exact fun h => by cases h with | withArgs h => exact ih h

/-- **C150, functions of typst** stay: a function that is a native one or an element, with arguments given in advance any
number of times, is neither offered nor renamed. -/
theorem native_stays (s : Spot) (k : Finds) (d : Def) (hd : definition s k = some d) (hk : d.kind = .func ∨ d.kind = .closure)
    (n : Nat) (f : Fn) (hf : f = .native ∨ f = .element) (hv : d.value = some (.func (Nat.rec f (fun _ => Fn.withArgs) n)))
    (r : Search) (new : Text) : prepare s k = none ∧ rename s k r new = none := by
  refine refused ?_ r new
  intro d' hd' t ht
  obtain rfl : d = d' := by rw [hd] at hd'; exact Option.some.inj hd'
  have hw : ¬ Written (Nat.rec f (fun _ => Fn.withArgs) n : Fn) := not_written hf n
  rcases (prepareRenaming_iff s.node d t).mp ht with ⟨⟨_, h | ⟨_, h | ⟨g, h, hg⟩⟩⟩, _⟩ | ⟨_, h, _⟩
  · rw [h] at hk; rcases hk with hk | hk <;> cases hk
  · rw [hv] at h; cases h
  · rw [hv] at h; cases h; exact hw hg
  · rcases hk with hk | hk <;> (rw [hk] at h; rcases h with h | h | h | h | h | h <;> cases h)

/-- **C150, labels and keys** of bibliographies are neither offered nor renamed, and neither is anything else that is no
name and no path. -/
theorem labels_stay (s : Spot) (h : ¬ IsName s.cls ∧ ¬ IsPath s.cls) (k : Finds) (r : Search) (new : Text) :
    prepare s k = none ∧ rename s k r new = none := by
  refine refused ?_ r new
  intro d hd t ht
  have hl : labelOf k = some d → False := by
    intro hl
    rw [labelOf] at hl
    split at hl
    · rcases Option.or_eq_some_iff.mp hl with h | ⟨_, h⟩
      · obtain ⟨e, _, rfl⟩ := Option.map_eq_some_iff.mp h
        rcases (prepareRenaming_iff _ _ _).mp ht with ⟨⟨_, h | ⟨h | h, _⟩⟩, _⟩ | ⟨_, h, _⟩
        · cases h
        · cases h
        · cases h
        · rcases h with h | h | h | h | h | h <;> cases h
      · obtain ⟨e, _, rfl⟩ := Option.map_eq_some_iff.mp h
        have hk : (labelDef e).kind = .label ∨ (labelDef e).kind = .content := by
          cases hb : e.known <;> simp [labelDef, hb]
        rcases (prepareRenaming_iff _ _ _).mp ht with ⟨⟨_, h | ⟨h | h, _⟩⟩, _⟩ | ⟨_, h, _⟩
        · rcases hk with hk | hk <;> (rw [hk] at h; cases h)
        · rcases hk with hk | hk <;> (rw [hk] at h; cases h)
        · rcases hk with hk | hk <;> (rw [hk] at h; cases h)
        · rcases hk with hk | hk <;> (rw [hk] at h; rcases h with h | h | h | h | h | h <;> cases h)
    · cases hl
  obtain ⟨h1, h2⟩ := h
  rw [definition] at hd
  cases hc : s.cls with
  | varAccess => exact h1 (Or.inl hc)
  | callee => exact h1 (Or.inr hc)
  | importPath => exact h2 (Or.inl hc)
  | includePath => exact h2 (Or.inr hc)
  | label e => cases e <;> simp only [hc] at hd; exact hl hd; cases hd
  | ref => simp only [hc] at hd; exact hl hd
  | normal => simp [hc] at hd

example : ¬ IsName Class.ref ∧ ¬ IsPath Class.ref := by
  constructor <;> (rintro (h | h) <;> cases h)

/-- **C150, files by their paths only**: a module's name, like `lib` in `lib.f`, is not offered and not renamed. -/
theorem module_name_stays (s : Spot) (hs : IsName s.cls) (k : Finds) (d : Def) (hd : definition s k = some d)
    (hm : IsModule d.kind) (r : Search) (new : Text) : prepare s k = none ∧ rename s k r new = none := by
  refine refused ?_ r new
  intro d' hd' t ht
  obtain rfl : d = d' := by rw [hd] at hd'; exact Option.some.inj hd'
  rcases (prepareRenaming_iff _ _ _).mp ht with ⟨⟨_, h⟩, _⟩ | h
  · rcases hm with hm | hm | hm | hm | hm | hm <;>
      (rcases h with h | ⟨h | h, _⟩ <;> (rw [hm] at h; cases h))
  · exact name_not_path hs hd t h

theorem withEnding_ends (new : Text) : ∃ a, withEnding new = a ++ ['.', 't', 'y', 'p'] := by
  rw [withEnding]
  split
  · rename_i h
    obtain ⟨a, h⟩ := List.isSuffixOf_iff_suffix.mp h
    exact ⟨a, h.symm⟩
  · exact ⟨new, rfl⟩

theorem withEnding_eq {new full : Text} (h : Completed new full) : withEnding new = full := by
  have ht : ".typ".toList = ['.', 't', 'y', 'p'] := by decide +kernel
  rw [Completed, ht] at h
  rw [withEnding]
  rcases h with ⟨⟨a, h1⟩, rfl⟩ | ⟨h1, rfl⟩
  · rw [if_pos (List.isSuffixOf_iff_suffix.mpr ⟨a, h1.symm⟩)]
  · rw [if_neg]
    intro h
    obtain ⟨a, h⟩ := List.isSuffixOf_iff_suffix.mp h
    exact h1 ⟨a, h.symm⟩

theorem completed (new : Text) : Completed new (withEnding new) := by
  have ht : ".typ".toList = ['.', 't', 'y', 'p'] := by decide +kernel
  rw [Completed, ht, withEnding]
  by_cases h : ['.', 't', 'y', 'p'].isSuffixOf new = true
  · rw [if_pos h]
    obtain ⟨a, h⟩ := List.isSuffixOf_iff_suffix.mp h
    exact Or.inl ⟨⟨a, h.symm⟩, rfl⟩
  · rw [if_neg h]
    refine Or.inr ⟨?_, rfl⟩
    rintro ⟨a, e⟩
    exact h (List.isSuffixOf_iff_suffix.mpr ⟨a, e.symm⟩)

theorem withEnding_absolute (new : Text) : isAbsolute (withEnding new) = isAbsolute new := by
  rw [withEnding]
  split
  · rfl
  · cases new with
    | nil => rfl
    | cons c cs => rw [isAbsolute_append (by simp)]

theorem withEnding_ne_nil (new : Text) : withEnding new ≠ [] := by
  obtain ⟨a, h⟩ := withEnding_ends new
  rw [h]; simp

/-- The way from one path to another exists exactly if both are absolute, or both are relative and the new one leads up at
least as far; it is relative, and leads from the old path to the new one. -/
theorem way_iff (old new : Text) :
    ((isAbsolute old = true ∧ isAbsolute new = true) ∨
      (isAbsolute old = false ∧ isAbsolute new = false ∧ climbs old ≤ climbs (withEnding new)) →
        ∃ d, way old new = some d ∧ isAbsolute d = false ∧ Same (join old d) (withEnding new)) ∧
    (¬ ((isAbsolute old = true ∧ isAbsolute new = true) ∨
      (isAbsolute old = false ∧ isAbsolute new = false ∧ climbs old ≤ climbs (withEnding new))) → way old new = none) := by
  have hn := withEnding_absolute new
  constructor
  · rintro (⟨h1, h2⟩ | ⟨h1, h2, h3⟩)
    · obtain ⟨d, e, hs⟩ := diff_absolute (withEnding new) old (hn.trans h2) h1
      have hr := diff_absolute_relative (hn.trans h2) h1 e
      exact ⟨d, by simp [way, e, hr], hr, hs⟩
    · obtain ⟨d, e, hs⟩ := diff_leads_to_target_partial (withEnding new) old (withEnding_ne_nil new)
        (Or.inl (hn.trans (h2.trans h1.symm))) h3
      have hr := diff_relative (hn.trans h2) h1 e
      exact ⟨d, by simp [way, e, hr], hr, hs⟩
  · intro h
    cases h1 : isAbsolute old with
    | true =>
      cases h2 : isAbsolute new with
      | true => exact (h (Or.inl ⟨h1, h2⟩)).elim
      | false =>
        rw [way, diff, diffPaths, isAbsolute_cleanForDiff, isAbsolute_cleanForDiff, hn, h1, h2, if_pos (by simp),
          if_neg (by simp)]
    | false =>
      cases h2 : isAbsolute new with
      | true =>
        have ha : isAbsolute (cleanForDiff (withEnding new)) = true := by rw [isAbsolute_cleanForDiff, hn, h2]
        rw [way, diff, diffPaths, isAbsolute_cleanForDiff, isAbsolute_cleanForDiff, hn, h1, h2, if_pos (by simp),
          if_pos rfl]
        simp [ha]
      | false =>
        have h3 : climbs (withEnding new) < climbs old := Nat.lt_of_not_le fun h3 => h (Or.inr ⟨h1, h2, h3⟩)
        obtain ⟨a, ha⟩ := withEnding_ends new
        rw [ha] at h3 hn
        rw [way, ha, diff_none a old (hn.trans h2) h1 h3]

/-- **C150, paths**: when the path of an import or include was offered for renaming, renaming it works exactly if the file is
on the disk and the old and the new path are both absolute, or both relative with the new one leading up at least as far.
Then the file is moved along a relative way that leads from the old path to the new one, which gets the ending `.typ` if
it does not have it. -/
theorem offered_path_renamed_iff (s : Spot) (hs : IsPath s.cls) (k : Finds) (r : Search) (new t : Text) (range : Range)
    (hn : s.node = .str t) (full : Text) (hfull : Completed new full) (h : prepare s k = some (range, t)) :
    ∃ d, definition s k = some d ∧
    ((∃ c, rename s k r new = some c) ↔ (∃ p, d.file.bind (·.path) = some p) ∧
      ((isAbsolute t = true ∧ isAbsolute new = true) ∨
        (isAbsolute t = false ∧ isAbsolute new = false ∧ climbs t ≤ climbs full))) ∧
    ∀ c, rename s k r new = some c → ∃ p w, d.file.bind (·.path) = some p ∧ c = .moved p w ∧ isAbsolute w = false ∧
      Same (join t w) full := by
  obtain ⟨_, _, d, hd, ht⟩ := (prepared_iff s k range t).mp h
  refine ⟨d, hd, ?_⟩
  have hr : rename s k r new = (d.file.bind (·.path)).bind fun p => (way t new).map (.moved p) := by
    rw [rename]
    simp only [hd]
    rw [(prepareRenaming_iff s.node d t).mpr ht]
    rcases hs with e | e <;>
      (simp only [renameAs, e, renameFile, hn, pathText]; cases d.file.bind (·.path) <;> rfl)
  rw [hr]
  obtain ⟨w1, w2⟩ := way_iff t new
  rw [withEnding_eq hfull] at w1 w2
  constructor
  · constructor
    · rintro ⟨c, hc⟩
      obtain ⟨p, hp, hc⟩ := Option.bind_eq_some_iff.mp hc
      refine ⟨⟨p, hp⟩, Classical.byContradiction fun hcon => ?_⟩
      rw [w2 hcon] at hc; cases hc
    · rintro ⟨⟨p, hp⟩, hc⟩
      obtain ⟨w, hw, _⟩ := w1 hc
      exact ⟨.moved p w, by rw [hp, hw]; rfl⟩
  · intro c hc
    obtain ⟨p, hp, hc⟩ := Option.bind_eq_some_iff.mp hc
    obtain ⟨w, hw, rfl⟩ := Option.map_eq_some_iff.mp hc
    by_cases hcon : (isAbsolute t = true ∧ isAbsolute new = true) ∨
        (isAbsolute t = false ∧ isAbsolute new = false ∧ climbs t ≤ climbs full)
    · obtain ⟨w', hw', h1, h2⟩ := w1 hcon
      obtain rfl : w = w' := by rw [hw] at hw'; exact Option.some.inj hw'
      exact ⟨p, w, hp, rfl, h1, h2⟩
    · rw [w2 hcon] at hw; cases hw

/-- A path in an import. -/
def imported (t : Text) : Spot := ⟨.importPath, .str t, (8, 10 + t.length), '"' :: t ++ ['"']⟩
def libFile : Def := ⟨.module, "lib".toList, some lib, none, none, none⟩
def noSearch : Search := ⟨fun _ => [], fun _ => none⟩

example : prepare (imported "lib.typ".toList) (known libFile) = some ((8, 17), "lib.typ".toList) ∧
    rename (imported "lib.typ".toList) (known libFile) noSearch "sub/new".toList =
      some (.moved "/w/lib.typ".toList "../sub/new.typ".toList) := by decide +kernel

/-- **C150 fails** for paths: `../lib.typ` is offered, but cannot be renamed to `new`. -/
theorem offered_path_refused :
    prepare (imported "../lib.typ".toList) (known libFile) = some ((8, 20), "../lib.typ".toList) ∧
    rename (imported "../lib.typ".toList) (known libFile) noSearch "new".toList = none := by decide +kernel

/-- **C150 fails** for files that are not saved: their paths are offered, but not renamed. -/
theorem untitled_refused (s : Spot) (hs : IsPath s.cls) (k : Finds) (d : Def) (p : Place) (t : Text) (hn : s.node = .str t)
    (hd : definition s k = some d) (hf : d.file = some p) (hm : IsModule d.kind) (hp : p.package = false)
    (hu : p.path = none) (r : Search) (new : Text) :
    prepare s k = some (s.range, t) ∧ rename s k r new = none := by
  have h : prepare s k = some (s.range, t) :=
    (prepared_iff s k _ _).mpr ⟨by rw [hn]; simp, rfl, d, hd, Or.inr ⟨⟨p, hf, hp⟩, hm, hn⟩⟩
  refine ⟨h, ?_⟩
  obtain ⟨d', hd', h1, _⟩ := offered_path_renamed_iff s hs k r new t s.range hn _ (completed new) h
  obtain rfl : d = d' := by rw [hd] at hd'; exact Option.some.inj hd'
  cases hr : rename s k r new with
  | none => rfl
  | some c =>
    obtain ⟨⟨q, hq⟩, _⟩ := h1.mp ⟨c, hr⟩
    rw [hf] at hq
    simp [hu] at hq

example : prepare (imported "a.typ".toList) (known { libFile with file := some ⟨2, false, none, true⟩ }) =
    some ((8, 15), "a.typ".toList) := by decide +kernel

/-- **C150 fails** for the text shown: that of a path lacks the quotes that the range has. -/
theorem path_shown_without_quotes (t : Text) (k : Finds) (range : Range) (shown : Text)
    (h : prepare (imported t) k = some (range, shown)) (hd : ∀ d, definition (imported t) k = some d → IsModule d.kind) :
    range = (imported t).range ∧ (imported t).text = '"' :: shown ++ ['"'] := by
  obtain ⟨_, h1, d, h2, h3⟩ := (prepared_iff (imported t) k range shown).mp h
  refine ⟨h1, ?_⟩
  rcases h3 with ⟨⟨_, h3⟩, _⟩ | ⟨_, _, h3⟩
  · have hm := hd d h2
    rcases hm with hm | hm | hm | hm | hm | hm <;>
      (rcases h3 with h3 | ⟨h3 | h3, _⟩ <;> (rw [hm] at h3; cases h3))
  · cases h3; rfl

/-- A world without a library. -/
def bareWorld : Scoping.World := ⟨fun _ _ => none, fun _ => none, fun _ => 0⟩

/-- `let x` in one file, `import "..": x as y` and `y` in another. -/
def aliased : List Scoping.E :=
  [.letPat [(1, 10)] .skip,
   .seq (.imp ⟨20, .path 21 0, none, .items [⟨[(22, 10)], some (23, 11)⟩]⟩) (.ident 24 11 false)]

/-- **C150 fails** for the text shown at an alias: it is the name of what the alias stands for. Where `x` is imported as `y`,
`y` means the variable `x`, so that `x` is shown in the range of `y`. -/
theorem alias_shown_by_other_name :
    Scoping.definition bareWorld aliased 1 24 = some (.decl (.var 1 10)) ∧
    ∀ (range : Range) (p : Place), p.package = false →
      prepare ⟨.varAccess, .ident, range, ['y']⟩ (known ⟨.var, ['x'], some p, some (0, 1), none, none⟩) =
        some (range, ['x']) := by
  refine ⟨by decide, fun range p hp => (prepared_iff _ _ _ _).mpr ⟨by simp, rfl, _, rfl, Or.inl ⟨⟨⟨p, rfl, hp⟩, Or.inl rfl⟩, rfl⟩⟩⟩

/-! ## C151 -/

/-- **C151, the file**: going to the definition of what is at a place is answered exactly if its definition is known and in a
file that can be read, and leads to that file. -/
theorem goto_file (s : Spot) (k : Finds) :
    ((∃ l, goto s k = some l) ↔ ∃ d p, definition s k = some d ∧ d.file = some p ∧ p.readable = true) ∧
    ∀ l d p, goto s k = some l → definition s k = some d → d.file = some p → l.file = p.id ∧ l.origin = s.range := by
  rw [goto]
  cases hd : definition s k with
  | none => simp
  | some d =>
    cases hf : d.file with
    | none => simp [hf]
    | some p =>
      cases hr : p.readable with
      | false => simp [hf, linkTo, hr]
      | true =>
        refine ⟨by simp [hf, linkTo, hr], ?_⟩
        intro l d' p' hl hd' hp'
        cases hd'
        rw [hf] at hp'; cases hp'
        simp only [hf, linkTo, hr, if_true] at hl
        cases hl
        exact ⟨rfl, rfl⟩

/-- **C151, the name**: the link to a variable, a function, a parameter, a string key or a label selects its name, and the
range of the link is the same.
Missing: elements whose label is not written in the document. -/
theorem goto_name_partial (s : Spot) (k : Finds) (d : Def) (l : Link) (name : Range) (h : goto s k = some l)
    (hd : definition s k = some d)
    (hk : d.kind = .var ∨ d.kind = .func ∨ d.kind = .closure ∨ d.kind = .spread ∨ d.kind = .strName ∨ d.kind = .label)
    (hs : d.span = some name) (hfull : d.full = none) : l.selection = name ∧ l.target = name := by
  rw [goto, hd] at h
  cases hf : d.file with
  | none => simp [hf] at h
  | some p =>
    simp only [hf, linkTo] at h
    have hn : nameRange d = some name := by
      rw [nameRange, ← hs]
      rcases hk with hk | hk | hk | hk | hk | hk <;> (rw [hk]; rfl)
    split at h
    · cases h; simp [hn, hfull]
    · cases h

example : goto call (known fDef) = some ⟨(20, 21), 1, (5, 6), (5, 6)⟩ := by decide

/-- **C151, bibliographies**: the link to an entry selects its key and has the range of the entry. It goes to the entry even if
there is also an element with the label. -/
theorem goto_entry (s : Spot) (hs : s.cls = .ref ∨ s.cls = .label false) (k : Finds) (e : Entry) (hk : k.bib = some e)
    (hd : k.document = true) (hr : e.file.readable = true) :
    goto s k = some ⟨s.range, e.file.id, e.range, e.nameRange⟩ := by
  have h : definition s k = some (bibDef e) := by
    rcases hs with h | h <;> simp [definition, h, labelOf, hd, hk]
  rw [goto, h]
  simp [bibDef, linkTo, hr, nameRange, isDef]

/-- **C151, files**: the link to a file goes to its start. -/
theorem goto_module (s : Spot) (k : Finds) (d : Def) (p : Place) (hd : definition s k = some d) (hk : d.kind = .module)
    (hf : d.file = some p) (hr : p.readable = true) (hs : d.span = none) (hfull : d.full = none) :
    goto s k = some ⟨s.range, p.id, (0, 0), (0, 0)⟩ := by
  rw [goto, hd]
  simp [hf, linkTo, hr, nameRange, hk, hs, hfull]

example : goto (imported "lib.typ".toList) (known libFile) = some ⟨(8, 17), 1, (0, 0), (0, 0)⟩ := by decide +kernel

/-- **C151, inside**: the selected range is within the range of the link, given that keys are within their entries. -/
theorem selection_inside (s : Spot) (k : Finds) (d : Def) (l : Link) (h : goto s k = some l) (hd : definition s k = some d)
    (hfull : ∀ r, d.full = some r → d.kind = .bibEntry ∧ ∃ n, d.span = some n ∧ r.1 ≤ n.1 ∧ n.2 ≤ r.2) :
    l.target.1 ≤ l.selection.1 ∧ l.selection.2 ≤ l.target.2 := by
  rw [goto, hd] at h
  cases hf : d.file with
  | none => simp [hf] at h
  | some p =>
    simp only [hf, linkTo] at h
    split at h
    · cases h
      cases hu : d.full with
      | none => simp
      | some r =>
        obtain ⟨h1, n, h2, h3⟩ := hfull r hu
        simpa [nameRange, h1, isDef, h2] using h3
    · cases h

/-- **C151 fails** for elements whose label was not written in the document, as by `label("intro")`: the link goes to the
start of the file, although it is known where in the file the element is. -/
theorem element_missed (s : Spot) (hs : s.cls = .ref ∨ s.cls = .label false) (k : Finds) (l : Labelled) (p : Place)
    (hb : k.bib = none) (hk : k.labelled = some l) (hl : l.known = false) (hd : k.document = true) (hf : l.file = some p)
    (hr : p.readable = true) : goto s k = some ⟨s.range, p.id, (0, 0), (0, 0)⟩ := by
  have h : definition s k = some (labelDef l) := by
    rcases hs with h | h <;> simp [definition, h, labelOf, hd, hk, hb]
  rw [goto, h]
  simp [labelDef, hf, linkTo, hr, nameRange, isDef, hl]

example : goto ⟨.ref, .other, (40, 46), "@intro".toList⟩ ⟨none, none, true, none, some ⟨false, "intro".toList, some lib, some (100, 120)⟩⟩ =
    some ⟨(40, 46), 1, (0, 0), (0, 0)⟩ := by decide +kernel

/-- **C151, one meaning**: what is offered for renaming as a name can be gone to, if its file can be read, and the link goes to
the definition whose name is shown. -/
theorem offered_can_be_gone_to (s : Spot) (k : Finds) (p : Range × Text) (h : prepare s k = some p) :
    ∃ d q, definition s k = some d ∧ d.file = some q ∧ (q.readable = true → ∃ l, goto s k = some l ∧ l.file = q.id ∧
      l.origin = p.1) := by
  obtain ⟨d, q, hd, hf, _⟩ := own_files_only s k noSearch [] (Or.inl (by rw [h]; simp))
  refine ⟨d, q, hd, hf, fun hr => ?_⟩
  obtain ⟨h1, h2⟩ := goto_file s k
  obtain ⟨l, hl⟩ := h1.mpr ⟨d, q, hd, hf, hr⟩
  obtain ⟨_, hp, _⟩ := (prepared_iff s k p.1 p.2).mp h
  exact ⟨l, hl, (h2 l d q hl hd hf).1, hp ▸ (h2 l d q hl hd hf).2⟩

/-- **C151, without a document** that compiled once, nothing is found for labels and references. -/
theorem no_document (s : Spot) (hs : s.cls = .ref ∨ ∃ e, s.cls = .label e) (k : Finds) (hd : k.document = false) :
    goto s k = none := by
  have h : definition s k = none := by
    rcases hs with h | ⟨e, h⟩
    · simp [definition, h, labelOf, hd]
    · cases e <;> simp [definition, h, labelOf, hd]
  rw [goto, h]

end Tinymist.Renaming
