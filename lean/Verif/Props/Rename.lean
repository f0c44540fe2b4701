import Verif.Lemmas.Rename
import Verif.Props.Pages
import Verif.Props.Origin

/-! Renaming a file keeps the imports of it. -/

namespace Tinymist.Rename

open Paths Workspace

theorem fileName_slash (s : Text) : fileName (unixSlash (clean s)) = fileName (clean s) := by
  rw [fileName, fileName, components_slash_clean]

/-- A rewritten path leads where the difference leads from the old target. -/
theorem renamePath_within {dir T T' : List Text} {diff old : Text} {bare : Bool} {e : Edit} (hd : isAbsolute diff = false)
    (hw : within T (components diff) = some T') (h : renamePath diff bare old = some e)
    (ho : within dir (components old) = some T) : within dir (components e.text) = some T' := by
  have key : within dir (components (unixSlash (clean (join old diff)))) = some T' := by
    rw [components_slash_clean]
    apply within_clean
    rw [within_join dir old hd, ho]
    exact hw
  rw [renamePath] at h
  split at h
  · cases hs : fileStem old with
    | none => rw [hs] at h; cases h
    | some a => rw [hs] at h; cases h; exact key
  · cases h; exact key

/-- A bare import keeps its variable; others get no alias. -/
theorem renamePath_binding {diff old : Text} {bare : Bool} {e : Edit} (h : renamePath diff bare old = some e) :
    (bare = true → defines e.text e.alias = defines old none) ∧ (bare = false → e.alias = none) := by
  rw [renamePath] at h
  split at h
  · rename_i hb
    cases hs : fileStem old with
    | none => rw [hs] at h; cases h
    | some a =>
      rw [hs] at h; cases h
      exact ⟨fun _ => hs.symm, fun hf => by rw [hf] at hb; simp at hb⟩
  · rename_i hb
    cases h
    refine ⟨fun hf => ?_, fun _ => rfl⟩
    have : fileName (clean (join old diff)) = fileName old := Classical.byContradiction fun hne => hb ⟨hf, hne⟩
    simp only [defines, fileStem]
    rw [fileName_slash, this]

theorem renamePath_some {diff old n : Text} (bare : Bool) (h : fileName old = some n) :
    ∃ e, renamePath diff bare old = some e := by
  rw [renamePath]
  split
  · rw [fileStem, h]; exact ⟨_, rfl⟩
  · exact ⟨_, rfl⟩

/-- The edit of an import, or of an include in a file that also imports the target. -/
theorem editOf_ref {known : List Text → Bool} {target : List Text} {diff n : Text} {f : File} {s : Site}
    (hk : known target = true) (hf : known f.path = true) (hi : importsFile f target = true)
    (hu : s.use ≠ .reading) (hr : Refers f.dir s.text target) (hn : fileName s.text = some n) :
    ∃ e, editOf known target diff f s = some e ∧ renamePath diff (bareOf s.use) s.text = some e := by
  have href : isRef f target s = true := by
    simp [isRef, hu, (targets_iff _ _ _).mpr hr]
  obtain ⟨e, he⟩ := renamePath_some (diff := diff) (bareOf s.use) hn
  exact ⟨e, by rw [editOf, hk, hf, hi, href]; exact he, he⟩

/-- No edit for a path that does not refer to the target, in another file. -/
theorem editOf_other {known : List Text → Bool} {target : List Text} {diff : Text} {f : File} {s : Site}
    (hp : f.path ≠ target) (hr : ¬ Refers f.dir s.text target) : editOf known target diff f s = none := by
  have h1 : targets f.dir target s.text = false := by
    cases h : targets f.dir target s.text with
    | false => rfl
    | true => exact (hr ((targets_iff _ _ _).mp h)).elim
  rw [editOf, if_neg (by simp [isRef, h1]), if_neg (by simp [isLink, hp])]

theorem refers_inj {dir : List Text} {s : Text} {a b : List Text} (ha : Refers dir s a) (hb : Refers dir s b) : a = b :=
  Option.some.inj (ha.2.symm.trans hb.2)

/-- A path is followed: it is in a file that stays, and it is an import, or an include in a file that imports the
target as well. -/
def Followed (target : List Text) (f : File) (s : Site) : Prop :=
  f.path ≠ target ∧ s ∈ f.sites ∧
    ((∃ b, s.use = .importing b) ∨
      (s.use = .including ∧ ∃ t ∈ f.sites, (∃ b, t.use = .importing b) ∧ Refers f.dir t.text target))

theorem importsFile_of {target : List Text} {f : File} {t : Site} (ht : t ∈ f.sites) (hu : ∃ b, t.use = .importing b)
    (hr : Refers f.dir t.text target) : importsFile f target = true := by
  rw [importsFile, List.any_eq_true]
  obtain ⟨b, hb⟩ := hu
  exact ⟨t, ht, by rw [hb, (targets_iff _ _ _).mpr hr]; rfl⟩

/-- What holds of every followed path after the edit, whatever the difference. -/
theorem editOf_follows {known : List Text → Bool} {target place : List Text} {diff n : Text} {f : File} {s : Site}
    (hk : known target = true) (hf : known f.path = true) (hs : Followed target f s) (hn : fileName s.text = some n)
    (hd : isAbsolute diff = false) (hw : within target (components diff) = some place)
    (hat : (edited s.text (editOf known target diff f s)).head? ≠ some '@') (e : List Text) (he : Refers f.dir s.text e) :
    Refers f.dir (edited s.text (editOf known target diff f s)) (moved target place e) ∧
      defines (edited s.text (editOf known target diff f s)) ((editOf known target diff f s).bind (·.alias)) =
        (if bareOf s.use = true then defines s.text none
          else defines (edited s.text (editOf known target diff f s)) none) := by
  obtain ⟨hp, hm, hu⟩ := hs
  by_cases ht : e = target
  · subst ht
    have hi : importsFile f e = true := by
      rcases hu with hu | ⟨_, t, ht, hb, hr⟩
      · exact importsFile_of hm hu he
      · exact importsFile_of ht hb hr
    have hnr : s.use ≠ .reading := by
      rcases hu with ⟨b, hu⟩ | ⟨hu, _⟩ <;> rw [hu] <;> simp
    obtain ⟨ed, h1, h2⟩ := editOf_ref (diff := diff) hk hf hi hnr he hn
    rw [h1] at hat ⊢
    rw [moved, if_pos rfl]
    refine ⟨⟨hat, renamePath_within hd hw h2 he.2⟩, ?_⟩
    obtain ⟨b1, b2⟩ := renamePath_binding h2
    split
    · rename_i hb; exact b1 hb
    · rename_i hb
      have := b2 (by simpa using hb)
      show defines ed.text ed.alias = defines ed.text none
      rw [this]
  · have h1 : editOf known target diff f s = none := editOf_other hp fun h => ht (refers_inj he h)
    rw [h1, moved, if_neg ht]
    refine ⟨he, ?_⟩
    split <;> rfl

/-- **C64, what holds**: after a file of the project is renamed by the editor and the edits of the answer are applied,
every import, and every include in a file that also imports the renamed one, refers to the file it referred to, under
its new name if it is the renamed one; an import that defined a variable still defines the same. This holds for files
in the project that are found by the scan of the workspace. Missing: includes in files that do not import the file,
paths given to functions like `image`, the paths in the renamed file itself, and new paths that start with `@`. -/
theorem renamed_file_followed_partial (known : List Text → Bool) (root target place : List Text) (left right : Text)
    (hl : At root target left) (hr : At root place right) (hk : known target = true) (f : File)
    (hf : known f.path = true) :
    ∃ edit : Site → Option Edit, (∀ s, willRename known target left right f s = some (edit s)) ∧
      ∀ s n, Followed target f s → fileName s.text = some n → (edited s.text (edit s)).head? ≠ some '@' →
        ∀ e, Refers f.dir s.text e →
          Refers f.dir (edited s.text (edit s)) (moved target place e) ∧
          (s.use = .importing true → defines (edited s.text (edit s)) ((edit s).bind (·.alias)) = defines s.text none) ∧
          (s.use ≠ .importing true → (edit s).bind (·.alias) = none) := by
  obtain ⟨d, h1, h2, h3⟩ := diff_within hl hr
  refine ⟨editOf known target d f, ?_, ?_⟩
  · intro s
    rw [willRename, h1]
    simp [h2]
  · intro s n hs hn hat e he
    obtain ⟨a, b⟩ := editOf_follows hk hf hs hn h2 h3 hat e he
    refine ⟨a, fun hu => ?_, fun hu => ?_⟩
    · rw [hu] at b; exact b
    · have hb : bareOf s.use = false := by
        cases hus : s.use with
        | importing b => cases b with
          | false => rfl
          | true => exact (hu hus).elim
        | including => rfl
        | reading => rfl
      cases hed : editOf known target d f s with
      | none => rfl
      | some ed =>
        rw [editOf] at hed
        split at hed
        · exact (renamePath_binding hed).2 hb
        · split at hed
          · exact (renamePath_binding hed).2 rfl
          · cases hed

/-- **C64, the rest is left alone**: in a file that stays, a path that does not refer to the renamed file is not
edited. -/
theorem other_paths_untouched (known : List Text → Bool) (target : List Text) (left right : Text) (f : File) (s : Site)
    (hp : f.path ≠ target) (hr : ¬ Refers f.dir s.text target) (e : Option Edit)
    (h : willRename known target left right f s = some e) : e = none := by
  rw [willRename] at h
  split at h
  · cases h
  · split at h
    · cases h
    · cases h; exact editOf_other hp hr

theorem within_shift {r d e : List Text} {cs : List Comp} (hr : .root ∉ cs) (h : within d cs = some e) :
    within (r ++ d) cs = some (r ++ e) := by
  induction cs generalizing d with
  | nil => cases h; rfl
  | cons c cs ih =>
    have hr' : .root ∉ cs := fun h => hr (List.mem_cons_of_mem _ h)
    cases c with
    | root => exact (hr (List.mem_cons_self ..)).elim
    | cur => exact ih hr' h
    | normal n =>
      rw [within] at h ⊢
      rw [List.append_assoc]
      exact ih hr' h
    | parent =>
      rw [within] at h ⊢
      split at h
      · cases h
      · rename_i hne
        rw [if_neg (by simp [hne])]
        rw [List.dropLast_append_of_ne_nil hne]
        exact ih hr' h

theorem not_root {s : Text} (h : isAbsolute s = false) : Comp.root ∉ components s := by
  rcases components_cases s with ⟨h', _⟩ | ⟨_, e⟩ | ⟨_, e⟩
  · rw [h] at h'; cases h'
  · rw [e]; simp [body_no_root s]
  · rw [e]; exact body_no_root s

/-- The file goes where the difference leads. -/
theorem new_place {root T T' : List Text} {old d : Text} (ho : At root T old) (hd : isAbsolute d = false)
    (hw : within T (components d) = some T') : At root T' (clean (join old d)) := by
  have hold : components old = .root :: (root ++ T).map Comp.normal := ho
  have h1 : within [] (components (join old d)) = some (root ++ T') := by
    rw [within_join [] old hd, hold]
    simp only [within]
    rw [within_names]
    exact within_shift (r := root) (not_root hd) hw
  have h2 := within_clean h1
  have hne : old ≠ [] := by rintro rfl; rw [components_nil] at hold; cases hold
  have habs : (cleanComps (components (join old d))).head? = some .root := by
    rw [cleanComps_root, isAbsolute_iff, components_join hne hd, hold]
    rfl
  have hc := components_clean (join old d)
  rw [if_neg (by intro h; rw [h] at habs; cases habs)] at hc
  show components (clean (join old d)) = _
  rw [hc] at h2 ⊢
  rcases cleanComps_canon (join old d) with ⟨ns, e⟩ | ⟨k, ns, e⟩
  · rw [e] at h2 ⊢
    simp only [within] at h2
    rw [within_names] at h2
    simp only [List.nil_append, Option.some.injEq] at h2
    rw [h2]
  · rw [e] at habs
    have := List.mem_of_mem_head? habs
    simp at this

/-- The ending is added if it is not there. -/
theorem ending_typ {given newName : Text} (hs : (∃ front, newName = front ++ ".typ".toList) ∧
      (given = newName ∨ ((¬ ∃ front, given = front ++ ".typ".toList) ∧ newName = given ++ ".typ".toList))) :
    (if ['.', 't', 'y', 'p'].isSuffixOf given then given else given ++ ['.', 't', 'y', 'p']) = newName := by
  have ht : ".typ".toList = ['.', 't', 'y', 'p'] := by decide +kernel
  rw [ht] at hs
  obtain ⟨⟨front, h1⟩, h2 | ⟨h2, h3⟩⟩ := hs
  · rw [h2, if_pos (List.isSuffixOf_iff_suffix.mpr ⟨front, h1.symm⟩)]
  · rw [if_neg, h3]
    intro h
    obtain ⟨fr, hf⟩ := List.isSuffixOf_iff_suffix.mp h
    exact h2 ⟨fr, hf.symm⟩

/-- **C64, the rename request**: renaming the path in an import to a new name, which gets the ending `.typ` if it does not
have it, moves the file to where the new name leads from the directory of the import, and the other imports follow it there.
The two paths are both relative, the new name leading up at least as far, or both absolute and without detours. -/
theorem rename_request_followed_partial (known : List Text → Bool) (root target place dir : List Text)
    (oldPath refText given newName : Text) (ho : At root target oldPath) (hk : known target = true)
    (hs : (∃ front, newName = front ++ ".typ".toList) ∧
      (given = newName ∨ ((¬ ∃ front, given = front ++ ".typ".toList) ∧ newName = given ++ ".typ".toList)))
    (hpaths : (isAbsolute refText = false ∧ isAbsolute newName = false ∧ climbs refText ≤ climbs newName ∧
        within dir (components refText) = some target ∧ within dir (components newName) = some place) ∨
      (At [] target refText ∧ At [] place newName)) (f : File) (hf : known f.path = true) :
    ∃ (newPath : Text) (edit : Site → Option Edit), (∀ s, rename known target oldPath refText given f s = some (newPath, edit s)) ∧
      At root place newPath ∧
      ∀ s n, Followed target f s → fileName s.text = some n → (edited s.text (edit s)).head? ≠ some '@' →
        ∀ e, Refers f.dir s.text e → Refers f.dir (edited s.text (edit s)) (moved target place e) := by
  have key : ∃ d, diff newName refText = some d ∧ isAbsolute d = false ∧ within target (components d) = some place := by
    rcases hpaths with ⟨h1, h2, h3, h4, h5⟩ | ⟨h1, h2⟩
    · have hne : newName ≠ [] := by
        rintro rfl
        obtain ⟨front, h⟩ := hs.1
        exact absurd (congrArg List.length h) (by rw [List.length_append, show ".typ".toList.length = 4 by decide +kernel]; simp)
      obtain ⟨d, d1, d2⟩ := diff_leads_to_target_partial newName refText hne (Or.inl (h2.trans h1.symm)) h3
      have hd : isAbsolute d = false := by
        cases hd : isAbsolute d with
        | false => rfl
        | true =>
          exfalso
          have h6 := d2 ([] :: dir)
          rw [within_iff_walk (fun c => components_good) (not_root h2)] at h5
          rw [denotes, denotes, h5, join, hd, if_pos rfl, walk_root _ [] (components_absolute hd)] at h6
          exact walk_good (d := []) (fun c => components_good) (by simp) (h6 ▸ List.mem_cons_self ..)
      refine ⟨d, d1, hd, ?_⟩
      have h6 : within dir (components (join refText d)) = some place := by
        have hj : isAbsolute (join refText d) = false := by
          by_cases hre : refText = []
          · subst hre; rw [join, hd]; simpa using hd
          · cases hj : isAbsolute (join refText d) with
            | false => rfl
            | true =>
              rw [isAbsolute_iff, components_join hre hd] at hj
              have := List.mem_of_mem_head? hj
              rcases List.mem_append.mp this with h | h
              · exact (not_root h1 h).elim
              · exact (not_root hd (List.mem_filter.mp h).1).elim
        rw [within_iff_walk (fun c => components_good) (not_root hj)]
        rw [within_iff_walk (fun c => components_good) (not_root h2)] at h5
        exact (d2 _).trans h5
      rw [within_join dir refText hd, h4] at h6
      exact h6
    · exact diff_within h1 h2
  obtain ⟨d, d1, d2, d3⟩ := key
  refine ⟨clean (join oldPath d), editOf known target d f, ?_, new_place ho d2 d3, ?_⟩
  · intro s
    rw [rename, ending_typ hs, d1]
    simp [d2]
  · intro s n h1 h2 h3 e he
    exact (editOf_follows hk hf h1 h2 d2 d3 h3 e he).1

/-- Witness: in a file in `x`, `../d/a.typ` becomes `../b.typ`. -/
example : climbs "../d/a.typ".toList ≤ climbs "../b.typ".toList ∧
    within [['x']] (components "../d/a.typ".toList) = some [['d'], "a.typ".toList] ∧
    within [['x']] (components "../b.typ".toList) = some ["b.typ".toList] := by decide +kernel

/-- **C64**: the variable that an import of a file defines is the file's name without the last dot and what follows it, or the
whole name if there is no dot behind its first character. -/
theorem import_defines (s v : Text) : defines s none = some v ↔
    ∃ n, fileName s = some n ∧ ((n ≠ ['.', '.'] ∧ v ≠ [] ∧ ∃ e, n = v ++ '.' :: e ∧ '.' ∉ e) ∨
      (v = n ∧ ¬ (n ≠ ['.', '.'] ∧ ∃ w e, w ≠ [] ∧ n = w ++ '.' :: e ∧ '.' ∉ e))) := by
  show (fileName s).map stem = some v ↔ _
  rw [Option.map_eq_some_iff]
  refine exists_congr fun n => and_congr Iff.rfl ?_
  by_cases h : ∃ e, Pages.extension n = some e
  · obtain ⟨e, he⟩ := h
    obtain ⟨hd, w, hw, rfl, hn⟩ := (Pages.extension_iff n e).mp he
    have hst : stem (w ++ '.' :: e) = w := by
      rw [stem, if_pos (by rw [he]; rfl), List.reverse_append, List.reverse_cons, List.append_assoc]
      have h1 : (e.reverse ++ ([('.' : Char)] ++ w.reverse)).dropWhile (fun c => decide (c ≠ '.')) = '.' :: w.reverse := by
        rw [List.dropWhile_append_of_pos]
        · simp
        · intro c hc
          have : c ≠ '.' := by rintro rfl; exact hn (List.mem_reverse.mp hc)
          simpa using this
      rw [h1]
      simp
    rw [hst]
    constructor
    · rintro rfl
      exact .inl ⟨hd, hw, e, rfl, hn⟩
    · rintro (⟨_, _, e', he', hn'⟩ | ⟨_, h⟩)
      · exact (Origin.split_last he' hn hn').1
      · exact (h ⟨hd, w, e, hw, rfl, hn⟩).elim
  · have hst : stem n = n := by
      rw [stem, if_neg]
      intro h'
      exact h (Option.isSome_iff_exists.mp h')
    rw [hst]
    have hno : ¬ (n ≠ ['.', '.'] ∧ ∃ w e, w ≠ [] ∧ n = w ++ '.' :: e ∧ '.' ∉ e) := by
      rintro ⟨hd, w, e, hw, he, hn⟩
      exact h ⟨e, (Pages.extension_iff n e).mpr ⟨hd, w, hw, he, hn⟩⟩
    constructor
    · rintro rfl; exact .inr ⟨rfl, hno⟩
    · rintro (⟨hd, hw, e, he, hn⟩ | ⟨rfl, _⟩)
      · exact (hno ⟨hd, v, e, hw, he, hn⟩).elim
      · rfl

/-! ## What does not hold -/

/-- In the renamed file itself a path to another file is changed, by mistake, if and only if it is not an import, it is not
empty and not a package, and some path or string of the file has the old name of the file. -/
theorem own_path_changed_iff (known : List Text → Bool) (target : List Text) (name diff : Text) (f : File) (s : Site)
    (hp : f.path = target) (hl : target.getLast? = some name) (hk : known target = true) (hr : ¬ Refers f.dir s.text target) :
    editOf known target diff f s ≠ none ↔
      (∀ b, s.use ≠ .importing b) ∧ s.text ≠ [] ∧ s.text.head? ≠ some '@' ∧
        ∃ t, ((∃ u ∈ f.sites, u.text = t) ∨ t ∈ f.strings) ∧ t.head? ≠ some '@' ∧ (fileName t).getD [] = name := by
  have h1 : targets f.dir target s.text = false := by
    cases h : targets f.dir target s.text with
    | false => rfl
    | true => exact (hr ((targets_iff _ _ _).mp h)).elim
  rw [editOf, if_neg (by simp [isRef, h1]), hl, hp, hk]
  have hi : indexed f name = true ↔
      ∃ t, ((∃ u ∈ f.sites, u.text = t) ∨ t ∈ f.strings) ∧ t.head? ≠ some '@' ∧ (fileName t).getD [] = name := by
    simp only [indexed, List.any_eq_true, List.mem_append, List.mem_map, Bool.and_eq_true, decide_eq_true_eq]
  have hk' : isLink f target s = true ↔ (∀ b, s.use ≠ .importing b) ∧ s.text ≠ [] ∧ s.text.head? ≠ some '@' := by
    simp only [isLink, hp, Bool.and_eq_true, decide_eq_true_eq, and_true]
    cases s.use <;> simp
  simp only [Bool.true_and, Option.getD_some]
  by_cases hc : (indexed f name && isLink f target s) = true
  · rw [if_pos hc]
    rw [Bool.and_eq_true] at hc
    refine iff_of_true ?_ ?_
    · rw [renamePath, if_neg (by simp)]
      simp
    · obtain ⟨a, b, c⟩ := hk'.mp hc.2
      exact ⟨a, b, c, hi.mp hc.1⟩
  · rw [if_neg hc]
    refine iff_of_false (by simp) ?_
    rintro ⟨a, b, c, d⟩
    exact hc (by rw [Bool.and_eq_true]; exact ⟨hi.mpr d, hk'.mpr ⟨a, b, c⟩⟩)


def aTyp : Text := ['a', '.', 't', 'y', 'p']
def bTyp : Text := ['b', '.', 't', 'y', 'p']
def mTyp : Text := ['m', '.', 't', 'y', 'p']

/-- A file that only includes the renamed file is not updated: its include leads nowhere. -/
theorem include_not_updated :
    ∃ f : File, ∃ s ∈ f.sites, s.use = .including ∧ f.path ≠ [aTyp] ∧ Refers f.dir s.text [aTyp] ∧
      willRename (fun _ => true) [aTyp] ('/' :: aTyp) ('/' :: bTyp) f s = some none :=
  ⟨⟨[], mTyp, [⟨.including, aTyp⟩], []⟩, ⟨.including, aTyp⟩, by decide +kernel⟩

/-- A path given to a function like `read` is not updated, even in a file that imports the renamed file. -/
theorem reading_not_updated :
    ∃ f : File, ∃ s ∈ f.sites, s.use = .reading ∧ f.path ≠ [aTyp] ∧ Refers f.dir s.text [aTyp] ∧
      importsFile f [aTyp] = true ∧
      willRename (fun _ => true) [aTyp] ('/' :: aTyp) ('/' :: bTyp) f s = some none :=
  ⟨⟨[], mTyp, [⟨.importing true, aTyp⟩, ⟨.reading, aTyp⟩], []⟩, ⟨.reading, aTyp⟩, by decide +kernel⟩

/-- In the renamed file, if it mentions its own name, a path to a third file is redirected. -/
theorem own_paths_redirected :
    ∃ f : File, ∃ s ∈ f.sites, f.path = [aTyp] ∧ Refers f.dir s.text [mTyp] ∧
      ∃ e, willRename (fun _ => true) [aTyp] ('/' :: aTyp) ('/' :: bTyp) f s = some (some e) ∧
        Refers f.dir e.text [bTyp] :=
  ⟨⟨[], aTyp, [⟨.including, mTyp⟩], [aTyp]⟩, ⟨.including, mTyp⟩, by
    refine ⟨by decide +kernel, by decide +kernel, by decide +kernel, ⟨bTyp, none⟩, by decide +kernel, by decide +kernel⟩⟩

/-- A file moved to another directory keeps its relative imports as they are. -/
theorem moved_imports_break :
    ∃ f : File, ∃ s ∈ f.sites, f.path = [aTyp] ∧ Refers f.dir s.text [mTyp] ∧
      willRename (fun _ => true) [aTyp] ('/' :: aTyp) ('/' :: 'd' :: '/' :: aTyp) f s = some none ∧
      ¬ Refers [['d']] s.text [mTyp] :=
  ⟨⟨[], aTyp, [⟨.importing true, mTyp⟩], []⟩, ⟨.importing true, mTyp⟩, by decide +kernel⟩

/-- A file whose new name starts with `@` is taken for a package. -/
theorem at_sign_breaks :
    ∃ f : File, ∃ s ∈ f.sites, Followed [aTyp] f s ∧ Refers f.dir s.text [aTyp] ∧
      ∃ e, willRename (fun _ => true) [aTyp] ('/' :: aTyp) ('/' :: '@' :: aTyp) f s = some (some e) ∧
        ¬ Refers f.dir e.text ['@' :: aTyp] :=
  ⟨⟨[], mTyp, [⟨.importing false, aTyp⟩], []⟩, ⟨.importing false, aTyp⟩, by
    refine ⟨by decide +kernel, ⟨by decide +kernel, by decide +kernel, Or.inl ⟨false, rfl⟩⟩, by decide +kernel,
      ⟨'@' :: aTyp, none⟩, by decide +kernel, by decide +kernel⟩⟩

/-- Witness: `/w/d/a.typ` is renamed to `/w/b.typ`; `import "../d/a.typ"` in `/w/x/m.typ` becomes
`import "../b.typ" as a`. -/
example :
    let f : File := ⟨[['x']], mTyp, [⟨.importing true, "../d/a.typ".toList⟩], []⟩
    At [['w']] [['d'], aTyp] "/w/d/a.typ".toList ∧ At [['w']] [bTyp] "/w/b.typ".toList ∧
    Refers f.dir "../d/a.typ".toList [['d'], aTyp] ∧
    willRename (fun _ => true) [['d'], aTyp] "/w/d/a.typ".toList "/w/b.typ".toList f ⟨.importing true, "../d/a.typ".toList⟩ =
      some (some ⟨"../b.typ".toList, some ['a']⟩) := by
  decide +kernel

end Tinymist.Rename
