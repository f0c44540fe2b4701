import Verif.Lemmas.Scan

/-! # The files of a workspace (C160), kinds of files (C161) and types of parameters (C162) -/

namespace Tinymist.Scan

/-! ## C160: the files of a workspace -/

theorem Listed.congr {a b : Text → Prop} (h : ∀ x, a x ↔ b x) {ns : List Node} {t : List Text} : Listed a ns t ↔ Listed b ns t := by
  have key : ∀ {a b : Text → Prop}, (∀ x, a x → b x) → ∀ {ns t}, Listed a ns t → Listed b ns t := by
    intro a b h ns t hl
    induction hl with
    | file hm hk hw => exact .file hm hk (h _ hw)
    | dir hm hk _ ih => exact .dir hm hk ih
  exact ⟨key fun x => (h x).mp, key fun x => (h x).mpr⟩

/-- The path's last component is the name that was wanted. -/
theorem Listed.last {a : Text → Prop} {ns : List Node} {t : List Text} (h : Listed a ns t) :
    ∃ x, t.getLast? = some x ∧ a x := by
  induction h with
  | file _ _ hw => exact ⟨_, rfl, hw⟩
  | @dir ns name cs path _ _ hl ih =>
    obtain ⟨x, hx, ha⟩ := ih
    refine ⟨x, ?_, ha⟩
    cases path with
    | nil => simp at hx
    | cons y r => rw [List.getLast?_cons_cons]; exact hx

theorem Listed.and {a b : Text → Prop} {ns : List Node} {t : List Text} :
    Listed (fun x => a x ∧ b x) ns t ↔ Listed a ns t ∧ ∃ x, t.getLast? = some x ∧ b x := by
  constructor
  · intro h
    obtain ⟨x, hx, hw⟩ := h.last
    refine ⟨?_, x, hx, hw.2⟩
    clear hx hw
    induction h with
    | file hm hk hw => exact .file hm hk hw.1
    | dir hm hk _ ih => exact .dir hm hk ih
  · rintro ⟨h, x, hx, hb⟩
    induction h with
    | file hm hk hw => simp at hx; subst hx; exact .file hm hk ⟨hw, hb⟩
    | @dir ns name cs path hm hk hl ih =>
      refine .dir hm hk (ih ?_)
      obtain ⟨y, hy, -⟩ := hl.last
      cases path with
      | nil => simp at hy
      | cons z r => rwa [List.getLast?_cons_cons] at hx

theorem wantExt_iff (ext : Text → Bool) (name : Text) : wantExt ext name = true ↔ ∃ e, HasExt name e ∧ ext e = true := by
  unfold wantExt
  cases h : Pages.extension name with
  | none =>
    simp only [Bool.false_eq_true, false_iff]
    rintro ⟨e, he, -⟩
    rw [(Pages.extension_iff name e).mpr he] at h; cases h
  | some e =>
    constructor
    · exact fun hm => ⟨e, (Pages.extension_iff name e).mp h, hm⟩
    · rintro ⟨e', he, hm⟩
      rw [(Pages.extension_iff name e').mpr he] at h; cases h; exact hm

theorem scan_open (ext : Text → Bool) {r : Root} (h : Kept r.name ∨ r.isLink = true) :
    scan ext r = (walks (wantExt ext) [] r.children).take 65535 := by
  have e := scanLoop_eq ext 65535 [] [([], r.children)] (by decide)
  simp only [List.nil_append, stackWalk, List.append_nil, List.length_nil, Nat.sub_zero] at e
  unfold scan
  rcases h with h | h
  · rw [(kept_iff r.name).mpr h]; simpa using e
  · rw [h]; simpa using e

theorem scan_closed (ext : Text → Bool) {r : Root} (h : ¬ Kept r.name) (hl : r.isLink = false) : scan ext r = [] := by
  unfold scan
  have : (isHidden r.name || isIgnored r.name) = true := by
    rw [← Bool.not_eq_false]; exact fun e => h ((kept_iff _).mp e)
  rw [this, hl]; rfl

/-- **C160.** What a scan of a folder finds are files with a wanted extension, and neither they nor a folder on the way are hidden or
generated. -/
theorem found_sound (ext : Text → Bool) (r : Root) {p : List Text} (h : p ∈ scan ext r) :
    Listed (fun n => ∃ e, HasExt n e ∧ ext e = true) r.children p := by
  by_cases hr : Kept r.name ∨ r.isLink = true
  · rw [scan_open ext hr] at h
    obtain ⟨t, rfl, hl⟩ := (mem_walks _ _ _ _).mp (List.mem_of_mem_take h)
    exact (Listed.congr (wantExt_iff ext)).mp hl
  · rw [not_or] at hr
    rw [scan_closed ext hr.1 (by simpa using hr.2)] at h
    cases h

/-- **C160.** A scan that finds less than 65535 files finds all of them, if the folder itself is neither hidden nor has a name of
generated folders, or is a link. -/
theorem found_iff_partial (ext : Text → Bool) {r : Root} (hr : Kept r.name ∨ r.isLink = true) (few : (scan ext r).length < 65535)
    (p : List Text) : p ∈ scan ext r ↔ Listed (fun n => ∃ e, HasExt n e ∧ ext e = true) r.children p := by
  refine ⟨found_sound ext r, fun h => ?_⟩
  rw [scan_open ext hr] at few ⊢
  rw [List.length_take] at few
  rw [List.take_of_length_le (by omega)]
  exact (mem_walks _ _ _ _).mpr ⟨p, rfl, (Listed.congr (wantExt_iff ext)).mpr h⟩

/-- **C160.** No file is found twice, and no more than 65535 are found. -/
theorem found_once (ext : Text → Bool) {r : Root} (h : Proper r.children) : (scan ext r).Nodup ∧ (scan ext r).length ≤ 65535 := by
  by_cases hr : Kept r.name ∨ r.isLink = true
  · rw [scan_open ext hr]
    exact ⟨(nodup_walks _ _ _ h).sublist (List.take_sublist _ _), by rw [List.length_take]; omega⟩
  · rw [not_or] at hr
    rw [scan_closed ext hr.1 (by simpa using hr.2)]
    simp

/-- **C160, violated.** In a workspace whose own folder is hidden or has a name like `out`, no file is known. -/
theorem hidden_workspace {r : Root} (h : ¬ Kept r.name) (hl : r.isLink = false) (k : Kind) : completionFiles (some r) k = [] := by
  unfold completionFiles
  simp only [scan_closed _ h hl]; rfl

theorem mem_completionFiles (r : Root) (k : Kind) (p : List Text) :
    p ∈ completionFiles (some r) k ↔ p ∈ scan (extMatch .special) r ∧ ∃ x, p.getLast? = some x ∧ ∃ e, HasExt x e ∧ extMatch k e = true := by
  unfold completionFiles
  rw [List.mem_filter]
  refine and_congr Iff.rfl ?_
  cases h : p.getLast? with
  | none => simp
  | some x =>
    have := wantExt_iff (extMatch k) x
    unfold wantExt at this
    simp only [Option.some.injEq, exists_eq_left']
    exact this

/-- **C160.** The files path completion offers for a kind of file, and the sources that renaming, references and labels look at, are just
the files of the kind below the folder of the workspace that are neither hidden nor generated. -/
theorem offered_iff_partial {r : Root} (hr : Kept r.name ∨ r.isLink = true) (few : (scan (extMatch .special) r).length < 65535)
    {k : Kind} (hk : k.Concrete) (p : List Text) :
    p ∈ completionFiles (some r) k ↔ Listed (fun n => ∃ e, HasExt n e ∧ Named k e) r.children p := by
  rw [mem_completionFiles, found_iff_partial _ hr few, ← Listed.and]
  apply Listed.congr
  intro x
  constructor
  · rintro ⟨-, e, he, hm⟩
    exact ⟨e, he, (extMatch_named hk e).mp hm⟩
  · rintro ⟨e, he, hm⟩
    exact ⟨⟨e, he, (special_named e).mpr ⟨k, hk, hm⟩⟩, e, he, (extMatch_named hk e).mpr hm⟩

/-- **C160.** Without a folder no file is known. -/
theorem no_workspace (k : Kind) : completionFiles none k = [] := rfl

/-- **C160.** The sources are the files with the extensions of Typst. -/
theorem sources_iff_partial {r : Root} (hr : Kept r.name ∨ r.isLink = true) (few : (scan (extMatch .special) r).length < 65535)
    (p : List Text) :
    p ∈ sourceFiles (some r) ↔
      Listed (fun n => ∃ e, HasExt n e ∧ (e.map small = "typ".toList ∨ e.map small = "typc".toList)) r.children p := by
  unfold sourceFiles
  rw [offered_iff_partial hr few ⟨by decide, by decide⟩]
  apply Listed.congr
  intro x
  simp only [Named, extensionsOf, List.mem_cons, List.not_mem_nil, or_false, exists_eq_or_imp, exists_eq_left]

/-- **C160, violated.** Where a file of any kind can be, like in `read` and `cbor`, only files of known kinds are offered. -/
theorem any_narrowed {r : Root} {p : List Text} (h : p ∈ completionFiles (some r) .any) :
    ∃ x e, p.getLast? = some x ∧ HasExt x e ∧ ∃ k : Kind, k.Concrete ∧ Named k e := by
  obtain ⟨hs, -⟩ := (mem_completionFiles r .any p).mp h
  obtain ⟨x, hx, e, he, hm⟩ := (found_sound _ r hs).last
  exact ⟨x, e, hx, he, (special_named e).mp hm⟩

theorem Named.mem {k : Kind} {e : Text} (h : Named k e) : e.map small ∈ (extensionsOf k).map String.toList := by
  obtain ⟨s, hs, e'⟩ := h
  exact List.mem_map.mpr ⟨s, hs, e'.symm⟩

/-- **C160, violated.** A CBOR file is never offered, in no workspace. -/
theorem cbor_missing (r : Root) (p : List Text) (name : Text) : p ++ [name ++ ".cbor".toList] ∉ completionFiles (some r) .any := by
  intro h
  obtain ⟨x, e, hx, ⟨-, stem, -, e1, e2⟩, k, hk, hn⟩ := any_narrowed h
  simp only [List.getLast?_append, List.getLast?_singleton, Option.some_or, Option.some.injEq] at hx
  have he : e = "cbor".toList := by
    subst hx
    have e1 : name ++ '.' :: "cbor".toList = stem ++ '.' :: e := e1
    have hr := congrArg List.reverse e1
    simp only [List.reverse_append, List.reverse_cons, List.append_assoc, List.singleton_append] at hr
    have d1 : '.' ∉ ("cbor".toList).reverse := by decide
    have d2 : '.' ∉ e.reverse := by simpa using e2
    have t1 : (("cbor".toList).reverse ++ '.' :: name.reverse).takeWhile (· ≠ '.') = ("cbor".toList).reverse := by
      rw [List.takeWhile_append_of_pos (by intro a ha; simpa using fun h : a = '.' => d1 (h ▸ ha))]; simp
    have t2 : (e.reverse ++ '.' :: stem.reverse).takeWhile (· ≠ '.') = e.reverse := by
      rw [List.takeWhile_append_of_pos (by intro a ha; simpa using fun h : a = '.' => d2 (h ▸ ha))]; simp
    rw [hr, t2] at t1
    simpa using congrArg List.reverse t1
  subst he
  have := hn.mem
  revert this
  cases k <;> decide

/-- A workspace of two sources and what is left out. -/
def exampleRoot : Root :=
  ⟨"thesis".toList, false,
    [.file "main.typ".toList, .dir "chapters".toList [.file "one.TYP".toList, .file ".draft.typ".toList, .broken],
     .dir "out".toList [.file "old.typ".toList], .dir ".git".toList [.file "x.typ".toList], .other "link.typ".toList, .file "notes.txt".toList]⟩

example : Kept exampleRoot.name := by unfold Kept; decide

example : (scan (extMatch .special) exampleRoot) = [["main.typ".toList], ["chapters".toList, "one.TYP".toList]] := by
  simp [scan, exampleRoot, isHidden, isIgnored, scanLoop, Pages.extension, extMatch, specialKinds, patterns, patternMatch, foldEq]

example : Proper exampleRoot.children := by
  refine .cons (by decide) (by rintro _ _ ⟨⟩) (.cons (by decide) ?_ (.cons (by decide) ?_ (.cons (by decide) ?_
    (.cons (by decide) (by rintro _ _ ⟨⟩) (.cons (by decide) (by rintro _ _ ⟨⟩) .nil)))))
  · rintro _ _ ⟨⟩
    exact .cons (by decide) (by rintro _ _ ⟨⟩) (.cons (by decide) (by rintro _ _ ⟨⟩) (.cons (by decide) (by rintro _ _ ⟨⟩) .nil))
  · rintro _ _ ⟨⟩
    exact .cons (by decide) (by rintro _ _ ⟨⟩) .nil
  · rintro _ _ ⟨⟩
    exact .cons (by decide) (by rintro _ _ ⟨⟩) .nil

example : ¬ Kept ".notes".toList := by unfold Kept; decide

/-! ## C161: kinds of files -/

/-- **C161.** A file is accepted as of a kind just if its extension is one of the kind's, in whatever case. -/
theorem accepted_iff {k : Kind} (hk : k.Concrete) (name : Text) : isMatch k name = true ↔ ∃ e, HasExt name e ∧ Named k e := by
  rw [isMatch_iff]
  constructor
  · rintro ⟨e, he, hm⟩; exact ⟨e, he, (extMatch_named hk e).mp hm⟩
  · rintro ⟨e, he, hm⟩; exact ⟨e, he, (extMatch_named hk e).mpr hm⟩

/-- **C161.** For an extension of ASCII characters, that is by the small letters of ASCII. -/
theorem named_ascii {k : Kind} {e : Text} (h : Ascii e) : Named k e ↔ ∃ s ∈ extensionsOf k, e.map Char.toLower = s.toList := by
  unfold Named; rw [small_ascii h]

/-- **C161.** Any file with an extension is accepted where files of any kind are. -/
theorem any_iff_ext (name : Text) : isMatch .any name = true ↔ ∃ e, HasExt name e := by
  rw [isMatch_iff]
  exact ⟨fun ⟨e, he, _⟩ => ⟨e, he⟩, fun ⟨e, he⟩ => ⟨e, he, rfl⟩⟩

/-- **C161.** Known kinds together. -/
theorem special_iff (name : Text) : isMatch .special name = true ↔ ∃ k : Kind, k.Concrete ∧ isMatch k name = true := by
  rw [isMatch_iff]
  constructor
  · rintro ⟨e, he, hm⟩
    obtain ⟨k, hk, hn⟩ := (special_named e).mp hm
    exact ⟨k, hk, (accepted_iff hk name).mpr ⟨e, he, hn⟩⟩
  · rintro ⟨k, hk, h⟩
    obtain ⟨e, he, hn⟩ := (accepted_iff hk name).mp h
    exact ⟨e, he, (special_named e).mpr ⟨k, hk, hn⟩⟩

theorem concrete_iff (k : Kind) : k.Concrete ↔ k ∈ specialKinds := by
  unfold Kind.Concrete
  cases k <;> decide

/-- **C161.** A file is accepted as of two kinds only if it is YAML and a bibliography, or XML and a theme. -/
theorem overlap {k k' : Kind} (hk : k.Concrete) (hk' : k'.Concrete) (hne : k ≠ k') {name : Text}
    (h : isMatch k name = true) (h' : isMatch k' name = true) :
    (k = .yaml ∧ k' = .bibliography) ∨ (k = .bibliography ∧ k' = .yaml) ∨ (k = .xml ∧ k' = .rawTheme) ∨ (k = .rawTheme ∧ k' = .xml) := by
  obtain ⟨e, he, hn⟩ := (accepted_iff hk name).mp h
  obtain ⟨e', he', hn'⟩ := (accepted_iff hk' name).mp h'
  cases ext_unique he he'
  have m := hn.mem
  have m' := hn'.mem
  generalize e.map small = t at m m'
  have key : ∀ k ∈ specialKinds, ∀ k' ∈ specialKinds, ∀ t ∈ (extensionsOf k).map String.toList, k ≠ k' ∧
      t ∈ (extensionsOf k').map String.toList →
      (k = .yaml ∧ k' = .bibliography) ∨ (k = .bibliography ∧ k' = .yaml) ∨ (k = .xml ∧ k' = .rawTheme) ∨ (k = .rawTheme ∧ k' = .xml) := by
    decide +kernel
  exact key k ((concrete_iff k).mp hk) k' ((concrete_iff k').mp hk') t m ⟨hne, m'⟩

/-- **C161.** Each file with an extension has one kind, and others have none. -/
theorem kind_some (name : Text) : (fromExt name).isSome = true ↔ ∃ e, HasExt name e := by
  unfold fromExt
  rw [List.find?_isSome]
  constructor
  · rintro ⟨k, -, h⟩
    obtain ⟨e, he, -⟩ := (isMatch_iff k name).mp h
    exact ⟨e, he⟩
  · intro h
    exact ⟨.any, by decide, (any_iff_ext name).mpr h⟩

/-- **C161.** The kind that is named for a file is one that accepts it, and "any" only if no known kind does. -/
theorem kind_accepts {name : Text} {k : Kind} (h : fromExt name = some k) :
    isMatch k name = true ∧ k ≠ .special ∧ (k = .any → ∀ k' : Kind, k'.Concrete → isMatch k' name = false) := by
  unfold fromExt at h
  rw [List.find?_eq_some_iff_append] at h
  obtain ⟨hm, as, bs, e, ha⟩ := h
  have before : ∀ k', k' ∈ as → isMatch k' name = false := fun k' hk => by simpa using ha k' hk
  have split : ∀ k', k' ∈ allKinds → allKinds.idxOf k' < allKinds.idxOf k → k' ∈ as := by
    intro k' hk' hlt
    rw [e] at hlt hk'
    by_cases hin : k' ∈ as
    · exact hin
    · rw [List.idxOf_append, if_neg hin] at hlt
      have hka : k ∉ as := fun hk => by have := before k hk; rw [hm] at this; cases this
      rw [List.idxOf_append, if_neg hka] at hlt
      simp at hlt
      omega
  refine ⟨hm, ?_, ?_⟩
  · rintro rfl
    obtain ⟨k', hk', hm'⟩ := (special_iff name).mp hm
    have : isMatch k' name = false := by
      apply before
      apply split
      · cases k' <;> decide
      · have := (concrete_iff k').mp hk'
        revert this
        cases k' <;> decide
    rw [hm'] at this; cases this
  · rintro rfl k' hk'
    apply before
    apply split
    · cases k' <;> decide
    · have := (concrete_iff k').mp hk'
      revert this
      cases k' <;> decide

/-- **C161.** The kind of a file is a known kind just if its extension is one of that kind, other than that YAML files are not taken for
bibliographies nor XML files for themes.
Missing: that the kind named for YAML and XML files is the one they are used as. -/
theorem kind_iff_partial {k : Kind} (hk : k.Concrete) (name : Text) :
    fromExt name = some k ↔
      isMatch k name = true ∧ (k = .bibliography → isMatch .yaml name = false) ∧ (k = .rawTheme → isMatch .xml name = false) := by
  have order : ∀ {a b : Kind}, a.Concrete → isMatch a name = true → fromExt name = some b → allKinds.idxOf b ≤ allKinds.idxOf a := by
    intro a b ha hm h
    unfold fromExt at h
    rw [List.find?_eq_some_iff_append] at h
    obtain ⟨hb, as, bs, e, hn⟩ := h
    have hna : a ∉ as := fun h => by have := hn a h; simp [hm] at this
    have hnb : b ∉ as := fun h => by have := hn b h; simp [hb] at this
    rw [e, List.idxOf_append, if_neg hnb, List.idxOf_append, if_neg hna]
    simp
  constructor
  · intro h
    have hm := (kind_accepts h).1
    refine ⟨hm, ?_, ?_⟩
    · rintro rfl
      rw [← Bool.not_eq_true]
      intro hy
      have := order (a := .yaml) (by unfold Kind.Concrete; decide) hy h
      revert this; decide
    · rintro rfl
      rw [← Bool.not_eq_true]
      intro hy
      have := order (a := .xml) (by unfold Kind.Concrete; decide) hy h
      revert this; decide
  · rintro ⟨hm, hb, ht⟩
    obtain ⟨e, he, -⟩ := (isMatch_iff k name).mp hm
    obtain ⟨k', hk'⟩ := Option.isSome_iff_exists.mp ((kind_some name).mpr ⟨e, he⟩)
    obtain ⟨hm', hs, ha⟩ := kind_accepts hk'
    have hc : k'.Concrete := ⟨hs, fun e => by have := ha e k hk; rw [hm] at this; cases this⟩
    by_cases hne : k = k'
    · rw [hk', hne]
    · exfalso
      have ho := order hk hm hk'
      rcases overlap hk hc hne hm hm' with ⟨rfl, rfl⟩ | ⟨rfl, rfl⟩ | ⟨rfl, rfl⟩ | ⟨rfl, rfl⟩
      · revert ho; decide
      · rw [hb rfl] at hm'; cases hm'
      · revert ho; decide
      · rw [ht rfl] at hm'; cases hm'

/-- **C161, violated.** A bibliography or a theme in a format of its own is not named as one. -/
theorem never_bibliography {name e : Text} (he : HasExt name e) (h : Named .yaml e) :
    isMatch .bibliography name = true ∧ fromExt name = some .yaml := by
  have hy : isMatch .yaml name = true := (accepted_iff (by unfold Kind.Concrete; decide) name).mpr ⟨e, he, h⟩
  constructor
  · refine (accepted_iff (by unfold Kind.Concrete; decide) name).mpr ⟨e, he, ?_⟩
    obtain ⟨s, hs, h⟩ := h
    exact ⟨s, by revert hs; simp only [extensionsOf, List.mem_cons, List.not_mem_nil, or_false]; rintro (rfl | rfl) <;> simp, h⟩
  · exact (kind_iff_partial (by unfold Kind.Concrete; decide) name).mpr ⟨hy, nofun, nofun⟩

/-- **C161, violated.** For a file of an unknown kind the hover says that it is a "None" file. -/
theorem unknown_named {name e : Text} (he : HasExt name e) (h : ∀ k : Kind, k.Concrete → ¬ Named k e) : fromExt name = some .any := by
  obtain ⟨k', hk'⟩ := Option.isSome_iff_exists.mp ((kind_some name).mpr ⟨e, he⟩)
  obtain ⟨hm', hs, -⟩ := kind_accepts hk'
  by_cases hany : k' = .any
  · rw [hk', hany]
  · exfalso
    obtain ⟨e', he', hn⟩ := (accepted_iff ⟨hs, hany⟩ name).mp hm'
    cases ext_unique he he'
    exact h k' ⟨hs, hany⟩ hn

example : fromExt "plot.PNG".toList = some .image := by decide +kernel
example : fromExt "refs.yml".toList = some .yaml := by decide +kernel
example : HasExt "refs.yml".toList "yml".toList := ⟨by decide, "refs".toList, by decide, rfl, by decide⟩
example : fromExt "notes.txt".toList = some .any := by decide +kernel
example : fromExt "Makefile".toList = none := by decide +kernel

/-! ## C162: types of parameters and values -/

/-- **C162.** The type of a parameter that takes one of several things has just those as its parts, however the alternatives are nested;
none of its parts is itself a union, and none is lost or made twice. -/
theorem union_parts (le : Ty → Ty → Bool) (cs : List Cast) :
    ∃ ts, fromCast le (.union cs) = .union ts ∧
      (∀ t, t ∈ ts ↔ ∃ l, Alternative l (.union cs) ∧ Stands l t) ∧ ts.length = (leavesOf cs).length := by
  refine ⟨((unionIter [cs]).map leafTy).mergeSort le, rfl, ?_, ?_⟩
  · intro t
    rw [List.mem_mergeSort, unionIter_eq]
    simp only [List.flatMap_cons, List.flatMap_nil, List.append_nil, List.mem_map]
    have hl : ∀ l, l ∈ leavesOf cs ↔ Alternative l (.union cs) := fun l => by rw [← mem_leaves, leaves]
    constructor
    · rintro ⟨l, hm, rfl⟩
      exact ⟨l, (hl l).mp hm, ((hl l).mp hm).leaf⟩
    · rintro ⟨l, ha, hs⟩
      refine ⟨l, (hl l).mpr ha, ?_⟩
      cases l with
      | any => exact hs.symm
      | value v => exact hs.symm
      | type t => exact hs.symm
      | union _ => exact hs.elim
  · rw [List.length_mergeSort, unionIter_eq]
    simp

/-- **C162.** How alternatives are grouped makes no difference. -/
theorem grouping (le : Ty → Ty → Bool) (as bs cs : List Cast) :
    fromCast le (.union (as ++ .union bs :: cs)) = fromCast le (.union (as ++ bs ++ cs)) := by
  have app : ∀ xs ys : List Cast, leavesOf (xs ++ ys) = leavesOf xs ++ leavesOf ys := by
    intro xs ys
    induction xs with
    | nil => simp [leavesOf]
    | cons x xs ih => simp [leavesOf, ih]
  simp only [fromCast, unionIter_eq, List.flatMap_cons, List.flatMap_nil, List.append_nil, app, leavesOf, leaves, List.append_assoc]

/-- **C162.** Arguments that are given in advance do not change the types of a function's parameters. -/
theorem given_same (le : Ty → Ty → Bool) (p : String) (input : Cast) (f : Fn) (n : Nat) :
    fromParamSite le p input (givenTimes f n) = fromParamSite le p input f := by
  induction n with
  | zero => rfl
  | succ n ih => rw [givenTimes, fromParamSite, ih]

/-- **C162.** Parameters of functions of the document have the types of their casts. -/
theorem closure_cast (le : Ty → Ty → Bool) (p : String) (input : Cast) (n : Nat) :
    fromParamSite le p input (givenTimes .closure n) = fromCast le input := by
  rw [given_same]; rfl

/-- **C162.** A value has the type of its kind: it is only taken for `none` or `auto` if it is one, and a truth value keeps which one
it is. -/
theorem value_type (v : Value) :
    (fromValue v = .none ↔ v.ty = .none) ∧ (fromValue v = .auto ↔ v.ty = .auto) ∧ (∀ b, fromValue v = .boolean (some b) ↔ v = .bool b) ∧
    (∀ t, fromValue v = .type t → v.ty = t) := by
  cases v with
  | bool b => simp [fromValue, Value.ty]
  | of t h =>
    cases t
    case bool => exact absurd rfl h
    all_goals simp [fromValue, fromBuiltin, Value.ty]

/-- **C162, violated.** By itself the type of truth values would be taken for `none`; values never get there. -/
theorem bool_type : fromBuiltin .bool = .none := rfl

/-- **C162.** The parameters of the compiler's functions that name a file take files of the kind the function reads, also if other
arguments are given in advance; no other parameter takes just files. -/
theorem file_param (le : Ty → Ty → Bool) (name p : String) (input : Cast) (n : Nat) (k : Kind) :
    fromParamSite le p input (givenTimes (.native name) n) = .path k ↔ (name, p, k) ∈ loaders := by
  rw [given_same]
  have hc : ∀ k, fromCast le input ≠ .path k := by
    intro k
    cases input <;> simp [fromCast, iterUnion]
  constructor
  · intro h
    unfold fromParamSite at h
    cases hm : paramMapping le name p input with
    | none => rw [hm] at h; exact absurd h (hc k)
    | some t =>
      rw [hm] at h
      simp only [Option.getD_some] at h
      subst h
      unfold paramMapping at hm
      split at hm
      all_goals first
        | (simp only [Option.some.injEq, Ty.path.injEq] at hm; subst hm; decide)
        | (simp only [Option.some.injEq, iterUnion] at hm; cases hm)
        | (split at hm <;> simp [iterUnion] at hm)
  · intro h
    simp only [loaders, List.mem_cons, List.not_mem_nil, or_false, Prod.mk.injEq] at h
    rcases h with h | h | h | h | h | h | h | h | h | h | h | h | h | h | h | h | h | h | h | h <;>
      (obtain ⟨rfl, rfl, rfl⟩ := h; simp [fromParamSite, paramMapping])

/-- **C162, violated.** The colour that fills a square is not taken for a colour, as that of other shapes is. -/
theorem square_fill (le : Ty → Ty → Bool) (input : Cast) :
    fromParamSite le "fill" input (.native "square") = fromCast le input ∧
    ∀ f ∈ ["rect", "ellipse", "circle", "polygon", "path", "curve"], fromParamSite le "fill" input (.native f) = .color := by
  constructor
  · simp [fromParamSite, paramMapping]
  · intro f hf
    simp only [List.mem_cons, List.not_mem_nil, or_false] at hf
    rcases hf with rfl | rfl | rfl | rfl | rfl | rfl <;> simp [fromParamSite, paramMapping]

theorem iter_perm (le : Ty → Ty → Bool) (us : List Ty) : ∃ ts, iterUnion le us = .union ts ∧ ts.Perm us :=
  ⟨_, rfl, List.mergeSort_perm us le⟩

theorem iter_one (le : Ty → Ty → Bool) (a : Ty) : iterUnion le [a] = .union [a] := by
  simp [iterUnion]

theorem iter_perm2 (le : Ty → Ty → Bool) (a b : Ty) : ∃ ts, iterUnion le [a, b] = .union ts ∧ ts.Perm [b, a] :=
  ⟨_, rfl, (List.mergeSort_perm _ le).trans (List.Perm.swap ..)⟩

set_option maxHeartbeats 4000000 in
/-- **C162.** Parameters of the compiler's functions that take something special take just that.
Missing: `fill` of `square`. -/
theorem special_param_partial (le : Ty → Ty → Bool) (input : Cast) (n : Nat) :
    ∀ row ∈ takes, ∀ f ∈ row.1, ∀ p ∈ row.2.1, row.2.2.Fits (fromCast le input) (fromParamSite le p input (givenTimes (.native f) n)) := by
  simp only [given_same, takes, List.forall_mem_cons]
  repeat' apply And.intro
  all_goals first
    | (intro x hx; cases hx; done)
    | (simp [fromParamSite, paramMapping, Takes.Fits, iter_perm, iter_perm2, iter_one]; done)

/-- **C162.** All other parameters take what they say. -/
theorem other_param (le : Ty → Ty → Bool) (input : Cast) (n : Nat) {f p : String} (hl : ∀ row ∈ loaders, ¬(f = row.1 ∧ p = row.2.1))
    (h : ∀ row ∈ takes, ¬(f ∈ row.1 ∧ p ∈ row.2.1)) :
    fromParamSite le p input (givenTimes (.native f) n) = fromCast le input := by
  rw [given_same]
  have fills : ∀ (fs : List String) (p : String), f ∈ fs → (∀ f ∈ fs, ∃ row ∈ takes, f ∈ row.1 ∧ p ∈ row.2.1) →
      ¬∀ row ∈ takes, ¬(f ∈ row.1 ∧ p ∈ row.2.1) := by
    intro fs p hf hfs hh
    obtain ⟨row, hr, hh2⟩ := hfs f hf
    exact hh row hr hh2
  have : paramMapping le f p input = none := by
    unfold paramMapping
    split
    all_goals first
      | exact absurd hl (by decide +kernel)
      | exact absurd h (by decide +kernel)
      | (split
         · rename_i hf
           exact absurd h (fills _ _ hf (by decide +kernel))
         · rfl)
      | (split
         · rename_i hf
           have key : ∀ f ∈ ["grid", "table"], ∀ p ∈ ["columns", "rows", "gutter", "column-gutter", "row-gutter"],
               ∃ row ∈ takes, f ∈ row.1 ∧ p ∈ row.2.1 := by decide +kernel
           obtain ⟨row, hr, hh⟩ := key _ hf.1 _ hf.2
           exact absurd hh (h row hr)
         · rfl)
  simp [fromParamSite, this]

/-- **C162.** Kinds of values that have a type of their own have it. -/
theorem own_types : fromBuiltin .float = .float ∧ fromBuiltin .length = .length ∧ fromBuiltin .content = .content ∧ fromBuiltin .color = .color ∧
    ∀ n, fromBuiltin (.other n) = .type (.other n) := by
  refine ⟨rfl, rfl, rfl, rfl, fun n => ?_⟩
  simp [fromBuiltin]

example : fromCast (fun _ _ => true) (.union [.value 1, .union [.type .bool, .any]]) = .union [.value 1, .type .bool, .any] := by
  simp [fromCast, iterUnion, unionIter, leafTy, List.mergeSort_of_pairwise]

end Tinymist.Scan
